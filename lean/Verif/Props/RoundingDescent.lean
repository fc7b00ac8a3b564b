import Mathlib.Analysis.InnerProductSpace.PiL2
import Verif.Props.GdFast
import Verif.Props.Rounding
import Verif.Proofs.RowOrder

/-! C86: gradient descent in rounded arithmetic. -/

set_option linter.unusedSectionVars false

namespace RM
open Outcome Scalar Spec
variable {R : Rounding} {u : ℝ}

/-- The distance of two vectors of `n` numbers. -/
noncomputable def Spec.distance (n : ℕ) (x y : List ℝ) : ℝ := Real.sqrt (distSq n x y)

/-- The first `n` entries as a point of Euclidean space. -/
noncomputable def pt (n : ℕ) (x : List ℝ) : EuclideanSpace ℝ (Fin n) := WithLp.toLp 2 fun i => x.getD i 0

theorem pt_apply (n : ℕ) (x : List ℝ) (i : Fin n) : pt n x i = x.getD i 0 := rfl

theorem distance_eq (n : ℕ) (x y : List ℝ) : distance n x y = ‖pt n x - pt n y‖ := by
  rw [EuclideanSpace.norm_eq, distance, distSq, Finset.sum_range]
  congr 1
  refine Finset.sum_congr rfl fun i _ => ?_
  rw [PiLp.sub_apply, pt_apply, pt_apply, Real.norm_eq_abs, sq_abs]

theorem norm_le_of_coord {n : ℕ} {x y : EuclideanSpace ℝ (Fin n)} {c : ℝ} (hc : 0 ≤ c) (h : ∀ i, |x i| ≤ c * |y i|) : ‖x‖ ≤ c * ‖y‖ := by
  have e : c * ‖y‖ = ‖c • y‖ := by rw [norm_smul, Real.norm_eq_abs, abs_of_nonneg hc]
  rw [e, EuclideanSpace.norm_eq, EuclideanSpace.norm_eq]
  apply Real.sqrt_le_sqrt
  refine Finset.sum_le_sum fun i _ => ?_
  have h1 := h i
  rw [PiLp.smul_apply, smul_eq_mul, Real.norm_eq_abs, Real.norm_eq_abs, abs_mul, abs_of_nonneg hc]
  exact pow_le_pow_left₀ (abs_nonneg _) h1 2

/-- One exact step of gradient descent on a cost that curves upwards brings the parameters closer to the best ones. -/
theorem step_contracts {f : List ℝ → ℝ} {df : List ℝ → List ℝ} {n : ℕ} {L μ α : ℝ} (hd : ∀ w : List ℝ, w.length = n → (df w).length = n)
    (hL : SmoothAlong f df n L) (hC : CurvesUp f df n μ) (ha : 0 < α) (haL : α * L ≤ 1) {w z : List ℝ} (hw : w.length = n) (hz : z.length = n)
    (hbest : ∀ x : List ℝ, x.length = n → f z ≤ f x) :
    ‖pt n w - α • pt n (df w) - pt n z‖ ≤ Real.sqrt (1 - α * μ) * ‖pt n w - pt n z‖ := by
  have h1 := gd_drop (start := w) (fun x hx => by rw [hd x (hx.trans hw), hw]) (by rw [hw]; exact hL) ha haL 0
  have hl1 : (descentPoint α df w 1).length = n := by
    rw [descentPoint_length α df w (fun x hx => by rw [hd x (hx.trans hw), hw]) 1, hw]
  have h2 := hbest _ hl1
  have h3 := hC w z hw hz
  have h0 : descentPoint α df w 0 = w := rfl
  rw [h0, hw] at h1
  have e : ‖pt n w - α • pt n (df w) - pt n z‖ ^ 2 = distSq n w z + 2 * α * (∑ i ∈ Finset.range n, (df w).getD i 0 * (z.getD i 0 - w.getD i 0)) +
      α ^ 2 * gradSq df n w := by
    rw [EuclideanSpace.norm_sq_eq, distSq, gradSq, Finset.sum_range, Finset.sum_range, Finset.sum_range, Finset.mul_sum, Finset.mul_sum,
      ← Finset.sum_add_distrib, ← Finset.sum_add_distrib]
    refine Finset.sum_congr rfl fun i _ => ?_
    rw [Real.norm_eq_abs, sq_abs, PiLp.sub_apply, PiLp.sub_apply, PiLp.smul_apply, smul_eq_mul, pt_apply, pt_apply, pt_apply]
    ring
  have e2 : ‖pt n w - pt n z‖ ^ 2 = distSq n w z := by
    rw [← distance_eq, distance, Real.sq_sqrt (show 0 ≤ distSq n w z from Finset.sum_nonneg fun _ _ => sq_nonneg _)]
  have key : ‖pt n w - α • pt n (df w) - pt n z‖ ^ 2 ≤ (1 - α * μ) * ‖pt n w - pt n z‖ ^ 2 := by
    rw [e, e2]
    have h4 := mul_le_mul_of_nonneg_left h3 (by positivity : 0 ≤ 2 * α)
    have h5 := mul_le_mul_of_nonneg_left (h2.trans h1) (by positivity : 0 ≤ 2 * α)
    nlinarith
  have h6 := Real.sqrt_le_sqrt key
  rw [Real.sqrt_sq (norm_nonneg _), Real.sqrt_mul' _ (sq_nonneg _), Real.sqrt_sq (norm_nonneg _)] at h6
  exact h6

/-- One rounded step. -/
theorem rounded_step (h : Precise R u) {f : List ℝ → ℝ} {df : List ℝ → List ℝ} {n : ℕ} {L μ : ℝ} {α : Fl R} (hd : ∀ w : List ℝ, w.length = n → (df w).length = n)
    (hL : SmoothAlong f df n L) (hμ : 0 ≤ μ) (hC : CurvesUp f df n μ) (ha : 0 < α.1) (haL : α.1 * L ≤ 1) {w g : List (Fl R)} {z : List ℝ} (hw : w.length = n) (hg : g.length = n)
    (hz : z.length = n) (hbest : ∀ x : List ℝ, x.length = n → f z ≤ f x) {η : ℝ} (hη : distance n (reals g) (df (reals w)) ≤ η) :
    distance n (reals (List.zipWith (fun x d => x -. d *. α) w g)) z ≤
      (1 + u) * (Real.sqrt (1 - α.1 * μ) + 2 * u) * distance n (reals w) z + u * distance n z [] + (1 + u) ^ 2 * α.1 * η := by
  have hu := h.nonneg
  have hwr : (reals w).length = n := by simp [reals, hw]
  have hstep := step_contracts (w := reals w) hd hL hC ha haL hwr hz hbest
  rw [distance_eq] at hη
  rw [distance_eq, distance_eq, distance_eq]
  have hz0 : pt n [] = 0 := by ext i; simp [pt_apply]
  rw [hz0, sub_zero]
  set W := pt n (reals w)
  set Z := pt n z
  set G := pt n (df (reals w))
  set G' := pt n (reals g)
  set A := W - α.1 • G with hA
  set P := WithLp.toLp 2 (fun i : Fin n => R.fl (G' i * α.1)) with hP
  set B := W - P with hB
  set W' := pt n (reals (List.zipWith (fun x d => x -. d *. α) w g)) with hW'
  set q := Real.sqrt (1 - α.1 * μ)
  set d := ‖W - Z‖
  have hq0 : 0 ≤ q := Real.sqrt_nonneg _
  have hq1 : q ≤ 1 := by
    rw [Real.sqrt_le_one]
    nlinarith [mul_nonneg ha.le hμ]
  have hd0 : 0 ≤ d := norm_nonneg _
  -- the rounded product
  have hP1 : ‖P - α.1 • G'‖ ≤ u * ‖α.1 • G'‖ := by
    refine norm_le_of_coord hu fun i => ?_
    rw [PiLp.sub_apply, PiLp.smul_apply, smul_eq_mul, mul_comm α.1]
    exact h.rel _
  -- the rounded difference
  have hW1 : ‖W' - B‖ ≤ u * ‖B‖ := by
    refine norm_le_of_coord hu fun i => ?_
    have e : W' i = R.fl (B i) := by
      have h1 : i.1 < w.length := by rw [hw]; exact i.2
      have h2 : i.1 < g.length := by rw [hg]; exact i.2
      rw [hW', pt_apply, hB, PiLp.sub_apply, hP]
      change _ = R.fl ((reals w).getD i 0 - R.fl ((reals g).getD i 0 * α.1))
      simp only [reals, List.getD_eq_getElem?_getD, List.getElem?_map, List.getElem?_eq_getElem h1, List.getElem?_eq_getElem h2,
        List.getElem?_zipWith, Option.map_some, Option.getD_some]
      rfl
    rw [PiLp.sub_apply, e]
    exact h.rel _
  have hG : ‖α.1 • G‖ ≤ 2 * d := by
    have e : α.1 • G = (W - Z) - (A - Z) := by rw [hA]; abel
    have h1 := norm_sub_le (W - Z) (A - Z)
    rw [← e] at h1
    nlinarith
  have hG' : ‖α.1 • G' - α.1 • G‖ ≤ α.1 * η := by
    rw [← smul_sub, norm_smul, Real.norm_eq_abs, abs_of_pos ha]
    exact mul_le_mul_of_nonneg_left hη ha.le
  have hGn : ‖α.1 • G'‖ ≤ 2 * d + α.1 * η := by
    have := norm_add_le (α.1 • G) (α.1 • G' - α.1 • G)
    rw [add_sub_cancel] at this
    linarith
  have hBA : ‖B - A‖ ≤ (1 + u) * (α.1 * η) + 2 * u * d := by
    have e : B - A = -((P - α.1 • G') + (α.1 • G' - α.1 • G)) := by rw [hB, hA]; abel
    rw [e, norm_neg]
    have h1 := norm_add_le (P - α.1 • G') (α.1 • G' - α.1 • G)
    have h2 := mul_le_mul_of_nonneg_left hGn hu
    linarith
  have hAZ : ‖A - Z‖ ≤ q * d := hstep
  have hBn : ‖B‖ ≤ ‖Z‖ + q * d + ((1 + u) * (α.1 * η) + 2 * u * d) := by
    have e : B = Z + ((A - Z) + (B - A)) := by abel
    have h1 := norm_add_le Z ((A - Z) + (B - A))
    have h2 := norm_add_le (A - Z) (B - A)
    rw [← e] at h1
    linarith
  have e : W' - Z = (W' - B) + ((B - A) + (A - Z)) := by abel
  have h1 := norm_add_le (W' - B) ((B - A) + (A - Z))
  have h2 := norm_add_le (B - A) (A - Z)
  rw [← e] at h1
  have h3 := mul_le_mul_of_nonneg_left hBn hu
  nlinarith

/-- **C86 (gradient descent).** Gradient descent in rounded arithmetic, with a gradient computed up to an error of `η + κ * length of the parameters`, on a
smooth cost that curves upwards: after `j` steps the parameters are no farther from the best ones `z` than `ρ^j` times the initial distance plus a floor
proportional to the errors. The `j` steps are all iterations, or two consecutive computed costs agreed. -/
theorem C86_gradient_descent (h : Precise R u) (o : GradientDesc (Fl R)) (g : List (Fl R) → Outcome (Fl R × List (Fl R))) (cost : List (Fl R) → Fl R) (start : List (Fl R))
    (f : List ℝ → ℝ) (df : List ℝ → List ℝ) (hd : ∀ w : List ℝ, w.length = start.length → (df w).length = start.length) (η κ : ℝ) (hη : 0 ≤ η) (hκ : 0 ≤ κ)
    (hg : ∀ w : List (Fl R), w.length = start.length → ∃ d, g w = ok (cost w, d) ∧ d.length = start.length ∧
      distance start.length (reals d) (df (reals w)) ≤ η + κ * distance start.length (reals w) [])
    (L μ : ℝ) (hL : SmoothAlong f df start.length L) (hμ : 0 ≤ μ) (hC : CurvesUp f df start.length μ) (ha : 0 < o.alpha.1) (haL : o.alpha.1 * L ≤ 1)
    (z : List ℝ) (hz : z.length = start.length) (hbest : ∀ x : List ℝ, x.length = start.length → f z ≤ f x)
    (ρ : ℝ) (hρ : ρ = (1 + u) * (Real.sqrt (1 - o.alpha.1 * μ) + 2 * u + (1 + u) * o.alpha.1 * κ)) (hρ1 : ρ < 1) :
    ∃ j w, (o.optimize g start).out = ok w ∧ w.length = start.length ∧ j ≤ o.iters ∧ (o.optimize g start).log.length = min (j + 1) o.iters ∧
      (j < o.iters → SameCost (costBefore (fun i => cost ((o.optimize g start).log.getD i [])) j) (cost w)) ∧
      distance start.length (reals w) z ≤ ρ ^ j * distance start.length (reals start) z +
        (u * distance start.length z [] + (1 + u) ^ 2 * o.alpha.1 * (η + κ * distance start.length z [])) / (1 - ρ) := by
  classical
  have hg' : ∀ w : List (Fl R), ∃ d, w.length = start.length → g w = ok (cost w, d) ∧ d.length = start.length ∧
      distance start.length (reals d) (df (reals w)) ≤ η + κ * distance start.length (reals w) [] := by
    intro w
    by_cases hw : w.length = start.length
    · obtain ⟨d, hd⟩ := hg w hw
      exact ⟨d, fun _ => hd⟩
    · exact ⟨[], fun h' => absurd h' hw⟩
  choose D hD using hg'
  obtain ⟨j, hj, hout, hlog, -, hstop⟩ := C44_trajectory o g cost D start (fun w hw => ⟨(hD w hw).1, (hD w hw).2.1⟩)
  have hlen := descentPoint_length o.alpha D start (fun w hw => (hD w hw).2.1)
  refine ⟨j, _, hout, hlen j, hj, by rw [hlog]; simp, fun hlt => ?_, ?_⟩
  · have hs := hstop hlt
    have e : costBefore (fun i => cost ((o.optimize g start).log.getD i [])) j = costBefore (fun i => cost (descentPoint o.alpha D start i)) j := by
      cases j with
      | zero => rfl
      | succ j =>
        simp only [costBefore, hlog]
        rw [List.getD_eq_getElem?_getD, List.getElem?_map, List.getElem?_range (by omega), Option.map_some, Option.getD_some]
    rw [e]
    exact hs
  · have hu := h.nonneg
    set n := start.length
    set P := descentPoint o.alpha D start with hP
    set E := u * distance n z [] + (1 + u) ^ 2 * o.alpha.1 * (η + κ * distance n z []) with hE
    have hρ0 : 0 ≤ ρ := by rw [hρ]; positivity
    have tri : ∀ w : List ℝ, distance n w [] ≤ distance n w z + distance n z [] := by
      intro w
      rw [distance_eq, distance_eq, distance_eq]
      exact norm_sub_le_norm_sub_add_norm_sub _ _ _
    have hstep : ∀ i, distance n (reals (P (i + 1))) z ≤ ρ * distance n (reals (P i)) z + E := by
      intro i
      have hDi := hD (P i) (hlen i)
      have h1 := rounded_step h (α := o.alpha) hd hL hμ hC ha haL (hlen i) hDi.2.1 hz hbest hDi.2.2
      refine h1.trans ?_
      have h2 := mul_le_mul_of_nonneg_left (mul_le_mul_of_nonneg_left (tri (reals (P i))) hκ) (by positivity : 0 ≤ (1 + u) ^ 2 * o.alpha.1)
      rw [hρ, hE]
      nlinarith
    have h1ρ : 0 < 1 - ρ := by linarith
    have key : ∀ i, distance n (reals (P i)) z ≤ ρ ^ i * distance n (reals start) z + E * (1 - ρ ^ i) / (1 - ρ) := by
      intro i
      induction i with
      | zero =>
        have : P 0 = start := rfl
        simp [this]
      | succ i ih =>
        have h2 := mul_le_mul_of_nonneg_left ih hρ0
        have e : E * (1 - ρ ^ (i + 1)) / (1 - ρ) = ρ * (E * (1 - ρ ^ i) / (1 - ρ)) + E := by
          field_simp
          ring
        rw [e, pow_succ]
        linarith [hstep i]
    have hE0 : 0 ≤ E := by
      have hz0 : 0 ≤ distance n z [] := Real.sqrt_nonneg _
      positivity
    refine (key j).trans ?_
    gcongr
    have : 0 ≤ ρ ^ j := pow_nonneg hρ0 j
    nlinarith

/-! ### Linear regression -/

/-- The gradient of `compute_grad`, explicitly. -/
def gradOf {F : Type} [Scalar F] (c : ℕ) (S : List (List F × F)) (w : List F) : List F :=
  (List.range c).map fun k => fsum (S.map fun s => s.1.getD k Scalar.zero *. (dot s.1 w -. s.2)) /. Scalar.ofNat S.length

theorem linComputeGrad_samples {F : Type} [Scalar F] {c : ℕ} {S : List (List F × F)} (hS : ∀ s ∈ S, s.1.length = c) {w : List F} (hw : w.length = c) :
    linComputeGrad w ⟨c, S.map Prod.fst⟩ (S.map Prod.snd) =
      ok (fsum (S.map fun s => (dot s.1 w -. s.2) *. (dot s.1 w -. s.2)) /. (Scalar.ofNat 2 *. Scalar.ofNat S.length), gradOf c S w) := by
  have h1 : Mat.mulVec ⟨c, S.map Prod.fst⟩ w = ok (S.map fun s => dot s.1 w) := by rw [mulVec_map, if_pos hw.symm]
  simp only [linComputeGrad, h1, ok_bind, mseCostVec, vecZip_map, transpose_map S Prod.fst hS, tmulVec_map]
  simp [gradOf, Function.comp_def]

theorem real_getD (r : List (Fl R)) (j : ℕ) : (r.getD j Scalar.zero).1 = (reals r).getD j 0 := by
  by_cases hr : j < r.length
  · rw [getD_lt _ hr, getD_lt _ (by simpa [reals] using hr)]; simp [reals]
  · rw [getD_ge _ (by omega), getD_ge _ (by simpa [reals] using hr)]; rfl

/-- The samples as real numbers. -/
def realSamples (S : List (List (Fl R) × Fl R)) : List (List ℝ × ℝ) := S.map fun s => (reals s.1, s.2.1)

/-- C86: every entry of a computed gradient of linear regression is off by at most what `rows + columns + 5` roundings make of the sum of the absolute values
of its terms. -/
theorem C86_linear_gradient (h : Precise R u) {c : ℕ} (S : List (List (Fl R) × Fl R)) (hS : ∀ s ∈ S, s.1.length = c) (hn : S ≠ []) (w : List (Fl R)) (hw : w.length = c) :
    ∃ cost d, linComputeGrad w ⟨c, S.map Prod.fst⟩ (S.map Prod.snd) = ok (cost, d) ∧ d.length = c ∧ ∀ k < c,
      |(reals d).getD k 0 - ((realSamples S).map fun s => s.1.getD k 0 * ((List.zipWith (· * ·) s.1 (reals w)).sum - s.2)).sum / S.length| ≤
        (growth u (S.length + c + 5) - 1) *
          (((realSamples S).map fun s => |s.1.getD k 0| * ((List.zipWith (fun x y => |x * y|) s.1 (reals w)).sum + |s.2|)).sum / S.length) := by
  refine ⟨_, _, linComputeGrad_samples hS hw, by simp [gradOf], fun k hk => ?_⟩
  have hnpos : (0 : ℝ) < S.length := by exact_mod_cast List.length_pos_iff.2 hn
  have h1 := err_fsum_map h (m := c + 3) S (fun s => s.1.getD k Scalar.zero *. (dot s.1 w -. s.2))
    (fun s => (reals s.1).getD k 0 * ((List.zipWith (· * ·) (reals s.1) (reals w)).sum - s.2.1))
    (fun s => |(reals s.1).getD k 0| * ((List.zipWith (fun x y => |x * y|) (reals s.1) (reals w)).sum + |s.2.1|)) (by
      intro s hs
      have e1 := err_fsum_zipWith h (m := 1) (fun x y : Fl R => x *. y) (fun x y => x.1 * y.1) (fun x y => |x.1 * y.1|)
        (fun x y => err_fl h (err_exact u (x.1 * y.1))) s.1 w
      rw [hS s hs, hw, min_self] at e1
      have e2 : Err u (1 + c) ((List.zipWith (fun x y => |x * y|) (reals s.1) (reals w)).sum) (dot s.1 w).1 ((List.zipWith (· * ·) (reals s.1) (reals w)).sum) := by
        simpa [reals, List.zipWith_map, dot] using e1
      have e3 := err_add' e2 (err_mono h (Nat.zero_le _) (err_neg (err_exact u s.2.1)))
      have e4 := err_fl h e3
      have e5 := err_fl h (err_mul' h (err_exact u (s.1.getD k Scalar.zero).1) e4)
      rw [real_getD] at e5
      have e6 : 0 + (1 + c + 1) + 1 = c + 3 := by omega
      rw [e6, ← sub_eq_add_neg, ← sub_eq_add_neg] at e5
      rw [← real_getD] at e5 ⊢
      exact e5)
  have h2 := err_div' h h1 hnpos (fl_pos h hnpos) (ofNat_agree h S.length)
  have h3 := err_mono h (k := S.length + c + 5) (by omega) (err_fl h h2)
  have e : (reals (gradOf c S w)).getD k 0 = (fsum (S.map fun s => s.1.getD k Scalar.zero *. (dot s.1 w -. s.2)) /. Scalar.ofNat S.length).1 := by
    rw [← real_getD, gradOf, List.getD_eq_getElem?_getD, List.getElem?_map, List.getElem?_range hk, Option.map_some, Option.getD_some]
  rw [e]
  simp only [realSamples, List.map_map, Function.comp_def]
  exact h3.2

/-- A matrix of representable numbers as a matrix of real numbers. -/
def Spec.realMat (X : Mat (Fl R)) : Mat ℝ := ⟨X.cols, realRows X⟩

theorem sum_abs_le_distance {c : ℕ} {w : List ℝ} (hw : w.length = c) : (w.map fun x => |x|).sum ≤ Real.sqrt c * distance c w [] := by
  have e : (w.map fun x => |x|).sum = ∑ i ∈ Finset.range c, |w.getD i 0| := by
    subst hw
    induction w with
    | nil => simp
    | cons a w ih =>
      rw [List.map_cons, List.sum_cons, ih, List.length_cons, Finset.sum_range_succ']
      simp [add_comm]
  have h1 : (∑ i ∈ Finset.range c, |w.getD i 0|) ^ 2 ≤ c * distSq c w [] := by
    have := sq_sum_le_card_mul_sum_sq (s := Finset.range c) (f := fun i => |w.getD i 0|)
    simpa [distSq] using this
  rw [e]
  have h2 := Real.sqrt_le_sqrt h1
  rwa [Real.sqrt_sq (Finset.sum_nonneg fun _ _ => abs_nonneg _), Real.sqrt_mul (Nat.cast_nonneg c)] at h2

theorem distance_le_of_coord {c : ℕ} {x y : List ℝ} {e : ℝ} (he : 0 ≤ e) (h : ∀ k < c, |x.getD k 0 - y.getD k 0| ≤ e) : distance c x y ≤ Real.sqrt c * e := by
  have h1 : distSq c x y ≤ c * e ^ 2 := by
    unfold distSq
    calc ∑ i ∈ Finset.range c, (x.getD i 0 - y.getD i 0) ^ 2 ≤ ∑ i ∈ Finset.range c, e ^ 2 := by
          refine Finset.sum_le_sum fun i hi => ?_
          rw [← sq_abs]
          exact pow_le_pow_left₀ (abs_nonneg _) (h i (Finset.mem_range.1 hi)) 2
      _ = c * e ^ 2 := by simp
  have h2 := Real.sqrt_le_sqrt h1
  rwa [Real.sqrt_mul (Nat.cast_nonneg c), Real.sqrt_sq he] at h2

theorem gradOf_linGrad {c : ℕ} {S : List (List ℝ × ℝ)} (hS : ∀ s ∈ S, s.1.length = c) {w : List ℝ} (hw : w.length = c) :
    linGrad ⟨c, S.map Prod.fst⟩ (S.map Prod.snd) w = gradOf c S w := by
  have h1 := linComputeGrad_eq ⟨c, S.map Prod.fst⟩ (by
    intro r hr
    obtain ⟨s, hs, rfl⟩ := List.mem_map.1 hr
    exact hS s hs) (S.map Prod.snd) w (by simp) hw
  rw [linComputeGrad_samples hS hw] at h1
  injection h1 with h1
  exact ((Prod.ext_iff.1 h1).2).symm

/-- The computed gradient of linear regression is off by at most a multiple of the length of the parameters plus a constant. -/
theorem linear_gradient_error (h : Precise R u) {c : ℕ} (S : List (List (Fl R) × Fl R)) (hS : ∀ s ∈ S, s.1.length = c) (hn : S ≠ []) {B Y : ℝ} (hB : 0 ≤ B) (hY0 : 0 ≤ Y)
    (hSB : ∀ s ∈ S, ∀ x ∈ s.1, |x.1| ≤ B) (hSY : ∀ s ∈ S, |s.2.1| ≤ Y) (w : List (Fl R)) (hw : w.length = c) :
    distance c (reals (gradOf c S w)) (gradOf c (realSamples S) (reals w)) ≤
      (growth u (S.length + c + 5) - 1) * Real.sqrt c * B * Y + (growth u (S.length + c + 5) - 1) * c * B ^ 2 * distance c (reals w) [] := by
  obtain ⟨cost, d, hcd, hdl, hd⟩ := C86_linear_gradient h S hS hn w hw
  rw [linComputeGrad_samples hS hw] at hcd
  injection hcd with hcd
  have hd' := (Prod.ext_iff.1 hcd).2
  simp only at hd'
  subst hd'
  have hγ : 0 ≤ growth u (S.length + c + 5) - 1 := by linarith [one_le_growth h (S.length + c + 5)]
  set γ := growth u (S.length + c + 5) - 1
  have hnpos : (0 : ℝ) < S.length := by exact_mod_cast List.length_pos_iff.2 hn
  have hwr : (reals w).length = c := by simp [reals, hw]
  set D := distance c (reals w) []
  have hD0 : 0 ≤ D := Real.sqrt_nonneg _
  have hc0 := Real.sqrt_nonneg (c : ℝ)
  have habs := sum_abs_le_distance hwr
  have hz : ∀ x : List ℝ, (∀ a ∈ x, |a| ≤ B) → (List.zipWith (fun x y => |x * y|) x (reals w)).sum ≤ B * ((reals w).map fun x => |x|).sum := by
    generalize reals w = v
    intro x hx
    induction v generalizing x with
    | nil => simp
    | cons a v ih =>
      cases x with
      | nil =>
        simp only [List.zipWith_nil_left, List.sum_nil]
        exact mul_nonneg hB (list_sum_nonneg' _ (by intro b hb; obtain ⟨q, -, rfl⟩ := List.mem_map.1 hb; exact abs_nonneg _))
      | cons b x =>
        rw [List.zipWith_cons_cons, List.sum_cons, List.map_cons, List.sum_cons, abs_mul, mul_add]
        exact add_le_add (mul_le_mul_of_nonneg_right (hx b (by simp)) (abs_nonneg _)) (ih x fun q hq => hx q (by simp [hq]))
  have hkey : ∀ k < c, |(reals (gradOf c S w)).getD k 0 - (gradOf c (realSamples S) (reals w)).getD k 0| ≤ γ * (B * (B * (Real.sqrt c * D) + Y)) := by
    intro k hk
    have e : (gradOf c (realSamples S) (reals w)).getD k 0 =
        ((realSamples S).map fun s => s.1.getD k 0 * ((List.zipWith (· * ·) s.1 (reals w)).sum - s.2)).sum / S.length := by
      rw [gradOf, List.getD_eq_getElem?_getD, List.getElem?_map, List.getElem?_range hk, Option.map_some, Option.getD_some]
      simp [realSamples, dot_real]
    rw [e]
    refine (hd k hk).trans (mul_le_mul_of_nonneg_left ?_ hγ)
    rw [div_le_iff₀ hnpos]
    have : ((realSamples S).map fun s => |s.1.getD k 0| * ((List.zipWith (fun x y => |x * y|) s.1 (reals w)).sum + |s.2|)).sum ≤
        ((realSamples S).map fun _ => B * (B * (Real.sqrt c * D) + Y)).sum := by
      refine List.sum_le_sum fun s hs => ?_
      obtain ⟨t, ht, rfl⟩ := List.mem_map.1 hs
      have hb : ∀ a ∈ reals t.1, |a| ≤ B := by
        intro a ha
        obtain ⟨q, hq, rfl⟩ := List.mem_map.1 ha
        exact hSB t ht q hq
      have h1 : |(reals t.1).getD k 0| ≤ B := by
        by_cases hk' : k < (reals t.1).length
        · rw [getD_lt _ hk']; exact hb _ (List.getElem_mem _)
        · rw [getD_ge _ (by omega), abs_zero]; exact hB
      have h2 := hz _ hb
      have h3 := hSY t ht
      have h4 : (List.zipWith (fun x y => |x * y|) (reals t.1) (reals w)).sum ≤ B * (Real.sqrt c * D) := h2.trans (mul_le_mul_of_nonneg_left habs hB)
      refine mul_le_mul h1 (add_le_add h4 h3) ?_ hB
      refine add_nonneg (list_sum_nonneg' _ ?_) (abs_nonneg _)
      intro a ha
      obtain ⟨i, hi, rfl⟩ := List.mem_iff_getElem.1 ha
      rw [List.getElem_zipWith]
      exact abs_nonneg _
    refine this.trans (le_of_eq ?_)
    rw [List.map_const', List.sum_replicate, nsmul_eq_mul, mul_comm]
    simp [realSamples]
  have h1 := distance_le_of_coord (by positivity) hkey
  refine h1.trans (le_of_eq ?_)
  have hs := Real.mul_self_sqrt (Nat.cast_nonneg c : (0 : ℝ) ≤ c)
  linear_combination (γ * B ^ 2 * D) * hs

/-- **C86 (training linear regression by gradient descent).** With the constants of the model - step 3/10 and 100 iterations from zero - in rounded arithmetic:
if `B` bounds the inputs and `Y` the targets, the data spread by `μ` in all directions, and `z` are least-squares parameters, then after `j` steps the
parameters are within `ρ^j * |z| + floor / (1 - ρ)` of `z`. The number `j` of steps is the number of iterations unless two consecutive computed costs agree. -/
theorem C86_linear_descent (h : Precise R u) (h1 : R.fl 1 = 1) (X : Mat (Fl R)) (hX : X.WF) (y : List (Fl R)) (hy : y.length = X.rows.length) (hn : 0 < X.rows.length)
    (B Y : ℝ) (hB : 1 ≤ B) (hY0 : 0 ≤ Y) (hXB : ∀ r ∈ realRows X, ∀ x ∈ r, |x| ≤ B) (hY : ∀ t ∈ reals y, |t| ≤ Y)
    (μ : ℝ) (hμ : 0 ≤ μ) (hs : SpreadAtLeast (realMat X) μ) (α : ℝ) (hα : α = R.fl (3 / 10)) (haL : α * (totalSquares (realMat X) / X.rows.length) ≤ 1)
    (z : List ℝ) (hz : z.length = X.cols + 1) (hbest : ∀ x : List ℝ, x.length = X.cols + 1 → rss (realMat X) (reals y) z ≤ rss (realMat X) (reals y) x)
    (p γ κ η ρ : ℝ) (hp : p = X.cols + 1) (hγ : γ = growth u (X.rows.length + X.cols + 6) - 1) (hκ : κ = γ * p * B ^ 2) (hη : η = γ * Real.sqrt p * B * Y)
    (hρ : ρ = (1 + u) * (Real.sqrt (1 - α * μ) + 2 * u + (1 + u) * α * κ)) (hρ1 : ρ < 1) :
    ∃ j β evaluations, LinReg.trainWithOptimization X y = ok ⟨some β⟩ ∧ β.length = X.cols + 1 ∧ j ≤ 100 ∧ evaluations = min (j + 1) 100 ∧
      ((GradientDesc.default : GradientDesc (Fl R)).optimize (fun w => linComputeGrad w ⟨X.cols + 1, X.rows.map (Scalar.one :: ·)⟩ y)
        (List.replicate (X.cols + 1) Scalar.zero)).log.length = evaluations ∧
      distance (X.cols + 1) (reals β) z ≤ ρ ^ j * distance (X.cols + 1) z [] +
        (u * distance (X.cols + 1) z [] + (1 + u) ^ 2 * α * (η + κ * distance (X.cols + 1) z [])) / (1 - ρ) := by
  set S : List (List (Fl R) × Fl R) := (X.rows.zip y).map fun q => (Scalar.one :: q.1, q.2) with hS
  have hSl : S.length = X.rows.length := by simp [hS, hy]
  have hfst : S.map Prod.fst = X.rows.map (Scalar.one :: ·) := by
    rw [hS, List.map_map]
    have : (Prod.fst ∘ fun q : List (Fl R) × Fl R => ((Scalar.one :: q.1 : List (Fl R)), q.2)) = (fun r => Scalar.one :: r) ∘ Prod.fst := rfl
    rw [this, ← List.map_map, List.map_fst_zip (by omega)]
  have hsnd : S.map Prod.snd = y := by
    rw [hS, List.map_map]
    have : (Prod.snd ∘ fun q : List (Fl R) × Fl R => ((Scalar.one :: q.1 : List (Fl R)), q.2)) = Prod.snd := rfl
    rw [this, List.map_snd_zip (by omega)]
  have hmem : ∀ s ∈ S, ∃ r ∈ X.rows, s.1 = Scalar.one :: r ∧ s.2 ∈ y := by
    intro s hs
    obtain ⟨q, hq, rfl⟩ := List.mem_map.1 hs
    exact ⟨q.1, (List.of_mem_zip hq).1, rfl, (List.of_mem_zip hq).2⟩
  have hSc : ∀ s ∈ S, s.1.length = X.cols + 1 := by
    intro s hs
    obtain ⟨r, hr, e, -⟩ := hmem s hs
    rw [e, List.length_cons, hX r hr]
  have hne : S ≠ [] := by
    intro e
    rw [e] at hSl
    simp at hSl
    omega
  have hone : (Scalar.one : Fl R).1 = 1 := h1
  have hSB : ∀ s ∈ S, ∀ x ∈ s.1, |x.1| ≤ B := by
    intro s hs x hx
    obtain ⟨r, hr, e, -⟩ := hmem s hs
    rw [e] at hx
    rcases List.mem_cons.1 hx with rfl | hx
    · rw [hone, abs_one]; exact hB
    · exact hXB (reals r) (List.mem_map_of_mem hr) x.1 (List.mem_map_of_mem hx)
  have hSY : ∀ s ∈ S, |s.2.1| ≤ Y := by
    intro s hs
    obtain ⟨r, hr, -, hm⟩ := hmem s hs
    exact hY _ (List.mem_map_of_mem hm)
  -- the exact problem
  have hfull : fullOf (realMat X) = ⟨X.cols + 1, (realSamples S).map Prod.fst⟩ := by
    unfold fullOf realMat realSamples realRows
    simp only
    congr 1
    have e2 : (S.map fun s => (reals s.1, s.2.1)).map Prod.fst = (S.map Prod.fst).map reals := by simp [Function.comp_def]
    rw [e2, hfst, List.map_map, List.map_map]
    refine List.map_congr_left fun r _ => ?_
    simp [reals, hone]
  have hyr : reals y = (realSamples S).map Prod.snd := by
    unfold realSamples
    rw [List.map_map]
    have : (Prod.snd ∘ fun s : List (Fl R) × Fl R => (reals s.1, s.2.1)) = (fun t : Fl R => t.1) ∘ Prod.snd := rfl
    rw [this, ← List.map_map, hsnd]
    rfl
  have hSr : ∀ s ∈ realSamples S, s.1.length = X.cols + 1 := by
    intro s hs
    obtain ⟨t, ht, rfl⟩ := List.mem_map.1 hs
    simp [reals, hSc t ht]
  have hgr : ∀ w : List ℝ, w.length = X.cols + 1 → linGrad (fullOf (realMat X)) (reals y) w = gradOf (X.cols + 1) (realSamples S) w := by
    intro w hw
    rw [hfull, hyr]
    exact gradOf_linGrad hSr hw
  have hWF : (realMat X).WF := by
    intro r hr
    obtain ⟨q, hq, rfl⟩ := List.mem_map.1 hr
    simp [realMat, reals, hX q hq]
  have hyl : (reals y).length = (realMat X).rows.length := by simp [reals, realMat, realRows, hy]
  have hrl : (realMat X).rows.length = X.rows.length := by simp [realMat, realRows]
  have h0 : (List.replicate (X.cols + 1) (Scalar.zero : Fl R)).length = X.cols + 1 := by simp
  have hstart : pt (X.cols + 1) (reals (List.replicate (X.cols + 1) (Scalar.zero : Fl R))) = 0 := by
    ext i
    rw [pt_apply, ← real_getD, getD_lt _ (by rw [h0]; exact i.2), List.getElem_replicate]
    rfl
  have hγ0 : 0 ≤ γ := by rw [hγ]; linarith [one_le_growth h (X.rows.length + X.cols + 6)]
  have hp0 : 0 ≤ p := by rw [hp]; positivity
  have hα0 : 0 < α := by rw [hα]; exact fl_pos h (by norm_num)
  have halpha : (GradientDesc.default : GradientDesc (Fl R)).alpha.1 = α := by
    rw [hα]
    change R.fl (((3 / 10 : ℚ)) : ℝ) = _
    norm_num
  obtain ⟨j, w, hout, hwl, hj, hlog, -, hdist⟩ := C86_gradient_descent h (GradientDesc.default : GradientDesc (Fl R))
    (fun w => linComputeGrad w ⟨X.cols + 1, X.rows.map (Scalar.one :: ·)⟩ y)
    (fun w => fsum (S.map fun s => (dot s.1 w -. s.2) *. (dot s.1 w -. s.2)) /. (Scalar.ofNat 2 *. Scalar.ofNat S.length))
    (List.replicate (X.cols + 1) Scalar.zero) (halfMeanSquares (fullOf (realMat X)) (reals y)) (linGrad (fullOf (realMat X)) (reals y))
    (by intro w hw; rw [h0] at hw ⊢; rw [hgr w hw]; simp [gradOf]) η κ (by rw [hη]; positivity) (by rw [hκ]; positivity)
    (by
      intro w hw
      rw [h0] at hw ⊢
      refine ⟨gradOf (X.cols + 1) S w, ?_, by simp [gradOf], ?_⟩
      · rw [← hfst, ← hsnd]
        exact linComputeGrad_samples hSc hw
      · rw [hgr _ (by simp [reals, hw])]
        have := linear_gradient_error h S hSc hne (by linarith) hY0 hSB hSY w hw
        have e : S.length + (X.cols + 1) + 5 = X.rows.length + X.cols + 6 := by omega
        rw [e, ← hγ] at this
        push_cast at this
        rw [← hp] at this
        rw [hη, hκ]
        exact this)
    (totalSquares (realMat X) / (realMat X).rows.length) μ
    (by rw [h0]; exact lin_smooth (realMat X) hWF (reals y) hyl) hμ (by rw [h0]; exact lin_curves hWF hyl hs)
    (by rw [halpha]; exact hα0) (by rw [halpha, hrl]; exact haL) z (by rw [h0]; exact hz)
    (by
      intro x hx
      rw [h0] at hx
      rw [halfMeanSquares_rss (X := realMat X) hz, halfMeanSquares_rss (X := realMat X) hx]
      exact div_le_div_of_nonneg_right (hbest x hx) (by positivity))
    ρ (by rw [halpha]; exact hρ) hρ1
  rw [h0] at hwl hdist
  rw [halpha] at hdist
  refine ⟨j, w, _, ?_, hwl, hj, hlog, rfl, ?_⟩
  · unfold LinReg.trainWithOptimization
    rw [withOnes_eq, ok_bind]
    change ((GradientDesc.default.optimize (fun w => linComputeGrad w ⟨X.cols + 1, X.rows.map (Scalar.one :: ·)⟩ y)
      (List.replicate (X.cols + 1) Scalar.zero)).out >>= _) = _
    rw [hout, ok_bind]
  · have e : distance (X.cols + 1) (reals (List.replicate (X.cols + 1) (Scalar.zero : Fl R))) z = distance (X.cols + 1) z [] := by
      rw [distance_eq, distance_eq, hstart]
      have hz0 : pt (X.cols + 1) [] = 0 := by ext i; simp [pt_apply]
      rw [hz0, zero_sub, norm_neg, sub_zero]
    rw [e] at hdist
    exact hdist

/-! ### The hypotheses are met -/

theorem fl1_val : (truncBits 52).fl 1 = 1 := by
  change (if (0 : ℝ) ≤ 1 then bitsTrunc 52 1 else -bitsTrunc 52 (-1)) = 1
  rw [if_pos zero_le_one]
  unfold bitsTrunc
  rw [Int.log_one_right]
  have e : (2 : ℝ) ^ ((0 : ℤ) - ((52 : ℕ) : ℤ)) = 1 / 2 ^ 52 := by
    have : ((0 : ℤ) - ((52 : ℕ) : ℤ)) = -((52 : ℕ) : ℤ) := by norm_num
    rw [this, zpow_neg, zpow_natCast, one_div]
  rw [e]
  have e2 : (1 : ℝ) / (1 / 2 ^ 52) = ((2 ^ 52 : ℤ) : ℝ) := by norm_num
  rw [e2, Int.floor_intCast]
  norm_num

/-- The points -1, 0, 1 with targets -1, 0, 1 in arithmetic that keeps 53 significant bits: the trained parameters come within `(9/10)^j + 2⁻⁴⁰` of the
best ones, intercept 0 and slope 1. -/
example : ∃ j β, LinReg.trainWithOptimization (⟨1, [[Scalar.neg fl1], [fl0], [fl1]]⟩ : Mat (Fl (truncBits 52))) [Scalar.neg fl1, fl0, fl1] = ok ⟨some β⟩ ∧ j ≤ 100 ∧
    distance 2 (reals β) [0, 1] ≤ (9 / 10) ^ j + 1 / 2 ^ 40 := by
  have h := C86_witness.1
  have h1 : (truncBits 52).fl 1 = 1 := fl1_val
  have v1 : fl1.1 = 1 := fl1_val
  have v0 : fl0.1 = 0 := rfl
  have vm : (Scalar.neg fl1).1 = -1 := by change -fl1.1 = -1; rw [v1]
  have hreal : realMat (⟨1, [[Scalar.neg fl1], [fl0], [fl1]]⟩ : Mat (Fl (truncBits 52))) = ⟨1, [[-1], [0], [1]]⟩ := by
    simp [realMat, realRows, reals, v1, v0, vm]
  have hyr : reals [Scalar.neg fl1, fl0, fl1] = [-1, 0, 1] := by simp [reals, v1, v0, vm]
  have hrel := h.rel (3 / 10)
  rw [abs_of_pos (by norm_num : (0 : ℝ) < 3 / 10), abs_le] at hrel
  set α := (truncBits 52).fl (3 / 10) with hα
  have hα1 : α ≤ 31 / 100 := by norm_num at hrel ⊢; linarith [hrel.2]
  have hα2 : 2999 / 10000 ≤ α := by norm_num at hrel ⊢; linarith [hrel.1]
  have hg := C86_growth h 10 (by norm_num)
  set γ := growth (1 / 2 ^ 52) 10 - 1 with hγ
  have hγ1 : γ ≤ 1 / 2 ^ 48 := hg.2.2.trans (by norm_num)
  have hγ0 : 0 ≤ γ := by rw [hγ]; linarith [hg.1]
  have hs2 : Real.sqrt 2 ≤ 3 / 2 := by
    rw [Real.sqrt_le_left (by norm_num)]; norm_num
  have hsq : Real.sqrt (1 - α * (2 / 3)) ≤ 895 / 1000 := by
    rw [Real.sqrt_le_left (by norm_num)]; norm_num; linarith
  have hρb : (1 + 1 / 2 ^ 52) * (Real.sqrt (1 - α * (2 / 3)) + 2 * (1 / 2 ^ 52) + (1 + 1 / 2 ^ 52) * α * (γ * 2 * 1 ^ 2)) ≤ 9 / 10 := by
    have e1 : α * (γ * 2 * 1 ^ 2) ≤ 31 / 100 * (1 / 2 ^ 48 * 2 * 1 ^ 2) := by gcongr
    have e2 : (1 + 1 / 2 ^ 52 : ℝ) * α * (γ * 2 * 1 ^ 2) ≤ 1 / 2 ^ 48 := by
      rw [mul_assoc]
      refine (mul_le_mul_of_nonneg_left e1 (by positivity)).trans (by norm_num)
    have e3 := add_le_add (add_le_add_left hsq (2 * (1 / 2 ^ 52))) e2
    refine (mul_le_mul_of_nonneg_left (show Real.sqrt (1 - α * (2 / 3)) + 2 * (1 / 2 ^ 52) + (1 + 1 / 2 ^ 52) * α * (γ * 2 * 1 ^ 2) ≤
      895 / 1000 + 2 * (1 / 2 ^ 52) + 1 / 2 ^ 48 by linarith) (by positivity)).trans (by norm_num)
  have hz1 : distance 2 [0, 1] [] = 1 := by simp [distance, distSq, Finset.sum_range_succ]
  obtain ⟨j, β, e, ht, hl, hj, -, -, hd⟩ := C86_linear_descent h h1 (⟨1, [[Scalar.neg fl1], [fl0], [fl1]]⟩ : Mat (Fl (truncBits 52))) (by
      intro r hr; simp at hr; rcases hr with rfl | rfl | rfl <;> rfl) [Scalar.neg fl1, fl0, fl1] rfl (by simp) 1 1 le_rfl zero_le_one
    (by
      intro r hr x hx
      have : r ∈ (realMat (⟨1, [[Scalar.neg fl1], [fl0], [fl1]]⟩ : Mat (Fl (truncBits 52)))).rows := hr
      rw [hreal] at this
      simp at this
      rcases this with rfl | rfl | rfl <;> simp at hx <;> subst hx <;> simp)
    (by rw [hyr]; intro t ht; simp at ht; rcases ht with rfl | rfl | rfl <;> simp) (2 / 3) (by norm_num)
    (by
      rw [hreal]
      intro v hv
      match v, hv with
      | [a, b], _ =>
        simp [affine, Spec.inner]
        nlinarith [sq_nonneg a, sq_nonneg b])
    α rfl (by
      rw [hreal]
      have : totalSquares ⟨1, [[-1], [0], [1]]⟩ / 3 = 5 / 3 := by norm_num [totalSquares, Spec.inner]
      change α * (totalSquares ⟨1, [[-1], [0], [1]]⟩ / ((3 : ℕ) : ℝ)) ≤ 1
      push_cast
      rw [this]
      linarith) [0, 1] rfl (by
      intro x _
      rw [hreal, hyr]
      have : rss ⟨1, [[-1], [0], [1]]⟩ [-1, 0, 1] [0, 1] = 0 := by simp [rss, affine, Spec.inner]
      rw [this]
      refine list_sum_nonneg' _ ?_
      intro a ha
      obtain ⟨i, hi, rfl⟩ := List.mem_iff_getElem.1 ha
      rw [List.getElem_zipWith]
      positivity) 2 γ _ _ _ (by norm_num) rfl rfl rfl rfl (by linarith)
  refine ⟨j, β, ht, hj, ?_⟩
  change distance 2 (reals β) [0, 1] ≤ _ at hd
  change distance 2 (reals β) [0, 1] ≤ (_ ^ j) * distance 2 [0, 1] [] + (1 / 2 ^ 52 * distance 2 [0, 1] [] + _ * (_ + _ * distance 2 [0, 1] [])) / _ at hd
  rw [hz1, mul_one, mul_one, mul_one] at hd
  refine hd.trans (add_le_add (pow_le_pow_left₀ (by positivity) hρb j) ?_)
  rw [div_le_iff₀ (by linarith)]
  have hb1 : γ * Real.sqrt 2 * 1 * 1 + γ * 2 * 1 ^ 2 ≤ 1 / 2 ^ 46 := by
    have := mul_le_mul hγ1 hs2 (Real.sqrt_nonneg 2) (by positivity)
    norm_num at this hγ1 ⊢
    linarith
  have hb2 : (1 + 1 / 2 ^ 52 : ℝ) ^ 2 * α * (γ * Real.sqrt 2 * 1 * 1 + γ * 2 * 1 ^ 2) ≤ (1 + 1 / 2 ^ 52 : ℝ) ^ 2 * (31 / 100) * (1 / 2 ^ 46) := by
    gcongr
  have hb3 : (1 / 2 ^ 40 : ℝ) * (1 / 10) ≤ 1 / 2 ^ 40 * (1 - (1 + 1 / 2 ^ 52) * (Real.sqrt (1 - α * (2 / 3)) + 2 * (1 / 2 ^ 52) + (1 + 1 / 2 ^ 52) * α * (γ * 2 * 1 ^ 2))) :=
    mul_le_mul_of_nonneg_left (by linarith) (by positivity)
  have hb4 : (1 + 1 / 2 ^ 52 : ℝ) ^ 2 * (31 / 100) * (1 / 2 ^ 46) + 1 / 2 ^ 52 ≤ 1 / 2 ^ 40 * (1 / 10) := by norm_num
  have e1 : (1 + 1 / 2 ^ 52 : ℝ) ^ 2 * α * (γ * Real.sqrt 2 * 1 + γ * 2 * 1 ^ 2 * 1) = (1 + 1 / 2 ^ 52 : ℝ) ^ 2 * α * (γ * Real.sqrt 2 * 1 * 1 + γ * 2 * 1 ^ 2) := by ring
  rw [e1]
  refine le_trans ?_ hb3
  refine le_trans ?_ hb4
  rw [add_comm]
  exact add_le_add_left hb2 _

end RM
