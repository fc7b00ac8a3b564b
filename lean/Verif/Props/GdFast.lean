import Mathlib.Analysis.SpecialFunctions.Trigonometric.Deriv
import Verif.Props.GdRate
import Verif.Props.Regression

/-! C83: gradient descent on costs that are not convex, and on costs that curve upwards in all directions. -/

set_option linter.unusedSectionVars false

namespace RM
open Outcome Scalar Spec Matrix

/-- The square of the length of the gradient at `w`. -/
def Spec.gradSq (df : List ℝ → List ℝ) (n : ℕ) (w : List ℝ) : ℝ := ∑ i ∈ Finset.range n, (df w).getD i 0 ^ 2

/-- The cost lies above all its tangents by at least `μ/2` times the squared distance. -/
def Spec.CurvesUp (f : List ℝ → ℝ) (df : List ℝ → List ℝ) (n : ℕ) (μ : ℝ) : Prop :=
  ∀ x y : List ℝ, x.length = n → y.length = n →
    f x + (∑ i ∈ Finset.range n, (df x).getD i 0 * (y.getD i 0 - x.getD i 0)) + μ / 2 * distSq n x y ≤ f y

/-- No parameters of length 1 (intercept first) are nearly constant zero on the data: the mean of the squared values is at least `μ`. -/
def Spec.SpreadAtLeast (X : Mat ℝ) (μ : ℝ) : Prop :=
  ∀ v : List ℝ, v.length = X.cols + 1 → μ * inner v v ≤ (X.rows.map fun x => affine v x ^ 2).sum / X.rows.length

/-- One step lowers the cost by `alpha/2` times the squared gradient, convex or not. -/
theorem gd_drop {f : List ℝ → ℝ} {df : List ℝ → List ℝ} {start : List ℝ} {α L : ℝ} (hd : ∀ w : List ℝ, w.length = start.length → (df w).length = start.length)
    (hL : SmoothAlong f df start.length L) (ha : 0 < α) (haL : α * L ≤ 1) (j : ℕ) :
    f (descentPoint α df start (j + 1)) ≤ f (descentPoint α df start j) - α / 2 * gradSq df start.length (descentPoint α df start j) := by
  have hlen := descentPoint_length α df start hd
  have hdl := hd _ (hlen j)
  have e : ∀ i ∈ Finset.range start.length, (descentPoint α df start (j + 1)).getD i 0 - (descentPoint α df start j).getD i 0 =
      -(α * (df (descentPoint α df start j)).getD i 0) := by
    intro i hi
    have hi := Finset.mem_range.1 hi
    rw [descentPoint, getD_zipWith _ (by rw [hlen]; exact hi) (by rw [hdl]; exact hi)]
    simp only [real_sub, real_mul]
    ring
  have h1 := hL (descentPoint α df start j) (descentPoint α df start (j + 1)) (hlen j) (hlen (j + 1))
  have e1 : ∑ i ∈ Finset.range start.length, (df (descentPoint α df start j)).getD i 0 *
      ((descentPoint α df start (j + 1)).getD i 0 - (descentPoint α df start j).getD i 0) = -α * gradSq df start.length (descentPoint α df start j) := by
    rw [gradSq, Finset.mul_sum]
    refine Finset.sum_congr rfl fun i hi => ?_
    rw [e i hi]; ring
  have e2 : ∑ i ∈ Finset.range start.length, ((descentPoint α df start (j + 1)).getD i 0 - (descentPoint α df start j).getD i 0) ^ 2 =
      α ^ 2 * gradSq df start.length (descentPoint α df start j) := by
    rw [gradSq, Finset.mul_sum]
    refine Finset.sum_congr rfl fun i hi => ?_
    rw [e i hi]; ring
  rw [e1, e2] at h1
  have hQ0 : 0 ≤ gradSq df start.length (descentPoint α df start j) := Finset.sum_nonneg fun i _ => sq_nonneg _
  have h3 := mul_le_mul_of_nonneg_right haL (mul_nonneg ha.le hQ0)
  nlinarith

/-- **C83 (any smooth cost).** On a nonnegative cost with `L`-Lipschitz gradient - convex or not - and a step of at most `1/L`, the gradient at one of
the parameters at which the cost was evaluated is small: its squared length is at most `2 * cost at the start / (alpha * iterations)`, or the run
stopped early and it is at most `2e-20 / alpha`. -/
theorem C83_stationary (o : GradientDesc ℝ) (g : List ℝ → Outcome (ℝ × List ℝ)) (f : List ℝ → ℝ) (df : List ℝ → List ℝ) (start : List ℝ)
    (hg : ∀ w : List ℝ, w.length = start.length → g w = ok (f w, df w) ∧ (df w).length = start.length)
    (L : ℝ) (hL : SmoothAlong f df start.length L) (hpos : ∀ w : List ℝ, w.length = start.length → 0 ≤ f w)
    (ha : 0 < o.alpha) (haL : o.alpha * L ≤ 1) (hi : 0 < o.iters) :
    ∃ p ∈ (o.optimize g start).log, gradSq df start.length p ≤ max (2 * f start / (o.alpha * o.iters)) (2 / 10 ^ 20 / o.alpha) := by
  obtain ⟨j, hj, -, hlog, -, hstop⟩ := C44_trajectory o g f df start hg
  have hd := fun w h => (hg w h).2
  have hlen := descentPoint_length o.alpha df start hd
  have step := fun i => gd_drop hd hL ha haL i
  have h0 : descentPoint o.alpha df start 0 = start := rfl
  set P := descentPoint o.alpha df start with hP
  have hmem : ∀ i ≤ j, i < o.iters → P i ∈ (o.optimize g start).log := by
    intro i h1 h2
    rw [hlog]
    exact List.mem_map.2 ⟨i, List.mem_range.2 (by omega), rfl⟩
  rcases hj.eq_or_lt with h | h
  · -- all iterations: the drops add up
    by_contra hcon
    push Not at hcon
    have hbig : ∀ i < j, 2 * f start / (o.alpha * o.iters) < gradSq df start.length (P i) := fun i h1 =>
      lt_of_le_of_lt (le_max_left _ _) (hcon _ (hmem i h1.le (by omega)))
    have hsum : ∀ i ≤ j, f (P i) + i * (o.alpha / 2 * (2 * f start / (o.alpha * o.iters))) ≤ f start ∧
        (0 < i → f (P i) + i * (o.alpha / 2 * (2 * f start / (o.alpha * o.iters))) < f start) := by
      intro i
      induction i with
      | zero => intro _; simp [h0]
      | succ i ih =>
        intro hle
        have h1 := (ih (by omega)).1
        have h2 := step i
        have h3 := mul_lt_mul_of_pos_left (hbig i (by omega)) (by positivity : 0 < o.alpha / 2)
        push_cast
        constructor
        · linarith
        · intro _; linarith
    have h1 := (hsum j le_rfl).2 (by omega)
    have hitpos : (0 : ℝ) < o.iters := by exact_mod_cast hi
    have e : (j : ℝ) * (o.alpha / 2 * (2 * f start / (o.alpha * o.iters))) = f start := by
      rw [h]; field_simp
    rw [e] at h1
    linarith [hpos _ (hlen j)]
  · have hs := hstop h
    unfold SameCost at hs
    simp only [real_abs, real_sub, real_ofRat, real_lt, decide_eq_true_eq] at hs
    push_cast at hs
    have small : ∀ i, f (P i) - f (P (i + 1)) ≤ 1 / 10 ^ 20 → gradSq df start.length (P i) ≤ 2 / 10 ^ 20 / o.alpha := by
      intro i hle
      rw [le_div_iff₀ ha]
      linarith [step i]
    cases j with
    | zero =>
      simp only [costBefore, real_zero, zero_sub, abs_neg] at hs
      rw [abs_of_nonneg (hpos _ (hlen 0))] at hs
      exact ⟨P 0, hmem 0 le_rfl hi, (small 0 (by linarith [hpos _ (hlen 1)])).trans (le_max_right _ _)⟩
    | succ j =>
      simp only [costBefore] at hs
      exact ⟨P j, hmem j (by omega) (by omega), (small j (le_trans (le_abs_self _) hs.le)).trans (le_max_right _ _)⟩

/-- Where the cost curves upwards a small gradient means a small excess cost. -/
theorem excess_le_gradSq {f : List ℝ → ℝ} {df : List ℝ → List ℝ} {n : ℕ} {μ : ℝ} (hμ : 0 < μ) (hC : CurvesUp f df n μ) {x z : List ℝ} (hx : x.length = n) (hz : z.length = n) :
    2 * μ * (f x - f z) ≤ gradSq df n x := by
  have h := hC x z hx hz
  have h2 : 0 ≤ ∑ i ∈ Finset.range n, ((df x).getD i 0 + μ * (z.getD i 0 - x.getD i 0)) ^ 2 := Finset.sum_nonneg fun _ _ => sq_nonneg _
  have e : ∑ i ∈ Finset.range n, ((df x).getD i 0 + μ * (z.getD i 0 - x.getD i 0)) ^ 2 =
      gradSq df n x + 2 * μ * (∑ i ∈ Finset.range n, (df x).getD i 0 * (z.getD i 0 - x.getD i 0)) + μ ^ 2 * distSq n x z := by
    unfold gradSq distSq
    rw [Finset.mul_sum, Finset.mul_sum, ← Finset.sum_add_distrib, ← Finset.sum_add_distrib]
    exact Finset.sum_congr rfl fun i _ => by ring
  rw [e] at h2
  have h3 := mul_le_mul_of_nonneg_left h (by positivity : 0 ≤ 2 * μ)
  nlinarith

/-- Where the cost curves upwards parameters that cost little more than the best are close to the best. -/
theorem distSq_le_excess {f : List ℝ → ℝ} {df : List ℝ → List ℝ} {n : ℕ} {μ : ℝ} (hμ : 0 < μ) (hC : CurvesUp f df n μ) {x z : List ℝ} (hx : x.length = n) (hz : z.length = n)
    (hbest : ∀ i < n, (df z).getD i 0 = 0) : distSq n z x ≤ 2 / μ * (f x - f z) := by
  have h := hC z x hz hx
  rw [Finset.sum_eq_zero fun i hi => by rw [hbest i (Finset.mem_range.1 hi), zero_mul]] at h
  rw [div_mul_eq_mul_div, le_div_iff₀ hμ]
  linarith

/-- **C83 (curved costs).** If moreover the cost curves upwards by at least `μ` in all directions, the excess over any other parameters falls by the
factor `1 - alpha * μ` in every iteration, down to what the stop test hides. -/
theorem C83_geometric (o : GradientDesc ℝ) (g : List ℝ → Outcome (ℝ × List ℝ)) (f : List ℝ → ℝ) (df : List ℝ → List ℝ) (start : List ℝ)
    (hg : ∀ w : List ℝ, w.length = start.length → g w = ok (f w, df w) ∧ (df w).length = start.length)
    (L : ℝ) (hL : SmoothAlong f df start.length L) (μ : ℝ) (hμ : 0 < μ) (hC : CurvesUp f df start.length μ) (hpos : ∀ w : List ℝ, w.length = start.length → 0 ≤ f w)
    (ha : 0 < o.alpha) (haL : o.alpha * L ≤ 1) (haμ : o.alpha * μ ≤ 1) :
    ∃ w, (o.optimize g start).out = ok w ∧ w.length = start.length ∧ ∀ z : List ℝ, z.length = start.length →
      f w - f z ≤ max ((1 - o.alpha * μ) ^ o.iters * (f start - f z)) (1 / 10 ^ 20 / (o.alpha * μ)) := by
  obtain ⟨j, hj, hout, -, -, hstop⟩ := C44_trajectory o g f df start hg
  have hd := fun w h => (hg w h).2
  have hlen := descentPoint_length o.alpha df start hd
  refine ⟨_, hout, hlen j, fun z hz => ?_⟩
  have step := fun i => gd_drop hd hL ha haL i
  have h0 : descentPoint o.alpha df start 0 = start := rfl
  set P := descentPoint o.alpha df start with hP
  have pl := fun i => excess_le_gradSq hμ hC (hlen i) hz
  have hexc : ∀ i, f (P (i + 1)) - f z ≤ (1 - o.alpha * μ) * (f (P i) - f z) := by
    intro i
    have h1 := step i
    have h2 := mul_le_mul_of_nonneg_left (pl i) (by positivity : 0 ≤ o.alpha / 2)
    nlinarith
  have hpow : ∀ i, f (P i) - f z ≤ (1 - o.alpha * μ) ^ i * (f start - f z) := by
    intro i
    induction i with
    | zero => simp [h0]
    | succ i ih =>
      refine (hexc i).trans ?_
      have := mul_le_mul_of_nonneg_left ih (by linarith : 0 ≤ 1 - o.alpha * μ)
      rw [pow_succ]
      linarith
  have hamu : 0 < o.alpha * μ := mul_pos ha hμ
  rcases hj.eq_or_lt with h | h
  · rw [← h]
    exact (hpow j).trans (le_max_left _ _)
  · refine le_trans ?_ (le_max_right _ _)
    have hs := hstop h
    unfold SameCost at hs
    simp only [real_abs, real_sub, real_ofRat, real_lt, decide_eq_true_eq] at hs
    push_cast at hs
    have hge : (1 : ℝ) / 10 ^ 20 ≤ 1 / 10 ^ 20 / (o.alpha * μ) := by
      rw [le_div_iff₀ hamu]
      nlinarith
    cases j with
    | zero =>
      simp only [costBefore, real_zero, zero_sub, abs_neg] at hs
      rw [abs_of_nonneg (hpos _ (hlen 0))] at hs
      linarith [hpos z hz]
    | succ j =>
      simp only [costBefore] at hs
      have h1 := (le_abs_self _).trans hs.le
      have h2 := step j
      have h3 := mul_le_mul_of_nonneg_left (pl j) (by positivity : 0 ≤ o.alpha / 2)
      have hQ0 : 0 ≤ gradSq df start.length (P j) := Finset.sum_nonneg fun i _ => sq_nonneg _
      have h4 : 0 ≤ o.alpha / 2 * gradSq df start.length (P j) := by positivity
      have : f (P (j + 1)) - f z ≤ f (P j) - f z := by linarith
      refine this.trans ?_
      rw [le_div_iff₀ hamu]
      linarith

theorem spread_eq {X : Mat ℝ} (hX : X.WF) {v : List ℝ} (hv : v.length = X.cols + 1) :
    (X.rows.map fun x => affine v x ^ 2).sum = ∑ i : Fin X.rows.length, ((toM X.rows.length (X.cols + 1) (fullOf X)).mulVec (toV _ v) i) ^ 2 := by
  have hz : (List.replicate X.rows.length (0 : ℝ)).length = X.rows.length := by simp
  have h := rss_eq hX hz hv
  have e1 : rss X (List.replicate X.rows.length 0) v = (X.rows.map fun x => affine v x ^ 2).sum := by
    unfold rss
    congr 1
    apply List.ext_getElem
    · simp
    · intro i h1 h2
      simp
  rw [← e1, h]
  refine Finset.sum_congr rfl fun i _ => ?_
  have : toV X.rows.length (List.replicate X.rows.length (0 : ℝ)) i = 0 := by simp [toV]
  rw [this, zero_sub, neg_sq]
  rfl

/-- Half the mean squared error curves upwards as much as the data spread. -/
theorem lin_curves {X : Mat ℝ} (hX : X.WF) {y : List ℝ} (hy : y.length = X.rows.length) {μ : ℝ} (hs : SpreadAtLeast X μ) :
    CurvesUp (halfMeanSquares (fullOf X) y) (linGrad (fullOf X) y) (X.cols + 1) μ := by
  have hfl : (fullOf X).rows.length = X.rows.length := by simp [fullOf]
  set n := X.rows.length with hn
  set A := toM n (X.cols + 1) (fullOf X) with hA
  have hf : ∀ w : List ℝ, w.length = X.cols + 1 → halfMeanSquares (fullOf X) y w = (∑ i, (A.mulVec (toV _ w) i - toV n y i) ^ 2) / (2 * n) := by
    intro w hw
    unfold halfMeanSquares
    rw [zipWith_sum_fin hfl hy, hfl]
    congr 1
    refine Finset.sum_congr rfl fun i _ => ?_
    rw [hA, mulVec_row (fullOf_shape hX) hw i]
    rfl
  have hdf : ∀ w : List ℝ, linGrad (fullOf X) y w = List.ofFn fun k : Fin (X.cols + 1) => Aᵀ.mulVec (fun i => A.mulVec (toV _ w) i - toV n y i) k / n := by
    intro w
    unfold linGrad
    rw [hfl]
    rfl
  intro x z hx hz
  set D : List ℝ := List.ofFn fun k : Fin (X.cols + 1) => z.getD k 0 - x.getD k 0 with hD
  have hDl : D.length = X.cols + 1 := by simp [hD]
  have hDv : toV (X.cols + 1) D = toV _ z - toV _ x := by
    rw [hD, toV_ofFn]; rfl
  have hsp := hs D hDl
  rw [spread_eq hX hDl, hDv] at hsp
  have e1 : distSq (X.cols + 1) x z = inner D D := by
    rw [← dot_inner, dot_eq_range hDl hDl]
    unfold distSq
    refine Finset.sum_congr rfl fun i hi => ?_
    have hi := Finset.mem_range.1 hi
    have : D.getD i 0 = z.getD i 0 - x.getD i 0 := by
      rw [getD_lt 0 (by rw [hDl]; exact hi)]
      simp only [hD, List.getElem_ofFn]
    rw [this]; ring
  rw [hf x hx, hf z hz, hdf, Finset.sum_range, e1]
  have hg : ∀ k : Fin (X.cols + 1), (List.ofFn fun k : Fin (X.cols + 1) => Aᵀ.mulVec (fun i => A.mulVec (toV _ x) i - toV n y i) k / (n : ℝ)).getD k 0 =
      Aᵀ.mulVec (fun i => A.mulVec (toV _ x) i - toV n y i) k / n := by
    intro k
    rw [getD_lt 0 (by rw [List.length_ofFn]; exact k.2), List.getElem_ofFn]
  simp only [hg]
  have e2 : ∑ k : Fin (X.cols + 1), Aᵀ.mulVec (fun i => A.mulVec (toV _ x) i - toV n y i) k / n * (z.getD k 0 - x.getD k 0) =
      (∑ i, (A.mulVec (toV _ x) i - toV n y i) * A.mulVec (toV _ z - toV _ x) i) / n := by
    have : (fun i => A.mulVec (toV _ x) i - toV n y i) ⬝ᵥ A.mulVec (toV _ z - toV _ x) = Aᵀ.mulVec (fun i => A.mulVec (toV _ x) i - toV n y i) ⬝ᵥ (toV _ z - toV _ x) := by
      rw [Matrix.dotProduct_mulVec, ← Matrix.mulVec_transpose]
    change _ = ((fun i => A.mulVec (toV _ x) i - toV n y i) ⬝ᵥ A.mulVec (toV _ z - toV _ x)) / n
    rw [this]
    unfold dotProduct
    rw [Finset.sum_div]
    exact Finset.sum_congr rfl fun k _ => by simp only [toV, Pi.sub_apply]; ring
  rw [e2]
  have e3 : ∑ i, (A.mulVec (toV _ z) i - toV n y i) ^ 2 = ∑ i, (A.mulVec (toV _ x) i - toV n y i) ^ 2 +
      2 * ∑ i, (A.mulVec (toV _ x) i - toV n y i) * A.mulVec (toV _ z - toV _ x) i + ∑ i, (A.mulVec (toV _ z - toV _ x) i) ^ 2 := by
    rw [Finset.mul_sum, ← Finset.sum_add_distrib, ← Finset.sum_add_distrib]
    refine Finset.sum_congr rfl fun i _ => ?_
    rw [Matrix.mulVec_sub, Pi.sub_apply]; ring
  rw [e3, add_div, add_div]
  have e4 : (∑ i, (A.mulVec (toV _ z - toV _ x) i) ^ 2) / (2 * (n : ℝ)) = (∑ i, (A.mulVec (toV _ z - toV _ x) i) ^ 2) / n / 2 := by
    rw [div_div, mul_comm]
  have e5 : 2 * (∑ i, (A.mulVec (toV _ x) i - toV n y i) * A.mulVec (toV _ z - toV _ x) i) / (2 * (n : ℝ)) =
      (∑ i, (A.mulVec (toV _ x) i - toV n y i) * A.mulVec (toV _ z - toV _ x) i) / n := by
    rw [mul_div_mul_left _ _ two_ne_zero]
  rw [e4, e5]
  linarith

/-- The intercept alone shows that the spread is at most 1. -/
theorem spread_le_one {X : Mat ℝ} {μ : ℝ} (hn : 0 < X.rows.length) (hs : SpreadAtLeast X μ) : μ ≤ 1 := by
  have h := hs (1 :: List.replicate X.cols 0) (by simp)
  have hz : ∀ (x : List ℝ) (k : ℕ), inner x (List.replicate k 0) = 0 := by
    intro x
    induction x with
    | nil => intro k; simp [inner]
    | cons a x ih =>
      intro k
      cases k with
      | zero => simp [inner]
      | succ k =>
        have := ih k
        simp only [inner, List.replicate_succ, List.zipWith_cons_cons, List.sum_cons, mul_zero, zero_add] at this ⊢
        exact this
  have e1 : inner (1 :: List.replicate X.cols (0 : ℝ)) (1 :: List.replicate X.cols 0) = 1 := by
    have := hz (List.replicate X.cols 0) X.cols
    simp only [inner, List.zipWith_cons_cons, List.sum_cons] at this ⊢
    linarith
  have e2 : (X.rows.map fun x => affine (1 :: List.replicate X.cols 0) x ^ 2).sum = X.rows.length := by
    have : (fun x : List ℝ => affine (1 :: List.replicate X.cols 0) x ^ 2) = fun _ => 1 := by
      funext x
      simp [affine, hz]
    rw [this]
    simp
  have hnpos : (0 : ℝ) < X.rows.length := by exact_mod_cast hn
  rw [e1, e2, div_self hnpos.ne'] at h
  linarith

/-- **C83 (linear regression, both ways of training).** If the mean over the rows of `1 + |x|²` is at most 10/3 and the data spread by at least `μ` in all
directions, then what `train` finds by solving the normal equations and what `train_with_optimization` finds by its 100 gradient steps are close:
the squared distance of the parameters is at most `2/μ` times the excess, and the excess of half the mean squared error is at most
`(1 - 3μ/10)^100` times that of the zero parameters, down to what the stop test hides. -/
theorem C83_both_ways {solve : Mat ℝ → List ℝ → Outcome (List ℝ)} (hsol : SolvesExactly solve) (X : Mat ℝ) (hX : X.WF) (y : List ℝ)
    (hn : 0 < X.rows.length) (hb : totalSquares X / X.rows.length ≤ 10 / 3) {μ : ℝ} (hμ : 0 < μ) (hs : SpreadAtLeast X μ)
    {m : LinReg ℝ} (hm : LinReg.train solve X y = ok m) :
    ∃ β best : List ℝ, LinReg.trainWithOptimization X y = ok ⟨some β⟩ ∧ m = ⟨some best⟩ ∧
      (let excess := (rss X y β - rss X y best) / (2 * X.rows.length)
       distSq (X.cols + 1) best β ≤ 2 / μ * excess ∧
       excess ≤ max ((1 - 3 / 10 * μ) ^ 100 * ((rss X y (zeroVec (X.cols + 1)) - rss X y best) / (2 * X.rows.length))) (1 / 10 ^ 20 / (3 / 10 * μ))) := by
  obtain ⟨best, hbe, hy, hbl, hnorm, -⟩ := linTrain_normal hsol hX hm
  have hfl : (fullOf X).rows.length = X.rows.length := by simp [fullOf]
  have hnpos : (0 : ℝ) < X.rows.length := by exact_mod_cast hn
  have h0 : (List.replicate (X.cols + 1) (Scalar.zero : ℝ)).length = X.cols + 1 := by simp
  have hmu1 := spread_le_one hn hs
  have ea : (GradientDesc.default : GradientDesc ℝ).alpha = 3 / 10 := by
    simp only [GradientDesc.default, real_ofRat]; norm_num
  have hCu := lin_curves hX hy hs
  obtain ⟨w, hw, hwl, hle⟩ := C83_geometric GradientDesc.default (fun w => linComputeGrad w (fullOf X) y) (halfMeanSquares (fullOf X) y) (linGrad (fullOf X) y)
    (List.replicate (X.cols + 1) (Scalar.zero : ℝ)) (by
      intro w hw
      rw [h0] at hw ⊢
      exact ⟨linComputeGrad_eq _ (fullOf_WF hX) _ _ (by rw [hy, hfl]) hw, by simp [linGrad, fullOf]⟩)
    _ (by rw [h0]; exact lin_smooth X hX y hy) μ hμ (by rw [h0]; exact hCu) (by
      intro w hw
      rw [h0] at hw
      rw [halfMeanSquares_rss hw]
      refine div_nonneg (list_sum_nonneg' _ ?_) (by positivity)
      intro a ha
      obtain ⟨i, hi, rfl⟩ := List.mem_iff_getElem.1 ha
      rw [List.getElem_zipWith]
      positivity) (by rw [ea]; norm_num) (by rw [ea]; linarith) (by rw [ea]; linarith)
  rw [h0] at hwl hle
  refine ⟨w, best, ?_, hbe, ?_, ?_⟩
  · unfold LinReg.trainWithOptimization
    rw [withOnes_ok, ok_bind]
    have : (GradientDesc.default.optimize (fun w => linComputeGrad w (fullOf X) y) (List.replicate (fullOf X).cols (Scalar.zero : ℝ))).out = ok w := hw
    unfold fullOf at this
    rw [this, ok_bind]
  · have hgz : ∀ i < X.cols + 1, (linGrad (fullOf X) y best).getD i 0 = 0 := by
      have : linGrad (fullOf X) y best = List.ofFn fun _ : Fin (X.cols + 1) => (0 : ℝ) := by
        unfold linGrad
        rw [hfl]
        change (List.ofFn fun k : Fin (X.cols + 1) => (toM X.rows.length (X.cols + 1) (fullOf X))ᵀ.mulVec
          ((toM X.rows.length (X.cols + 1) (fullOf X)).mulVec (toV _ best) - toV _ y) k / (X.rows.length : ℝ)) = _
        congr 1
        funext k
        have h1 : (toM X.rows.length (X.cols + 1) (fullOf X))ᵀ.mulVec ((toM X.rows.length (X.cols + 1) (fullOf X)).mulVec (toV _ best)) =
            (toM X.rows.length (X.cols + 1) (fullOf X))ᵀ.mulVec (toV _ y) := by
          rw [Matrix.mulVec_mulVec]; exact hnorm
        rw [Matrix.mulVec_sub, h1, sub_self, Pi.zero_apply, zero_div]
      intro i hi
      rw [this, getD_lt 0 (by rw [List.length_ofFn]; exact hi), List.getElem_ofFn]
    have := distSq_le_excess hμ hCu hwl hbl hgz
    rw [halfMeanSquares_rss hwl, halfMeanSquares_rss hbl, ← sub_div] at this
    exact this
  · have := hle best hbl
    rw [halfMeanSquares_rss hwl, halfMeanSquares_rss hbl, halfMeanSquares_rss h0, ← sub_div, ← sub_div, ea] at this
    exact this

/-- The points -1, 0, 1: the mean of `1 + x²` is 5/3 and the data spread by 2/3 in all directions, so the two ways of training agree up to the
factor `(4/5)^100` on the excess. -/
example : totalSquares ⟨1, [[-1], [0], [1]]⟩ / 3 ≤ 10 / 3 ∧ SpreadAtLeast ⟨1, [[-1], [0], [1]]⟩ (2 / 3) := by
  constructor
  · norm_num [totalSquares, inner]
  · intro v hv
    match v, hv with
    | [a, b], _ =>
      simp [affine, inner]
      nlinarith [sq_nonneg a, sq_nonneg b]

/-- A cost that is not convex: `1 - cos w`, with derivative `sin w`. -/
noncomputable def waveCost (w : List ℝ) : ℝ := 1 - Real.cos (w.getD 0 0)

/-- Its gradient. -/
noncomputable def waveGrad (w : List ℝ) : List ℝ := [Real.sin (w.getD 0 0)]

theorem wave_smooth : SmoothAlong waveCost waveGrad 1 1 := by
  intro w v _ _
  simp only [Finset.sum_range_one, waveCost, waveGrad, List.getD_cons_zero]
  generalize w.getD 0 0 = x
  generalize v.getD 0 0 = y
  let q : ℝ → ℝ := fun t => t ^ 2 / 2 + Real.cos t
  have hq : ∀ t, HasDerivAt q (t - Real.sin t) t := fun t => by
    have h : HasDerivAt (fun t : ℝ => t ^ 2 / 2 + Real.cos t) (((2 : ℕ) : ℝ) * t ^ (2 - 1) / 2 + -Real.sin t) t :=
      ((hasDerivAt_pow 2 t).div_const 2).add (Real.hasDerivAt_cos t)
    exact h.congr_deriv (by norm_num; ring)
  have hmono : Monotone (deriv q) := by
    have he : deriv q = fun t => t - Real.sin t := funext fun t => (hq t).deriv
    rw [he]
    have hd : ∀ t, HasDerivAt (fun t => t - Real.sin t) (1 - Real.cos t) t := fun t => (hasDerivAt_id t).sub (Real.hasDerivAt_sin t)
    apply monotone_of_deriv_nonneg (fun t => (hd t).differentiableAt)
    intro t
    rw [(hd t).deriv]
    linarith [Real.cos_le_one t]
  have hconv : ConvexOn ℝ Set.univ q := by
    apply MonotoneOn.convexOn_of_deriv convex_univ
    · exact (continuous_iff_continuousAt.mpr fun t => (hq t).continuousAt).continuousOn
    · exact fun t _ => (hq t).differentiableAt.differentiableWithinAt
    · exact hmono.monotoneOn _
  have key : q x + (x - Real.sin x) * (y - x) ≤ q y := by
    rcases lt_trichotomy x y with h | h | h
    · have := hconv.le_slope_of_hasDerivAt (Set.mem_univ x) (Set.mem_univ y) h (hq x)
      rw [slope_def_field, le_div_iff₀ (by linarith)] at this
      linarith
    · subst h; simp
    · have := hconv.slope_le_of_hasDerivAt (Set.mem_univ y) (Set.mem_univ x) h (hq x)
      rw [slope_def_field, div_le_iff₀ (by linarith)] at this
      linarith
  simp only [q] at key
  nlinarith

/-- 200 steps of size 1/2 on `1 - cos w`, from anywhere, evaluate the cost at a point where `sin² w ≤ 1/25`. -/
example (s : ℝ) : ∃ p ∈ ((⟨1 / 2, 200⟩ : GradientDesc ℝ).optimize (fun w => ok (waveCost w, waveGrad w)) [s]).log, Real.sin (p.getD 0 0) ^ 2 ≤ 1 / 25 := by
  obtain ⟨p, h1, h2⟩ := C83_stationary (⟨1 / 2, 200⟩ : GradientDesc ℝ) (fun w => ok (waveCost w, waveGrad w)) waveCost waveGrad [s]
    (fun w _ => ⟨rfl, rfl⟩) 1 wave_smooth (fun w _ => by unfold waveCost; linarith [Real.cos_le_one (w.getD 0 0)]) (by norm_num) (by norm_num) (by norm_num)
  refine ⟨p, h1, ?_⟩
  have e : gradSq waveGrad [s].length p = Real.sin (p.getD 0 0) ^ 2 := by simp [gradSq, waveGrad]
  rw [e] at h2
  refine h2.trans (max_le ?_ (by norm_num))
  have : waveCost [s] ≤ 2 := by unfold waveCost; linarith [Real.neg_one_le_cos ([s].getD 0 0)]
  norm_num
  linarith

end RM
