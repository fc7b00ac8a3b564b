import Mathlib.Algebra.Order.Chebyshev
import Verif.Props.Optim
import Verif.Props.RegDescent

/-! C83: how close gradient descent gets to the best parameters. -/

set_option linter.unusedSectionVars false

namespace RM
open Outcome Scalar Spec Matrix

/-- The cost lies above all its tangents (it is convex). -/
def Spec.AboveTangents (f : List ℝ → ℝ) (df : List ℝ → List ℝ) (n : ℕ) : Prop :=
  ∀ x y : List ℝ, x.length = n → y.length = n → f x + (∑ i ∈ Finset.range n, (df x).getD i 0 * (y.getD i 0 - x.getD i 0)) ≤ f y

/-- The square of the distance of two lists of `n` numbers. -/
def Spec.distSq (n : ℕ) (x y : List ℝ) : ℝ := ∑ i ∈ Finset.range n, (x.getD i 0 - y.getD i 0) ^ 2

/-- What is lost against parameters at distance `R` of the start: the smaller the more iterations, down to what the test for equal costs
(`1e-20`) hides. -/
noncomputable def Spec.gdGap (alpha : ℝ) (iters : ℕ) (Rsq : ℝ) : ℝ :=
  max (Rsq / (2 * alpha * iters)) (max (Real.sqrt (Rsq * (2 / 10 ^ 20 / alpha))) (1 / 10 ^ 20))

/-- One step: the gain in distance pays for the excess cost. -/
theorem gd_step {f : List ℝ → ℝ} {df : List ℝ → List ℝ} {start : List ℝ} {α L : ℝ} (hd : ∀ w : List ℝ, w.length = start.length → (df w).length = start.length)
    (hL : SmoothAlong f df start.length L) (hC : AboveTangents f df start.length) (ha : 0 < α) (haL : α * L ≤ 1) (z : List ℝ) (hz : z.length = start.length) (j : ℕ) :
    f (descentPoint α df start (j + 1)) ≤ f (descentPoint α df start j) -
        α / 2 * ∑ i ∈ Finset.range start.length, (df (descentPoint α df start j)).getD i 0 ^ 2 ∧
    f (descentPoint α df start j) - f z ≤ ∑ i ∈ Finset.range start.length, (df (descentPoint α df start j)).getD i 0 *
        ((descentPoint α df start j).getD i 0 - z.getD i 0) ∧
    2 * α * (f (descentPoint α df start (j + 1)) - f z) ≤ distSq start.length (descentPoint α df start j) z - distSq start.length (descentPoint α df start (j + 1)) z := by
  have hlen := descentPoint_length α df start hd
  have hdl := hd _ (hlen j)
  have e : ∀ i ∈ Finset.range start.length, (descentPoint α df start (j + 1)).getD i 0 =
      (descentPoint α df start j).getD i 0 - α * (df (descentPoint α df start j)).getD i 0 := by
    intro i hi
    have hi := Finset.mem_range.1 hi
    rw [descentPoint, getD_zipWith _ (by rw [hlen]; exact hi) (by rw [hdl]; exact hi)]
    simp only [real_sub, real_mul]
    ring
  have h1 := hL (descentPoint α df start j) (descentPoint α df start (j + 1)) (hlen j) (hlen (j + 1))
  have h2 := hC (descentPoint α df start j) z (hlen j) hz
  set G : ℕ → ℝ := fun i => (df (descentPoint α df start j)).getD i 0 with hG
  set p : ℕ → ℝ := fun i => (descentPoint α df start j).getD i 0 with hp
  set Q := ∑ i ∈ Finset.range start.length, G i ^ 2 with hQ
  set S := ∑ i ∈ Finset.range start.length, G i * (p i - z.getD i 0) with hS
  have hQ0 : 0 ≤ Q := Finset.sum_nonneg fun i _ => sq_nonneg _
  have e1 : ∑ i ∈ Finset.range start.length, G i * ((descentPoint α df start (j + 1)).getD i 0 - p i) = -α * Q := by
    rw [hQ, Finset.mul_sum]
    refine Finset.sum_congr rfl fun i hi => ?_
    rw [e i hi]; simp only [hp, hG]; ring
  have e2 : ∑ i ∈ Finset.range start.length, ((descentPoint α df start (j + 1)).getD i 0 - p i) ^ 2 = α ^ 2 * Q := by
    rw [hQ, Finset.mul_sum]
    refine Finset.sum_congr rfl fun i hi => ?_
    rw [e i hi]; simp only [hp, hG]; ring
  have e3 : distSq start.length (descentPoint α df start (j + 1)) z = distSq start.length (descentPoint α df start j) z - 2 * α * S + α ^ 2 * Q := by
    unfold distSq
    rw [hS, hQ, Finset.mul_sum, Finset.mul_sum, ← Finset.sum_sub_distrib, ← Finset.sum_add_distrib]
    refine Finset.sum_congr rfl fun i hi => ?_
    rw [e i hi]; simp only [hp, hG]; ring
  have e4 : ∑ i ∈ Finset.range start.length, G i * (z.getD i 0 - p i) = -S := by
    rw [hS, ← Finset.sum_neg_distrib]
    exact Finset.sum_congr rfl fun i _ => by ring
  have h1' : f (descentPoint α df start (j + 1)) ≤ f (descentPoint α df start j) - α * Q + L / 2 * (α ^ 2 * Q) := by
    have : f (descentPoint α df start (j + 1)) ≤ f (descentPoint α df start j) + -α * Q + L / 2 * (α ^ 2 * Q) := by
      rw [← e1, ← e2]; exact h1
    linarith
  have h2' : f (descentPoint α df start j) - S ≤ f z := by
    have : f (descentPoint α df start j) + -S ≤ f z := by rw [← e4]; exact h2
    linarith
  have h3 : L / 2 * (α ^ 2 * Q) ≤ α / 2 * Q := by
    have := mul_le_mul_of_nonneg_right haL (by positivity : 0 ≤ α * Q)
    nlinarith
  refine ⟨by linarith, by linarith, ?_⟩
  rw [e3]
  nlinarith

/-- **C83 (general).** On a convex, nonnegative cost with `L`-Lipschitz gradient and a step of at most `1/L` the cost of the result
exceeds that of any other parameters by at most `gdGap`. -/
theorem C83_rate (o : GradientDesc ℝ) (g : List ℝ → Outcome (ℝ × List ℝ)) (f : List ℝ → ℝ) (df : List ℝ → List ℝ) (start : List ℝ)
    (hg : ∀ w : List ℝ, w.length = start.length → g w = ok (f w, df w) ∧ (df w).length = start.length)
    (L : ℝ) (hL : SmoothAlong f df start.length L) (hC : AboveTangents f df start.length) (hpos : ∀ w : List ℝ, w.length = start.length → 0 ≤ f w)
    (ha : 0 < o.alpha) (haL : o.alpha * L ≤ 1) (hi : 0 < o.iters) :
    ∃ w, (o.optimize g start).out = ok w ∧ w.length = start.length ∧ ∀ z : List ℝ, z.length = start.length →
      f w ≤ f z + gdGap o.alpha o.iters (distSq start.length start z) := by
  obtain ⟨j, hj, hout, -, -, hstop⟩ := C44_trajectory o g f df start hg
  have hd := fun w h => (hg w h).2
  have hlen := descentPoint_length o.alpha df start hd
  refine ⟨_, hout, hlen j, fun z hz => ?_⟩
  have step := fun i => gd_step hd hL hC ha haL z hz i
  set P := descentPoint o.alpha df start with hP
  have hQ0 : ∀ i, 0 ≤ ∑ k ∈ Finset.range start.length, (df (P i)).getD k 0 ^ 2 := fun i => Finset.sum_nonneg fun _ _ => sq_nonneg _
  have hmono : ∀ i, f (P (i + 1)) ≤ f (P i) := fun i => by
    have := (step i).1
    have := mul_nonneg (by positivity : 0 ≤ o.alpha / 2) (hQ0 i)
    linarith [(step i).1]
  have hanti : Antitone fun i => f (P i) := antitone_nat_of_succ_le hmono
  have hgap : 0 ≤ gdGap o.alpha o.iters (distSq start.length start z) := le_max_of_le_right (le_max_of_le_right (by positivity))
  by_cases hbetter : f (P j) ≤ f z
  · linarith
  have hgt : ∀ i ≤ j, f z < f (P i) := fun i h => lt_of_lt_of_le (not_le.1 hbetter) (hanti h)
  -- the distances fall
  have hD : ∀ i ≤ j, 2 * o.alpha * (i * (f (P i) - f z)) + distSq start.length (P i) z ≤ distSq start.length start z := by
    intro i
    induction i with
    | zero => intro _; simp [hP, descentPoint]
    | succ i ih =>
      intro h
      have h1 := ih (by omega)
      have h2 := (step i).2.2
      have h3 : (i : ℝ) * (f (P (i + 1)) - f z) ≤ i * (f (P i) - f z) := mul_le_mul_of_nonneg_left (by linarith [hmono i]) (by positivity)
      have h4 := mul_le_mul_of_nonneg_left h3 (by positivity : 0 ≤ 2 * o.alpha)
      push_cast
      nlinarith
  have hDn : ∀ i, 0 ≤ distSq start.length (P i) z := fun i => Finset.sum_nonneg fun _ _ => sq_nonneg _
  have hDle : ∀ i ≤ j, distSq start.length (P i) z ≤ distSq start.length start z := fun i h => by
    have h1 := hD i h
    have : 0 ≤ 2 * o.alpha * (i * (f (P i) - f z)) := mul_nonneg (by positivity) (mul_nonneg (by positivity) (by linarith [hgt i h]))
    linarith
  rcases hj.eq_or_lt with h | h
  · -- all iterations
    have h1 := hD j le_rfl
    have h2 := hDn j
    have hjpos : (0 : ℝ) < j := by rw [h]; exact_mod_cast hi
    have : f (P j) - f z ≤ distSq start.length start z / (2 * o.alpha * o.iters) := by
      rw [← h, le_div_iff₀ (by positivity)]
      linarith
    have := this.trans (le_max_left _ (max (Real.sqrt (distSq start.length start z * (2 / 10 ^ 20 / o.alpha))) (1 / 10 ^ 20)))
    unfold gdGap
    linarith
  · have hs := hstop h
    unfold SameCost at hs
    simp only [real_abs, real_sub, real_ofRat, real_lt, decide_eq_true_eq] at hs
    push_cast at hs
    cases j with
    | zero =>
      simp only [costBefore, real_zero, zero_sub, abs_neg] at hs
      rw [abs_of_nonneg (hpos _ (hlen 0))] at hs
      have h1 := hpos z hz
      have : (1 : ℝ) / 10 ^ 20 ≤ gdGap o.alpha o.iters (distSq start.length start z) := le_max_of_le_right (le_max_right _ _)
      linarith
    | succ j =>
      simp only [costBefore] at hs
      have h1 := (step j).1
      have h2 := (step j).2.1
      have h3 := hDle j (by omega)
      rw [abs_of_nonneg (by linarith [hmono j])] at hs
      -- the gradient is small
      set Q := ∑ i ∈ Finset.range start.length, (df (P j)).getD i 0 ^ 2 with hQ
      have hQs : Q ≤ 2 / 10 ^ 20 / o.alpha := by
        rw [le_div_iff₀ ha]
        linarith
      have hcs := Finset.sum_mul_sq_le_sq_mul_sq (Finset.range start.length) (fun i => (df (P j)).getD i 0) (fun i => (P j).getD i 0 - z.getD i 0)
      have hS0 : 0 ≤ f (P j) - f z := by linarith [hgt j (by omega)]
      have h4 : (f (P j) - f z) ^ 2 ≤ distSq start.length start z * (2 / 10 ^ 20 / o.alpha) := by
        have h5 : (f (P j) - f z) ^ 2 ≤ (∑ i ∈ Finset.range start.length, (df (P j)).getD i 0 * ((P j).getD i 0 - z.getD i 0)) ^ 2 :=
          pow_le_pow_left₀ hS0 h2 2
        refine h5.trans (hcs.trans ?_)
        rw [mul_comm]
        exact mul_le_mul h3 hQs (hQ0 j) ((hDn j).trans h3)
      have h6 : f (P j) - f z ≤ Real.sqrt (distSq start.length start z * (2 / 10 ^ 20 / o.alpha)) := Real.le_sqrt_of_sq_le h4
      have : Real.sqrt (distSq start.length start z * (2 / 10 ^ 20 / o.alpha)) ≤ gdGap o.alpha o.iters (distSq start.length start z) :=
        le_max_of_le_right (le_max_left _ _)
      linarith [hmono j]

theorem neg_ofFn {m : ℕ} (v : Fin m → ℝ) : (List.ofFn v).map (fun t => -t) = List.ofFn fun k => -v k := by
  rw [List.map_ofFn]; rfl

theorem aboveTangents_scores {A : Mat ℝ} {n m : ℕ} (f : List ℝ → ℝ) (df : List ℝ → List ℝ) (h d : Fin n → ℝ → ℝ)
    (hc : ∀ i s s', h i s + d i s * (s' - s) ≤ h i s')
    (hf : ∀ w : List ℝ, w.length = m → f w = (∑ i, h i ((toM n m A).mulVec (toV m w) i)) / n)
    (hdf : ∀ w : List ℝ, w.length = m → df w = List.ofFn fun k : Fin m => (toM n m A)ᵀ.mulVec (fun i => d i ((toM n m A).mulVec (toV m w) i)) k / n) :
    AboveTangents f df m := by
  have key := smoothAlong_scores (A := A) (n := n) (m := m) (fun w => -f w) (fun w => (df w).map fun t => -t) (fun i s => -h i s) (fun i s => -d i s) 0 le_rfl
    (fun i s s' => by have := hc i s s'; linarith) (fun w hw => by
      rw [hf w hw, Finset.sum_neg_distrib, neg_div]) (fun w hw => by
      rw [hdf w hw, neg_ofFn]
      congr 1
      funext k
      rw [show (fun i => -d i ((toM n m A).mulVec (toV m w) i)) = -fun i => d i ((toM n m A).mulVec (toV m w) i) from rfl, Matrix.mulVec_neg, Pi.neg_apply, neg_div])
  intro x y hx hy
  have := key x y hx hy
  have e : ∑ i ∈ Finset.range m, ((df x).map fun t => -t).getD i 0 * (y.getD i 0 - x.getD i 0) =
      -∑ i ∈ Finset.range m, (df x).getD i 0 * (y.getD i 0 - x.getD i 0) := by
    rw [← Finset.sum_neg_distrib]
    refine Finset.sum_congr rfl fun i _ => ?_
    have : ((df x).map fun t => -t).getD i 0 = -(df x).getD i 0 := by
      simp only [List.getD_eq_getElem?_getD, List.getElem?_map]
      cases (df x)[i]? <;> simp
    rw [this]; ring
  rw [e] at this
  simp only [zero_mul, zero_div, add_zero] at this
  linarith

/-- The cross entropy of a score is convex. -/
theorem crossEntropy_above (t s s' : ℝ) :
    -(t * Real.log (logistic s) + (1 - t) * Real.log (1 - logistic s)) + (logistic s - t) * (s' - s) ≤
      -(t * Real.log (logistic s') + (1 - t) * Real.log (1 - logistic s')) := by
  let q : ℝ → ℝ := fun x => -(t * Real.log (logistic x) + (1 - t) * Real.log (1 - logistic x))
  have hq : ∀ x, HasDerivAt q (logistic x - t) x := fun x => crossEntropy_deriv t x
  have hmono : Monotone (deriv q) := by
    have he : deriv q = fun x => logistic x - t := funext fun x => (hq x).deriv
    rw [he]
    have hd : ∀ x, HasDerivAt (fun x => logistic x - t) (logistic x * (1 - logistic x)) x := fun x => (logistic_deriv x).sub_const t
    apply monotone_of_deriv_nonneg (fun x => (hd x).differentiableAt)
    intro x
    rw [(hd x).deriv]
    exact mul_nonneg (logistic_mem x).1.le (by linarith [(logistic_mem x).2])
  have hconv : ConvexOn ℝ Set.univ q := by
    apply MonotoneOn.convexOn_of_deriv convex_univ
    · exact (continuous_iff_continuousAt.mpr fun x => (hq x).continuousAt).continuousOn
    · exact fun x _ => (hq x).differentiableAt.differentiableWithinAt
    · exact hmono.monotoneOn _
  have key : q s + (logistic s - t) * (s' - s) ≤ q s' := by
    rcases lt_trichotomy s s' with h | h | h
    · have := hconv.le_slope_of_hasDerivAt (Set.mem_univ s) (Set.mem_univ s') h (hq s)
      rw [slope_def_field, le_div_iff₀ (by linarith)] at this
      linarith
    · subst h; simp
    · have := hconv.slope_le_of_hasDerivAt (Set.mem_univ s') (Set.mem_univ s) h (hq s)
      rw [slope_def_field, div_le_iff₀ (by linarith)] at this
      linarith
  exact key

theorem lin_above (X : Mat ℝ) (hX : X.WF) (y : List ℝ) (hy : y.length = X.rows.length) :
    AboveTangents (halfMeanSquares (fullOf X) y) (linGrad (fullOf X) y) (X.cols + 1) := by
  have hfl : (fullOf X).rows.length = X.rows.length := by simp [fullOf]
  exact aboveTangents_scores (A := fullOf X) (n := X.rows.length) (m := X.cols + 1) (halfMeanSquares (fullOf X) y) (linGrad (fullOf X) y)
    (fun i s => (s - toV _ y i) ^ 2 / 2) (fun i s => s - toV _ y i) (fun i s s' => by nlinarith [sq_nonneg (s' - s)]) (by
      intro w hw
      unfold halfMeanSquares
      rw [zipWith_sum_fin hfl hy]
      simp only [mulVec_row (fullOf_shape hX) hw]
      rw [← Finset.sum_div, div_div, hfl]
      rfl) (by
      intro w hw
      unfold linGrad
      rw [hfl]
      rfl)

theorem log_above (X : Mat ℝ) (hX : X.WF) (y : List ℝ) (hy : y.length = X.rows.length) :
    AboveTangents (meanCrossEntropy (fullOf X) y) (logGrad (fullOf X) y) (X.cols + 1) := by
  have hfl : (fullOf X).rows.length = X.rows.length := by simp [fullOf]
  exact aboveTangents_scores (A := fullOf X) (n := X.rows.length) (m := X.cols + 1) (meanCrossEntropy (fullOf X) y) (logGrad (fullOf X) y)
    (fun i s => -(toV _ y i * Real.log (logistic s) + (1 - toV _ y i) * Real.log (1 - logistic s))) (fun i s => logistic s - toV _ y i)
    (fun i s s' => crossEntropy_above _ s s') (by
      intro w hw
      unfold meanCrossEntropy
      rw [zipWith_sum_fin hfl hy]
      simp only [mulVec_row (fullOf_shape hX) hw]
      rw [hfl]
      rfl) (by
      intro w hw
      unfold logGrad
      rw [hfl]
      rfl)

theorem list_sum_nonneg' : ∀ l : List ℝ, (∀ x ∈ l, 0 ≤ x) → 0 ≤ l.sum
  | [], _ => by simp
  | a :: l, h => by
    rw [List.sum_cons]
    exact add_nonneg (h a (by simp)) (list_sum_nonneg' l fun x hx => h x (by simp [hx]))

theorem crossEntropy_nonneg {t s : ℝ} (h0 : 0 ≤ t) (h1 : t ≤ 1) : 0 ≤ -(t * Real.log (logistic s) + (1 - t) * Real.log (1 - logistic s)) := by
  have a := Real.log_nonpos (logistic_mem s).1.le (logistic_mem s).2.le
  have b := Real.log_nonpos (by linarith [(logistic_mem s).2] : 0 ≤ 1 - logistic s) (by linarith [(logistic_mem s).1])
  have := mul_nonneg h0 (neg_nonneg.2 a)
  have := mul_nonneg (by linarith : 0 ≤ 1 - t) (neg_nonneg.2 b)
  linarith

/-- **C83 (linear regression).** If the mean over the rows of `1 + |x|²` is at most 10/3, then after the 100 steps of
`train_with_optimization` half the mean squared error exceeds that of any parameters `z` - so also that of the least squares solution - by at
most `|z|² / 60` (or, if the run stopped early, by a multiple of `1e-10`). -/
theorem C83_linear (X : Mat ℝ) (hX : X.WF) (y : List ℝ) (hy : y.length = X.rows.length) (hn : 0 < X.rows.length)
    (hb : totalSquares X / X.rows.length ≤ 10 / 3) :
    ∃ β, LinReg.trainWithOptimization X y = ok ⟨some β⟩ ∧ β.length = X.cols + 1 ∧ ∀ z : List ℝ, z.length = X.cols + 1 →
      rss X y β / (2 * X.rows.length) ≤ rss X y z / (2 * X.rows.length) + gdGap (3 / 10) 100 (inner z z) := by
  have hfl : (fullOf X).rows.length = X.rows.length := by simp [fullOf]
  have hnpos : (0 : ℝ) < X.rows.length := by exact_mod_cast hn
  have h0 : (List.replicate (X.cols + 1) (Scalar.zero : ℝ)).length = X.cols + 1 := by simp
  obtain ⟨w, hw, hwl, hle⟩ := C83_rate GradientDesc.default (fun w => linComputeGrad w (fullOf X) y) (halfMeanSquares (fullOf X) y) (linGrad (fullOf X) y)
    (List.replicate (X.cols + 1) (Scalar.zero : ℝ)) (by
      intro w hw
      rw [h0] at hw ⊢
      exact ⟨linComputeGrad_eq _ (fullOf_WF hX) _ _ (by rw [hy, hfl]) hw, by simp [linGrad, fullOf]⟩)
    _ (by rw [h0]; exact lin_smooth X hX y hy) (by rw [h0]; exact lin_above X hX y hy) (by
      intro w hw
      rw [h0] at hw
      rw [halfMeanSquares_rss hw]
      refine div_nonneg (list_sum_nonneg' _ ?_) (by positivity)
      intro a ha
      obtain ⟨i, hi, rfl⟩ := List.mem_iff_getElem.1 ha
      rw [List.getElem_zipWith]
      positivity) (by norm_num [GradientDesc.default]) (by
      simp only [GradientDesc.default, real_ofRat]
      push_cast
      linarith) (by simp [GradientDesc.default])
  rw [h0] at hwl hle
  refine ⟨w, ?_, hwl, fun z hz => ?_⟩
  · unfold LinReg.trainWithOptimization
    rw [withOnes_ok, ok_bind]
    have : (GradientDesc.default.optimize (fun w => linComputeGrad w (fullOf X) y) (List.replicate (fullOf X).cols (Scalar.zero : ℝ))).out = ok w := hw
    unfold fullOf at this
    rw [this, ok_bind]
  · have h1 := hle z hz
    rw [halfMeanSquares_rss hwl, halfMeanSquares_rss hz] at h1
    have e1 : distSq (X.cols + 1) (List.replicate (X.cols + 1) (Scalar.zero : ℝ)) z = inner z z := by
      rw [← dot_inner, dot_eq_range hz hz]
      unfold distSq
      refine Finset.sum_congr rfl fun i hi => ?_
      rw [getD_lt 0 (by rw [h0]; exact Finset.mem_range.1 hi), List.getElem_replicate, real_zero]
      ring
    have e2 : (GradientDesc.default : GradientDesc ℝ).alpha = 3 / 10 := by
      simp only [GradientDesc.default, real_ofRat]; norm_num
    rw [e1, e2] at h1
    exact h1

/-- **C83 (logistic regression).** With targets in [0, 1] and `alpha` times the mean over the rows of `1 + |x|²` at most 4, the mean cross entropy
after training by gradient descent exceeds that of any parameters `z` by at most `|1/2 - z|² / (2 alpha iters)`. -/
theorem C83_logistic (o : GradientDesc ℝ) (ha : 0 < o.alpha) (hi : 0 < o.iters) (X : Mat ℝ) (hX : X.WF) (y : List ℝ) (hy : y.length = X.rows.length)
    (ht : ∀ t ∈ y, 0 ≤ t ∧ t ≤ 1) (hb : o.alpha * (totalSquares X / X.rows.length) ≤ 4) :
    ∃ β, LogReg.train (fun g s => (o.optimize g s).out) X y = ok ⟨some β⟩ ∧ β.length = X.cols + 1 ∧ ∀ z : List ℝ, z.length = X.cols + 1 →
      meanCrossEntropy (fullOf X) y β ≤ meanCrossEntropy (fullOf X) y z +
        gdGap o.alpha o.iters (distSq (X.cols + 1) (List.replicate (X.cols + 1) (1 / 2)) z) := by
  have hfl : (fullOf X).rows.length = X.rows.length := by simp [fullOf]
  have h0 : (List.replicate (X.cols + 1) (Scalar.ofRat (1 / 2) : ℝ)).length = X.cols + 1 := by simp
  obtain ⟨w, hw, hwl, hle⟩ := C83_rate o (fun w => logComputeGrad w (fullOf X) y) (meanCrossEntropy (fullOf X) y) (logGrad (fullOf X) y)
    (List.replicate (X.cols + 1) (Scalar.ofRat (1 / 2) : ℝ)) (by
      intro w hw
      rw [h0] at hw ⊢
      exact ⟨logComputeGrad_eq _ (fullOf_WF hX) _ _ (by rw [hy, hfl]) hw, by simp [logGrad, fullOf]⟩)
    _ (by rw [h0]; exact log_smooth X hX y hy) (by rw [h0]; exact log_above X hX y hy) (by
      intro w _
      unfold meanCrossEntropy
      refine div_nonneg (list_sum_nonneg' _ ?_) (by positivity)
      intro a ha
      obtain ⟨i, hi, rfl⟩ := List.mem_iff_getElem.1 ha
      rw [List.getElem_zipWith]
      exact crossEntropy_nonneg (ht _ (List.getElem_mem _)).1 (ht _ (List.getElem_mem _)).2) ha (by
      have : o.alpha * (1 / 4 * totalSquares X / X.rows.length) = o.alpha * (totalSquares X / X.rows.length) / 4 := by ring
      rw [this]; linarith) hi
  rw [h0] at hwl hle
  refine ⟨w, ?_, hwl, fun z hz => ?_⟩
  · unfold LogReg.train
    rw [withOnes_ok, ok_bind]
    have : (o.optimize (fun w => logComputeGrad w (fullOf X) y) (List.replicate (fullOf X).cols (Scalar.ofRat (1 / 2) : ℝ))).out = ok w := hw
    unfold fullOf at this
    dsimp only
    rw [this, ok_bind]
  · have e : (Scalar.ofRat (1 / 2) : ℝ) = 1 / 2 := by simp
    have := hle z hz
    rw [e] at this
    exact this

/-- The points 0, 1, 2 meet the bound of `C83_linear`: the parameters `[0, 1]` fit the targets 0, 1, 2 exactly, so half the mean
squared error after training is at most 1/60. -/
example : ∃ β, LinReg.trainWithOptimization ⟨1, [[0], [1], [2]]⟩ [0, 1, 2] = ok ⟨some β⟩ ∧ rss ⟨1, [[0], [1], [2]]⟩ [0, 1, 2] β / 6 ≤ 1 / 60 := by
  obtain ⟨β, h1, -, h2⟩ := C83_linear ⟨1, [[0], [1], [2]]⟩ (by intro r hr; simp at hr; rcases hr with rfl | rfl | rfl <;> rfl) [0, 1, 2] rfl (by simp)
    (by norm_num [totalSquares, inner])
  refine ⟨β, h1, ?_⟩
  have := h2 [0, 1] rfl
  have e : rss ⟨1, [[0], [1], [2]]⟩ [0, 1, 2] [0, 1] = 0 := by norm_num [rss, affine, inner]
  rw [e] at this
  have hg : gdGap (3 / 10) 100 (inner [(0 : ℝ), 1] [0, 1]) ≤ 1 / 60 := by
    have : inner [(0 : ℝ), 1] [0, 1] = 1 := by norm_num [inner]
    rw [this]
    refine max_le (by norm_num) (max_le ?_ (by norm_num))
    rw [Real.sqrt_le_left (by norm_num)]
    norm_num
  norm_num at this hg ⊢
  linarith

/-- The same points with targets 0, 0, 1 meet the conditions of `C83_logistic` for a step of 1. -/
example : (1 : ℝ) * (totalSquares ⟨1, [[0], [1], [2]]⟩ / 3) ≤ 4 ∧ ∀ t ∈ [(0 : ℝ), 0, 1], 0 ≤ t ∧ t ≤ 1 := by
  refine ⟨by norm_num [totalSquares, inner], by simp⟩

end RM
