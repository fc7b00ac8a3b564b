import Verif.Proofs.RegDescent

/-!
C66: training a regression by gradient descent does not end with a worse fit than its starting point - provided the mean
squared norm of the rows is small enough for the fixed step. `C66_violation` is a data set where it ends 10^250 times worse.
-/

set_option linter.unusedSectionVars false

namespace RM
open Outcome Scalar Spec Matrix

/-- The sum of the squares of all entries, with a 1 in front of every row. -/
def Spec.totalSquares (X : Mat ℝ) : ℝ := (X.rows.map fun x => 1 + inner x x).sum

theorem totalSquares_eq {X : Mat ℝ} (hX : X.WF) :
    totalSquares X = ∑ i, ∑ k, toM X.rows.length (X.cols + 1) (fullOf X) i k ^ 2 := by
  unfold totalSquares
  have : X.rows.map (fun x => 1 + inner x x) = List.ofFn fun i : Fin X.rows.length => 1 + inner (X.rows.getD i []) (X.rows.getD i []) := by
    conv_lhs => rw [← ofFn_getD (rfl : X.rows.length = X.rows.length) [], List.map_ofFn]
    rfl
  rw [this, List.sum_ofFn]
  apply Finset.sum_congr rfl
  intro i _
  have h1 : (1 :: X.rows.getD i []).length = X.cols + 1 := by
    rw [List.length_cons, shape_row_length (⟨rfl, rfl, hX⟩ : HasShape X X.rows.length X.cols) i.2]
  have h2 : 1 + inner (X.rows.getD i []) (X.rows.getD i []) = dot (1 :: X.rows.getD i []) (1 :: X.rows.getD i []) := by
    rw [dot_cons_real, dot_inner]; ring
  rw [h2, dot_eq_range h1 h1, Finset.sum_range]
  apply Finset.sum_congr rfl
  intro k _
  rw [toM_apply]
  unfold ent fullOf
  simp only
  rw [getD_map_lt _ _ [] _ _ i.2, sq]

theorem fullOf_shape {X : Mat ℝ} (hX : X.WF) : HasShape (fullOf X) X.rows.length (X.cols + 1) := withOnes_shape hX

theorem fullOf_WF {X : Mat ℝ} (hX : X.WF) : (fullOf X).WF := (withOnes_shape hX).2.2

theorem halfMeanSquares_rss {X : Mat ℝ} {y w : List ℝ} (hw : w.length = X.cols + 1) :
    halfMeanSquares (fullOf X) y w = rss X y w / (2 * X.rows.length) := by
  unfold halfMeanSquares rss fullOf
  simp only [List.length_map]
  congr 2
  rw [List.zipWith_map_left]
  congr 1
  funext x t
  rw [← dot_inner, dot_affine _ _ (by intro h; rw [h] at hw; simp at hw)]
  ring

/-- From the inequality of the scores to the one of the optimiser. -/
theorem smoothAlong_scores {A : Mat ℝ} {n m : ℕ} (f : List ℝ → ℝ) (df : List ℝ → List ℝ) (h d : Fin n → ℝ → ℝ) (c : ℝ) (hc0 : 0 ≤ c)
    (hc : ∀ i s s', h i s' ≤ h i s + d i s * (s' - s) + c / 2 * (s' - s) ^ 2)
    (hf : ∀ w : List ℝ, w.length = m → f w = (∑ i, h i ((toM n m A).mulVec (toV m w) i)) / n)
    (hdf : ∀ w : List ℝ, w.length = m → df w = List.ofFn fun k : Fin m => (toM n m A)ᵀ.mulVec (fun i => d i ((toM n m A).mulVec (toV m w) i)) k / n) :
    SmoothAlong f df m (c * (∑ i, ∑ k, toM n m A i k ^ 2) / n) := by
  intro w v hw hv
  rw [hf w hw, hf v hv, hdf w hw, Finset.sum_range, Finset.sum_range]
  have key := smooth_scores (toM n m A) h d c hc0 hc (toV m w) (toV m v)
  have hg : ∀ k : Fin m, (List.ofFn fun k : Fin m => (toM n m A)ᵀ.mulVec (fun i => d i ((toM n m A).mulVec (toV m w) i)) k / (n : ℝ)).getD k 0 =
      (toM n m A)ᵀ.mulVec (fun i => d i ((toM n m A).mulVec (toV m w) i)) k / n := by
    intro k; simp
  simp only [hg]
  have hn : (0 : ℝ) ≤ (n : ℝ)⁻¹ := by positivity
  have := mul_le_mul_of_nonneg_left key hn
  simp only [toV] at this ⊢
  refine le_trans (le_of_eq ?_) (le_trans this (le_of_eq ?_))
  · rw [div_eq_inv_mul]
  · rw [mul_add, mul_add]
    refine congrArg₂ (· + ·) (congrArg₂ (· + ·) ?_ ?_) ?_
    · rw [div_eq_inv_mul]
    · rw [Finset.mul_sum]
      exact Finset.sum_congr rfl fun k _ => by ring
    · ring

theorem lin_smooth (X : Mat ℝ) (hX : X.WF) (y : List ℝ) (hy : y.length = X.rows.length) :
    SmoothAlong (halfMeanSquares (fullOf X) y) (linGrad (fullOf X) y) (X.cols + 1) (totalSquares X / X.rows.length) := by
  have hfl : (fullOf X).rows.length = X.rows.length := by simp [fullOf]
  have := smoothAlong_scores (A := fullOf X) (n := X.rows.length) (m := X.cols + 1) (halfMeanSquares (fullOf X) y) (linGrad (fullOf X) y)
    (fun i s => (s - toV _ y i) ^ 2 / 2) (fun i s => s - toV _ y i) 1 zero_le_one (fun i s s' => square_smooth _ s s') (by
      intro w hw
      unfold halfMeanSquares
      rw [zipWith_sum_fin hfl hy]
      simp only [mulVec_row (fullOf_shape hX) hw]
      rw [← Finset.sum_div, div_div, hfl]
      rfl) (by
      intro w hw
      unfold linGrad
      rw [hfl]
      rfl)
  rw [one_mul, ← totalSquares_eq hX] at this
  exact this

theorem log_smooth (X : Mat ℝ) (hX : X.WF) (y : List ℝ) (hy : y.length = X.rows.length) :
    SmoothAlong (meanCrossEntropy (fullOf X) y) (logGrad (fullOf X) y) (X.cols + 1) (1 / 4 * totalSquares X / X.rows.length) := by
  have hfl : (fullOf X).rows.length = X.rows.length := by simp [fullOf]
  have := smoothAlong_scores (A := fullOf X) (n := X.rows.length) (m := X.cols + 1) (meanCrossEntropy (fullOf X) y) (logGrad (fullOf X) y)
    (fun i s => -(toV _ y i * Real.log (logistic s) + (1 - toV _ y i) * Real.log (1 - logistic s))) (fun i s => logistic s - toV _ y i) (1 / 4) (by norm_num)
    (fun i s s' => crossEntropy_smooth _ s s') (by
      intro w hw
      unfold meanCrossEntropy
      rw [zipWith_sum_fin hfl hy]
      simp only [mulVec_row (fullOf_shape hX) hw]
      rw [hfl]
      rfl) (by
      intro w hw
      unfold logGrad
      rw [hfl]
      rfl)
  rw [← totalSquares_eq hX] at this
  exact this

/-- **C66 (linear regression, partial).** If the mean over the rows of `1 + |x|²` is at most 20/3 (the step is 3/10), the
parameters of `train_with_optimization` fit no worse than the zero parameters it starts from. Missing: larger inputs, where
it is false. -/
theorem C66_linear_partial (X : Mat ℝ) (hX : X.WF) (y : List ℝ) (hy : y.length = X.rows.length) (hn : 0 < X.rows.length)
    (hb : totalSquares X / X.rows.length ≤ 20 / 3) :
    ∃ β, LinReg.trainWithOptimization X y = ok ⟨some β⟩ ∧ rss X y β ≤ rss X y (zeroVec (X.cols + 1)) := by
  have hfl : (fullOf X).rows.length = X.rows.length := by simp [fullOf]
  have hnpos : (0 : ℝ) < X.rows.length := by exact_mod_cast hn
  have hsm := lin_smooth X hX y hy
  have h0 : (List.replicate (X.cols + 1) (Scalar.zero : ℝ)).length = X.cols + 1 := by simp
  obtain ⟨w, hw, hle⟩ := C44_descent GradientDesc.default (fun w => linComputeGrad w (fullOf X) y) (halfMeanSquares (fullOf X) y) (linGrad (fullOf X) y)
    (List.replicate (X.cols + 1) (Scalar.zero : ℝ)) (by
      intro w hw
      rw [h0] at hw ⊢
      exact ⟨linComputeGrad_eq _ (fullOf_WF hX) _ _ (by rw [hy, hfl]) hw, by simp [linGrad, fullOf]⟩)
    _ (by rw [h0]; exact hsm) (by norm_num [GradientDesc.default]) (by
      simp only [GradientDesc.default, real_ofRat]
      push_cast
      linarith)
  obtain ⟨w', hw', hlen⟩ := C44_length GradientDesc.default (fun w => linComputeGrad w (fullOf X) y) (List.replicate (X.cols + 1) (Scalar.zero : ℝ)) (by
      intro w hw
      rw [h0] at hw ⊢
      exact ⟨_, _, linComputeGrad_eq _ (fullOf_WF hX) _ _ (by rw [hy, hfl]) hw, by simp [linGrad, fullOf]⟩)
  rw [hw] at hw'
  injection hw' with hw'
  subst hw'
  rw [h0] at hlen
  refine ⟨w, ?_, ?_⟩
  · unfold LinReg.trainWithOptimization
    rw [withOnes_ok, ok_bind]
    have : (GradientDesc.default.optimize (fun w => linComputeGrad w (fullOf X) y) (List.replicate (fullOf X).cols (Scalar.zero : ℝ))).out = ok w := hw
    unfold fullOf at this
    rw [this, ok_bind]
  · rw [halfMeanSquares_rss hlen, halfMeanSquares_rss h0] at hle
    have := (div_le_div_iff_of_pos_right (by positivity)).mp hle
    exact this

/-- **C66 (logistic regression, partial).** If the mean over the rows of `1 + |x|²` is at most `8 / alpha`, the parameters
found by gradient descent have no larger cross entropy than the starting parameters 1/2. Missing: larger inputs. -/
theorem C66_logistic_partial (o : GradientDesc ℝ) (ha : 0 ≤ o.alpha) (X : Mat ℝ) (hX : X.WF) (y : List ℝ) (hy : y.length = X.rows.length)
    (hb : o.alpha * (totalSquares X / X.rows.length) ≤ 8) :
    ∃ β, LogReg.train (fun g s => (o.optimize g s).out) X y = ok ⟨some β⟩ ∧
      meanCrossEntropy (fullOf X) y β ≤ meanCrossEntropy (fullOf X) y (List.replicate (X.cols + 1) (1 / 2)) := by
  have hfl : (fullOf X).rows.length = X.rows.length := by simp [fullOf]
  have hsm := log_smooth X hX y hy
  have h0 : (List.replicate (X.cols + 1) (Scalar.ofRat (1 / 2) : ℝ)).length = X.cols + 1 := by simp
  obtain ⟨w, hw, hle⟩ := C44_descent o (fun w => logComputeGrad w (fullOf X) y) (meanCrossEntropy (fullOf X) y) (logGrad (fullOf X) y)
    (List.replicate (X.cols + 1) (Scalar.ofRat (1 / 2) : ℝ)) (by
      intro w hw
      rw [h0] at hw ⊢
      exact ⟨logComputeGrad_eq _ (fullOf_WF hX) _ _ (by rw [hy, hfl]) hw, by simp [logGrad, fullOf]⟩)
    _ (by rw [h0]; exact hsm) ha (by
      have : o.alpha * (1 / 4 * totalSquares X / X.rows.length) = o.alpha * (totalSquares X / X.rows.length) / 4 := by ring
      rw [this]; linarith)
  refine ⟨w, ?_, ?_⟩
  · unfold LogReg.train
    rw [withOnes_ok, ok_bind]
    have : (o.optimize (fun w => logComputeGrad w (fullOf X) y) (List.replicate (fullOf X).cols (Scalar.ofRat (1 / 2) : ℝ))).out = ok w := hw
    unfold fullOf at this
    dsimp only
    rw [this, ok_bind]
  · have e : (Scalar.ofRat (1 / 2) : ℝ) = 1 / 2 := by simp
    rw [e] at hle
    exact hle

/-- **C66 (violation).** On the single sample (10, 1) the 100 steps diverge: the sum of squares grows from 1 by more than a
factor 10^250. -/
theorem C66_violation : ∃ β, LinReg.trainWithOptimization ⟨1, [[10]]⟩ [1] = ok ⟨some β⟩ ∧
    rss ⟨1, [[10]]⟩ [1] (zeroVec 2) = 1 ∧ (10 : ℝ) ^ 250 < rss ⟨1, [[10]]⟩ [1] β := by
  let r : List ℝ → ℝ := fun w => w.getD 0 0 + 10 * w.getD 1 0 - 1
  have hg : ∀ w : List ℝ, w.length = 2 → linComputeGrad w ⟨2, [[1, 10]]⟩ [1] = ok (r w ^ 2 / 2, [r w, 10 * r w]) := by
    intro w hw
    obtain ⟨a, b, rfl⟩ := List.length_eq_two.mp hw
    simp [linComputeGrad, Mat.mulVec, Mat.transpose, transposeRows, mseCostVec, vecZip, dot, fsum, r, List.range_succ]
    ring
  obtain ⟨j, h1, h2, -, -, h4⟩ := C44_trajectory GradientDesc.default (fun w => linComputeGrad w ⟨2, [[1, 10]]⟩ [1]) (fun w => r w ^ 2 / 2) (fun w => [r w, 10 * r w])
    [0, 0] (fun w hw => ⟨hg w hw, rfl⟩)
  have hp : ∀ i, (descentPoint (GradientDesc.default : GradientDesc ℝ).alpha (fun w => [r w, 10 * r w]) [0, 0] i).length = 2 ∧
      r (descentPoint (GradientDesc.default : GradientDesc ℝ).alpha (fun w => [r w, 10 * r w]) [0, 0] i) = -(-293 / 10) ^ i := by
    intro i
    induction i with
    | zero => exact ⟨rfl, by simp [descentPoint, r]⟩
    | succ i ih =>
      obtain ⟨a, b, hab⟩ := List.length_eq_two.mp ih.1
      rw [descentPoint]
      refine ⟨by simp [ih.1], ?_⟩
      have hr := ih.2
      rw [hab] at hr ⊢
      have e : r (List.zipWith (fun x d => x -. d *. (GradientDesc.default : GradientDesc ℝ).alpha) [a, b] [r [a, b], 10 * r [a, b]]) =
          -293 / 10 * r [a, b] := by
        simp [r, GradientDesc.default]
        ring
      rw [e, hr, pow_succ]; ring
  have hj : j = 100 := by
    by_contra hne
    have hj' : j < (GradientDesc.default : GradientDesc ℝ).iters := lt_of_le_of_ne h1 hne
    have := h4 hj'
    unfold SameCost at this
    simp only [(hp _).2] at this
    cases j with
    | zero =>
      simp [costBefore] at this
      norm_num at this
    | succ j =>
      simp only [costBefore, real_abs, real_sub, real_lt, real_ofRat, decide_eq_true_eq] at this
      have e : (-(-293 / 10 : ℝ) ^ j) ^ 2 / 2 - (-(-293 / 10 : ℝ) ^ (j + 1)) ^ 2 / 2 = -(((293 / 10) ^ 2) ^ j * (((293 / 10) ^ 2 - 1) / 2)) := by
        have : ((-293 / 10 : ℝ) ^ j) ^ 2 = ((293 / 10) ^ 2) ^ j := by rw [← pow_mul, mul_comm, pow_mul]; norm_num
        rw [neg_sq, neg_sq, pow_succ (-293 / 10 : ℝ) j, mul_pow, this]; ring
      rw [e, abs_neg, abs_of_nonneg (by positivity)] at this
      have h1 : (1 : ℝ) ≤ ((293 / 10) ^ 2) ^ j := one_le_pow₀ (by norm_num)
      have h3 : (1 : ℝ) ≤ ((293 / 10) ^ 2) ^ j * (((293 / 10) ^ 2 - 1) / 2) := by nlinarith
      have h5 : ((1 / 10 ^ 20 : ℚ) : ℝ) ≤ 1 := by norm_num
      linarith
  refine ⟨descentPoint (GradientDesc.default : GradientDesc ℝ).alpha (fun w => [r w, 10 * r w]) [0, 0] j, ?_, ?_, ?_⟩
  · unfold LinReg.trainWithOptimization
    rw [withOnes_ok, ok_bind]
    have h2' : (GradientDesc.default.optimize (fun w => linComputeGrad w ⟨1 + 1, [[10]].map ((1 : ℝ) :: ·)⟩ [1]) (List.replicate (1 + 1) (Scalar.zero : ℝ))).out = _ := h2
    dsimp only
    rw [h2', ok_bind]
  · simp [rss, affine, inner, zeroVec, List.replicate]
  · obtain ⟨a, b, hab⟩ := List.length_eq_two.mp (hp j).1
    have hr := (hp j).2
    rw [hab, hj] at hr
    rw [hab]
    have : rss ⟨1, [[10]]⟩ [1] [a, b] = r [a, b] ^ 2 := by
      simp [rss, affine, inner, r]; ring
    rw [this, hr, neg_sq, ← pow_mul]
    norm_num

/-- The hypothesis of `C66_linear_partial` holds for the points 0, 1, 2. -/
example : totalSquares ⟨1, [[0], [1], [2]]⟩ / 3 ≤ 20 / 3 := by norm_num [totalSquares, inner]

end RM
