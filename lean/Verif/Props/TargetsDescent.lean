import Verif.Props.Targets
import Verif.Props.RegDescent

/-! C100: training a linear regression by gradient descent and the size of the targets. -/

set_option linter.unusedSectionVars false

namespace RM
open Outcome Scalar Spec Matrix

/-- The parameters after `n` plain steps of gradient descent with step 3/10 on the mean squared error, from zero. -/
noncomputable def Spec.plainSteps (X : Mat ℝ) (y : List ℝ) (n : ℕ) : List ℝ :=
  descentPoint (3 / 10) (linGrad (fullOf X) y) (zeroVec (X.cols + 1)) n

/-- Half the mean squared residual after `n` plain steps. -/
noncomputable def Spec.plainCost (X : Mat ℝ) (y : List ℝ) (n : ℕ) : ℝ := rss X y (plainSteps X y n) / (2 * X.rows.length)

theorem linGrad_length (X : Mat ℝ) (y w : List ℝ) : (linGrad (fullOf X) y w).length = X.cols + 1 := by simp [linGrad, fullOf]

theorem plainSteps_length (X : Mat ℝ) (y : List ℝ) (n : ℕ) : (plainSteps X y n).length = X.cols + 1 := by
  unfold plainSteps
  rw [descentPoint_length]
  · simp [zeroVec]
  · intro w _
    rw [linGrad_length]
    simp [zeroVec]

/-- The number of steps a training run makes, and its result. -/
theorem train_plainSteps {X : Mat ℝ} (hX : X.WF) {y : List ℝ} (hy : y.length = X.rows.length) :
    ∃ n ≤ 100, LinReg.trainWithOptimization X y = ok ⟨some (plainSteps X y n)⟩ ∧
      (∀ i < n, ¬ SameCost (costBefore (plainCost X y) i) (plainCost X y i)) ∧
      (n < 100 → SameCost (costBefore (plainCost X y) n) (plainCost X y n)) := by
  have hfl : (fullOf X).rows.length = X.rows.length := by simp [fullOf]
  have h0 : (List.replicate (X.cols + 1) (Scalar.zero : ℝ)).length = X.cols + 1 := by simp
  have hz : List.replicate (X.cols + 1) (Scalar.zero : ℝ) = zeroVec (X.cols + 1) := rfl
  have ha : (GradientDesc.default : GradientDesc ℝ).alpha = 3 / 10 := by simp [GradientDesc.default]
  obtain ⟨j, j1, j2, -, j4, j5⟩ := C44_trajectory GradientDesc.default (fun w => linComputeGrad w (fullOf X) y) (halfMeanSquares (fullOf X) y)
    (linGrad (fullOf X) y) (List.replicate (X.cols + 1) (Scalar.zero : ℝ)) (by
      intro w hw
      rw [h0] at hw ⊢
      exact ⟨linComputeGrad_eq _ (fullOf_WF hX) _ _ (by rw [hy, hfl]) hw, linGrad_length X y w⟩)
  rw [hz, ha] at j2 j4 j5
  have hcost : (fun i => halfMeanSquares (fullOf X) y (descentPoint (3 / 10) (linGrad (fullOf X) y) (zeroVec (X.cols + 1)) i)) = plainCost X y := by
    funext i
    exact halfMeanSquares_rss (plainSteps_length X y i)
  rw [hcost] at j4 j5
  have hci : ∀ i, halfMeanSquares (fullOf X) y (descentPoint (3 / 10) (linGrad (fullOf X) y) (zeroVec (X.cols + 1)) i) = plainCost X y i :=
    fun i => congrFun hcost i
  refine ⟨j, j1, ?_, ?_, ?_⟩
  · unfold LinReg.trainWithOptimization
    rw [withOnes_ok, ok_bind]
    have : (GradientDesc.default.optimize (fun w => linComputeGrad w (fullOf X) y) (List.replicate (fullOf X).cols (Scalar.zero : ℝ))).out =
      ok (plainSteps X y j) := j2
    unfold fullOf at this
    rw [this, ok_bind]
  · intro i hi
    have := j4 i hi
    rw [hci] at this
    exact this
  · intro hj
    have := j5 hj
    rw [hci] at this
    exact this

theorem toV_combine (a b : ℝ) {s t : List ℝ} {n : ℕ} (hs : s.length = n) (ht : t.length = n) : toV n (combine a b 0 s t) = a • toV n s + b • toV n t := by
  unfold combine
  rw [toV_zipWith _ hs ht]
  funext i
  simp

theorem linGrad_combine (X : Mat ℝ) {s t u v : List ℝ} (hs : s.length = X.rows.length) (ht : t.length = X.rows.length) (hu : u.length = X.cols)
    (hv : v.length = X.cols) (a b : ℝ) :
    toV X.cols (linGrad X (combine a b 0 s t) (combine a b 0 u v)) = a • toV X.cols (linGrad X s u) + b • toV X.cols (linGrad X t v) := by
  unfold linGrad
  rw [toV_ofFn, toV_ofFn, toV_ofFn, toV_combine _ _ hs ht, toV_combine _ _ hu hv]
  have e : (fun i => (toM X.rows.length X.cols X).mulVec (a • toV X.cols u + b • toV X.cols v) i - (a • toV X.rows.length s + b • toV X.rows.length t) i) =
      a • (fun i => (toM X.rows.length X.cols X).mulVec (toV X.cols u) i - toV X.rows.length s i) +
      b • (fun i => (toM X.rows.length X.cols X).mulVec (toV X.cols v) i - toV X.rows.length t i) := by
    rw [Matrix.mulVec_add, Matrix.mulVec_smul, Matrix.mulVec_smul]
    funext i
    simp only [Pi.add_apply, Pi.smul_apply, smul_eq_mul]
    ring
  rw [e, Matrix.mulVec_add, Matrix.mulVec_smul, Matrix.mulVec_smul]
  funext i
  simp only [Pi.add_apply, Pi.smul_apply, smul_eq_mul]
  ring

theorem plainSteps_combine {X : Mat ℝ} {s t : List ℝ} (hs : s.length = X.rows.length) (ht : t.length = X.rows.length) (a b : ℝ) :
    ∀ n, plainSteps X (combine a b 0 s t) n = combine a b 0 (plainSteps X s n) (plainSteps X t n) := by
  intro n
  induction n with
  | zero =>
    show zeroVec _ = combine a b 0 (zeroVec _) (zeroVec _)
    unfold combine zeroVec
    rw [List.zipWith_replicate']
    simp
  | succ n ih =>
    have hfl : (fullOf X).rows.length = X.rows.length := by simp [fullOf]
    have step : ∀ y, plainSteps X y (n + 1) =
        List.zipWith (fun x d => x -. d *. (3 / 10)) (plainSteps X y n) (linGrad (fullOf X) y (plainSteps X y n)) := fun y => rfl
    apply toV_inj (plainSteps_length X _ (n + 1)) (combine_length a b 0 (plainSteps_length X s (n + 1)) (plainSteps_length X t (n + 1)))
    have hstep : ∀ y, toV (X.cols + 1) (plainSteps X y (n + 1)) =
        fun i => toV (X.cols + 1) (plainSteps X y n) i - toV (X.cols + 1) (linGrad (fullOf X) y (plainSteps X y n)) i * (3 / 10) := by
      intro y
      rw [step, toV_zipWith _ (plainSteps_length X y n) (linGrad_length X y _)]
      rfl
    have hg : toV (X.cols + 1) (linGrad (fullOf X) (combine a b 0 s t) (combine a b 0 (plainSteps X s n) (plainSteps X t n))) =
        a • toV (X.cols + 1) (linGrad (fullOf X) s (plainSteps X s n)) + b • toV (X.cols + 1) (linGrad (fullOf X) t (plainSteps X t n)) :=
      linGrad_combine (fullOf X) (hs.trans hfl.symm) (ht.trans hfl.symm) (plainSteps_length X s n) (plainSteps_length X t n) a b
    rw [toV_combine _ _ (plainSteps_length X s (n + 1)) (plainSteps_length X t (n + 1)), hstep, hstep, hstep, ih, hg,
      toV_combine _ _ (plainSteps_length X s n) (plainSteps_length X t n)]
    funext i
    simp only [Pi.add_apply, Pi.smul_apply, smul_eq_mul]
    ring

/-- **C100 (partial).** A run of `train_with_optimization` makes `n ≤ 100` plain steps, stopping before the 100th only when the cost changes by
less than 10⁻²⁰. After the same number of steps the parameters for the targets `a s + b t` are `a` times those for `s` plus `b` times those for
`t`, so the predictions are when the three runs make the same number of steps. Missing: runs with different numbers of steps, for which it is
false (`C100_violation`). -/
theorem C100_same_steps_partial {X : Mat ℝ} (hX : X.WF) {s t : List ℝ} (hs : s.length = X.rows.length) (ht : t.length = X.rows.length) (a b : ℝ) :
    ∃ n₁ n₂ n, LinReg.trainWithOptimization X s = ok ⟨some (plainSteps X s n₁)⟩ ∧ LinReg.trainWithOptimization X t = ok ⟨some (plainSteps X t n₂)⟩ ∧
      LinReg.trainWithOptimization X (combine a b 0 s t) = ok ⟨some (plainSteps X (combine a b 0 s t) n)⟩ ∧
      (∀ y k, (y, k) ∈ [(s, n₁), (t, n₂), (combine a b 0 s t, n)] → k ≤ 100 ∧ (∀ i < k, ¬ SameCost (costBefore (plainCost X y) i) (plainCost X y i)) ∧
        (k < 100 → SameCost (costBefore (plainCost X y) k) (plainCost X y k))) ∧
      (n₁ = n → n₂ = n → ∀ Z : Mat ℝ, Z.WF → Z.cols = X.cols → ∃ p q, LinReg.predict ⟨some (plainSteps X s n₁)⟩ Z = ok p ∧
        LinReg.predict ⟨some (plainSteps X t n₂)⟩ Z = ok q ∧ LinReg.predict ⟨some (plainSteps X (combine a b 0 s t) n)⟩ Z = ok (combine a b 0 p q)) := by
  obtain ⟨n₁, a1, a2, a3, a4⟩ := train_plainSteps hX hs
  obtain ⟨n₂, b1, b2, b3, b4⟩ := train_plainSteps hX ht
  obtain ⟨n, c1, c2, c3, c4⟩ := train_plainSteps hX (combine_length a b 0 hs ht)
  refine ⟨n₁, n₂, n, a2, b2, c2, ?_, ?_⟩
  · intro y k hyk
    simp only [List.mem_cons, List.not_mem_nil, or_false, Prod.mk.injEq] at hyk
    rcases hyk with ⟨rfl, rfl⟩ | ⟨rfl, rfl⟩ | ⟨rfl, rfl⟩
    · exact ⟨a1, a3, a4⟩
    · exact ⟨b1, b3, b4⟩
    · exact ⟨c1, c3, c4⟩
  · rintro rfl h2 Z hZ hc
    subst h2
    have hl := fun y => plainSteps_length X y n₂
    refine ⟨_, _, C48_predict _ Z (by rw [hl, hc]), C48_predict _ Z (by rw [hl, hc]), ?_⟩
    rw [C48_predict _ Z (by rw [hl, hc]), plainSteps_combine hs ht]
    have hlc := combine_length a b 0 (hl s) (hl t)
    congr 1
    conv_rhs => rw [combine, List.zipWith_map, List.zipWith_self]
    apply List.map_congr_left
    intro z hz
    have hz' : z.length = X.cols := by rw [hZ z hz, hc]
    rw [affine_sum hlc hz', affine_sum (hl s) hz', affine_sum (hl t) hz', combine, toV_zipWith _ (hl s) (hl t), Finset.mul_sum, Finset.mul_sum,
      ← Finset.sum_add_distrib, add_zero]
    apply Finset.sum_congr rfl
    intro i _
    ring

/-- With one sample whose feature is 0, the run is the descent of the intercept. -/
theorem intercept_run (y : ℝ) : ∃ j, j ≤ 100 ∧ LinReg.trainWithOptimization ⟨1, [[0]]⟩ [y] = ok ⟨some [y * (1 - (7 / 10) ^ j), 0]⟩ ∧
    (j < 100 → SameCost (costBefore (fun i => (y * (7 / 10) ^ i) ^ 2 / 2) j) ((y * (7 / 10) ^ j) ^ 2 / 2)) ∧
    ∀ i < j, ¬ SameCost (costBefore (fun i => (y * (7 / 10) ^ i) ^ 2 / 2) i) ((y * (7 / 10) ^ i) ^ 2 / 2) := by
  have hg : ∀ w : List ℝ, w.length = 2 → linComputeGrad w ⟨2, [[1, 0]]⟩ [y] = ok ((w.getD 0 0 - y) ^ 2 / 2, [w.getD 0 0 - y, 0]) := by
    intro w hw
    obtain ⟨a, b, rfl⟩ := List.length_eq_two.mp hw
    simp [linComputeGrad, Mat.mulVec, Mat.transpose, transposeRows, mseCostVec, vecZip, dot, fsum, List.range_succ]
    ring
  obtain ⟨j, h1, h2, -, h3, h4⟩ := C44_trajectory GradientDesc.default (fun w => linComputeGrad w ⟨2, [[1, 0]]⟩ [y]) (fun w => (w.getD 0 0 - y) ^ 2 / 2)
    (fun w => [w.getD 0 0 - y, 0]) [0, 0] (fun w hw => ⟨hg w hw, rfl⟩)
  have hp : ∀ i, descentPoint (GradientDesc.default : GradientDesc ℝ).alpha (fun w => [w.getD 0 0 - y, 0]) [0, 0] i = [y * (1 - (7 / 10) ^ i), 0] := by
    intro i
    induction i with
    | zero => simp [descentPoint]
    | succ i ih =>
      rw [descentPoint, ih]
      simp [GradientDesc.default]
      ring
  have hc : (fun i => (fun w : List ℝ => (w.getD 0 0 - y) ^ 2 / 2) (descentPoint (GradientDesc.default : GradientDesc ℝ).alpha
      (fun w => [w.getD 0 0 - y, 0]) [0, 0] i)) = fun i => (y * (7 / 10) ^ i) ^ 2 / 2 := by
    funext i
    rw [hp]
    simp
    ring
  rw [hc] at h3 h4
  have hci := fun i => congrFun hc i
  simp only at hci
  refine ⟨j, h1, ?_, ?_, ?_⟩
  · rw [hp] at h2
    unfold LinReg.trainWithOptimization
    have : withOnes (⟨1, [[0]]⟩ : Mat ℝ) = ok ⟨2, [[1, 0]]⟩ := withOnes_ok _
    rw [this, ok_bind]
    have h2' : (GradientDesc.default.optimize (fun w => linComputeGrad w ⟨2, [[1, 0]]⟩ [y]) (List.replicate 2 (Scalar.zero : ℝ))).out =
      ok [y * (1 - (7 / 10) ^ j), 0] := h2
    rw [h2', ok_bind]
  · intro hj
    have := h4 hj
    rw [hci] at this
    exact this
  · intro i hi
    have := h3 i hi
    rw [hci] at this
    exact this

/-- **C100 (violation).** The targets may be written in other units so that training learns nothing: with the target 1 the prediction is at least
3/10, with the target 10⁻¹¹ training stops before its first step, because the cost is below 10⁻²⁰, and the prediction is 0. -/
theorem C100_violation : ∃ m m' p, LinReg.trainWithOptimization ⟨1, [[0]]⟩ [(1 : ℝ)] = ok m ∧
    LinReg.trainWithOptimization ⟨1, [[0]]⟩ [(1 / 10 ^ 11 * 1 : ℝ)] = ok m' ∧ m.predict ⟨1, [[0]]⟩ = ok [p] ∧ 3 / 10 ≤ p ∧ m'.predict ⟨1, [[0]]⟩ = ok [0] := by
  obtain ⟨j, h1, h2, h3, h4⟩ := intercept_run 1
  obtain ⟨j', g1, g2, g3, g4⟩ := intercept_run (1 / 10 ^ 11 * 1)
  have hj : 1 ≤ j := by
    by_contra h
    have h0 : j = 0 := by omega
    subst h0
    have := h3 (by norm_num)
    simp [SameCost, costBefore] at this
    norm_num at this
  have hj' : j' = 0 := by
    by_contra h
    apply g4 0 (by omega)
    simp [SameCost, costBefore]
    norm_num [abs_lt]
  subst hj'
  have pred : ∀ a : ℝ, LinReg.predict ⟨some [a, 0]⟩ ⟨1, [[0]]⟩ = ok [a] := by
    intro a
    rw [C48_predict _ _ rfl]
    simp [affine, Spec.inner]
  refine ⟨_, _, _, h2, g2, pred _, ?_, ?_⟩
  · have : ((7 : ℝ) / 10) ^ j ≤ (7 / 10) ^ 1 := pow_le_pow_of_le_one (by norm_num) (by norm_num) hj
    linarith
  · rw [pred]
    norm_num

/-! ### A case of three runs of equal lengths -/

theorem steep_cost (y : ℝ) (n : ℕ) : plainCost ⟨1, [[10]]⟩ [y] n = (y * (293 / 10) ^ n) ^ 2 / 2 := by
  have hW : (⟨1, [[10]]⟩ : Mat ℝ).WF := by intro r hr; simp at hr; subst hr; rfl
  have hg : ∀ a b : ℝ, linGrad (fullOf ⟨1, [[10]]⟩) [y] [a, b] = [a + 10 * b - y, 10 * (a + 10 * b - y)] := by
    intro a b
    have h1 := linComputeGrad_eq (fullOf ⟨1, [[10]]⟩) (fullOf_WF hW) [y] [a, b] rfl rfl
    have h2 : linComputeGrad [a, b] (fullOf ⟨1, [[10]]⟩) [y] = ok ((a + 10 * b - y) ^ 2 / 2, [a + 10 * b - y, 10 * (a + 10 * b - y)]) := by
      simp [fullOf, linComputeGrad, Mat.mulVec, Mat.transpose, transposeRows, mseCostVec, vecZip, dot, fsum, List.range_succ]
      ring
    rw [h1] at h2
    injection h2 with h2
    exact congrArg Prod.snd h2
  have hp : ∃ a b : ℝ, plainSteps ⟨1, [[10]]⟩ [y] n = [a, b] ∧ a + 10 * b - y = -(y * (-293 / 10) ^ n) := by
    induction n with
    | zero => exact ⟨0, 0, rfl, by simp⟩
    | succ n ih =>
      obtain ⟨a, b, h1, h2⟩ := ih
      refine ⟨a - (a + 10 * b - y) * (3 / 10), b - 10 * (a + 10 * b - y) * (3 / 10), ?_, ?_⟩
      · show List.zipWith _ (plainSteps ⟨1, [[10]]⟩ [y] n) (linGrad _ _ (plainSteps ⟨1, [[10]]⟩ [y] n)) = _
        rw [h1, hg]
        rfl
      · rw [pow_succ]
        linear_combination (-293 / 10) * h2
  obtain ⟨a, b, h1, h2⟩ := hp
  unfold plainCost
  rw [h1]
  have : rss ⟨1, [[10]]⟩ [y] [a, b] = (a + 10 * b - y) ^ 2 := by
    simp [rss, affine, Spec.inner]
    ring
  rw [this, h2, neg_sq, mul_pow, mul_pow, ← pow_mul, ← pow_mul, mul_comm n 2, pow_mul, pow_mul]
  norm_num

/-- With a feature as large as 10 the descent diverges, so no run stops early. -/
theorem steep_runs (y : ℝ) (hy : 1 ≤ y) (n : ℕ) : ¬ SameCost (costBefore (plainCost ⟨1, [[10]]⟩ [y]) n) (plainCost ⟨1, [[10]]⟩ [y] n) := by
  have hy2 : 1 ≤ y ^ 2 := by nlinarith
  intro h
  unfold SameCost at h
  cases n with
  | zero =>
    simp only [costBefore, steep_cost, real_abs, real_sub, real_lt, real_ofRat, decide_eq_true_eq, real_zero, zero_sub, abs_neg, pow_zero, mul_one] at h
    rw [abs_of_nonneg (by positivity)] at h
    norm_num at h
    linarith
  | succ n =>
    simp only [costBefore, steep_cost, real_abs, real_sub, real_lt, real_ofRat, decide_eq_true_eq] at h
    have h1 : (1 : ℝ) ≤ ((293 / 10) ^ 2) ^ n := one_le_pow₀ (by norm_num)
    have e : (y * (293 / 10 : ℝ) ^ n) ^ 2 / 2 - (y * (293 / 10 : ℝ) ^ (n + 1)) ^ 2 / 2 = -(y ^ 2 * ((293 / 10) ^ 2) ^ n * (((293 / 10) ^ 2 - 1) / 2)) := by
      rw [pow_succ, ← pow_mul, mul_comm 2 n, pow_mul]
      ring
    rw [e, abs_neg, abs_of_nonneg (by positivity)] at h
    have h2 : 1 ≤ y ^ 2 * ((293 / 10 : ℝ) ^ 2) ^ n := one_le_mul_of_one_le_of_one_le hy2 h1
    have h3 : (1 : ℝ) ≤ y ^ 2 * ((293 / 10) ^ 2) ^ n * (((293 / 10) ^ 2 - 1) / 2) := by nlinarith
    have h5 : ((1 / 10 ^ 20 : ℚ) : ℝ) ≤ 1 := by norm_num
    linarith

/-- Three runs of 100 steps each: the predictions with the target `2 * 1 + 3 * 5` are those sums of the others. -/
example : ∃ m₁ m₂ m p q, LinReg.trainWithOptimization ⟨1, [[10]]⟩ [1] = ok m₁ ∧ LinReg.trainWithOptimization ⟨1, [[10]]⟩ [5] = ok m₂ ∧
    LinReg.trainWithOptimization ⟨1, [[10]]⟩ (combine 2 3 0 [1] [5]) = ok m ∧ m₁.predict ⟨1, [[7], [8]]⟩ = ok p ∧ m₂.predict ⟨1, [[7], [8]]⟩ = ok q ∧
    m.predict ⟨1, [[7], [8]]⟩ = ok (combine 2 3 0 p q) := by
  obtain ⟨n₁, n₂, n, h1, h2, h3, h4, h5⟩ := C100_same_steps_partial (X := ⟨1, [[10]]⟩) (by intro r hr; simp at hr; subst hr; rfl) (s := [1]) (t := [5]) rfl rfl 2 3
  have key : ∀ y k, (y, k) ∈ [([1], n₁), ([5], n₂), (combine 2 3 0 [1] [5], n)] → k = 100 := by
    intro y k hyk
    obtain ⟨g1, -, g3⟩ := h4 y k hyk
    have : ∃ x : ℝ, 1 ≤ x ∧ y = [x] := by
      simp only [List.mem_cons, List.not_mem_nil, or_false, Prod.mk.injEq] at hyk
      rcases hyk with ⟨rfl, -⟩ | ⟨rfl, -⟩ | ⟨rfl, -⟩
      · exact ⟨1, le_rfl, rfl⟩
      · exact ⟨5, by norm_num, rfl⟩
      · exact ⟨2 * 1 + 3 * 5 + 0, by norm_num, rfl⟩
    obtain ⟨x, hx, rfl⟩ := this
    by_contra hne
    exact steep_runs x hx k (g3 (lt_of_le_of_ne g1 hne))
  have e1 := key [1] n₁ (by simp)
  have e2 := key [5] n₂ (by simp)
  have e3 := key (combine 2 3 0 [1] [5]) n (by simp)
  obtain ⟨p, q, p1, p2, p3⟩ := h5 (by rw [e1, e3]) (by rw [e2, e3]) ⟨1, [[7], [8]]⟩ (by intro r hr; simp at hr; rcases hr with rfl | rfl <;> rfl) rfl
  exact ⟨_, _, _, p, q, h1, h2, h3, p1, p2, p3⟩

end RM
