import Verif.Props.HoldOut
import Mathlib.MeasureTheory.Function.L2Space
import Mathlib.MeasureTheory.Function.L1Space.Integrable
import Mathlib.MeasureTheory.Integral.Bochner.SumMeasure
import Mathlib.Probability.ProbabilityMassFunction.Integrals
import Mathlib.Probability.Distributions.Uniform

/-! C112: what predictions are worth when the observations are noisy. Exact arithmetic. -/

namespace RM
open Outcome Scalar Spec Matrix MeasureTheory

/-! ### Specification -/

section
variable {Ω : Type} [MeasurableSpace Ω]

/-- The errors `e 0`, …, `e (n - 1)` of the observations have mean zero and variance `v`, and are uncorrelated. -/
structure Spec.WhiteNoise (μ : Measure Ω) (n : ℕ) (v : ℝ) (e : ℕ → Ω → ℝ) : Prop where
  square : ∀ i < n, MemLp (e i) 2 μ
  mean : ∀ i < n, ∫ ω, e i ω ∂μ = 0
  cov : ∀ i < n, ∀ j < n, ∫ ω, e i ω * e j ω ∂μ = if i = j then v else 0

/-- Observations of the function `f` at the rows of `X`, with errors. -/
def Spec.observed (X : Mat ℝ) (f : List ℝ → ℝ) (e : ℕ → ℝ) : List ℝ := (List.range X.rows.length).map fun i => f (X.rows.getD i []) + e i

/-- `Σ cᵢ yᵢ`. -/
def Spec.weighted (c : ℕ → ℝ) (y : List ℝ) : ℝ := ∑ i ∈ Finset.range y.length, c i * y.getD i 0

/-- The random function `f` has the mean `m` and the covariance `k` at the given points. -/
structure Spec.RandomFunction (μ : Measure Ω) (m : List ℝ → ℝ) (k : List ℝ → List ℝ → ℝ) (points : List (List ℝ)) (f : List ℝ → Ω → ℝ) : Prop where
  square : ∀ u ∈ points, MemLp (f u) 2 μ
  mean : ∀ u ∈ points, ∫ ω, f u ω ∂μ = m u
  cov : ∀ u ∈ points, ∀ v ∈ points, ∫ ω, (f u ω - m u) * (f v ω - m v) ∂μ = k u v

end

/-! ### Moments of linear combinations -/

section moments
variable {Ω : Type} [MeasurableSpace Ω] {μ : Measure Ω} [IsProbabilityMeasure μ] {n : ℕ} {r : Fin n → Ω → ℝ}

theorem memLp_combo (h : ∀ i, MemLp (r i) 2 μ) (c : Fin n → ℝ) : MemLp (fun ω => ∑ i, c i * r i ω) 2 μ :=
  memLp_finset_sum (f := fun i ω => c i * r i ω) Finset.univ fun i _ => (h i).const_mul (c i)

theorem integral_combo (h : ∀ i, MemLp (r i) 2 μ) (c : Fin n → ℝ) : ∫ ω, ∑ i, c i * r i ω ∂μ = ∑ i, c i * ∫ ω, r i ω ∂μ := by
  rw [integral_finsetSum _ fun i _ => ((h i).integrable (by norm_num)).const_mul (c i)]
  exact Finset.sum_congr rfl fun i _ => integral_const_mul _ _

theorem integral_mul_combo {u : Ω → ℝ} (hu : MemLp u 2 μ) (h : ∀ i, MemLp (r i) 2 μ) (c : Fin n → ℝ) :
    ∫ ω, u ω * ∑ i, c i * r i ω ∂μ = ∑ i, c i * ∫ ω, u ω * r i ω ∂μ := by
  have e : ∀ ω, u ω * ∑ i, c i * r i ω = ∑ i, c i * (u ω * r i ω) := fun ω => by
    rw [Finset.mul_sum]
    exact Finset.sum_congr rfl fun i _ => by ring
  simp only [e]
  have hi : ∀ i, Integrable (fun ω => u ω * r i ω) μ := fun i => hu.integrable_mul (h i)
  rw [integral_finsetSum _ fun i _ => (hi i).const_mul (c i)]
  exact Finset.sum_congr rfl fun i _ => integral_const_mul _ _

theorem integrable_prod {u v : Ω → ℝ} (hu : MemLp u 2 μ) (hv : MemLp v 2 μ) : Integrable (fun ω => u ω * v ω) μ := hu.integrable_mul hv

/-- The mixed moment of two combinations. -/
theorem quad_moment (h : ∀ i, MemLp (r i) 2 μ) {C : Matrix (Fin n) (Fin n) ℝ} (hC : ∀ i j, ∫ ω, r i ω * r j ω ∂μ = C i j) (c d : Fin n → ℝ) :
    ∫ ω, (∑ i, c i * r i ω) * (∑ i, d i * r i ω) ∂μ = c ⬝ᵥ C.mulVec d := by
  rw [integral_mul_combo (memLp_combo h c) h d, bilin, Finset.sum_comm]
  refine Finset.sum_congr rfl fun j _ => ?_
  simp only [mul_comm _ (r j _)]
  rw [integral_mul_combo (h j) h c, Finset.mul_sum]
  refine Finset.sum_congr rfl fun i _ => ?_
  simp only [mul_comm (r j _)]
  rw [hC]
  ring

/-- Pythagoras. -/
theorem integral_sq_add {u v : Ω → ℝ} (hu : MemLp u 2 μ) (hv : MemLp v 2 μ) (h : ∫ ω, u ω * v ω ∂μ = 0) :
    ∫ ω, (u ω + v ω) ^ 2 ∂μ = ∫ ω, u ω ^ 2 ∂μ + ∫ ω, v ω ^ 2 ∂μ := by
  have e : ∀ ω, (u ω + v ω) ^ 2 = u ω ^ 2 + 2 * (u ω * v ω) + v ω ^ 2 := fun ω => by ring
  have huv : Integrable (fun ω => u ω * v ω) μ := hu.integrable_mul hv
  have h2 : Integrable (fun ω => u ω ^ 2 + 2 * (u ω * v ω)) μ := hu.integrable_sq.add (huv.const_mul 2)
  simp only [e]
  rw [integral_add h2 hv.integrable_sq, integral_add hu.integrable_sq (huv.const_mul 2), integral_const_mul, h]
  ring

/-- The second moment of a combination of white noise. -/
theorem white_sq {v : ℝ} {e : ℕ → Ω → ℝ} (h : WhiteNoise μ n v e) (c d : Fin n → ℝ) :
    ∫ ω, (∑ i, c i * e i ω) * (∑ i, d i * e i ω) ∂μ = v * ∑ i, c i * d i := by
  have hs : ∀ i : Fin n, MemLp (e i) 2 μ := fun i => h.square i i.2
  rw [integral_mul_combo (memLp_combo hs c) hs d, Finset.mul_sum]
  refine Finset.sum_congr rfl fun j _ => ?_
  simp only [mul_comm _ (e j _)]
  rw [integral_mul_combo (hs j) hs c]
  simp only [h.cov j j.2 _ (Fin.is_lt _), mul_ite, mul_zero]
  have : ∀ i : Fin n, (if (j : ℕ) = i then c i * v else 0) = if i = j then c i * v else 0 := fun i => by simp only [Fin.ext_iff, eq_comm]
  simp only [this, Finset.sum_ite_eq', Finset.mem_univ, if_true]
  ring

theorem white_mean {v : ℝ} {e : ℕ → Ω → ℝ} (h : WhiteNoise μ n v e) (c : Fin n → ℝ) : ∫ ω, ∑ i, c i * e i ω ∂μ = 0 := by
  rw [integral_combo (fun i => h.square i i.2)]
  exact Finset.sum_eq_zero fun i _ => by rw [h.mean i i.2, mul_zero]

end moments

theorem observed_length (X : Mat ℝ) (f : List ℝ → ℝ) (e : ℕ → ℝ) : (observed X f e).length = X.rows.length := by simp [observed]

theorem observed_getD (X : Mat ℝ) (f : List ℝ → ℝ) (e : ℕ → ℝ) {i : ℕ} (hi : i < X.rows.length) : (observed X f e).getD i 0 = f (X.rows.getD i []) + e i := by
  rw [List.getD_eq_getElem _ _ (by rw [observed_length]; exact hi)]
  simp [observed]

theorem weighted_observed (X : Mat ℝ) (f : List ℝ → ℝ) (e : ℕ → ℝ) (c : ℕ → ℝ) :
    weighted c (observed X f e) = ∑ i : Fin X.rows.length, c i * f (X.rows.getD i []) + ∑ i : Fin X.rows.length, c i * e i := by
  unfold weighted
  rw [observed_length, Finset.sum_range, ← Finset.sum_add_distrib]
  exact Finset.sum_congr rfl fun i _ => by rw [observed_getD X f e i.2]; ring

/-! ### Linear regression -/

/-- The prediction at `x` is a combination of the targets, with weights that are an affine function of the samples. -/
theorem linear_weights {solve : Mat ℝ → List ℝ → Outcome (List ℝ)} (hs : SolvesExactly solve) (hr : SolvesRegular solve) {X : Mat ℝ} (hX : X.WF)
    (hI : AffinelyIndependent X) {x : List ℝ} (hx : x.length = X.cols) :
    ∃ w : Fin X.rows.length → ℝ, (∃ γ : List ℝ, γ.length = X.cols + 1 ∧ ∀ i, w i = affine γ (X.rows.getD i [])) ∧
      (∀ β : List ℝ, β.length = X.cols + 1 → ∑ i, w i * affine β (X.rows.getD i []) = affine β x) ∧
      ∀ y : List ℝ, y.length = X.rows.length → ∃ β, LinReg.train solve X y = ok ⟨some β⟩ ∧ β.length = X.cols + 1 ∧ affine β x = ∑ i, w i * y.getD i 0 := by
  set A := toM X.rows.length (X.cols + 1) ⟨X.cols + 1, X.rows.map ((1 : ℝ) :: ·)⟩ with hA
  have hu : IsUnit (Aᵀ * A) := by
    rw [← Matrix.mulVec_injective_iff_isUnit]
    intro v w hvw
    obtain ⟨m, hm⟩ := (C48_succeeds_iff hs hr X hX (List.replicate X.rows.length 0) (by simp)).2 hI
    obtain ⟨β, -, -, -, h1, h2⟩ := linTrain_normal hs hX hm
    have h0 : (Aᵀ * A).mulVec (toV _ β + (v - w)) = Aᵀ.mulVec (toV _ (List.replicate X.rows.length 0)) := by
      rw [Matrix.mulVec_add, Matrix.mulVec_sub, hvw, sub_self, add_zero]
      exact h1
    have h3 := h2 _ h0
    rwa [add_eq_left, sub_eq_zero] at h3
  have hdet := (Matrix.isUnit_iff_isUnit_det _).1 hu
  have hrow : ∀ β : List ℝ, β.length = X.cols + 1 → ∀ i : Fin X.rows.length, A.mulVec (toV _ β) i = affine β (X.rows.getD i []) := by
    intro β hb i
    rw [hA, mulVec_row (withOnes_shape hX) hb, ← dot_inner, getD_map_lt _ _ [] _ _ i.2, dot_affine _ _ (by intro h; rw [h] at hb; simp at hb)]
  set xv : Fin (X.cols + 1) → ℝ := fun j => (1 :: x).getD j 0 with hxv
  have hval : ∀ β : List ℝ, β.length = X.cols + 1 → affine β x = xv ⬝ᵥ toV _ β := fun β hb => affine_sum hb hx
  set gv := (Aᵀ * A)⁻¹.mulVec xv with hg
  have hgv : (Aᵀ * A).mulVec gv = xv := by rw [hg, Matrix.mulVec_mulVec, Matrix.mul_nonsing_inv _ hdet, Matrix.one_mulVec]
  refine ⟨A.mulVec gv, ⟨List.ofFn gv, by simp, fun i => ?_⟩, ?_, ?_⟩
  · rw [← hrow _ (by simp), toV_ofFn]
  · intro β hb
    rw [hval β hb, ← hgv, ← Matrix.mulVec_mulVec, Matrix.mulVec_transpose, ← Matrix.dotProduct_mulVec]
    exact Finset.sum_congr rfl fun i _ => by rw [hrow β hb]
  · intro y hy
    obtain ⟨m, hm⟩ := (C48_succeeds_iff hs hr X hX y hy).2 hI
    obtain ⟨β, rfl, -, hb, h1, -⟩ := linTrain_normal hs hX hm
    refine ⟨β, hm, hb, ?_⟩
    have h2 := congrArg (fun v => gv ⬝ᵥ v) h1
    beta_reduce at h2
    rw [Matrix.dotProduct_mulVec, Matrix.dotProduct_mulVec, Matrix.vecMul_transpose, ← Matrix.mulVec_transpose, Matrix.transpose_mul, Matrix.transpose_transpose, hgv] at h2
    rw [hval β hb, h2]
    rfl

theorem weights_unit {X : Mat ℝ} {w : Fin X.rows.length → ℝ} {γ : List ℝ} (hγ : γ.length = X.cols + 1) (hw : ∀ i, w i = affine γ (X.rows.getD i [])) {j : ℕ}
    (hright : ∀ β : List ℝ, β.length = X.cols + 1 → ∑ i, w i * affine β (X.rows.getD i []) = affine β (X.rows.getD j [])) (hj : j < X.rows.length) :
    ∑ i, w i * w i = ∑ i, w i * (unitTargets X.rows.length j).getD i 0 := by
  have h1 : ∑ i, w i * w i = affine γ (X.rows.getD j []) := by
    rw [← hright γ hγ]
    exact Finset.sum_congr rfl fun i _ => by rw [← hw]
  have h2 : ∀ i : Fin X.rows.length, w i * (unitTargets X.rows.length j).getD i 0 = if i = ⟨j, hj⟩ then w i else 0 := fun i => by
    rw [unitTargets_getD i.2]; simp only [Fin.ext_iff, mul_ite, mul_one, mul_zero]
  rw [h1, Finset.sum_congr rfl fun i _ => h2 i, Finset.sum_ite_eq', if_pos (Finset.mem_univ _), hw]

section linear
variable {solve : Mat ℝ → List ℝ → Outcome (List ℝ)} (hs : SolvesExactly solve) (hr : SolvesRegular solve)
  {Ω : Type} [MeasurableSpace Ω] {μ : Measure Ω} [IsProbabilityMeasure μ] {X : Mat ℝ} (hX : X.WF) (hI : AffinelyIndependent X)
  {β : List ℝ} (hβ : β.length = X.cols + 1) {v : ℝ} {e : ℕ → Ω → ℝ} (hn : WhiteNoise μ X.rows.length v e)
include hs hr hX hI hβ hn

/-- **C112 (Gauss-Markov).** Let the targets be values of an affine function observed with uncorrelated errors of mean zero and equal variance. Then the prediction of linear
regression is right on average, and no other combination `Σ cᵢ yᵢ` of the targets that is right for all affine functions has a smaller mean squared error: the error is larger by the
mean squared difference from the prediction. -/
theorem C112_linear {x : List ℝ} (hx : x.length = X.cols) : ∃ (M : Ω → LinReg ℝ) (P : Ω → ℝ),
    (∀ ω, LinReg.train solve X (observed X (affine β) (e · ω)) = ok (M ω) ∧ (M ω).predict ⟨X.cols, [x]⟩ = ok [P ω]) ∧
    Integrable P μ ∧ ∫ ω, P ω ∂μ = affine β x ∧
    ∀ c : ℕ → ℝ, (∀ γ : List ℝ, γ.length = X.cols + 1 → weighted c (observed X (affine γ) 0) = affine γ x) →
      ∫ ω, (weighted c (observed X (affine β) (e · ω)) - affine β x) ^ 2 ∂μ =
        ∫ ω, (P ω - affine β x) ^ 2 ∂μ + ∫ ω, (weighted c (observed X (affine β) (e · ω)) - P ω) ^ 2 ∂μ := by
  obtain ⟨w, ⟨γ, hγ, hw⟩, hright, htrain⟩ := linear_weights hs hr hX hI hx
  choose B hB using fun ω => htrain (observed X (affine β) (e · ω)) (observed_length _ _ _)
  have hP : ∀ ω, affine (B ω) x = affine β x + ∑ i, w i * e i ω := by
    intro ω
    rw [(hB ω).2.2, ← hright β hβ, ← Finset.sum_add_distrib]
    exact Finset.sum_congr rfl fun i _ => by rw [observed_getD _ _ _ i.2]; ring
  have hsq : ∀ i : Fin X.rows.length, MemLp (e i) 2 μ := fun i => hn.square i i.2
  have hint : Integrable (fun ω => ∑ i, w i * e i ω) μ := (memLp_combo hsq w).integrable (by norm_num)
  refine ⟨fun ω => ⟨some (B ω)⟩, fun ω => affine (B ω) x, fun ω => ⟨(hB ω).1, C48_predict _ ⟨X.cols, [x]⟩ (hB ω).2.1⟩, ?_, ?_, ?_⟩
  · simp only [hP]
    exact (integrable_const _).add hint
  · simp only [hP]
    rw [integral_add (integrable_const _) hint, white_mean hn, integral_const]
    simp
  · intro c hc
    have hc' : ∀ γ : List ℝ, γ.length = X.cols + 1 → ∑ i : Fin X.rows.length, c i * affine γ (X.rows.getD i []) = affine γ x := by
      intro γ hγ
      rw [← hc γ hγ, weighted_observed]
      simp
    have e1 : ∀ ω, weighted c (observed X (affine β) (e · ω)) - affine β x = (∑ i, w i * e i ω) + ∑ i : Fin X.rows.length, (c i - w i) * e i ω := by
      intro ω
      rw [weighted_observed, hc' β hβ]
      simp only [sub_mul, Finset.sum_sub_distrib]
      ring
    have e2 : ∀ ω, weighted c (observed X (affine β) (e · ω)) - affine (B ω) x = ∑ i : Fin X.rows.length, (c i - w i) * e i ω := by
      intro ω
      rw [hP]
      linarith [e1 ω]
    simp only [e2]
    simp only [e1, hP, add_sub_cancel_left]
    refine integral_sq_add (memLp_combo hsq w) (memLp_combo hsq fun i => c i - w i) ?_
    rw [white_sq hn]
    simp only [mul_sub, Finset.sum_sub_distrib]
    have h1 : ∑ i : Fin X.rows.length, w i * c i = affine γ x := by
      rw [← hc' γ hγ]
      exact Finset.sum_congr rfl fun i _ => by rw [hw, mul_comm]
    have h2 : ∑ i : Fin X.rows.length, w i * w i = affine γ x := by
      rw [← hright γ hγ]
      exact Finset.sum_congr rfl fun i _ => by rw [← hw]
    rw [h1, h2]
    simp

/-- **C112 (error at a sample).** The mean squared error of the prediction at training sample `i` is the variance of the errors times the leverage of the sample, the prediction
there after training on targets that are 1 for this sample and 0 for the others. -/
theorem C112_leverage {i : ℕ} (hi : i < X.rows.length) : ∃ (M : Ω → LinReg ℝ) (P : Ω → ℝ) (u : LinReg ℝ) (h : ℝ),
    (∀ ω, LinReg.train solve X (observed X (affine β) (e · ω)) = ok (M ω) ∧ (M ω).predict (onlyRow X i) = ok [P ω]) ∧
    LinReg.train solve X (unitTargets X.rows.length i) = ok u ∧ u.predict (onlyRow X i) = ok [h] ∧
    ∫ ω, (P ω - affine β (X.rows.getD i [])) ^ 2 ∂μ = v * h := by
  have hx := getD_row_length hX hi
  obtain ⟨w, ⟨γ, hγ, hw⟩, hright, htrain⟩ := linear_weights hs hr hX hI hx
  choose B hB using fun ω => htrain (observed X (affine β) (e · ω)) (observed_length _ _ _)
  obtain ⟨b, hb1, hb2, hb3⟩ := htrain _ (unitTargets_length X.rows.length i)
  have hP : ∀ ω, affine (B ω) (X.rows.getD i []) = affine β (X.rows.getD i []) + ∑ i, w i * e i ω := by
    intro ω
    rw [(hB ω).2.2, ← hright β hβ, ← Finset.sum_add_distrib]
    exact Finset.sum_congr rfl fun i _ => by rw [observed_getD _ _ _ i.2]; ring
  refine ⟨fun ω => ⟨some (B ω)⟩, fun ω => affine (B ω) (X.rows.getD i []), ⟨some b⟩, affine b (X.rows.getD i []),
    fun ω => ⟨(hB ω).1, C48_predict _ (onlyRow X i) (hB ω).2.1⟩, hb1, C48_predict _ (onlyRow X i) hb2, ?_⟩
  simp only [hP, add_sub_cancel_left, sq]
  rw [white_sq hn, hb3, ← weights_unit hγ hw hright hi]

/-- **C112 (residuals).** The mean of the sum of the squared errors on the training data is the variance of the errors times the number of samples minus the number of parameters. -/
theorem C112_residuals : ∃ (M : Ω → LinReg ℝ) (p : Ω → List ℝ),
    (∀ ω, LinReg.train solve X (observed X (affine β) (e · ω)) = ok (M ω) ∧ (M ω).predict X = ok (p ω)) ∧
    ∫ ω, squaredErrors (observed X (affine β) (e · ω)) (p ω) ∂μ = v * (X.rows.length - (X.cols + 1)) := by
  have hB : ∀ ω, ∃ b, LinReg.train solve X (observed X (affine β) (e · ω)) = ok ⟨some b⟩ ∧ b.length = X.cols + 1 := by
    intro ω
    obtain ⟨m, hm⟩ := (C48_succeeds_iff hs hr X hX _ (observed_length X (affine β) (e · ω))).2 hI
    obtain ⟨b, rfl, -, hb, -⟩ := linTrain_normal hs hX hm
    exact ⟨b, hm, hb⟩
  choose B hB using hB
  refine ⟨fun ω => ⟨some (B ω)⟩, fun ω => X.rows.map (affine (B ω)), fun ω => ⟨(hB ω).1, C48_predict _ X (hB ω).2⟩, ?_⟩
  obtain ⟨h, h1, h2⟩ := C111_leverages hs hr hX hI
  have hsum : ∀ ω, squaredErrors (observed X (affine β) (e · ω)) (X.rows.map (affine (B ω))) =
      ∑ j : Fin X.rows.length, (affine β (X.rows.getD j []) + e j ω - affine (B ω) (X.rows.getD j [])) ^ 2 := by
    intro ω
    rw [squaredErrors_affine]
    unfold rss
    rw [zipWith_sum_fin rfl (observed_length _ _ _)]
    exact Finset.sum_congr rfl fun j _ => by rw [observed_getD _ _ _ j.2]
  have hone : ∀ j : Fin X.rows.length, ∃ d : Fin X.rows.length → ℝ, (∀ ω, affine β (X.rows.getD j []) + e j ω - affine (B ω) (X.rows.getD j []) = ∑ i, d i * e i ω) ∧
      ∑ i, d i * d i = 1 - h j := by
    intro j
    obtain ⟨w, ⟨γ, hγ, hw⟩, hright, htrain⟩ := linear_weights hs hr hX hI (getD_row_length hX j.2)
    refine ⟨fun i => (if i = j then 1 else 0) - w i, ?_, ?_⟩
    · intro ω
      obtain ⟨b, b1, b2, b3⟩ := htrain (observed X (affine β) (e · ω)) (observed_length _ _ _)
      rw [(hB ω).1] at b1
      injection b1 with b1
      injection b1 with b1
      injection b1 with b1
      rw [b1, b3, ← hright β hβ]
      simp only [sub_mul, Finset.sum_sub_distrib, ite_mul, one_mul, zero_mul, Finset.sum_ite_eq', Finset.mem_univ, if_true]
      have : ∀ i : Fin X.rows.length, w i * (observed X (affine β) (e · ω)).getD i 0 = w i * affine β (X.rows.getD i []) + w i * e i ω := fun i => by
        rw [observed_getD _ _ _ i.2]; ring
      simp only [this, Finset.sum_add_distrib]
      ring
    · obtain ⟨-, -, u, hu1, hu2⟩ := h1 j j.2
      obtain ⟨b, b1, b2, b3⟩ := htrain _ (unitTargets_length X.rows.length j)
      rw [b1] at hu1
      injection hu1 with hu1
      subst hu1
      have h3 := C48_predict b (onlyRow X j) b2
      rw [hu2] at h3
      simp only [onlyRow, List.map_cons, List.map_nil] at h3
      injection h3 with h3
      injection h3 with h3
      have h4 : w j = h j := by
        rw [h3, b3]
        have : ∀ i : Fin X.rows.length, w i * (unitTargets X.rows.length j).getD i 0 = if i = j then w i else 0 := fun i => by
          rw [unitTargets_getD i.2]; simp only [Fin.ext_iff, mul_ite, mul_one, mul_zero]
        simp only [this, Finset.sum_ite_eq', Finset.mem_univ, if_true]
      have h5 : ∑ i, w i * w i = h j := by
        rw [weights_unit hγ hw hright j.2, ← b3, ← h3]
      have h6 : ∀ i : Fin X.rows.length, ((if i = j then (1 : ℝ) else 0) - w i) * ((if i = j then (1 : ℝ) else 0) - w i) =
          (if i = j then 1 - 2 * w i else 0) + w i * w i := fun i => by split <;> ring
      simp only [h6, Finset.sum_add_distrib, Finset.sum_ite_eq', Finset.mem_univ, if_true]
      rw [h5, h4]
      ring
  choose d hd1 hd2 using hone
  simp only [hsum, hd1]
  rw [integral_finsetSum _ fun j _ => (memLp_combo (fun i => hn.square i i.2) (d j)).integrable_sq]
  simp only [sq, white_sq hn, hd2]
  rw [← Finset.mul_sum, Finset.sum_sub_distrib, ← Finset.sum_range (f := h), h2]
  simp

end linear

/-! ### Gaussian processes -/

section gp
variable {lib : TriLib ℝ} (hl : TriLibOk lib) {g : Gp ℝ} {k : List ℝ → List ℝ → ℝ} (hk : IsKernel g.ker k) {m : List ℝ → ℝ}
  (hm : ∀ Z : Mat ℝ, g.mean Z = Z.rows.map m) (hnoise : 0 < g.noise) {X : Mat ℝ} (hX : X.WF) {z : List ℝ} (hz : z.length = X.cols)
  {Ω : Type} [MeasurableSpace Ω] {μ : Measure Ω} [IsProbabilityMeasure μ] {f : List ℝ → Ω → ℝ} {e : ℕ → Ω → ℝ}
  (hf : RandomFunction μ m k (z :: X.rows) f) (hn : WhiteNoise μ X.rows.length g.noise e)
  (hfe : ∀ u ∈ z :: X.rows, ∀ i < X.rows.length, ∫ ω, (f u ω - m u) * e i ω ∂μ = 0)
include hl hk hm hnoise hX hz hf hn hfe

/-- **C112 (Gaussian processes).** Let the targets be observations of a random function whose mean is the mean function of the process and whose covariance is its kernel, with
uncorrelated errors of mean zero whose variance is the noise of the process. Then training succeeds. The prediction is right on average, and the posterior variance, which does not
depend on the observations, is its mean squared error. No other prediction `c₀ + Σ cᵢ yᵢ` has a smaller one: its mean squared error is larger by the mean squared difference. -/
theorem C112_gp : ∃ (G : Ω → Gp ℝ) (P : Ω → ℝ) (v : ℝ),
    (∀ ω, g.train lib X (observed X (f · ω) (e · ω)) = ok (G ω) ∧ (G ω).predict ⟨X.cols, [z]⟩ = ok [P ω] ∧
      (G ω).posterior lib ⟨X.cols, [z]⟩ = ok ([P ω], ⟨1, [[v]]⟩)) ∧
    Integrable P μ ∧ ∫ ω, P ω ∂μ = m z ∧ ∫ ω, (f z ω - P ω) ^ 2 ∂μ = v ∧
    ∀ (c₀ : ℝ) (c : ℕ → ℝ), ∫ ω, (f z ω - (c₀ + weighted c (observed X (f · ω) (e · ω)))) ^ 2 ∂μ =
      v + ∫ ω, (c₀ + weighted c (observed X (f · ω) (e · ω)) - P ω) ^ 2 ∂μ := by
  set A := noisyGram k g.noise X with hA
  have hms : MeanSized g.mean := fun Z => by rw [hm]; simp
  have hrow : ∀ i : Fin X.rows.length, X.rows.getD i [] ∈ z :: X.rows := fun i => by
    rw [List.getD_eq_getElem _ _ i.2]
    exact List.mem_cons_of_mem _ (List.getElem_mem i.2)
  -- the centred values and observations
  set s : Ω → ℝ := fun ω => f z ω - m z with hs
  set q : Fin X.rows.length → Ω → ℝ := fun i ω => f (X.rows.getD i []) ω - m (X.rows.getD i []) with hq
  set r : Fin X.rows.length → Ω → ℝ := fun i ω => q i ω + e i ω with hr
  have sL : MemLp s 2 μ := (hf.square z (by simp)).sub (memLp_const _)
  have qL : ∀ i, MemLp (q i) 2 μ := fun i => (hf.square _ (hrow i)).sub (memLp_const _)
  have eL : ∀ i : Fin X.rows.length, MemLp (e i) 2 μ := fun i => hn.square i i.2
  have rL : ∀ i, MemLp (r i) 2 μ := fun i => (qL i).add (eL i)
  have centred : ∀ u ∈ z :: X.rows, ∫ ω, f u ω - m u ∂μ = 0 := by
    intro u hu
    rw [integral_sub ((hf.square u hu).integrable (by norm_num)) (integrable_const _), hf.mean u hu, integral_const]
    simp
  have s0 : ∫ ω, s ω ∂μ = 0 := centred z (by simp)
  have r0 : ∀ i, ∫ ω, r i ω ∂μ = 0 := by
    intro i
    rw [integral_add ((qL i).integrable (by norm_num)) ((eL i).integrable (by norm_num)), centred _ (hrow i), hn.mean i i.2, add_zero]
  have sr : ∀ i, ∫ ω, s ω * r i ω ∂μ = k z (X.rows.getD i []) := by
    intro i
    simp only [hr, mul_add]
    rw [integral_add (integrable_prod sL (qL i)) (integrable_prod sL (eL i)), hfe z (by simp) i i.2, add_zero]
    exact hf.cov z (by simp) _ (hrow i)
  have qq : ∀ i j, ∫ ω, q i ω * q j ω ∂μ = gram k X X i j := fun i j => hf.cov _ (hrow i) _ (hrow j)
  have rr : ∀ i j, ∫ ω, r i ω * r j ω ∂μ = A i j := by
    intro i j
    have e1 : ∀ ω, r i ω * r j ω = ((q i ω * q j ω + q i ω * e j ω) + q j ω * e i ω) + e i ω * e j ω := fun ω => by simp only [hr]; ring
    have i1 : Integrable (fun ω => q i ω * q j ω + q i ω * e j ω) μ := (integrable_prod (qL i) (qL j)).add (integrable_prod (qL i) (eL j))
    have i2 : Integrable (fun ω => (q i ω * q j ω + q i ω * e j ω) + q j ω * e i ω) μ := i1.add (integrable_prod (qL j) (eL i))
    simp only [e1]
    rw [integral_add i2 (integrable_prod (eL i) (eL j)), integral_add i1 (integrable_prod (qL j) (eL i)),
      integral_add (integrable_prod (qL i) (qL j)) (integrable_prod (qL i) (eL j)), hfe _ (hrow i) j j.2, hfe _ (hrow j) i i.2, hn.cov i i.2 j j.2, qq, hA]
    unfold noisyGram
    rw [Matrix.add_apply, Matrix.smul_apply, Matrix.one_apply]
    simp only [Fin.ext_iff, smul_eq_mul, mul_ite, mul_one, mul_zero, add_zero]
  -- the observations have a positive definite covariance
  have hpd : PosDefinite A := by
    refine ⟨noisyGram_symm hk hX _, fun c hc => ?_⟩
    have h1 : 0 ≤ c ⬝ᵥ (gram k X X).mulVec c := by
      rw [← quad_moment qL qq c c]
      exact integral_nonneg fun ω => mul_self_nonneg _
    have h2 : 0 < c ⬝ᵥ c := by
      obtain ⟨i, hi⟩ := Function.ne_iff.1 hc
      exact Finset.sum_pos' (fun j _ => mul_self_nonneg (c j)) ⟨i, Finset.mem_univ _, mul_self_pos.2 hi⟩
    rw [hA]
    unfold noisyGram
    rw [Matrix.add_mulVec, Matrix.smul_mulVec, Matrix.one_mulVec, dotProduct_add, dotProduct_smul, smul_eq_mul]
    nlinarith [mul_pos hnoise h2]
  have hdet : IsUnit A.det := isUnit_iff_ne_zero.2 (posDefinite_det hpd)
  choose G hG using fun ω => (C59_train_iff hl hk hms hX (observed_length X (f · ω) (e · ω))).1.2 hpd
  have hzwf : (⟨X.cols, [z]⟩ : Mat ℝ).WF := by
    intro row h
    simp only [List.mem_singleton] at h
    rw [h, hz]
  set kz : Fin X.rows.length → ℝ := fun i => k z (X.rows.getD i []) with hkz
  set w : Fin X.rows.length → ℝ := Matrix.vecMul kz A⁻¹ with hw
  have hAw : A.mulVec w = kz := by
    have : Matrix.vecMul w A = kz := by rw [hw, Matrix.vecMul_vecMul, Matrix.nonsing_inv_mul _ hdet, Matrix.vecMul_one]
    rw [← this, ← hpd.1, Matrix.vecMul_transpose, hpd.1]
  have hPost : ∀ ω, (G ω).predict ⟨X.cols, [z]⟩ = ok [m z + ∑ i, w i * r i ω] ∧
      (G ω).posterior lib ⟨X.cols, [z]⟩ = ok ([m z + ∑ i, w i * r i ω], ⟨1, [[k z z - w ⬝ᵥ kz]]⟩) := by
    intro ω
    obtain ⟨p, S, p1, p2, p3, p4, -⟩ := C59_posterior hl hk hms hX (hG ω) hzwf rfl
    obtain ⟨p', p1', p2', p3'⟩ := C59_predict hl hk hms hX (hG ω) hzwf rfl
    rw [p1] at p1'
    injection p1' with p1'
    subst p1'
    have hp : p = [m z + ∑ i, w i * r i ω] := by
      obtain ⟨a, rfl⟩ := List.length_eq_one_iff.1 p2'
      have := congrFun p3' (⟨0, by simp⟩ : Fin (⟨X.cols, [z]⟩ : Mat ℝ).rows.length)
      simp only [toV, Pi.add_apply, List.getD_cons_zero, hm, List.map_cons, List.map_nil] at this
      rw [this]
      congr 2
      have hres : (toV X.rows.length (observed X (f · ω) (e · ω)) - toV X.rows.length (X.rows.map m)) = fun i => r i ω := by
        funext i
        simp only [toV, Pi.sub_apply]
        rw [observed_getD _ _ _ i.2, getD_map_lt _ _ [] _ _ i.2]
        simp only [hr, hq]
        ring
      change kz ⬝ᵥ A⁻¹.mulVec (toV X.rows.length (observed X (f · ω) (e · ω)) - toV X.rows.length (X.rows.map m)) = _
      rw [hres, Matrix.dotProduct_mulVec]
      rfl
    have hS : S = ⟨1, [[k z z - w ⬝ᵥ kz]]⟩ := by
      rw [onlyRow_shape p3]
      have := congrFun (congrFun p4 (⟨0, by simp⟩ : Fin (⟨X.cols, [z]⟩ : Mat ℝ).rows.length)) (⟨0, by simp⟩ : Fin (⟨X.cols, [z]⟩ : Mat ℝ).rows.length)
      have e1 : ent S 0 0 = k z z - w ⬝ᵥ kz := by
        refine (show ent S 0 0 = _ from this).trans ?_
        rw [Matrix.sub_apply]
        congr 1
        change w ⬝ᵥ (fun j => k (X.rows.getD j []) z) = _
        congr 1
        funext j
        exact hk.symm _ _ ((getD_row_length hX j.2).trans hz.symm)
      rw [e1]
    rw [p1, p2, hp, hS]
    exact ⟨rfl, rfl⟩
  set u : Ω → ℝ := fun ω => s ω - ∑ i, w i * r i ω with hu
  have wL : MemLp (fun ω => ∑ i, w i * r i ω) 2 μ := memLp_combo rL w
  have uL : MemLp u 2 μ := sL.sub wL
  have wr : ∀ j, ∫ ω, (∑ i, w i * r i ω) * r j ω ∂μ = kz j := by
    intro j
    simp only [mul_comm _ (r j _)]
    rw [integral_mul_combo (rL j) rL w, ← hAw]
    simp only [Matrix.mulVec, dotProduct, rr, mul_comm]
  have ur : ∀ j, ∫ ω, u ω * r j ω ∂μ = 0 := by
    intro j
    simp only [hu, sub_mul]
    rw [integral_sub (integrable_prod sL (rL j)) (integrable_prod wL (rL j)), sr, wr, hkz, sub_self]
  have w0 : ∫ ω, ∑ i, w i * r i ω ∂μ = 0 := by
    rw [integral_combo rL]
    exact Finset.sum_eq_zero fun i _ => by rw [r0, mul_zero]
  have u0 : ∫ ω, u ω ∂μ = 0 := by
    simp only [hu]
    rw [integral_sub (sL.integrable (by norm_num)) (wL.integrable (by norm_num)), s0, w0, sub_self]
  have uu : ∫ ω, u ω ^ 2 ∂μ = k z z - w ⬝ᵥ kz := by
    have e1 : ∀ ω, u ω ^ 2 = u ω * s ω - u ω * ∑ i, w i * r i ω := fun ω => by simp only [hu]; ring
    have e2 : ∀ ω, u ω * s ω = s ω * s ω - s ω * ∑ i, w i * r i ω := fun ω => by simp only [hu]; ring
    have h1 : ∫ ω, u ω * ∑ i, w i * r i ω ∂μ = 0 := by
      rw [integral_mul_combo uL rL]
      exact Finset.sum_eq_zero fun i _ => by rw [ur, mul_zero]
    have h2 : ∫ ω, s ω * s ω ∂μ = k z z := hf.cov z (by simp) z (by simp)
    simp only [e1]
    rw [integral_sub (integrable_prod uL sL) (integrable_prod uL wL), h1, sub_zero]
    simp only [e2]
    rw [integral_sub (integrable_prod sL sL) (integrable_prod sL wL), h2, integral_mul_combo sL rL]
    simp only [sr]
    rfl
  refine ⟨G, fun ω => m z + ∑ i, w i * r i ω, k z z - w ⬝ᵥ kz, fun ω => ⟨hG ω, hPost ω⟩, (integrable_const _).add (wL.integrable (by norm_num)), ?_, ?_, ?_⟩
  · rw [integral_add (integrable_const _) (wL.integrable (by norm_num)), w0, integral_const]
    simp
  · rw [← uu]
    refine integral_congr_ae (Filter.Eventually.of_forall fun ω => ?_)
    simp only [hu, hs]
    ring
  · intro c₀ c
    set D := c₀ + ∑ i : Fin X.rows.length, c i * m (X.rows.getD i []) - m z with hD
    set t : Ω → ℝ := fun ω => -D + ∑ i, (w i - c i) * r i ω with ht
    have tL' : MemLp (fun ω => ∑ i, (w i - c i) * r i ω) 2 μ := memLp_combo rL fun i => w i - c i
    have tL : MemLp t 2 μ := (memLp_const (-D)).add tL'
    have hwt : ∀ ω, weighted c (observed X (f · ω) (e · ω)) = ∑ i : Fin X.rows.length, c i * m (X.rows.getD i []) + ∑ i : Fin X.rows.length, c i * r i ω := by
      intro ω
      rw [weighted_observed, ← Finset.sum_add_distrib, ← Finset.sum_add_distrib]
      exact Finset.sum_congr rfl fun i _ => by simp only [hr, hq]; ring
    have e1 : ∀ ω, f z ω - (c₀ + weighted c (observed X (f · ω) (e · ω))) = u ω + t ω := by
      intro ω
      rw [hwt]
      simp only [hu, ht, hs, hD, sub_mul, Finset.sum_sub_distrib]
      ring
    have e2 : ∀ ω, (c₀ + weighted c (observed X (f · ω) (e · ω)) - (m z + ∑ i, w i * r i ω)) ^ 2 = t ω ^ 2 := by
      intro ω
      rw [hwt]
      simp only [ht, hD, sub_mul, Finset.sum_sub_distrib]
      ring
    have hut : ∫ ω, u ω * t ω ∂μ = 0 := by
      have i1 : Integrable u μ := uL.integrable (by norm_num)
      simp only [ht, mul_add]
      rw [integral_add (i1.mul_const _) (integrable_prod uL tL'), integral_mul_const, u0, zero_mul, integral_mul_combo uL rL, zero_add]
      exact Finset.sum_eq_zero fun i _ => by rw [ur, mul_zero]
    simp only [e1, e2]
    rw [integral_sq_add uL tL hut, uu]

end gp

/-! ### Examples -/

/-- Four equally likely outcomes. -/
noncomputable def fourOutcomes : Measure (Fin 4) := (PMF.uniformOfFintype (Fin 4)).toMeasure

instance : IsProbabilityMeasure fourOutcomes := by unfold fourOutcomes; infer_instance

theorem fourOutcomes_integral (f : Fin 4 → ℝ) : ∫ ω, f ω ∂fourOutcomes = (f 0 + f 1 + f 2 + f 3) / 4 := by
  unfold fourOutcomes
  rw [PMF.integral_eq_sum]
  simp [PMF.uniformOfFintype_apply, Fin.sum_univ_four]
  ring

/-- Errors that are 1 or -1, any two of them independent. -/
def signErrors (i : ℕ) (ω : Fin 4) : ℝ := (([[1, -1, 1, -1], [1, 1, -1, -1], [1, -1, -1, 1]] : List (List ℝ)).getD i []).getD ω 0

theorem signErrors_white {n : ℕ} (h : n ≤ 3) : WhiteNoise fourOutcomes n 1 signErrors := by
  refine ⟨fun i _ => .of_discrete, ?_, ?_⟩
  · intro i hi
    rw [fourOutcomes_integral]
    have : i = 0 ∨ i = 1 ∨ i = 2 := by omega
    rcases this with rfl | rfl | rfl <;> norm_num [signErrors]
  · intro i hi j hj
    rw [fourOutcomes_integral]
    have h1 : i = 0 ∨ i = 1 ∨ i = 2 := by omega
    have h2 : j = 0 ∨ j = 1 ∨ j = 2 := by omega
    rcases h1 with rfl | rfl | rfl <;> rcases h2 with rfl | rfl | rfl <;> norm_num [signErrors]

/-- The line `1 + 2 x` observed at three points with such errors: the prediction at 5 is 11 on average, and the mean sum of the squared errors on the training data is 1. -/
example : (∃ (M : Fin 4 → LinReg ℝ) (P : Fin 4 → ℝ),
      (∀ ω, LinReg.train (gaussSolve 0) ⟨1, [[0], [1], [2]]⟩ (observed ⟨1, [[0], [1], [2]]⟩ (affine [1, 2]) (signErrors · ω)) = ok (M ω) ∧
        (M ω).predict ⟨1, [[5]]⟩ = ok [P ω]) ∧ ∫ ω, P ω ∂fourOutcomes = 11) ∧
    ∃ (M : Fin 4 → LinReg ℝ) (p : Fin 4 → List ℝ),
      (∀ ω, LinReg.train (gaussSolve 0) ⟨1, [[0], [1], [2]]⟩ (observed ⟨1, [[0], [1], [2]]⟩ (affine [1, 2]) (signErrors · ω)) = ok (M ω) ∧
        (M ω).predict ⟨1, [[0], [1], [2]]⟩ = ok (p ω)) ∧
      ∫ ω, squaredErrors (observed ⟨1, [[0], [1], [2]]⟩ (affine [1, 2]) (signErrors · ω)) (p ω) ∂fourOutcomes = 1 := by
  have hX : (⟨1, [[0], [1], [2]]⟩ : Mat ℝ).WF := by intro r hr; simp at hr; rcases hr with rfl | rfl | rfl <;> rfl
  constructor
  · obtain ⟨M, P, h1, -, h2, -⟩ := C112_linear (gaussSolve_exact 0 le_rfl) gaussSolve_regular hX line_independent (β := [1, 2]) rfl (signErrors_white (le_refl 3)) (x := [5]) rfl
    refine ⟨M, P, h1, ?_⟩
    rw [h2]
    norm_num [affine, Spec.inner]
  · obtain ⟨M, p, h1, h2⟩ := C112_residuals (gaussSolve_exact 0 le_rfl) gaussSolve_regular hX line_independent (β := [1, 2]) rfl (signErrors_white (le_refl 3))
    refine ⟨M, p, h1, ?_⟩
    rw [h2]
    norm_num

theorem linear_value (u v : List ℝ) : kernelValue (linearKernel 0) u v = dot u v := by
  simp [kernelValue, linearKernel]

/-- A random line through the origin observed at 1 with an error of variance 1: the mean squared error of every prediction at 2 from the observation is at least the posterior variance,
and the posterior variance is the mean squared error of the prediction. -/
example : ∃ (G : Fin 4 → Gp ℝ) (P : Fin 4 → ℝ) (v : ℝ),
    (∀ ω, (⟨linearKernel 0, constMean 0, 1, none, none, none⟩ : Gp ℝ).train exactLib ⟨1, [[1]]⟩ (observed ⟨1, [[1]]⟩ (fun u => u.headD 0 * signErrors 1 ω) (signErrors · ω)) = ok (G ω) ∧
      (G ω).posterior exactLib ⟨1, [[2]]⟩ = ok ([P ω], ⟨1, [[v]]⟩)) ∧ ∫ ω, (2 * signErrors 1 ω - P ω) ^ 2 ∂fourOutcomes = v ∧
    ∀ c₀ c : ℝ, v ≤ ∫ ω, (2 * signErrors 1 ω - (c₀ + c * (signErrors 1 ω + signErrors 0 ω))) ^ 2 ∂fourOutcomes := by
  have hX : (⟨1, [[1]]⟩ : Mat ℝ).WF := by intro r hr; simp at hr; subst hr; rfl
  have hf : RandomFunction fourOutcomes (fun _ => 0) (kernelValue (linearKernel 0)) [[2], [1]] fun u ω => u.headD 0 * signErrors 1 ω := by
    refine ⟨fun u _ => .of_discrete, ?_, ?_⟩
    · intro u _
      rw [fourOutcomes_integral]
      norm_num [signErrors]
    · intro u hu v hv
      rw [fourOutcomes_integral, linear_value]
      simp only [List.mem_cons, List.not_mem_nil, or_false] at hu hv
      rcases hu with rfl | rfl <;> rcases hv with rfl | rfl <;> norm_num [signErrors, dot_inner, Spec.inner]
  obtain ⟨G, P, v, h1, -, -, h2, h3⟩ := C112_gp exactLib_ok (g := ⟨linearKernel 0, constMean 0, 1, none, none, none⟩) (m := fun _ => 0) (z := [2])
    (C59_kernels (.linear 0)) (by intro Z; simp [constMean]) one_pos hX rfl hf (signErrors_white (by decide)) (by
      intro u _ i hi
      obtain rfl : i = 0 := by simpa using hi
      rw [fourOutcomes_integral]
      norm_num [signErrors])
  refine ⟨G, P, v, fun ω => ⟨(h1 ω).1, (h1 ω).2.2⟩, by simpa using h2, fun c₀ c => ?_⟩
  have h4 := h3 c₀ fun _ => c
  have h5 : ∀ ω, weighted (fun _ => c) (observed ⟨1, [[1]]⟩ (fun u => u.headD 0 * signErrors 1 ω) (signErrors · ω)) = c * (signErrors 1 ω + signErrors 0 ω) := by
    intro ω
    rw [weighted_observed]
    simp
    ring
  simp only [h5, List.headD_cons] at h4
  rw [h4]
  exact le_add_of_nonneg_right (integral_nonneg fun ω => sq_nonneg _)

end RM
