import Mathlib.Probability.Distributions.Exponential
import Mathlib.Probability.Distributions.Gaussian.Real
import Verif.Props.DistAccuracy

/-! C78: the samples drawn from the distributions have these distributions.

The generator is a random variable: the raw draws of `Exp1` and `StandardNormal` (crate `rand`, external) are assumed to follow
the standard exponential and the standard normal distribution. -/

namespace RM
open Outcome Scalar Spec MeasureTheory ProbabilityTheory

section
variable {Ω : Type} [MeasurableSpace Ω] {P : Measure Ω}

theorem exp_scale {lam : ℝ} (hl : 0 < lam) : (expMeasure 1).map (fun n => n / lam) = expMeasure lam := by
  haveI := isProbabilityMeasure_expMeasure (zero_lt_one (α := ℝ))
  haveI := isProbabilityMeasure_expMeasure hl
  have hmeas : Measurable fun n : ℝ => n / lam := measurable_id.div_const lam
  haveI := Measure.isProbabilityMeasure_map (μ := expMeasure 1) hmeas.aemeasurable
  apply Measure.eq_of_cdf
  ext x
  rw [cdf_expMeasure_eq hl, cdf_eq_real, map_measureReal_apply hmeas measurableSet_Iic]
  have : (fun n : ℝ => n / lam) ⁻¹' Set.Iic x = Set.Iic (lam * x) := by
    ext n
    simp only [Set.mem_preimage, Set.mem_Iic, div_le_iff₀ hl, mul_comm]
  rw [this, ← cdf_eq_real, cdf_expMeasure_eq zero_lt_one, one_mul]
  simp only [mul_nonneg_iff_of_pos_left hl]

/-- **C78 (exponential).** The samples have the exponential distribution with the given rate: the probability of a sample below `x`
is what `cdf` returns, and the probability of a set of non-negative numbers is the integral of what `pdf` returns. -/
theorem C78_exponential {N : Ω → ℝ} (hN : HasLaw N (expMeasure 1) P) {lam : ℝ} (hl : 0 < lam) :
    HasLaw (fun ω => (ExpDist.mk lam).sample (N ω)) (expMeasure lam) P ∧
    (∀ x c, (ExpDist.mk lam).cdf x = ok c → P.real {ω | (ExpDist.mk lam).sample (N ω) ≤ x} = c) ∧
    (∀ p : ℝ → ℝ, (∀ x, 0 ≤ x → (ExpDist.mk lam).pdf x = ok (p x)) → ∀ s, MeasurableSet s → s ⊆ Set.Ici 0 →
      P {ω | (ExpDist.mk lam).sample (N ω) ∈ s} = ∫⁻ x in s, ENNReal.ofReal (p x)) ∧
    P {ω | (ExpDist.mk lam).sample (N ω) < 0} = 0 := by
  have hlaw : HasLaw (fun ω => (ExpDist.mk lam).sample (N ω)) (expMeasure lam) P := by
    have hmeas : Measurable fun n : ℝ => n / lam := measurable_id.div_const lam
    refine ⟨hmeas.comp_aemeasurable hN.aemeasurable, ?_⟩
    have := AEMeasurable.map_map_of_aemeasurable (μ := P) hmeas.aemeasurable hN.aemeasurable
    rw [hN.map_eq, exp_scale hl] at this
    exact this.symm
  haveI := isProbabilityMeasure_expMeasure hl
  have hset : ∀ s, MeasurableSet s → P {ω | (ExpDist.mk lam).sample (N ω) ∈ s} = expMeasure lam s := fun s hs => by
    rw [← hlaw.map_eq, Measure.map_apply_of_aemeasurable hlaw.aemeasurable hs]
    rfl
  refine ⟨hlaw, ?_, ?_, ?_⟩
  · intro x c hc
    have h1 : P.real {ω | (ExpDist.mk lam).sample (N ω) ≤ x} = cdf (expMeasure lam) x := by
      rw [cdf_eq_real, Measure.real, Measure.real, ← hset _ measurableSet_Iic]
      rfl
    rw [h1, cdf_expMeasure_eq hl]
    unfold ExpDist.cdf at hc
    by_cases hx : 0 ≤ x
    · have h2 : (Scalar.zero <=. x) = true := by simpa using hx
      rw [h2] at hc
      rw [if_pos hx]
      injection hc with hc
      rw [← hc]
      simp [mul_comm]
    · have h2 : (Scalar.zero <=. x) = false := by simpa using hx
      rw [h2] at hc
      cases hc
  · intro p hp s hs h0
    rw [hset s hs, expMeasure, gammaMeasure, withDensity_apply _ hs]
    refine setLIntegral_congr_fun hs fun x hx => ?_
    have hx0 : 0 ≤ x := h0 hx
    have h1 := hp x hx0
    unfold ExpDist.pdf at h1
    have h2 : (Scalar.zero <=. x) = true := by simpa using hx0
    rw [h2] at h1
    injection h1 with h1
    rw [← h1]
    show exponentialPDF lam x = _
    rw [exponentialPDF_of_nonneg hx0]
    congr 1
    simp only [real_mul, real_exp, real_neg]
    rw [mul_comm, neg_mul, mul_comm x]
  · have := hset (Set.Iio 0) measurableSet_Iio
    rw [expMeasure, gammaMeasure, withDensity_apply _ measurableSet_Iio] at this
    refine this.trans ?_
    exact lintegral_exponentialPDF_of_nonpos (le_refl 0)

/-- **C78 (gaussian).** The samples have the normal distribution with the given mean and variance: mean and variance of the samples
are those of the distribution, the probability of a set is the integral of `pdf` up to `10^-20` (rounding of a decimal constant) and
the probability of a sample below `x` is `cdf x` up to 0.0032 (see C65). -/
theorem C78_gaussian {N : Ω → ℝ} (hN : HasLaw N (gaussianReal 0 1) P) (m : ℝ) {v : ℝ} (hv : 0 < v) :
    HasLaw (fun ω => (GaussDist.new m v).sample (N ω)) (gaussianReal m v.toNNReal) P ∧
    (∫ ω, (GaussDist.new m v).sample (N ω) ∂P = m) ∧ Var[fun ω => (GaussDist.new m v).sample (N ω); P] = v ∧
    (∀ s, MeasurableSet s → |P.real {ω | (GaussDist.new m v).sample (N ω) ∈ s} - ∫ x in s, (GaussDist.new m v).pdf x| ≤ 1 / 10 ^ 20) ∧
    (∀ x, P.real {ω | (GaussDist.new m v).sample (N ω) ≤ x} = normalCdf m v x) ∧
    ∀ x, |P.real {ω | (GaussDist.new m v).sample (N ω) ≤ x} - (GaussDist.new m v).cdf x| ≤ 0.0032 := by
  have hsq : Real.sqrt v ^ 2 = v := Real.sq_sqrt hv.le
  have hlaw : HasLaw (fun ω => (GaussDist.new m v).sample (N ω)) (gaussianReal m v.toNNReal) P := by
    have h1 := gaussianReal_const_add (gaussianReal_const_mul hN (Real.sqrt v)) m
    have e : (NNReal.mk (Real.sqrt v ^ 2) (sq_nonneg _) * 1 : NNReal) = v.toNNReal := by
      rw [mul_one]
      exact NNReal.eq (hsq.trans (Real.coe_toNNReal v hv.le).symm)
    rw [mul_zero, zero_add, e] at h1
    exact h1
  have hv0 : v.toNNReal ≠ 0 := fun h => hv.not_ge (Real.toNNReal_eq_zero.mp h)
  have hset : ∀ s, MeasurableSet s → P.real {ω | (GaussDist.new m v).sample (N ω) ∈ s} = ∫ x in s, gaussianPDFReal m v.toNNReal x := by
    intro s hs
    have h1 : P {ω | (GaussDist.new m v).sample (N ω) ∈ s} = gaussianReal m v.toNNReal s := by
      rw [← hlaw.map_eq, Measure.map_apply_of_aemeasurable hlaw.aemeasurable hs]
      rfl
    rw [Measure.real, h1, gaussianReal_apply_eq_integral m hv0, ENNReal.toReal_ofReal]
    exact setIntegral_nonneg hs fun x _ => gaussianPDFReal_nonneg _ _ _
  have hcdf : ∀ x, P.real {ω | (GaussDist.new m v).sample (N ω) ≤ x} = normalCdf m v x := by
    intro x
    refine (hset (Set.Iic x) measurableSet_Iic).trans ?_
    unfold normalCdf gaussianPDFReal
    refine integral_congr_ae (Filter.Eventually.of_forall fun t => ?_)
    simp only [Real.coe_toNNReal v hv.le]
    rw [mul_comm]
    rfl
  refine ⟨hlaw, ?_, ?_, ?_, hcdf, ?_⟩
  · rw [hlaw.integral_eq, integral_id_gaussianReal]
  · rw [hlaw.variance_eq, variance_id_gaussianReal, Real.coe_toNNReal v hv.le]
  · intro s hs
    rw [hset s hs]
    have hS : (0 : ℝ) < sqrt2Pi := by linarith [sqrt2Pi_pos]
    have hsv := Real.sqrt_pos.2 hv
    have hpi : 0 < Real.sqrt (2 * Real.pi) := Real.sqrt_pos.2 (by positivity)
    have e : ∀ x, (GaussDist.new m v).pdf x = Real.sqrt (2 * Real.pi) / sqrt2Pi * gaussianPDFReal m v.toNNReal x := by
      intro x
      rw [gauss_pdf]
      unfold gaussianPDFReal
      simp only [Real.coe_toNNReal v hv.le]
      rw [Real.sqrt_mul (show (0:ℝ) ≤ 2 * Real.pi by positivity) v, neg_div]
      generalize Real.sqrt (2 * Real.pi) = a at hpi ⊢
      generalize Real.sqrt v = b at hsv ⊢
      field_simp
    simp only [e]
    rw [integral_const_mul, ← one_sub_mul, abs_mul]
    have h1 : |∫ x in s, gaussianPDFReal m v.toNNReal x| ≤ 1 := by
      rw [abs_of_nonneg (setIntegral_nonneg hs fun x _ => gaussianPDFReal_nonneg _ _ _), ← integral_gaussianPDFReal_eq_one m hv0]
      exact setIntegral_le_integral (integrable_gaussianPDFReal _ _) (Filter.Eventually.of_forall fun x => gaussianPDFReal_nonneg _ _ _)
    have h2 : |1 - Real.sqrt (2 * Real.pi) / (sqrt2Pi : ℝ)| ≤ 1 / 10 ^ 20 := by
      have : 1 - Real.sqrt (2 * Real.pi) / (sqrt2Pi : ℝ) = -(Real.sqrt (2 * Real.pi) - sqrt2Pi) / sqrt2Pi := by field_simp; ring
      rw [this, abs_div, abs_neg, abs_of_pos hS, div_le_iff₀ hS]
      have := sqrt2Pi_bound
      have := sqrt2Pi_pos
      linarith
    calc _ ≤ 1 / 10 ^ 20 * (1 : ℝ) := mul_le_mul h2 h1 (abs_nonneg _) (by positivity)
      _ = _ := mul_one _
  · intro x
    rw [hcdf, abs_sub_comm]
    exact (C65_partial m v x hv).1

end

/-- The hypotheses are met: the identity on the real line with the standard measures. -/
example : HasLaw id (expMeasure 1) (expMeasure 1) ∧ HasLaw id (gaussianReal 0 1) (gaussianReal 0 1) := ⟨HasLaw.id, HasLaw.id⟩

end RM
