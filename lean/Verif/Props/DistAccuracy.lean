import Verif.Proofs.CdfAccuracy
import Verif.Spec.Dist
import Verif.Props.Dist

/-!
C65: the documented accuracy of the Gaussian cdf ("Accurate to 0.003") fails; 0.0032 holds.
-/

namespace RM
open Outcome Scalar MeasureTheory

open Spec

theorem integral_gauss_upper : ∫ t in (0 : ℝ)..(8 / 5), Real.exp (-(t ^ 2) / 2) ≤ 1.116 := by
  have h1 : ∫ t in (0 : ℝ)..(8 / 5), Real.exp (-(t ^ 2) / 2) ≤ ∫ t in (0 : ℝ)..(8 / 5), (∑ k ∈ Finset.range 9, (-(t ^ 2 / 2)) ^ k / k.factorial) := by
    apply intervalIntegral.integral_mono_on (by norm_num) (Continuous.intervalIntegrable (by fun_prop) _ _) (Continuous.intervalIntegrable (by fun_prop) _ _)
    intro t _
    have := exp_neg_alternates 8 (t ^ 2 / 2) (by positivity)
    norm_num at this
    rw [neg_div]
    linarith
  refine h1.trans ?_
  have e : ∀ t : ℝ, (∑ k ∈ Finset.range 9, (-(t ^ 2 / 2)) ^ k / (k.factorial : ℝ)) =
      ∑ k ∈ Finset.range 9, ((-1) ^ k / (2 ^ k * k.factorial)) * t ^ (2 * k) := by
    intro t
    refine Finset.sum_congr rfl fun k _ => ?_
    rw [neg_pow, div_pow, ← pow_mul]
    have : (k.factorial : ℝ) ≠ 0 := by positivity
    field_simp
  simp only [e]
  rw [intervalIntegral.integral_finsetSum fun k _ => Continuous.intervalIntegrable (by fun_prop) _ _]
  simp only [intervalIntegral.integral_const_mul, integral_pow]
  norm_num [Finset.sum_range_succ, Nat.factorial]

/-- C65 fails: the cdf of the standard normal distribution at 1.6 is off by more than 0.003. -/
theorem C65_violation : 0.003 < |(GaussDist.new 0 1).cdf (8 / 5 : ℝ) - normalCdf 0 1 (8 / 5)| := by
  have hpi1 := Real.pi_gt_d6
  have hpi2 := Real.pi_lt_d6
  -- the exact value
  have hsq : (2.506628 : ℝ) ≤ Real.sqrt (2 * Real.pi) := by
    apply Real.le_sqrt_of_sq_le
    refine le_trans ?_ (by linarith : (2 * 3.141592 : ℝ) ≤ _)
    norm_num
  have h1 : normalCdf 0 1 (8 / 5) ≤ 0.94525 := by
    unfold normalCdf
    simp only [sub_zero, mul_one]
    rw [integral_div]
    have hint : Integrable (fun t : ℝ => Real.exp (-(t ^ 2) / 2)) := by
      have := integrable_exp_neg_mul_sq (b := 1 / 2) (by norm_num)
      refine this.congr (ae_of_all _ fun t => ?_)
      simp only
      congr 1
      ring
    have e : ∫ t in Set.Iic (8 / 5 : ℝ), Real.exp (-(t ^ 2) / 2) = Real.sqrt (2 * Real.pi) / 2 + ∫ t in (0 : ℝ)..(8 / 5), Real.exp (-(t ^ 2) / 2) := by
      have := intervalIntegral.integral_Iic_sub_Iic (a := (0 : ℝ)) (b := 8 / 5) hint.integrableOn hint.integrableOn
      rw [← integral_half_gauss]
      linarith
    rw [e, div_le_iff₀ (by linarith)]
    have := integral_gauss_upper
    nlinarith
  have h2 : (0.9483 : ℝ) ≤ (GaussDist.new 0 1).cdf (8 / 5 : ℝ) := by
    rw [gauss_cdf, if_neg (by norm_num)]
    have h3 : Real.exp (-(2 / Real.pi * (8 / 5 - 0) ^ 2 / 1)) ≤ 0.1961 := by
      have hu : (1.62974 : ℝ) ≤ 2 / Real.pi * (8 / 5 - 0) ^ 2 / 1 := by
        rw [div_one, div_mul_eq_mul_div, le_div_iff₀ Real.pi_pos]
        nlinarith
      have h := exp_neg_alternates 10 1.62974 (by norm_num)
      norm_num [Finset.sum_range_succ, Nat.factorial] at h
      refine (Real.exp_le_exp.2 (neg_le_neg hu)).trans ?_
      norm_num at h ⊢
      linarith
    have h4 : (0.8966 : ℝ) ≤ Real.sqrt (1 - Real.exp (-(2 / Real.pi * (8 / 5 - 0) ^ 2 / 1))) := by
      apply Real.le_sqrt_of_sq_le
      refine le_trans ?_ (by linarith : (1 - 0.1961 : ℝ) ≤ _)
      norm_num
    linarith
  rw [lt_abs]
  left
  linarith

theorem normalCdf_standard (m v x : ℝ) (hv : 0 < v) : normalCdf m v x = normalCdf 0 1 ((x - m) / Real.sqrt v) := by
  have hs := Real.sqrt_pos.2 hv
  have hp := Real.pi_pos
  unfold normalCdf
  let g : ℝ → ℝ := (Set.Iic ((x - m) / Real.sqrt v)).indicator fun t => Real.exp (-(t - 0) ^ 2 / (2 * 1)) / Real.sqrt (2 * Real.pi * 1)
  have h1 : ∀ t : ℝ, (Set.Iic x).indicator (fun t => Real.exp (-(t - m) ^ 2 / (2 * v)) / Real.sqrt (2 * Real.pi * v)) t =
      (Real.sqrt v)⁻¹ * g ((Real.sqrt v)⁻¹ * (t - m)) := by
    intro t
    have e : -((Real.sqrt v)⁻¹ * (t - m) - 0) ^ 2 / (2 * 1) = -(t - m) ^ 2 / (2 * v) := by
      rw [sub_zero, mul_pow, inv_pow, Real.sq_sqrt hv.le]
      field_simp
    by_cases ht : t ≤ x
    · rw [Set.indicator_of_mem (Set.mem_Iic.2 ht)]
      simp only [g]
      rw [Set.indicator_of_mem, e, mul_one, Real.sqrt_mul (by positivity) v]
      · field_simp
      · rw [Set.mem_Iic, inv_mul_eq_div]
        exact div_le_div_of_nonneg_right (by linarith) hs.le
    · rw [Set.indicator_of_notMem (by simpa using ht)]
      simp only [g]
      rw [Set.indicator_of_notMem, mul_zero]
      rw [Set.mem_Iic, inv_mul_eq_div, div_le_div_iff_of_pos_right hs]
      intro h
      exact ht (by linarith)
  rw [← integral_indicator measurableSet_Iic, ← integral_indicator measurableSet_Iic]
  simp only [h1]
  rw [integral_const_mul, integral_sub_right_eq_self (fun t => g ((Real.sqrt v)⁻¹ * t)) m, Measure.integral_comp_mul_left, inv_inv,
    abs_of_pos hs, smul_eq_mul, ← mul_assoc, inv_mul_cancel₀ hs.ne', one_mul]

theorem normalCdf_errInt (z : ℝ) : normalCdf 0 1 z = 1 / 2 * (1 + errInt z) := by
  have hp := Real.pi_pos
  unfold normalCdf errInt
  simp only [sub_zero, mul_one]
  rw [integral_div]
  have hint := gauss_integrable
  have e := intervalIntegral.integral_Iic_sub_Iic (a := (0 : ℝ)) (b := z) hint.integrableOn hint.integrableOn
  rw [integral_half_gauss] at e
  have e' : ∫ t in Set.Iic z, Real.exp (-(t ^ 2) / 2) = Real.sqrt (2 * Real.pi) / 2 + ∫ t in (0 : ℝ)..z, Real.exp (-(t ^ 2) / 2) := by linarith
  have hq : Real.sqrt (2 / Real.pi) * Real.sqrt (2 * Real.pi) = 2 := by
    rw [← Real.sqrt_mul (by positivity), show 2 / Real.pi * (2 * Real.pi) = 2 ^ 2 by field_simp, Real.sqrt_sq (by norm_num)]
  have hs : 0 < Real.sqrt (2 * Real.pi) := by positivity
  rw [e', div_eq_iff hs.ne']
  linear_combination (-1 / 2 * ∫ t in (0 : ℝ)..z, Real.exp (-(t ^ 2) / 2)) * hq

theorem errInt_neg (z : ℝ) : errInt (-z) = -errInt z := by
  unfold errInt
  have := intervalIntegral.integral_comp_neg (a := 0) (b := z) (fun t : ℝ => Real.exp (-(t ^ 2) / 2))
  simp only [neg_zero, even_two, Even.neg_pow] at this
  rw [this, intervalIntegral.integral_symm]
  ring

/-- C65, what does hold: the cdf is never off by more than 0.0032, above the mean it is never too small and below the mean
never too large. -/
theorem C65_partial (m v x : ℝ) (hv : 0 < v) : |(GaussDist.new m v).cdf x - normalCdf m v x| ≤ 0.0032 ∧
    (m ≤ x → normalCdf m v x ≤ (GaussDist.new m v).cdf x) ∧ (x ≤ m → (GaussDist.new m v).cdf x ≤ normalCdf m v x) := by
  have hs := Real.sqrt_pos.2 hv
  have hp : Real.sqrt (1 - Real.exp (-(2 / Real.pi * (x - m) ^ 2 / v))) = polya ((x - m) / Real.sqrt v) := by
    unfold polya
    rw [div_pow, Real.sq_sqrt hv.le, mul_div_assoc]
  rw [normalCdf_standard m v x hv, normalCdf_errInt, gauss_cdf, hp]
  set z := (x - m) / Real.sqrt v with hz
  rcases lt_or_ge x m with h | h
  · have hz0 : z < 0 := div_neg_of_neg_of_pos (by linarith) hs
    have h1 := polyaErr_nonneg (x := -z) (by linarith)
    have h2 := polyaErr_le (x := -z) (by linarith)
    have h3 : polyaErr (-z) = polya z + errInt z := by
      unfold polyaErr
      rw [errInt_neg, sub_neg_eq_add]
      congr 1
      simp [polya]
    rw [if_pos h]
    refine ⟨?_, fun h' => absurd h' (not_le.2 h), fun _ => by linarith⟩
    rw [abs_le]
    constructor <;> norm_num at * <;> linarith
  · have hz0 : 0 ≤ z := div_nonneg (by linarith) hs.le
    have h1 := polyaErr_nonneg hz0
    have h2 := polyaErr_le hz0
    have h3 : polyaErr z = polya z - errInt z := rfl
    rw [if_neg (not_lt.2 h)]
    refine ⟨?_, fun _ => by linarith, fun h' => ?_⟩
    · rw [abs_le]
      constructor <;> norm_num at * <;> linarith
    · have : z = 0 := by rw [hz, le_antisymm h' h]; simp
      rw [this]
      simp [polya, errInt]

end RM
