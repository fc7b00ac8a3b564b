import Mathlib.MeasureTheory.Integral.IntegralEqImproper
import Mathlib.MeasureTheory.Integral.Bochner.Set
import Mathlib.Analysis.SpecialFunctions.Gamma.Basic
import Mathlib.Analysis.SpecialFunctions.ImproperIntegrals
import Verif.Proofs.PSD

/-! Mixtures of Gaussian kernels: the rational quadratic and the exponential kernel. -/

namespace RM
open Outcome Scalar Spec MeasureTheory Set

variable {n : ℕ}

/-- A mixture of positive semi-definite matrices. -/
theorem Spec.PSD.integral {G : ℝ → Fin n → Fin n → ℝ} (hi : ∀ i j, IntegrableOn (fun t => G t i j) (Ioi 0))
    (h : ∀ t, 0 < t → PSD (G t)) : PSD fun i j => ∫ t in Ioi (0 : ℝ), G t i j := by
  constructor
  · intro i j
    exact setIntegral_congr_fun measurableSet_Ioi fun t ht => (h t ht).1 i j
  · intro c
    have e : ∑ i, ∑ j, c i * c j * ∫ t in Ioi (0 : ℝ), G t i j = ∫ t in Ioi (0 : ℝ), ∑ i, ∑ j, c i * c j * G t i j := by
      rw [integral_finset_sum _ fun i _ => integrable_finset_sum _ fun j _ => (hi i j).const_mul _]
      refine Finset.sum_congr rfl fun i _ => ?_
      rw [integral_finset_sum _ fun j _ => (hi i j).const_mul _]
      exact Finset.sum_congr rfl fun j _ => (integral_const_mul _ _).symm
    simp only
    rw [e]
    exact setIntegral_nonneg measurableSet_Ioi fun t ht => (h t ht).2 c

theorem gamma_integrable {a r : ℝ} (ha : 0 < a) (hr : 0 < r) : IntegrableOn (fun t : ℝ => t ^ (a - 1) * Real.exp (-(r * t))) (Ioi 0) := by
  by_contra hc
  have h := Real.integral_rpow_mul_exp_neg_mul_Ioi ha hr
  rw [integral_undef hc] at h
  have := mul_pos (Real.rpow_pos_of_pos (one_div_pos.2 hr) a) (Real.Gamma_pos_of_pos ha)
  linarith

/-- The rational quadratic kernel is a mixture of Gaussian kernels. -/
theorem Spec.PSD.rationalQuadratic {d : ℕ} (x : Fin n → List ℝ) (hx : ∀ i, (x i).length = d) {a b : ℝ} (ha : 0 < a) (hb : 0 ≤ b) :
    PSD fun i j => (1 + b * sqDist (x i) (x j)) ^ (-a) := by
  have hr : ∀ i j, 0 < 1 + b * sqDist (x i) (x j) := fun i j => by
    have := mul_nonneg hb (sqDist_nonneg (x i) (x j)); linarith
  have h := Spec.PSD.integral (n := n) (G := fun t i j => t ^ (a - 1) * Real.exp (-((1 + b * sqDist (x i) (x j)) * t)))
    (fun i j => gamma_integrable ha (hr i j)) (by
      intro t ht
      have h1 := (PSD.gauss x hx (t := b * t) (by positivity)).smul (a := t ^ (a - 1) * Real.exp (-t)) (by positivity)
      have e : (fun i j => t ^ (a - 1) * Real.exp (-((1 + b * sqDist (x i) (x j)) * t))) =
          fun i j => t ^ (a - 1) * Real.exp (-t) * Real.exp (-(b * t * sqDist (x i) (x j))) := by
        funext i j
        rw [mul_assoc, ← Real.exp_add]
        congr 2
        ring
      rw [e]; exact h1)
  have h2 := h.smul (a := (Real.Gamma a)⁻¹) (by have := Real.Gamma_pos_of_pos ha; positivity)
  have e : (fun i j => (1 + b * sqDist (x i) (x j)) ^ (-a)) =
      fun i j => (Real.Gamma a)⁻¹ * ∫ t in Ioi (0 : ℝ), t ^ (a - 1) * Real.exp (-((1 + b * sqDist (x i) (x j)) * t)) := by
    funext i j
    rw [Real.integral_rpow_mul_exp_neg_mul_Ioi ha (hr i j), one_div, Real.inv_rpow (hr i j).le, Real.rpow_neg (hr i j).le]
    have := (Real.Gamma_pos_of_pos ha).ne'
    field_simp
  rw [e]; exact h2

/-- `∫ (1 - exp(-t)) t^(-3/2)` converges. -/
theorem sqrt_integrable : IntegrableOn (fun t : ℝ => (1 - Real.exp (-t)) * t ^ (-(3 / 2) : ℝ)) (Ioi 0) := by
  have hm : Measurable fun t : ℝ => (1 - Real.exp (-t)) * t ^ (-(3 / 2) : ℝ) := by fun_prop
  rw [← Ioc_union_Ioi_eq_Ioi (zero_le_one' ℝ), integrableOn_union]
  constructor
  · have h1 : IntegrableOn (fun t : ℝ => t ^ (-(1 / 2) : ℝ)) (Ioc 0 1) := by
      have := (intervalIntegral.intervalIntegrable_rpow' (a := 0) (b := 1) (r := -(1 / 2)) (by norm_num))
      rwa [intervalIntegrable_iff_integrableOn_Ioc_of_le zero_le_one] at this
    refine Integrable.mono' h1 hm.aestronglyMeasurable ?_
    refine (ae_restrict_iff' measurableSet_Ioc).2 (ae_of_all _ fun t ht => ?_)
    have h0 : 0 ≤ 1 - Real.exp (-t) := by
      have := Real.exp_le_one_iff.2 (by linarith [ht.1] : -t ≤ 0); linarith
    have h2 : 1 - Real.exp (-t) ≤ t := by have := Real.add_one_le_exp (-t); linarith
    have hp : 0 ≤ t ^ (-(3 / 2) : ℝ) := Real.rpow_nonneg ht.1.le _
    rw [Real.norm_of_nonneg (mul_nonneg h0 hp)]
    calc (1 - Real.exp (-t)) * t ^ (-(3 / 2) : ℝ) ≤ t * t ^ (-(3 / 2) : ℝ) := mul_le_mul_of_nonneg_right h2 hp
      _ = t ^ (-(1 / 2) : ℝ) := by
        conv_lhs => rw [← Real.rpow_one t, ← Real.rpow_mul ht.1.le, ← Real.rpow_add ht.1]
        norm_num
  · have h1 : IntegrableOn (fun t : ℝ => t ^ (-(3 / 2) : ℝ)) (Ioi 1) := integrableOn_Ioi_rpow_of_lt (by norm_num) one_pos
    refine Integrable.mono' h1 hm.aestronglyMeasurable ?_
    refine (ae_restrict_iff' measurableSet_Ioi).2 (ae_of_all _ fun t ht => ?_)
    have ht0 : 0 < t := lt_trans one_pos ht
    have h0 : 0 ≤ 1 - Real.exp (-t) := by
      have := Real.exp_le_one_iff.2 (by linarith : -t ≤ 0); linarith
    have h2 : 1 - Real.exp (-t) ≤ 1 := by have := Real.exp_pos (-t); linarith
    have hp : 0 ≤ t ^ (-(3 / 2) : ℝ) := Real.rpow_nonneg ht0.le _
    rw [Real.norm_of_nonneg (mul_nonneg h0 hp)]
    exact mul_le_of_le_one_left hp h2

/-- The constant of the subordination formula. -/
noncomputable def subC : ℝ := ∫ t in Ioi (0 : ℝ), (1 - Real.exp (-t)) * t ^ (-(3 / 2) : ℝ)

theorem subC_pos : 0 < subC := by
  unfold subC
  rw [setIntegral_pos_iff_support_of_nonneg_ae _ sqrt_integrable]
  · have : Ioi (0 : ℝ) ⊆ (Function.support fun t : ℝ => (1 - Real.exp (-t)) * t ^ (-(3 / 2) : ℝ)) ∩ Ioi 0 := by
      intro t ht
      refine ⟨?_, ht⟩
      have h1 : Real.exp (-t) < 1 := Real.exp_lt_one_iff.2 (by simpa using ht)
      exact mul_ne_zero (by linarith) (Real.rpow_pos_of_pos ht _).ne'
    refine lt_of_lt_of_le ?_ (measure_mono this)
    simp
  · refine (ae_restrict_iff' measurableSet_Ioi).2 (ae_of_all _ fun t ht => ?_)
    have h0 : 0 ≤ 1 - Real.exp (-t) := by
      have := Real.exp_le_one_iff.2 (by linarith [mem_Ioi.1 ht] : -t ≤ 0); linarith
    exact mul_nonneg h0 (Real.rpow_nonneg (mem_Ioi.1 ht).le _)

/-- `sqrt s` as a mixture of `1 - exp(-t s)`. -/
theorem sqrt_mixture {s : ℝ} (hs : 0 ≤ s) : IntegrableOn (fun t : ℝ => (1 - Real.exp (-(t * s))) * t ^ (-(3 / 2) : ℝ)) (Ioi 0) ∧
    ∫ t in Ioi (0 : ℝ), (1 - Real.exp (-(t * s))) * t ^ (-(3 / 2) : ℝ) = subC * Real.sqrt s := by
  rcases hs.eq_or_lt with rfl | hs
  · simp
  · have e : ∀ t ∈ Ioi (0 : ℝ), (1 - Real.exp (-(t * s))) * t ^ (-(3 / 2) : ℝ) =
        s ^ (3 / 2 : ℝ) * ((fun u : ℝ => (1 - Real.exp (-u)) * u ^ (-(3 / 2) : ℝ)) (s * t)) := by
      intro t ht
      simp only
      rw [Real.mul_rpow hs.le (mem_Ioi.1 ht).le, Real.rpow_neg hs.le]
      have := (Real.rpow_pos_of_pos hs (3 / 2)).ne'
      rw [mul_comm t s]
      field_simp
    constructor
    · have h1 := (integrableOn_Ioi_comp_mul_left_iff (fun u : ℝ => (1 - Real.exp (-u)) * u ^ (-(3 / 2) : ℝ)) 0 hs).2 (by
        rw [mul_zero]; exact sqrt_integrable)
      exact IntegrableOn.congr_fun (h1.const_mul (s ^ (3 / 2 : ℝ))) (fun t ht => (e t ht).symm) measurableSet_Ioi
    · rw [setIntegral_congr_fun measurableSet_Ioi e, integral_const_mul, integral_comp_mul_left_Ioi (fun u : ℝ => (1 - Real.exp (-u)) * u ^ (-(3 / 2) : ℝ)) 0 hs, mul_zero]
      change s ^ (3 / 2 : ℝ) * (s⁻¹ • subC) = _
      rw [Real.sqrt_eq_rpow, smul_eq_mul]
      have : s ^ (3 / 2 : ℝ) = s * s ^ (1 / 2 : ℝ) := by
        conv_rhs => rw [← Real.rpow_one s, ← Real.rpow_mul hs.le, ← Real.rpow_add hs]
        norm_num
      rw [this]
      field_simp

/-- Centring a positive semi-definite matrix at its first point. -/
theorem Spec.PSD.anchor {G : Fin (n + 1) → Fin (n + 1) → ℝ} (h : PSD G) :
    PSD fun i j : Fin n => G i.succ j.succ - G i.succ 0 - G 0 j.succ + G 0 0 := by
  constructor
  · intro i j
    simp only
    rw [h.1 i.succ j.succ, h.1 i.succ 0, h.1 0 j.succ]
    ring
  · intro c
    have h1 := h.2 (Fin.cons (-∑ i, c i) c)
    simp only [Fin.sum_univ_succ, Fin.cons_zero, Fin.cons_succ] at h1
    refine h1.trans_eq ?_
    have e1 : ∀ i, ∑ j, c i * c j * (G i.succ j.succ - G i.succ 0 - G 0 j.succ + G 0 0) =
        ∑ j, c i * c j * G i.succ j.succ - (c i * G i.succ 0) * ∑ j, c j - c i * ∑ j, c j * G 0 j.succ + c i * (∑ j, c j) * G 0 0 := by
      intro i
      rw [Finset.mul_sum, Finset.mul_sum, Finset.mul_sum, Finset.sum_mul, ← Finset.sum_sub_distrib, ← Finset.sum_sub_distrib, ← Finset.sum_add_distrib]
      exact Finset.sum_congr rfl fun j _ => by ring
    simp only [e1]
    simp only [Finset.sum_add_distrib, Finset.sum_sub_distrib, ← Finset.sum_mul]
    have e2 : ∑ j, -(∑ i, c i) * c j * G 0 j.succ = -(∑ i, c i) * ∑ j, c j * G 0 j.succ := by
      rw [Finset.mul_sum]; exact Finset.sum_congr rfl fun j _ => by ring
    have e3 : ∑ i, c i * -(∑ i, c i) * G i.succ 0 = -(∑ i, c i) * ∑ i, c i * G i.succ 0 := by
      rw [Finset.mul_sum]; exact Finset.sum_congr rfl fun j _ => by ring
    rw [e2, e3]
    ring

/-- The kernel `√s(x,o) + √s(y,o) - √s(x,y)` (`o` any point) is positive semi-definite. -/
theorem Spec.PSD.sqrtDist {d : ℕ} (x : Fin n → List ℝ) (hx : ∀ i, (x i).length = d) (o : List ℝ) (ho : o.length = d) :
    PSD fun i j => Real.sqrt (sqDist (x i) o) + Real.sqrt (sqDist (x j) o) - Real.sqrt (sqDist (x i) (x j)) := by
  have hmix := fun (u v : List ℝ) => sqrt_mixture (sqDist_nonneg u v)
  have h := Spec.PSD.integral (n := n) (G := fun t i j => (1 - Real.exp (-(t * sqDist (x i) o))) * t ^ (-(3 / 2) : ℝ) +
      (1 - Real.exp (-(t * sqDist (x j) o))) * t ^ (-(3 / 2) : ℝ) - (1 - Real.exp (-(t * sqDist (x i) (x j)))) * t ^ (-(3 / 2) : ℝ))
    (fun i j => (((hmix _ _).1.add (hmix _ _).1).sub (hmix _ _).1)) (by
      intro t ht
      have hx' : ∀ i, ((Fin.cons o x : Fin (n + 1) → List ℝ) i).length = d := by
        intro i
        refine Fin.cases ?_ (fun i => ?_) i
        · exact ho
        · exact hx i
      have h1 := ((PSD.gauss (Fin.cons o x : Fin (n + 1) → List ℝ) hx' (t := t) ht.le).anchor).smul (a := t ^ (-(3 / 2) : ℝ)) (Real.rpow_nonneg ht.le _)
      have e : (fun i j => (1 - Real.exp (-(t * sqDist (x i) o))) * t ^ (-(3 / 2) : ℝ) +
          (1 - Real.exp (-(t * sqDist (x j) o))) * t ^ (-(3 / 2) : ℝ) - (1 - Real.exp (-(t * sqDist (x i) (x j)))) * t ^ (-(3 / 2) : ℝ)) =
          fun i j => t ^ (-(3 / 2) : ℝ) * (Real.exp (-(t * sqDist (x i) (x j))) - Real.exp (-(t * sqDist (x i) o)) -
            Real.exp (-(t * sqDist o (x j))) + Real.exp (-(t * sqDist o o))) := by
        funext i j
        rw [sqDist_comm o (x j), sqDist_self]
        simp only [mul_zero, neg_zero, Real.exp_zero]
        ring
      rw [e]
      exact h1)
  have h2 := h.smul (a := subC⁻¹) (inv_nonneg.2 subC_pos.le)
  have e : (fun i j => Real.sqrt (sqDist (x i) o) + Real.sqrt (sqDist (x j) o) - Real.sqrt (sqDist (x i) (x j))) =
      fun i j => subC⁻¹ * ∫ t in Ioi (0 : ℝ), ((1 - Real.exp (-(t * sqDist (x i) o))) * t ^ (-(3 / 2) : ℝ) +
      (1 - Real.exp (-(t * sqDist (x j) o))) * t ^ (-(3 / 2) : ℝ) - (1 - Real.exp (-(t * sqDist (x i) (x j)))) * t ^ (-(3 / 2) : ℝ)) := by
    funext i j
    have e1 := integral_sub ((hmix (x i) o).1.add (hmix (x j) o).1) (hmix (x i) (x j)).1
    have e2 := integral_add (hmix (x i) o).1 (hmix (x j) o).1
    simp only [Pi.add_apply] at e1
    rw [e1, e2, (hmix _ _).2, (hmix _ _).2, (hmix _ _).2]
    have := subC_pos.ne'
    field_simp
  rw [e]; exact h2

/-- The exponential kernel. -/
theorem Spec.PSD.expDist {d : ℕ} (x : Fin n → List ℝ) (hx : ∀ i, (x i).length = d) {b : ℝ} (hb : 0 ≤ b) :
    PSD fun i j => Real.exp (-(b * Real.sqrt (sqDist (x i) (x j)))) := by
  have ho : (List.replicate d (0 : ℝ)).length = d := List.length_replicate
  have h := (((PSD.sqrtDist x hx _ ho).smul hb).exp).mul (PSD.outer fun i => Real.exp (-(b * Real.sqrt (sqDist (x i) (List.replicate d 0)))))
  have e : (fun i j => Real.exp (-(b * Real.sqrt (sqDist (x i) (x j))))) = fun i j =>
      Real.exp (b * (Real.sqrt (sqDist (x i) (List.replicate d 0)) + Real.sqrt (sqDist (x j) (List.replicate d 0)) - Real.sqrt (sqDist (x i) (x j)))) *
      (Real.exp (-(b * Real.sqrt (sqDist (x i) (List.replicate d 0)))) * Real.exp (-(b * Real.sqrt (sqDist (x j) (List.replicate d 0))))) := by
    funext i j
    rw [← Real.exp_add, ← Real.exp_add]
    congr 1
    ring
  rw [e]; exact h

end RM
