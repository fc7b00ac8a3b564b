import Mathlib.LinearAlgebra.Vandermonde
import Mathlib.Algebra.Module.Submodule.Union
import Mathlib.Analysis.Matrix.Order
import Mathlib.Analysis.SpecialFunctions.Sqrt
import Mathlib.Analysis.SpecialFunctions.Log.Deriv
import Mathlib.Analysis.Calculus.Deriv.Abs
import Mathlib.Algebra.QuadraticDiscriminant
import Verif.Spec.Noiseless
import Verif.Proofs.PSDIntegral

/-! Strictly positive definite kernels: the Gaussian, the exponential and the rational quadratic one. -/

namespace RM
open Outcome Scalar Spec MeasureTheory Set

variable {n : ℕ}

/-- A combination of zero energy is orthogonal to every further point. -/
theorem Spec.PSD.null {G : Fin (n + 1) → Fin (n + 1) → ℝ} (h : PSD G) {c : Fin n → ℝ} (h0 : ∑ i, ∑ j, c i * c j * G i.succ j.succ = 0) :
    ∑ i, c i * G i.succ 0 = 0 := by
  have hq : ∀ a : ℝ, 0 ≤ G 0 0 * (a * a) + (2 * ∑ i, c i * G i.succ 0) * a + 0 := by
    intro a
    have h1 := h.2 (Fin.cons a c)
    simp only [Fin.sum_univ_succ, Fin.cons_zero, Fin.cons_succ, Finset.sum_add_distrib] at h1
    rw [h0] at h1
    have e2 : ∑ j, a * c j * G 0 j.succ = a * ∑ i, c i * G i.succ 0 := by
      rw [Finset.mul_sum]; exact Finset.sum_congr rfl fun j _ => by rw [h.1 0 j.succ]; ring
    have e3 : ∑ i, c i * a * G i.succ 0 = a * ∑ i, c i * G i.succ 0 := by
      rw [Finset.mul_sum]; exact Finset.sum_congr rfl fun j _ => by ring
    rw [e2, e3] at h1
    linarith
  have hd := discrim_le_zero hq
  unfold discrim at hd
  nlinarith [sq_nonneg (∑ i, c i * G i.succ 0)]

theorem strict_of_null {G : Fin n → Fin n → ℝ} (h : PSD G) (hc : ∀ c : Fin n → ℝ, ∑ i, ∑ j, c i * c j * G i j = 0 → c = 0) : SPD G :=
  ⟨h.1, fun c hne => lt_of_le_of_ne (h.2 c) fun e => hne (hc c e.symm)⟩

/-- Some direction separates finitely many distinct points. -/
theorem exists_separating {d : ℕ} (x : Fin n → List ℝ) (hx : ∀ i, (x i).length = d) (hinj : Function.Injective x) :
    ∃ v : List ℝ, v.length = d ∧ ∀ i j, innerProd (x i) v = innerProd (x j) v → i = j := by
  let w : Fin n → (Fin d → ℝ) := fun i k => (x i).getD k 0
  have hw : ∀ p : {p : Fin n × Fin n // p.1 ≠ p.2}, w p.1.1 - w p.1.2 ≠ 0 := by
    rintro ⟨⟨i, j⟩, hne⟩ h0
    apply hne
    apply hinj
    apply List.ext_getElem ((hx i).trans (hx j).symm)
    intro k h1 h2
    have := congrFun h0 ⟨k, by rw [← hx i]; exact h1⟩
    simp only [w, Pi.sub_apply, Pi.zero_apply] at this
    rw [getD_lt 0 h1, getD_lt 0 h2] at this
    linarith
  obtain ⟨f, hf⟩ := Module.exists_dual_forall_apply_ne_zero (K := ℝ) _ hw
  have hlen : (List.ofFn fun k : Fin d => f fun j => if k = j then 1 else 0).length = d := List.length_ofFn
  refine ⟨_, hlen, ?_⟩
  have he : ∀ i, innerProd (x i) (List.ofFn fun k : Fin d => f fun j => if k = j then 1 else 0) = f (w i) := by
    intro i
    rw [innerProd_eq_range (hx i) hlen, LinearMap.pi_apply_eq_sum_univ f (w i), Finset.sum_range]
    refine Finset.sum_congr rfl fun k _ => ?_
    rw [getD_lt 0 (l := List.ofFn _) (by rw [hlen]; exact k.2), List.getElem_ofFn]
    rfl
  intro i j hij
  rw [he, he] at hij
  by_contra hne
  exact hf ⟨(i, j), hne⟩ (by simp only [map_sub, hij, sub_self])

/-- The Gaussian kernel on distinct points. -/
theorem Spec.SPD.gauss {d : ℕ} (x : Fin n → List ℝ) (hx : ∀ i, (x i).length = d) (hinj : Function.Injective x) {t : ℝ} (ht : 0 < t) :
    SPD fun i j => Real.exp (-(t * sqDist (x i) (x j))) := by
  refine strict_of_null (PSD.gauss x hx ht.le) fun c h0 => ?_
  obtain ⟨v, hv, hsep⟩ := exists_separating x hx hinj
  have hzero : ∀ u : List ℝ, u.length = d → ∑ i, c i * Real.exp (-(t * sqDist (x i) u)) = 0 := by
    intro u hu
    have hx' : ∀ i, ((Fin.cons u x : Fin (n + 1) → List ℝ) i).length = d := by
      intro i
      refine Fin.cases ?_ (fun i => ?_) i
      · exact hu
      · exact hx i
    exact (PSD.gauss (Fin.cons u x : Fin (n + 1) → List ℝ) hx' ht.le).null (c := c) h0
  have hvm : ∀ m : ℕ, ∑ i, c i * Real.exp (-(t * innerProd (x i) (x i))) * Real.exp (2 * t * innerProd (x i) v) ^ m = 0 := by
    intro m
    have hu : (v.map ((m : ℝ) * ·)).length = d := by rw [List.length_map, hv]
    have hi : ∀ i, innerProd (x i) (v.map ((m : ℝ) * ·)) = m * innerProd (x i) v := by
      intro i
      rw [innerProd_eq_range (hx i) hu, innerProd_eq_range (hx i) hv, Finset.mul_sum]
      refine Finset.sum_congr rfl fun k hk => ?_
      have hk := Finset.mem_range.1 hk
      rw [getD_lt 0 (by rw [hu]; exact hk : k < (v.map ((m : ℝ) * ·)).length), List.getElem_map, getD_lt 0 (by rw [hv]; exact hk : k < v.length)]
      ring
    have h1 := hzero _ hu
    set uu := innerProd (v.map ((m : ℝ) * ·)) (v.map ((m : ℝ) * ·)) with huu
    have e : ∀ i, c i * Real.exp (-(t * sqDist (x i) (v.map ((m : ℝ) * ·)))) =
        Real.exp (-(t * uu)) * (c i * Real.exp (-(t * innerProd (x i) (x i))) * Real.exp (2 * t * innerProd (x i) v) ^ m) := by
      intro i
      rw [sqDist_expand (hx i) hu, hi i, ← huu, ← Real.exp_nat_mul]
      rw [mul_comm (Real.exp (-(t * uu))), mul_assoc, mul_assoc, ← Real.exp_add, ← Real.exp_add]
      congr 2
      ring
    simp only [e, ← Finset.mul_sum] at h1
    exact (mul_eq_zero.1 h1).resolve_left (Real.exp_pos _).ne'
  have hdet : (Matrix.vandermonde fun i => Real.exp (2 * t * innerProd (x i) v)).det ≠ 0 := by
    rw [Matrix.det_vandermonde_ne_zero_iff]
    intro i j hij
    have := Real.exp_injective hij
    exact hsep i j (by nlinarith [mul_left_cancel₀ (by positivity : (2 * t) ≠ 0) this])
  have hz := Matrix.eq_zero_of_vecMul_eq_zero hdet (v := fun i => c i * Real.exp (-(t * innerProd (x i) (x i)))) (by
    funext m
    exact hvm m)
  funext i
  have := congrFun hz i
  exact (mul_eq_zero.1 this).resolve_right (Real.exp_pos _).ne'

theorem Spec.SPD.psd {G : Fin n → Fin n → ℝ} (h : SPD G) : PSD G := by
  refine ⟨h.1, fun c => ?_⟩
  by_cases hc : c = 0
  · subst hc; simp
  · exact (h.2 c hc).le

theorem Spec.SPD.smul {G : Fin n → Fin n → ℝ} (hG : SPD G) {a : ℝ} (ha : 0 < a) : SPD fun i j => a * G i j := by
  refine ⟨fun i j => by simp only [hG.1 i j], fun c hc => ?_⟩
  have h := mul_pos ha (hG.2 c hc)
  rw [Finset.mul_sum] at h
  refine h.trans_eq (Finset.sum_congr rfl fun i _ => ?_)
  rw [Finset.mul_sum]
  exact Finset.sum_congr rfl fun j _ => by ring

theorem Spec.SPD.add {G H : Fin n → Fin n → ℝ} (hG : SPD G) (hH : PSD H) : SPD fun i j => G i j + H i j := by
  refine ⟨fun i j => by simp only [hG.1 i j, hH.1 i j], fun c hc => ?_⟩
  have h := add_pos_of_pos_of_nonneg (hG.2 c hc) (hH.2 c)
  rw [← Finset.sum_add_distrib] at h
  refine h.trans_eq (Finset.sum_congr rfl fun i _ => ?_)
  rw [← Finset.sum_add_distrib]
  exact Finset.sum_congr rfl fun j _ => by ring

theorem quad_eq {G : Fin n → Fin n → ℝ} (c : Fin n → ℝ) : c ⬝ᵥ (Matrix.of G).mulVec c = ∑ i, ∑ j, c i * c j * G i j := by
  simp only [dotProduct, Matrix.mulVec, Finset.mul_sum, Matrix.of_apply]
  exact Finset.sum_congr rfl fun i _ => Finset.sum_congr rfl fun j _ => by ring

theorem Spec.SPD.iff_posDef {G : Fin n → Fin n → ℝ} : SPD G ↔ (Matrix.of G).PosDef := by
  rw [Matrix.posDef_iff_dotProduct_mulVec]
  constructor
  · intro h
    refine ⟨?_, fun c hc => ?_⟩
    · ext i j
      simp [Matrix.conjTranspose_apply, h.1 j i]
    · rw [star_trivial, quad_eq]; exact h.2 c hc
  · rintro ⟨h1, h2⟩
    refine ⟨fun i j => ?_, fun c hc => ?_⟩
    · have := congrFun (congrFun h1 j) i
      simpa [Matrix.conjTranspose_apply] using this
    · have := h2 hc
      rwa [star_trivial, quad_eq] at this

theorem Spec.SPD.mul {G H : Fin n → Fin n → ℝ} (hG : SPD G) (hH : SPD H) : SPD fun i j => G i j * H i j :=
  SPD.iff_posDef.2 ((SPD.iff_posDef.1 hG).hadamard (SPD.iff_posDef.1 hH))

/-- A mixture of strictly positive definite matrices. -/
theorem Spec.SPD.integral {G : ℝ → Fin n → Fin n → ℝ} (hi : ∀ i j, IntegrableOn (fun t => G t i j) (Ioi 0))
    (h : ∀ t, 0 < t → SPD (G t)) : SPD fun i j => ∫ t in Ioi (0 : ℝ), G t i j := by
  constructor
  · intro i j
    exact setIntegral_congr_fun measurableSet_Ioi fun t ht => (h t ht).1 i j
  · intro c hc
    have hint : IntegrableOn (fun t => ∑ i, ∑ j, c i * c j * G t i j) (Ioi 0) :=
      integrable_finset_sum _ fun i _ => integrable_finset_sum _ fun j _ => (hi i j).const_mul _
    have e : ∑ i, ∑ j, c i * c j * ∫ t in Ioi (0 : ℝ), G t i j = ∫ t in Ioi (0 : ℝ), ∑ i, ∑ j, c i * c j * G t i j := by
      rw [integral_finset_sum _ fun i _ => integrable_finset_sum _ fun j _ => (hi i j).const_mul _]
      refine Finset.sum_congr rfl fun i _ => ?_
      rw [integral_finset_sum _ fun j _ => (hi i j).const_mul _]
      exact Finset.sum_congr rfl fun j _ => (integral_const_mul _ _).symm
    simp only
    rw [e, setIntegral_pos_iff_support_of_nonneg_ae _ hint]
    · have : Ioi (0 : ℝ) ⊆ (Function.support fun t : ℝ => ∑ i, ∑ j, c i * c j * G t i j) ∩ Ioi 0 := fun t ht => ⟨((h t ht).2 c hc).ne', ht⟩
      refine lt_of_lt_of_le ?_ (measure_mono this)
      simp
    · exact (ae_restrict_iff' measurableSet_Ioi).2 (ae_of_all _ fun t ht => ((h t ht).2 c hc).le)

/-- The rational quadratic kernel on distinct points. -/
theorem Spec.SPD.rationalQuadratic {d : ℕ} (x : Fin n → List ℝ) (hx : ∀ i, (x i).length = d) (hinj : Function.Injective x) {a b : ℝ} (ha : 0 < a)
    (hb : 0 < b) : SPD fun i j => (1 + b * sqDist (x i) (x j)) ^ (-a) := by
  have hr : ∀ i j, 0 < 1 + b * sqDist (x i) (x j) := fun i j => by
    have := mul_nonneg hb.le (sqDist_nonneg (x i) (x j)); linarith
  have h := Spec.SPD.integral (n := n) (G := fun t i j => t ^ (a - 1) * Real.exp (-((1 + b * sqDist (x i) (x j)) * t)))
    (fun i j => gamma_integrable ha (hr i j)) (by
      intro t ht
      have h1 := (SPD.gauss x hx hinj (t := b * t) (by positivity)).smul (a := t ^ (a - 1) * Real.exp (-t)) (by positivity)
      have e : (fun i j => t ^ (a - 1) * Real.exp (-((1 + b * sqDist (x i) (x j)) * t))) =
          fun i j => t ^ (a - 1) * Real.exp (-t) * Real.exp (-(b * t * sqDist (x i) (x j))) := by
        funext i j
        rw [mul_assoc, ← Real.exp_add]
        congr 2
        ring
      rw [e]; exact h1)
  have h2 := h.smul (a := (Real.Gamma a)⁻¹) (by have := Real.Gamma_pos_of_pos ha; positivity)
  have e : (fun i j => (1 + b * sqDist (x i) (x j)) ^ (-a)) =
      fun i j => (Real.Gamma a)⁻¹ * ∫ t in Ioi (0 : ℝ), t ^ (a - 1) * Real.exp (-((1 + b * sqDist (x i) (x j)) * t)) := by
    funext i j
    rw [Real.integral_rpow_mul_exp_neg_mul_Ioi ha (hr i j), one_div, Real.inv_rpow (hr i j).le, Real.rpow_neg (hr i j).le]
    have := (Real.Gamma_pos_of_pos ha).ne'
    field_simp
  rw [e]; exact h2

/-- The exponential kernel on distinct points: it has a kink at each point and is smooth elsewhere. -/
theorem Spec.SPD.expDist {d : ℕ} (x : Fin n → List ℝ) (hx : ∀ i, (x i).length = d) (hinj : Function.Injective x) {b : ℝ} (hb : 0 < b) :
    SPD fun i j => Real.exp (-(b * Real.sqrt (sqDist (x i) (x j)))) := by
  refine strict_of_null (PSD.expDist x hx hb.le) fun c h0 => ?_
  have hzero : ∀ u : List ℝ, u.length = d → ∑ i, c i * Real.exp (-(b * Real.sqrt (sqDist (x i) u))) = 0 := by
    intro u hu
    have hx' : ∀ i, ((Fin.cons u x : Fin (n + 1) → List ℝ) i).length = d := by
      intro i
      refine Fin.cases ?_ (fun i => ?_) i
      · exact hu
      · exact hx i
    exact (PSD.expDist (Fin.cons u x : Fin (n + 1) → List ℝ) hx' hb.le).null (c := c) h0
  funext j
  by_contra hne
  rcases hxj : x j with _ | ⟨a, l⟩
  · have hall : ∀ i, i = j := by
      intro i
      apply hinj
      have h1 := hx j
      rw [hxj] at h1
      rw [hxj]
      exact List.eq_nil_of_length_eq_zero ((hx i).trans h1.symm)
    have := hzero (x j) (hx j)
    rw [Finset.sum_eq_single j (fun i _ hi => absurd (hall i) hi) (fun h => absurd (Finset.mem_univ j) h)] at this
    exact hne ((mul_eq_zero.1 this).resolve_right (Real.exp_pos _).ne')
  · have hd : l.length + 1 = d := by rw [← hx j, hxj]; rfl
    have hcons : ∀ i, ∃ p : ℝ × List ℝ, x i = p.1 :: p.2 ∧ p.2.length = l.length := by
      intro i
      rcases hxi : x i with _ | ⟨a', l'⟩
      · have h1 := hx i
        rw [hxi] at h1
        simp at h1
        omega
      · refine ⟨(a', l'), rfl, ?_⟩
        have h1 := hx i
        rw [hxi, List.length_cons] at h1
        show l'.length = _
        omega
    choose p hp hpl using hcons
    have hj : p j = (a, l) := by
      have h1 := hp j
      rw [hxj] at h1
      injection h1 with h2 h3
      exact Prod.ext h2.symm h3.symm
    have hsum : ∀ h : ℝ, ∑ i, c i * Real.exp (-(b * Real.sqrt (((p i).1 - (a + h)) ^ 2 + sqDist (p i).2 l))) = 0 := by
      intro h
      have h1 := hzero ((a + h) :: l) (by rw [List.length_cons, hd])
      simp only [hp, sqDist_cons] at h1
      exact h1
    have hsplit : ∀ h : ℝ, Real.exp (-(b * |h|)) =
        -(c j)⁻¹ * ∑ i ∈ Finset.univ.erase j, c i * Real.exp (-(b * Real.sqrt (((p i).1 - (a + h)) ^ 2 + sqDist (p i).2 l))) := by
      intro h
      have h1 := hsum h
      rw [← Finset.add_sum_erase _ _ (Finset.mem_univ j), hj] at h1
      simp only [sqDist_self, add_zero, sub_add_cancel_left, even_two, Even.neg_pow, Real.sqrt_sq_eq_abs] at h1
      have h2 : c j ≠ 0 := hne
      field_simp
      linarith
    have hdiff : DifferentiableAt ℝ (fun h : ℝ => Real.exp (-(b * |h|))) 0 := by
      simp only [hsplit]
      refine DifferentiableAt.const_mul ?_ _
      refine DifferentiableAt.fun_sum fun i hi => ?_
      have hpos : ((p i).1 - (a + 0)) ^ 2 + sqDist (p i).2 l ≠ 0 := by
        intro h1
        have h2 := sqDist_nonneg (p i).2 l
        have h3 : sqDist (p i).2 l = 0 := by nlinarith [sq_nonneg ((p i).1 - (a + 0))]
        have h4 : (p i).1 - (a + 0) = 0 := by
          have : ((p i).1 - (a + 0)) ^ 2 = 0 := by linarith
          exact pow_eq_zero_iff (two_ne_zero) |>.1 this
        have h5 := eq_of_sqDist _ _ (hpl i) h3
        apply Finset.ne_of_mem_erase hi
        apply hinj
        rw [hp i, hxj, h5]
        congr 1
        linarith
      refine DifferentiableAt.const_mul ?_ _
      refine DifferentiableAt.exp ?_
      refine DifferentiableAt.neg ?_
      refine DifferentiableAt.const_mul ?_ _
      refine DifferentiableAt.sqrt ?_ hpos
      fun_prop
    have h6 := hdiff.log (Real.exp_pos _).ne'
    simp only [Real.log_exp] at h6
    have h7 : DifferentiableAt ℝ (fun h : ℝ => -(b⁻¹) * -(b * |h|)) 0 := h6.const_mul _
    apply not_differentiableAt_abs_zero
    convert h7 using 2
    field_simp

end RM
