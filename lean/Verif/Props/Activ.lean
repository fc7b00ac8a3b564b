import Mathlib.Analysis.SpecialFunctions.ExpDeriv
import Mathlib.Analysis.SpecialFunctions.Trigonometric.DerivHyp
import Mathlib.Analysis.SpecialFunctions.Artanh
import Verif.Model.Activ

/-!
C41: the activation functions satisfy their derivative and inverse laws (exact arithmetic).
-/

namespace RM
open Outcome Scalar

namespace Spec
/-- The laws of an activation function with the given range. -/
structure ActivLaws (A : Activ ℝ) (range : Set ℝ) : Prop where
  /-- `func_grad` is the derivative of `func` -/
  deriv : ∀ x, HasDerivAt A.func (A.funcGrad x) x
  /-- `func_grad_from_output` computes it from the output -/
  from_output : ∀ x, A.gradFromOutput (A.func x) = A.funcGrad x
  /-- `func_inv` inverts `func` -/
  left_inv : ∀ x, A.funcInv (A.func x) = x
  right_inv : ∀ y ∈ range, A.func (A.funcInv y) = y
  /-- the values are exactly the range -/
  range_eq : Set.range A.func = range
  strictMono : StrictMono A.func
end Spec
open Spec

/-- The laws from the pointwise facts. -/
theorem ActivLaws.mk' {A : Activ ℝ} {range : Set ℝ} (h1 : ∀ x, HasDerivAt A.func (A.funcGrad x) x)
    (h2 : ∀ x, A.gradFromOutput (A.func x) = A.funcGrad x) (h3 : ∀ x, A.funcInv (A.func x) = x) (h4 : ∀ y ∈ range, A.func (A.funcInv y) = y)
    (h5 : ∀ x, A.func x ∈ range) (h6 : ∀ x, 0 < A.funcGrad x) : ActivLaws A range where
  deriv := h1
  from_output := h2
  left_inv := h3
  right_inv := h4
  range_eq := by
    ext y
    constructor
    · rintro ⟨x, rfl⟩; exact h5 x
    · intro hy; exact ⟨_, h4 y hy⟩
  strictMono := strictMono_of_deriv_pos fun x => by rw [(h1 x).deriv]; exact h6 x

theorem sigmoid_pos (x : ℝ) : 0 < (sigmoid : Activ ℝ).func x := by
  simp only [sigmoid, real_one, real_div, real_add, real_exp, real_neg]
  have := Real.exp_pos (-x)
  positivity

theorem sigmoid_lt_one (x : ℝ) : (sigmoid : Activ ℝ).func x < 1 := by
  simp only [sigmoid, real_one, real_div, real_add, real_exp, real_neg]
  have := Real.exp_pos (-x)
  rw [div_lt_one (by linarith)]
  linarith

/-- C41 for `Sigmoid`, range `(0, 1)`. -/
theorem C41_sigmoid : ActivLaws (sigmoid : Activ ℝ) (Set.Ioo 0 1) := by
  refine ActivLaws.mk' ?_ ?_ ?_ ?_ (fun x => ⟨sigmoid_pos x, sigmoid_lt_one x⟩) ?_
  · intro x
    simp only [sigmoid, real_one, real_div, real_add, real_exp, real_neg, real_mul, real_sub]
    have hp := Real.exp_pos (-x)
    have h1 : HasDerivAt (fun x : ℝ => 1 + Real.exp (-x)) (-Real.exp (-x)) x := by
      have := ((Real.hasDerivAt_exp (-x)).comp x (hasDerivAt_neg x)).const_add 1
      simpa [Function.comp_def] using this
    have h2 := h1.fun_inv (by linarith : (1 : ℝ) + Real.exp (-x) ≠ 0)
    have h3 : (1 : ℝ) + Real.exp (-x) ≠ 0 := by linarith
    have h4 : -(-Real.exp (-x)) / (1 + Real.exp (-x)) ^ 2 = 1 / (1 + Real.exp (-x)) * (1 - 1 / (1 + Real.exp (-x))) := by
      field_simp
      ring
    rw [h4] at h2
    simpa only [one_div] using h2
  · intro x
    simp [sigmoid]
  · intro x
    simp only [sigmoid, real_one, real_div, real_add, real_exp, real_neg, real_sub, real_ln]
    have hp := Real.exp_pos (-x)
    have : 1 / (1 + Real.exp (-x)) / (1 - 1 / (1 + Real.exp (-x))) = Real.exp x := by
      rw [Real.exp_neg] at hp ⊢
      have hx := Real.exp_pos x
      have h1 : (1 + (Real.exp x)⁻¹) ≠ 0 := by linarith
      have h2 : 1 - 1 / (1 + (Real.exp x)⁻¹) = (Real.exp x)⁻¹ / (1 + (Real.exp x)⁻¹) := by
        rw [eq_div_iff h1, sub_mul, one_mul, div_mul_cancel₀ _ h1]
        ring
      rw [h2]
      field_simp
    rw [this, Real.log_exp]
  · intro y hy
    simp only [sigmoid, real_one, real_div, real_add, real_exp, real_neg, real_sub, real_ln]
    have h1 : 0 < 1 - y := by linarith [hy.2]
    have h0 := hy.1
    rw [Real.exp_neg, Real.exp_log (div_pos h0 h1)]
    field_simp
    ring
  · intro x
    have h0 := sigmoid_pos x
    have h1 := sigmoid_lt_one x
    have : (sigmoid : Activ ℝ).funcGrad x = (sigmoid : Activ ℝ).func x * (1 - (sigmoid : Activ ℝ).func x) := rfl
    rw [this]
    exact mul_pos h0 (by linarith)

/-- C41 for `Linear`, range `ℝ`. -/
theorem C41_linear : ActivLaws (linearActiv : Activ ℝ) Set.univ := by
  refine ActivLaws.mk' (fun x => hasDerivAt_id x) (fun _ => rfl) (fun _ => rfl) (fun _ _ => rfl) (fun _ => trivial) ?_
  intro x; simp [linearActiv]

/-- C41 for `Exp`, range `(0, ∞)`. -/
theorem C41_exp : ActivLaws (expActiv : Activ ℝ) (Set.Ioi 0) := by
  refine ActivLaws.mk' (fun x => Real.hasDerivAt_exp x) (fun _ => rfl) (fun x => Real.log_exp x) (fun y hy => Real.exp_log hy)
    (fun x => Real.exp_pos x) (fun x => Real.exp_pos x)

/-- C41 for `Tanh`, range `(-1, 1)`. -/
theorem C41_tanh : ActivLaws (tanhActiv : Activ ℝ) (Set.Ioo (-1) 1) := by
  have hlt : ∀ x : ℝ, Real.tanh x ∈ Set.Ioo (-1 : ℝ) 1 := fun x => ⟨Real.neg_one_lt_tanh x, Real.tanh_lt_one x⟩
  refine ActivLaws.mk' ?_ (fun _ => rfl) ?_ ?_ hlt ?_
  · intro x
    simp only [tanhActiv, real_one, real_tanh, real_mul, real_sub]
    have hc := (Real.cosh_pos x).ne'
    have h := (Real.hasDerivAt_sinh x).fun_div (Real.hasDerivAt_cosh x) hc
    have h2 : (Real.cosh x * Real.cosh x - Real.sinh x * Real.sinh x) / Real.cosh x ^ 2 = 1 - Real.tanh x * Real.tanh x := by
      rw [Real.tanh_eq_sinh_div_cosh]
      field_simp
    rw [h2] at h
    have h3 : (fun x => Real.tanh x) = fun x => Real.sinh x / Real.cosh x := by
      funext x; exact Real.tanh_eq_sinh_div_cosh x
    rw [h3]
    exact h
  · intro x
    have h := Real.artanh_eq_half_log (x := Real.tanh x) (Set.Ioo_subset_Icc_self (hlt x))
    rw [Real.artanh_tanh] at h
    simp only [tanhActiv, real_one, real_tanh, real_mul, real_sub, real_add, real_div, real_ln, real_ofRat]
    push_cast
    exact h.symm
  · intro y hy
    have h := Real.artanh_eq_half_log (x := y) (Set.Ioo_subset_Icc_self hy)
    simp only [tanhActiv, real_one, real_tanh, real_mul, real_sub, real_add, real_div, real_ln, real_ofRat]
    push_cast
    rw [← h]
    exact Real.tanh_artanh hy
  · intro x
    have := hlt x
    simp only [tanhActiv, real_one, real_tanh, real_mul, real_sub]
    nlinarith [this.1, this.2]

/-- Example: values and slopes at 0. -/
example : (sigmoid : Activ ℝ).func 0 = 1 / 2 ∧ (sigmoid : Activ ℝ).funcGrad 0 = 1 / 4 ∧ (tanhActiv : Activ ℝ).funcGrad 0 = 1 := by
  simp only [sigmoid, tanhActiv, real_one, real_div, real_add, real_exp, real_neg, real_sub, real_mul, real_tanh]
  norm_num

end RM
