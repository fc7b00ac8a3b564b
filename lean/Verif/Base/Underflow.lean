import Verif.Base.Scalar

/-!
# Reals with an exponential of bounded range

`XR` takes `exp` exactly. In `f64` it has a bounded range: below -746 the result is 0, above 710 it is infinite (the exact
limits are about -745.13 and 709.78). `UR` is `XR` with this one difference.
-/

namespace RM

/-- Reals extended by NaN and infinities, with an exponential that underflows and overflows. -/
def UR : Type := XR

namespace UR
/-- A finite value. -/
def fin (x : ℝ) : UR := XR.fin x
/-- Not a number. -/
def nan : UR := XR.nan
/-- Positive infinity. -/
def pinf : UR := XR.pinf
/-- Negative infinity. -/
def ninf : UR := XR.ninf

/-- The exponential: 0 below -746, infinite above 710, exact between. -/
noncomputable def exp : XR → XR
  | .nan => .nan
  | .ninf => .fin 0
  | .pinf => .pinf
  | .fin x => if x < -746 then .fin 0 else if 710 < x then .pinf else .fin (Real.exp x)

end UR

noncomputable instance instScalarUR : Scalar UR := { instScalarXR with exp := UR.exp }

section URSimp
variable (x y : ℝ)
theorem UR.fin_injective : Function.Injective UR.fin := fun _ _ h => XR.fin.inj h
@[simp] theorem UR.fin_inj : UR.fin x = UR.fin y ↔ x = y := ⟨fun h => XR.fin.inj h, fun h => by rw [h]⟩
theorem UR.fin_ne_nan : UR.fin x ≠ UR.nan := fun h => XR.noConfusion h
@[simp] theorem ur_zero : (Scalar.zero : UR) = .fin 0 := rfl
@[simp] theorem ur_one : (Scalar.one : UR) = .fin 1 := rfl
@[simp] theorem ur_add : Scalar.add (UR.fin x) (UR.fin y) = .fin (x + y) := rfl
@[simp] theorem ur_sub : Scalar.sub (UR.fin x) (UR.fin y) = .fin (x - y) := xr_sub x y
@[simp] theorem ur_mul : Scalar.mul (UR.fin x) (UR.fin y) = .fin (x * y) := rfl
theorem ur_div (hy : y ≠ 0) : Scalar.div (UR.fin x) (UR.fin y) = .fin (x / y) := xr_div x y hy
theorem ur_div_zero_zero : Scalar.div (UR.fin 0) (UR.fin 0) = UR.nan := by
  refine (xr_div_zero 0).trans ?_
  simp [XR.infOf, UR.nan]
@[simp] theorem ur_div_pinf : Scalar.div (UR.fin x) UR.pinf = .fin 0 := rfl
@[simp] theorem ur_neg : Scalar.neg (UR.fin x) = .fin (-x) := rfl
theorem ur_sqrt (hx : 0 ≤ x) : Scalar.sqrt (UR.fin x) = .fin (Real.sqrt x) := xr_sqrt x hx
theorem UR.exp_mid (h1 : -746 ≤ x) (h2 : x ≤ 710) : UR.exp (XR.fin x) = .fin (Real.exp x) := by
  simp only [UR.exp, if_neg (not_lt.2 h1), if_neg (not_lt.2 h2)]
theorem UR.exp_low (h : x < -746) : UR.exp (XR.fin x) = .fin 0 := by simp only [UR.exp, if_pos h]
theorem UR.exp_high (h : 710 < x) : UR.exp (XR.fin x) = .pinf := by
  simp only [UR.exp, if_neg (not_lt.2 (show (-746 : ℝ) ≤ x by linarith)), if_pos h]
theorem ur_exp (h1 : -746 ≤ x) (h2 : x ≤ 710) : Scalar.exp (UR.fin x) = .fin (Real.exp x) := UR.exp_mid x h1 h2
theorem ur_exp_low (h : x < -746) : Scalar.exp (UR.fin x) = .fin 0 := UR.exp_low x h
theorem ur_exp_high (h : 710 < x) : Scalar.exp (UR.fin x) = UR.pinf := UR.exp_high x h
theorem ur_ln (hx : 0 < x) : Scalar.ln (UR.fin x) = .fin (Real.log x) := xr_ln x hx
theorem UR.ln_zero : Scalar.ln (XR.fin 0) = XR.ninf := by
  change (if (0 : ℝ) < 0 then _ else if (0 : ℝ) = 0 then _ else _) = _
  rw [if_neg (lt_irrefl _), if_pos rfl]
theorem ur_ln_zero : Scalar.ln (UR.fin 0) = UR.ninf := UR.ln_zero
@[simp] theorem ur_abs : Scalar.abs (UR.fin x) = .fin |x| := rfl
@[simp] theorem ur_lt : Scalar.lt (UR.fin x) (UR.fin y) = decide (x < y) := rfl
@[simp] theorem ur_ofNat (n : ℕ) : (Scalar.ofNat n : UR) = .fin n := rfl
@[simp] theorem ur_ofRat (q : ℚ) : (Scalar.ofRat q : UR) = .fin q := rfl
@[simp] theorem ur_add_pinf : Scalar.add (UR.fin x) UR.pinf = UR.pinf := rfl
theorem ur_zero_mul_ninf : Scalar.mul (UR.fin 0) UR.ninf = UR.nan := by
  change XR.infOf (-0) = _
  simp [XR.infOf, UR.nan]
@[simp] theorem ur_nan_add (a : UR) : Scalar.add UR.nan a = UR.nan := rfl
@[simp] theorem ur_add_nan (a : UR) : Scalar.add a UR.nan = UR.nan := by cases a <;> rfl
@[simp] theorem ur_nan_mul (a : UR) : Scalar.mul UR.nan a = UR.nan := rfl
@[simp] theorem ur_mul_nan (a : UR) : Scalar.mul a UR.nan = UR.nan := by cases a <;> rfl
@[simp] theorem ur_nan_sub (a : UR) : Scalar.sub UR.nan a = UR.nan := rfl
@[simp] theorem ur_sub_nan (a : UR) : Scalar.sub a UR.nan = UR.nan := by cases a <;> rfl
@[simp] theorem ur_nan_div (a : UR) : Scalar.div UR.nan a = UR.nan := rfl
@[simp] theorem ur_div_nan (a : UR) : Scalar.div a UR.nan = UR.nan := by cases a <;> rfl
@[simp] theorem ur_neg_nan : Scalar.neg UR.nan = UR.nan := rfl
@[simp] theorem ur_abs_nan : Scalar.abs UR.nan = UR.nan := rfl
@[simp] theorem ur_lt_nan (a : UR) : Scalar.lt UR.nan a = false := rfl
end URSimp

end RM
