import Verif.Base.Scalar

/-!
# Reals of bounded range

`XR` takes sums and products exactly, of any size. In `f64` a result beyond the largest number is infinite. `BR` is `XR` with this
one difference (there is no rounding, and no underflow).
-/

namespace RM

/-- Reals extended by NaN and infinities, with a largest finite number. -/
def BR : Type := XR

namespace BR
/-- A finite value. -/
def fin (x : ℝ) : BR := XR.fin x
/-- Not a number. -/
def nan : BR := XR.nan
/-- Positive infinity. -/
def pinf : BR := XR.pinf
/-- Negative infinity. -/
def ninf : BR := XR.ninf

/-- The largest finite number, `f64::MAX`. -/
noncomputable def top : ℝ := 2 ^ 1024 - 2 ^ 971

/-- A result beyond the largest number is infinite. -/
noncomputable def clip : XR → XR
  | .fin x => if top < x then .pinf else if x < -top then .ninf else .fin x
  | a => a

end BR

noncomputable instance instScalarBR : Scalar BR := { instScalarXR with
  add := fun a b => BR.clip (XR.add a b)
  sub := fun a b => BR.clip (XR.add a (XR.neg b))
  mul := fun a b => BR.clip (XR.mul a b)
  div := fun a b => BR.clip (XR.div a b)
  exp := fun a => BR.clip (instScalarXR.exp a)
  powf := fun a b => BR.clip (instScalarXR.powf a b)
  maxVal := BR.fin BR.top }

theorem BR.sixteen_le_top : 16 ≤ BR.top := by
  unfold BR.top
  have h : (2 : ℝ) ^ 1024 = 2 ^ 53 * 2 ^ 971 := by rw [← pow_add]
  have h1 : (1 : ℝ) ≤ 2 ^ 971 := one_le_pow₀ (by norm_num)
  rw [h]
  generalize (2 : ℝ) ^ 971 = a at h1
  have h2 : (17 : ℝ) ≤ 2 ^ 53 := by norm_num
  nlinarith

theorem BR.one_le_top : 1 ≤ BR.top := by linarith [BR.sixteen_le_top]

theorem BR.top_pos : 0 < BR.top := lt_of_lt_of_le one_pos BR.one_le_top

theorem BR.clip_fin {x : ℝ} (h : |x| ≤ BR.top) : BR.clip (XR.fin x) = XR.fin x := by
  rw [abs_le] at h
  simp only [BR.clip, if_neg (not_lt.2 h.2), if_neg (not_lt.2 h.1)]

theorem BR.clip_pos {x : ℝ} (h : BR.top < x) : BR.clip (XR.fin x) = XR.pinf := by
  simp only [BR.clip, if_pos h]

theorem BR.clip_neg {x : ℝ} (h : x < -BR.top) : BR.clip (XR.fin x) = XR.ninf := by
  have := BR.top_pos
  simp only [BR.clip, if_neg (not_lt.2 (show x ≤ BR.top by linarith)), if_pos h]

section BRSimp
variable {x y : ℝ}
@[simp] theorem BR.fin_inj : BR.fin x = BR.fin y ↔ x = y := ⟨fun h => XR.fin.inj h, fun h => by rw [h]⟩
theorem BR.fin_ne_pinf : BR.fin x ≠ BR.pinf := fun h => XR.noConfusion h
@[simp] theorem br_zero : (Scalar.zero : BR) = .fin 0 := rfl
@[simp] theorem br_one : (Scalar.one : BR) = .fin 1 := rfl
@[simp] theorem br_maxVal : (Scalar.maxVal : BR) = .fin BR.top := rfl
@[simp] theorem br_ofNat (n : ℕ) : (Scalar.ofNat n : BR) = .fin n := rfl
@[simp] theorem br_ofRat (q : ℚ) : (Scalar.ofRat q : BR) = .fin q := rfl
@[simp] theorem br_neg : Scalar.neg (BR.fin x) = .fin (-x) := rfl
@[simp] theorem br_abs : Scalar.abs (BR.fin x) = .fin |x| := rfl
theorem br_add (h : |x + y| ≤ BR.top) : Scalar.add (BR.fin x) (BR.fin y) = .fin (x + y) := BR.clip_fin h
theorem br_add_over (h : BR.top < x + y) : Scalar.add (BR.fin x) (BR.fin y) = BR.pinf := BR.clip_pos h
theorem br_sub (h : |x - y| ≤ BR.top) : Scalar.sub (BR.fin x) (BR.fin y) = .fin (x - y) := by
  rw [sub_eq_add_neg] at h ⊢
  exact BR.clip_fin h
theorem br_sub_over (h : BR.top < x - y) : Scalar.sub (BR.fin x) (BR.fin y) = BR.pinf := by
  rw [sub_eq_add_neg] at h
  exact BR.clip_pos h
theorem br_sub_under (h : x - y < -BR.top) : Scalar.sub (BR.fin x) (BR.fin y) = BR.ninf := by
  rw [sub_eq_add_neg] at h
  exact BR.clip_neg h
theorem br_mul (h : |x * y| ≤ BR.top) : Scalar.mul (BR.fin x) (BR.fin y) = .fin (x * y) := BR.clip_fin h
theorem br_mul_over (h : BR.top < x * y) : Scalar.mul (BR.fin x) (BR.fin y) = BR.pinf := BR.clip_pos h
theorem br_div (hy : y ≠ 0) (h : |x / y| ≤ BR.top) : Scalar.div (BR.fin x) (BR.fin y) = .fin (x / y) := by
  have e : XR.div (XR.fin x) (XR.fin y) = XR.fin (x / y) := xr_div x y hy
  change BR.clip (XR.div (XR.fin x) (XR.fin y)) = _
  rw [e]
  exact BR.clip_fin h
theorem br_div_pinf : Scalar.div (BR.fin x) BR.pinf = .fin 0 := by
  change BR.clip (XR.fin 0) = _
  exact BR.clip_fin (by simpa using BR.top_pos.le)
theorem br_pinf_div (h : 0 ≤ y) : Scalar.div BR.pinf (BR.fin y) = BR.pinf := by
  change BR.clip (if y < 0 then XR.ninf else XR.pinf) = XR.pinf
  rw [if_neg (not_lt.2 h)]
  rfl
theorem br_sqrt (hx : 0 ≤ x) : Scalar.sqrt (BR.fin x) = .fin (Real.sqrt x) := xr_sqrt x hx
@[simp] theorem br_sqrt_pinf : Scalar.sqrt BR.pinf = BR.pinf := rfl
@[simp] theorem br_add_pinf : Scalar.add (BR.fin x) BR.pinf = BR.pinf := rfl
@[simp] theorem br_pinf_add : Scalar.add BR.pinf (BR.fin x) = BR.pinf := rfl
@[simp] theorem br_pinf_add_pinf : Scalar.add BR.pinf BR.pinf = BR.pinf := rfl
@[simp] theorem br_pinf_mul_pinf : Scalar.mul BR.pinf BR.pinf = BR.pinf := rfl
@[simp] theorem br_ninf_mul_ninf : Scalar.mul BR.ninf BR.ninf = BR.pinf := rfl
@[simp] theorem br_lt : Scalar.lt (BR.fin x) (BR.fin y) = decide (x < y) := rfl
@[simp] theorem br_le : Scalar.le (BR.fin x) (BR.fin y) = decide (x ≤ y) := xr_le x y
@[simp] theorem br_pinf_lt (a : BR) : Scalar.lt BR.pinf a = false := by cases a <;> rfl
@[simp] theorem br_fin_lt_pinf : Scalar.lt (BR.fin x) BR.pinf = true := rfl
@[simp] theorem br_pinf_le_pinf : Scalar.le BR.pinf BR.pinf = true := rfl
@[simp] theorem br_isNaN_fin : Scalar.isNaN (BR.fin x) = false := rfl
@[simp] theorem br_isNaN_pinf : Scalar.isNaN BR.pinf = false := rfl
@[simp] theorem br_isFinite_fin : Scalar.isFinite (BR.fin x) = true := rfl
@[simp] theorem br_isFinite_pinf : Scalar.isFinite BR.pinf = false := rfl
end BRSimp

end RM
