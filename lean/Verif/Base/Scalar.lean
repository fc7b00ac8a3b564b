import Mathlib.Analysis.SpecialFunctions.Sqrt
import Mathlib.Analysis.SpecialFunctions.Log.Basic
import Mathlib.Analysis.SpecialFunctions.Pow.Real
import Mathlib.Analysis.SpecialFunctions.Trigonometric.DerivHyp
import Verif.Base.Outcome

/-!
# Scalars

The Rust code computes with `f64` (or a type `T: Float`). Model functions are generic over `Scalar F`, the list of
operations used. Comparisons are `Bool`-valued as in Rust (all false on NaN, except `!=`).
-/

namespace RM

/-- The float operations used by the library (`std::f64`, `libnum::Float`; external). No laws are assumed. -/
class Scalar (F : Type) where
  zero : F
  one : F
  add : F → F → F
  sub : F → F → F
  mul : F → F → F
  div : F → F → F
  neg : F → F
  sqrt : F → F
  exp : F → F
  ln : F → F
  tanh : F → F
  abs : F → F
  powf : F → F → F
  /-- `x < y` -/
  lt : F → F → Bool
  /-- `x <= y` -/
  le : F → F → Bool
  /-- `x == y` -/
  eq : F → F → Bool
  isFinite : F → Bool
  isNaN : F → Bool
  /-- `is_sign_negative` -/
  signNeg : F → Bool
  /-- `n as f64` -/
  ofNat : ℕ → F
  /-- decimal constants of the source, as rationals -/
  ofRat : ℚ → F
  /-- `f64::MAX` -/
  maxVal : F

/-- The constant `std::f64::consts::PI` (external). -/
class ScalarPi (F : Type) where
  pi : F

namespace Scalar
scoped infixl:65 " +. " => Scalar.add
scoped infixl:65 " -. " => Scalar.sub
scoped infixl:70 " *. " => Scalar.mul
scoped infixl:70 " /. " => Scalar.div
scoped infix:50 " <. " => Scalar.lt
scoped infix:50 " <=. " => Scalar.le
scoped infix:50 " ==. " => Scalar.eq
end Scalar

/-- Exact real arithmetic. `sqrt` of negatives, `ln` of non-positives and division by zero take Mathlib's junk values here:
theorems about this instance carry hypotheses that keep these arguments away, or use `XR`. -/
noncomputable instance instScalarReal : Scalar ℝ where
  zero := 0
  one := 1
  add := (· + ·)
  sub := (· - ·)
  mul := (· * ·)
  div := (· / ·)
  neg := (- ·)
  sqrt := Real.sqrt
  exp := Real.exp
  ln := Real.log
  tanh := Real.tanh
  abs := fun x => |x|
  powf := fun x y => x ^ y
  lt := fun x y => decide (x < y)
  le := fun x y => decide (x ≤ y)
  eq := fun x y => decide (x = y)
  isFinite := fun _ => true
  isNaN := fun _ => false
  signNeg := fun x => decide (x < 0)
  ofNat := fun n => (n : ℝ)
  ofRat := fun q => (q : ℝ)
  maxVal := 2 ^ 1024 - 2 ^ 971

section RealSimp
variable (x y : ℝ)
@[simp] theorem real_zero : (Scalar.zero : ℝ) = 0 := rfl
@[simp] theorem real_one : (Scalar.one : ℝ) = 1 := rfl
@[simp] theorem real_add : Scalar.add x y = x + y := rfl
@[simp] theorem real_sub : Scalar.sub x y = x - y := rfl
@[simp] theorem real_mul : Scalar.mul x y = x * y := rfl
@[simp] theorem real_div : Scalar.div x y = x / y := rfl
@[simp] theorem real_neg : Scalar.neg x = -x := rfl
@[simp] theorem real_sqrt : Scalar.sqrt x = Real.sqrt x := rfl
@[simp] theorem real_exp : Scalar.exp x = Real.exp x := rfl
@[simp] theorem real_ln : Scalar.ln x = Real.log x := rfl
@[simp] theorem real_tanh : Scalar.tanh x = Real.tanh x := rfl
@[simp] theorem real_abs : Scalar.abs x = |x| := rfl
@[simp] theorem real_powf : Scalar.powf x y = x ^ y := rfl
@[simp] theorem real_lt : Scalar.lt x y = decide (x < y) := rfl
@[simp] theorem real_le : Scalar.le x y = decide (x ≤ y) := rfl
@[simp] theorem real_eq : Scalar.eq x y = decide (x = y) := rfl
@[simp] theorem real_isFinite : Scalar.isFinite x = true := rfl
@[simp] theorem real_isNaN : Scalar.isNaN x = false := rfl
@[simp] theorem real_signNeg : Scalar.signNeg x = decide (x < 0) := rfl
@[simp] theorem real_ofNat (n : ℕ) : (Scalar.ofNat n : ℝ) = n := rfl
@[simp] theorem real_ofRat (q : ℚ) : (Scalar.ofRat q : ℝ) = q := rfl
theorem real_maxVal : (Scalar.maxVal : ℝ) = 2 ^ 1024 - 2 ^ 971 := rfl
end RealSimp

/-- Reals extended by NaN and infinities: IEEE rules for the special values, exact arithmetic on finite ones, a single
(unsigned, treated as positive) zero. -/
inductive XR
  | nan
  | ninf
  | pinf
  | fin (x : ℝ)

namespace XR

/-- An infinity with the sign of `x`; NaN for zero (`0 * inf`, `0 / 0`). -/
noncomputable def infOf (x : ℝ) : XR := if 0 < x then pinf else if x < 0 then ninf else nan

/-- Negation. -/
noncomputable def neg : XR → XR
  | nan => nan
  | ninf => pinf
  | pinf => ninf
  | fin x => fin (-x)

/-- Addition. -/
noncomputable def add : XR → XR → XR
  | nan, _ => nan
  | _, nan => nan
  | pinf, ninf => nan
  | ninf, pinf => nan
  | pinf, _ => pinf
  | _, pinf => pinf
  | ninf, _ => ninf
  | _, ninf => ninf
  | fin x, fin y => fin (x + y)

/-- Multiplication. -/
noncomputable def mul : XR → XR → XR
  | nan, _ => nan
  | _, nan => nan
  | pinf, pinf => pinf
  | pinf, ninf => ninf
  | ninf, pinf => ninf
  | ninf, ninf => pinf
  | pinf, fin y => infOf y
  | ninf, fin y => infOf (-y)
  | fin x, pinf => infOf x
  | fin x, ninf => infOf (-x)
  | fin x, fin y => fin (x * y)

/-- Division. -/
noncomputable def div : XR → XR → XR
  | nan, _ => nan
  | _, nan => nan
  | fin x, fin y => if y = 0 then infOf x else fin (x / y)
  | fin _, _ => fin 0
  | pinf, fin y => if y < 0 then ninf else pinf
  | ninf, fin y => if y < 0 then pinf else ninf
  | _, _ => nan

/-- Strict comparison. -/
noncomputable def lt : XR → XR → Bool
  | nan, _ => false
  | _, nan => false
  | ninf, ninf => false
  | ninf, _ => true
  | _, ninf => false
  | pinf, _ => false
  | fin _, pinf => true
  | fin x, fin y => decide (x < y)

/-- Equality (NaN is not equal to itself). -/
noncomputable def eqb : XR → XR → Bool
  | ninf, ninf => true
  | pinf, pinf => true
  | fin x, fin y => decide (x = y)
  | _, _ => false

/-- Finite? -/
def isFinite : XR → Bool
  | fin _ => true
  | _ => false

end XR

noncomputable instance instScalarXR : Scalar XR where
  zero := .fin 0
  one := .fin 1
  add := XR.add
  sub := fun x y => XR.add x (XR.neg y)
  mul := XR.mul
  div := XR.div
  neg := XR.neg
  sqrt := fun
    | .nan => .nan
    | .ninf => .nan
    | .pinf => .pinf
    | .fin x => if x < 0 then .nan else .fin (Real.sqrt x)
  exp := fun
    | .nan => .nan
    | .ninf => .fin 0
    | .pinf => .pinf
    | .fin x => .fin (Real.exp x)
  ln := fun
    | .nan => .nan
    | .ninf => .nan
    | .pinf => .pinf
    | .fin x => if 0 < x then .fin (Real.log x) else if x = 0 then .ninf else .nan
  tanh := fun
    | .nan => .nan
    | .ninf => .fin (-1)
    | .pinf => .fin 1
    | .fin x => .fin (Real.tanh x)
  abs := fun
    | .nan => .nan
    | .ninf => .pinf
    | .pinf => .pinf
    | .fin x => .fin |x|
  powf := fun
    | .fin x, .fin y => if 0 < x then .fin (x ^ y) else if x = 0 then (if 0 < y then .fin 0 else if y = 0 then .fin 1 else .pinf)
        else .nan
    | _, _ => .nan
  lt := XR.lt
  le := fun x y => XR.lt x y || XR.eqb x y
  eq := XR.eqb
  isFinite := XR.isFinite
  isNaN := fun | .nan => true | _ => false
  signNeg := fun
    | .ninf => true
    | .fin x => decide (x < 0)
    | _ => false
  ofNat := fun n => .fin n
  ofRat := fun q => .fin q
  maxVal := .fin (2 ^ 1024 - 2 ^ 971)

section XRSimp
variable (x y : ℝ)
@[simp] theorem xr_zero : (Scalar.zero : XR) = .fin 0 := rfl
@[simp] theorem xr_one : (Scalar.one : XR) = .fin 1 := rfl
@[simp] theorem xr_add : Scalar.add (XR.fin x) (XR.fin y) = .fin (x + y) := rfl
@[simp] theorem xr_sub : Scalar.sub (XR.fin x) (XR.fin y) = .fin (x - y) := by
  change XR.fin (x + -y) = _; rw [sub_eq_add_neg]
@[simp] theorem xr_mul : Scalar.mul (XR.fin x) (XR.fin y) = .fin (x * y) := rfl
theorem xr_div (hy : y ≠ 0) : Scalar.div (XR.fin x) (XR.fin y) = .fin (x / y) := by
  change (if y = 0 then _ else _) = _; rw [if_neg hy]
theorem xr_div_zero : Scalar.div (XR.fin x) (XR.fin 0) = XR.infOf x := by
  change (if (0:ℝ) = 0 then _ else _) = _; rw [if_pos rfl]
@[simp] theorem xr_neg : Scalar.neg (XR.fin x) = .fin (-x) := rfl
theorem xr_sqrt (hx : 0 ≤ x) : Scalar.sqrt (XR.fin x) = .fin (Real.sqrt x) := by
  change (if x < 0 then _ else _) = _; rw [if_neg (not_lt.2 hx)]
@[simp] theorem xr_exp : Scalar.exp (XR.fin x) = .fin (Real.exp x) := rfl
theorem xr_ln (hx : 0 < x) : Scalar.ln (XR.fin x) = .fin (Real.log x) := by
  change (if 0 < x then _ else _) = _; rw [if_pos hx]
@[simp] theorem xr_tanh : Scalar.tanh (XR.fin x) = .fin (Real.tanh x) := rfl
@[simp] theorem xr_abs : Scalar.abs (XR.fin x) = .fin |x| := rfl
@[simp] theorem xr_lt : Scalar.lt (XR.fin x) (XR.fin y) = decide (x < y) := rfl
@[simp] theorem xr_eq : Scalar.eq (XR.fin x) (XR.fin y) = decide (x = y) := rfl
@[simp] theorem xr_le : Scalar.le (XR.fin x) (XR.fin y) = decide (x ≤ y) := by
  change (decide (x < y) || decide (x = y)) = _
  rw [Bool.eq_iff_iff]; simp [le_iff_lt_or_eq]
@[simp] theorem xr_isFinite_fin : Scalar.isFinite (XR.fin x) = true := rfl
@[simp] theorem xr_isFinite_nan : Scalar.isFinite XR.nan = false := rfl
@[simp] theorem xr_isFinite_pinf : Scalar.isFinite XR.pinf = false := rfl
@[simp] theorem xr_isFinite_ninf : Scalar.isFinite XR.ninf = false := rfl
@[simp] theorem xr_isNaN_fin : Scalar.isNaN (XR.fin x) = false := rfl
@[simp] theorem xr_ofNat (n : ℕ) : (Scalar.ofNat n : XR) = .fin n := rfl
@[simp] theorem xr_ofRat (q : ℚ) : (Scalar.ofRat q : XR) = .fin q := rfl
theorem xr_isFinite_iff (a : XR) : Scalar.isFinite a = true ↔ ∃ x, a = .fin x := by
  cases a
  · simp
  · simp
  · simp
  · simp
@[simp] theorem xr_infOf_not_finite : Scalar.isFinite (XR.infOf x) = false := by
  unfold XR.infOf; split
  · rfl
  · split <;> rfl
end XRSimp

noncomputable instance instPiReal : ScalarPi ℝ := ⟨Real.pi⟩
noncomputable instance instPiXR : ScalarPi XR := ⟨.fin Real.pi⟩

@[simp] theorem real_pi : (ScalarPi.pi : ℝ) = Real.pi := rfl

end RM
