import Mathlib.Algebra.Order.Round
import Mathlib.Algebra.Order.Floor.Ring
import Verif.Base.Scalar

/-!
# Arithmetic with monotone rounding

`MonoScalar F` lists order laws that survive rounding. They hold for exact reals and for reals in which the result of
every operation is rounded by a fixed monotone, odd, idempotent function (`Rounding`), which is what IEEE arithmetic does
as long as nothing overflows and no NaN appears.
-/

namespace RM
open Scalar

/-- Comparisons are those of a linear order and there is no NaN. -/
class OrdScalar (F : Type) [Scalar F] [LinearOrder F] : Prop where
  lt_iff : ∀ a b : F, (a <. b) = true ↔ a < b
  le_iff : ∀ a b : F, (a <=. b) = true ↔ a ≤ b
  isNaN_false : ∀ a : F, Scalar.isNaN a = false

/-- Order laws of arithmetic that hold in the presence of rounding. -/
class MonoScalar (F : Type) [Scalar F] [LinearOrder F] : Prop extends OrdScalar F where
  add_mono : ∀ a b c d : F, a ≤ b → c ≤ d → a +. c ≤ b +. d
  le_add : ∀ a b : F, Scalar.zero ≤ b → a ≤ a +. b
  sub_mono : ∀ a b c d : F, a ≤ b → c ≤ d → a -. d ≤ b -. c
  sub_nonneg : ∀ a b : F, a ≤ b → Scalar.zero ≤ b -. a
  sq_comm : ∀ a b : F, (a -. b) *. (a -. b) = (b -. a) *. (b -. a)
  sq_mono : ∀ a b : F, Scalar.zero ≤ a → a ≤ b → a *. a ≤ b *. b
  sq_nonneg : ∀ a : F, Scalar.zero ≤ a *. a
  sqrt_mono : ∀ a b : F, a ≤ b → Scalar.sqrt a ≤ Scalar.sqrt b

instance : MonoScalar ℝ where
  lt_iff := by simp
  le_iff := by simp
  isNaN_false := by simp
  add_mono := by intro a b c d h1 h2; simpa using add_le_add h1 h2
  le_add := by intro a b h; simpa using h
  sub_mono := by intro a b c d h1 h2; simpa using sub_le_sub h1 h2
  sub_nonneg := by intro a b h; simpa using h
  sq_comm := by intro a b; simp only [real_sub, real_mul]; ring
  sq_mono := by intro a b h1 h2; exact mul_self_le_mul_self h1 h2
  sq_nonneg := by intro a; exact mul_self_nonneg a
  sqrt_mono := by intro a b h; exact Real.sqrt_le_sqrt h

/-- A rounding function: monotone, odd, and the identity on its values. -/
structure Rounding where
  fl : ℝ → ℝ
  mono : Monotone fl
  odd : ∀ x, fl (-x) = -fl x
  idem : ∀ x, fl (fl x) = fl x

theorem Rounding.zero (R : Rounding) : R.fl 0 = 0 := by
  have := R.odd 0
  rw [neg_zero] at this
  linarith

/-- The representable numbers of a rounding function. -/
def Fl (R : Rounding) : Type := {x : ℝ // R.fl x = x}

noncomputable instance (R : Rounding) : LinearOrder (Fl R) := inferInstanceAs (LinearOrder {x : ℝ // R.fl x = x})

/-- Rounding a real to a representable number. -/
def Fl.rnd (R : Rounding) (x : ℝ) : Fl R := ⟨R.fl x, R.idem x⟩

/-- Arithmetic in which every result is rounded. -/
noncomputable instance (R : Rounding) : Scalar (Fl R) where
  zero := ⟨0, R.zero⟩
  one := Fl.rnd R 1
  add := fun a b => Fl.rnd R (a.1 + b.1)
  sub := fun a b => Fl.rnd R (a.1 - b.1)
  mul := fun a b => Fl.rnd R (a.1 * b.1)
  div := fun a b => Fl.rnd R (a.1 / b.1)
  neg := fun a => ⟨-a.1, by rw [R.odd, a.2]⟩
  sqrt := fun a => Fl.rnd R (Real.sqrt a.1)
  exp := fun a => Fl.rnd R (Real.exp a.1)
  ln := fun a => Fl.rnd R (Real.log a.1)
  tanh := fun a => Fl.rnd R (Real.tanh a.1)
  abs := fun a => Fl.rnd R |a.1|
  powf := fun a b => Fl.rnd R (a.1 ^ b.1)
  lt := fun a b => decide (a.1 < b.1)
  le := fun a b => decide (a.1 ≤ b.1)
  eq := fun a b => decide (a.1 = b.1)
  isFinite := fun _ => true
  isNaN := fun _ => false
  signNeg := fun a => decide (a.1 < 0)
  ofNat := fun n => Fl.rnd R n
  ofRat := fun q => Fl.rnd R q
  maxVal := Fl.rnd R (2 ^ 1024 - 2 ^ 971)

instance (R : Rounding) : MonoScalar (Fl R) where
  lt_iff := by
    intro a b
    change decide (a.1 < b.1) = true ↔ a < b
    rw [decide_eq_true_eq]; exact Iff.rfl
  le_iff := by
    intro a b
    change decide (a.1 ≤ b.1) = true ↔ a ≤ b
    rw [decide_eq_true_eq]; exact Iff.rfl
  isNaN_false := fun _ => rfl
  add_mono := by
    intro a b c d h1 h2
    have h1 : a.1 ≤ b.1 := h1
    have h2 : c.1 ≤ d.1 := h2
    exact R.mono (add_le_add h1 h2)
  le_add := by
    intro a b h
    have h : (0 : ℝ) ≤ b.1 := h
    have : R.fl a.1 ≤ R.fl (a.1 + b.1) := R.mono (by linarith)
    rw [a.2] at this; exact this
  sub_mono := by
    intro a b c d h1 h2
    have h1 : a.1 ≤ b.1 := h1
    have h2 : c.1 ≤ d.1 := h2
    exact R.mono (sub_le_sub h1 h2)
  sub_nonneg := by
    intro a b h
    have h : a.1 ≤ b.1 := h
    have : R.fl 0 ≤ R.fl (b.1 - a.1) := R.mono (by linarith)
    rw [R.zero] at this; exact this
  sq_comm := by
    intro a b
    apply Subtype.ext
    change R.fl (R.fl (a.1 - b.1) * R.fl (a.1 - b.1)) = R.fl (R.fl (b.1 - a.1) * R.fl (b.1 - a.1))
    have : R.fl (b.1 - a.1) = - R.fl (a.1 - b.1) := by rw [← R.odd]; congr 1; ring
    rw [this]; congr 1; ring
  sq_mono := by
    intro a b h1 h2
    have h1 : (0 : ℝ) ≤ a.1 := h1
    have h2 : a.1 ≤ b.1 := h2
    exact R.mono (mul_self_le_mul_self h1 h2)
  sq_nonneg := by
    intro a
    have : R.fl 0 ≤ R.fl (a.1 * a.1) := R.mono (mul_self_nonneg _)
    rw [R.zero] at this; exact this
  sqrt_mono := by
    intro a b h
    have h : a.1 ≤ b.1 := h
    exact R.mono (Real.sqrt_le_sqrt h)

end RM
