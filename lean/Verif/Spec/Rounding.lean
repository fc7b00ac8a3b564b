import Verif.Base.Linalg
import Verif.Base.MonoScalar

/-! How far results computed with rounding are from the exact ones. -/

namespace RM.Spec

/-- Every result is off by at most the fraction `u` of its exact value: the standard model of floating-point arithmetic
without overflow and underflow (`u = 2⁻⁵³` for `f64` rounded to nearest). -/
structure Precise (R : Rounding) (u : ℝ) : Prop where
  nonneg : 0 ≤ u
  lt_one : u < 1
  rel : ∀ x, |R.fl x - x| ≤ u * |x|

/-- The factor by which `m` roundings can change a result; at most `1 / (1 - m u)` (`C86_growth`). -/
noncomputable def growth (u : ℝ) (m : ℕ) : ℝ := (1 / (1 - u)) ^ m

/-- Two nonnegative numbers agree up to a factor. -/
def AgreeUpTo (f a b : ℝ) : Prop := a ≤ f * b ∧ b ≤ f * a

/-- The real numbers that a list of representable numbers stands for. -/
def reals {R : Rounding} (l : List (Fl R)) : List ℝ := l.map fun x => x.1

/-- The rows of a matrix of representable numbers as real numbers. -/
def realRows {R : Rounding} (X : Mat (Fl R)) : List (List ℝ) := X.rows.map reals

end RM.Spec
