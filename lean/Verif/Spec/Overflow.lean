import Verif.Base.Linalg
import Verif.Base.Overflow

/-! Data within the range of the number type. -/

namespace RM.Spec

/-- A vector of finite floats. -/
def bfins (v : List ℝ) : List BR := v.map BR.fin

/-- A matrix of finite floats. -/
def bfinMat (m : Mat ℝ) : Mat BR := ⟨m.cols, m.rows.map bfins⟩

/-- All entries are at most `R` in magnitude. -/
def Within (R : ℝ) (v : List ℝ) : Prop := ∀ x ∈ v, |x| ≤ R

/-- `R` is small enough that `c` squares of differences of numbers up to `R` can be added up. (For `f64` and 1000 features,
`R = 10 ^ 152` is.) -/
def SquaresFit (R : ℝ) (c : ℕ) : Prop := c * (2 * R) ^ 2 ≤ BR.top

/-- The two vectors differ by so much in some place that the square is not a finite number. -/
def FarApart (u v : List ℝ) : Prop := ∃ j, ∃ h1 : j < u.length, ∃ h2 : j < v.length, BR.top < (u[j] - v[j]) ^ 2

end RM.Spec
