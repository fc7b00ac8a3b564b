import Mathlib.Data.Real.Basic
import Verif.Base.Linalg

/-! Specification of a change of units. -/

namespace RM.Spec

/-- The same data with column `j` in another unit: `x` becomes `a * x + b` for the `j`-th pair `(a, b)` of `u`. -/
def inUnits (u : List (ℝ × ℝ)) (X : Mat ℝ) : Mat ℝ :=
  ⟨X.cols, X.rows.map fun r => List.zipWith (fun (x : ℝ) (c : ℝ × ℝ) => c.1 * x + c.2) r u⟩

end RM.Spec
