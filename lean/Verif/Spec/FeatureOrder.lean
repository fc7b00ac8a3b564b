import Verif.Base.Linalg
import Verif.Base.Scalar
import Mathlib.Data.Real.Basic

/-! Specification of data with their features in another order. -/

namespace RM.Spec

/-- The entries of `r` in the order given by the list of positions `σ`. -/
noncomputable def reorder (σ : List ℕ) (r : List ℝ) : List ℝ := σ.map fun j => r.getD j 0

/-- The data set with its columns in the order `σ`. -/
noncomputable def reorderCols (σ : List ℕ) (X : Mat ℝ) : Mat ℝ := ⟨X.cols, X.rows.map (reorder σ)⟩

/-- `σ` lists every position below `n` once. -/
def IsOrder (n : ℕ) (σ : List ℕ) : Prop := σ.Perm (List.range n)

end RM.Spec
