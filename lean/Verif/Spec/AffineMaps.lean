import Mathlib.LinearAlgebra.Matrix.NonsingularInverse
import Verif.Base.Linalg

/-! Specification vocabulary: change of the units of the features. -/

namespace RM.Spec
open RM

/-- Feature `j` in other units: every entry `x` of column `j` becomes `a j * x + b j`. -/
noncomputable def rescaleRow (a b : ℕ → ℝ) (r : List ℝ) : List ℝ := r.mapIdx fun j x => a j * x + b j

/-- The data set in other units. -/
noncomputable def rescale (a b : ℕ → ℝ) (X : Mat ℝ) : Mat ℝ := ⟨X.cols, X.rows.map (rescaleRow a b)⟩

/-- On vectors with `d` entries, `φ` is an invertible affine map. -/
def InvertibleAffine (d : ℕ) (φ : List ℝ → List ℝ) : Prop :=
  ∃ (M : Matrix (Fin d) (Fin d) ℝ) (c : Fin d → ℝ), IsUnit M.det ∧
    ∀ x : List ℝ, x.length = d → φ x = List.ofFn fun i => ∑ j : Fin d, M i j * x.getD j 0 + c i

/-- `φ` applied to every row. -/
def mapRows (φ : List ℝ → List ℝ) (X : Mat ℝ) : Mat ℝ := ⟨X.cols, X.rows.map φ⟩

end RM.Spec
