import Mathlib.LinearAlgebra.Matrix.DotProduct
import Mathlib.Data.Matrix.Mul
import Verif.Spec.Calculus

/-! The matrices and vectors of the model as Mathlib matrices and vectors. -/

namespace RM
open Spec

/-- The Mathlib matrix with the same entries. -/
def toM (n m : ℕ) (M : Mat ℝ) : Matrix (Fin n) (Fin m) ℝ := Matrix.of fun i j => ent M i j

/-- The vector with the same entries. -/
def toV (n : ℕ) (v : List ℝ) : Fin n → ℝ := fun i => v.getD i 0

/-- Symmetric, with a positive quadratic form. -/
def Spec.PosDefinite {n : ℕ} (A : Matrix (Fin n) (Fin n) ℝ) : Prop :=
  A.transpose = A ∧ ∀ v : Fin n → ℝ, v ≠ 0 → 0 < v ⬝ᵥ A.mulVec v

/-- Symmetric, with a non-negative quadratic form. -/
def Spec.PosSemi {n : ℕ} (A : Matrix (Fin n) (Fin n) ℝ) : Prop :=
  A.transpose = A ∧ ∀ v : Fin n → ℝ, 0 ≤ v ⬝ᵥ A.mulVec v

end RM
