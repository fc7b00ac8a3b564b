import Verif.Spec.AsMatrix

/-! Contracts of the Cholesky decomposition and of the triangular solvers of the linear algebra library (exact arithmetic). -/

namespace RM.Spec
open RM Outcome

/-- Zero above the diagonal. -/
def LowerTriangular {n : ℕ} (L : Matrix (Fin n) (Fin n) ℝ) : Prop := ∀ i j, i < j → L i j = 0

/-- When the decomposition of a symmetric matrix succeeds it returns a lower triangular `L` with positive diagonal and
`L Lᵀ = A`. -/
def CholeskyExact (chol : Mat ℝ → Outcome (Mat ℝ)) : Prop :=
  ∀ (A L : Mat ℝ) (n : ℕ), HasShape A n n → (toM n n A).transpose = toM n n A → chol A = ok L →
    HasShape L n n ∧ LowerTriangular (toM n n L) ∧ (∀ i, 0 < toM n n L i i) ∧ toM n n L * (toM n n L).transpose = toM n n A

/-- The decomposition succeeds on every positive definite matrix. -/
def CholeskyPosDef (chol : Mat ℝ → Outcome (Mat ℝ)) : Prop :=
  ∀ (A : Mat ℝ) (n : ℕ), HasShape A n n → PosDefinite (toM n n A) → ∃ L, chol A = ok L

/-- On square matrices the decomposition fails with an error, never with a panic. -/
def CholeskyReports (chol : Mat ℝ → Outcome (Mat ℝ)) : Prop :=
  ∀ (A : Mat ℝ) (n : ℕ), HasShape A n n → (∃ L, chol A = ok L) ∨ ∃ e, chol A = err e

/-- The solver solves every lower triangular system without zeros on the diagonal. -/
def SolvesLower (solve : Mat ℝ → List ℝ → Outcome (List ℝ)) : Prop :=
  ∀ (L : Mat ℝ) (b : List ℝ) (n : ℕ), HasShape L n n → LowerTriangular (toM n n L) → (∀ i, toM n n L i i ≠ 0) → b.length = n →
    ∃ x, solve L b = ok x ∧ x.length = n ∧ (toM n n L).mulVec (toV n x) = toV n b

/-- The solver solves every upper triangular system without zeros on the diagonal. -/
def SolvesUpper (solve : Mat ℝ → List ℝ → Outcome (List ℝ)) : Prop :=
  ∀ (U : Mat ℝ) (b : List ℝ) (n : ℕ), HasShape U n n → LowerTriangular (toM n n U).transpose → (∀ i, toM n n U i i ≠ 0) → b.length = n →
    ∃ x, solve U b = ok x ∧ x.length = n ∧ (toM n n U).mulVec (toV n x) = toV n b

end RM.Spec
