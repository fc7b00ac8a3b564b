import Verif.Spec.Calculus

/-! Contracts of the linear solvers of the linear algebra library (exact arithmetic). -/

namespace RM.Spec
open RM Outcome

/-- When the solver succeeds on a square system it returns a solution, and the system has no other. -/
def SolvesExactly (solve : Mat ℝ → List ℝ → Outcome (List ℝ)) : Prop :=
  ∀ (A : Mat ℝ) (b x : List ℝ) (n : ℕ), HasShape A n n → b.length = n → solve A b = ok x →
    x.length = n ∧ A.mulVec x = ok b ∧ ∀ y : List ℝ, y.length = n → A.mulVec y = ok b → y = x

/-- A list of zeros. -/
def zeroVec (n : ℕ) : List ℝ := List.replicate n 0

/-- The columns of `A` are linearly independent. -/
def FullColumnRank (A : Mat ℝ) : Prop :=
  ∀ y : List ℝ, y.length = A.cols → A.mulVec y = ok (zeroVec A.rows.length) → y = zeroVec A.cols

/-- The solver succeeds on every regular square system. -/
def SolvesRegular (solve : Mat ℝ → List ℝ → Outcome (List ℝ)) : Prop :=
  ∀ (A : Mat ℝ) (b : List ℝ) (n : ℕ), HasShape A n n → b.length = n → FullColumnRank A → ∃ x, solve A b = ok x

/-- On square systems the solver fails with an error, never with a panic. -/
def SolverReports (solve : Mat ℝ → List ℝ → Outcome (List ℝ)) : Prop :=
  ∀ (A : Mat ℝ) (b : List ℝ) (n : ℕ), HasShape A n n → b.length = n → (∃ x, solve A b = ok x) ∨ ∃ e, solve A b = err e

/-- The identity matrix. -/
def identity (n : ℕ) : Mat ℝ := matOf n n fun k => if k.1 = k.2 then 1 else 0

/-- When the inverse succeeds on a square matrix it is the inverse. -/
def InvertsExactly (inverse : Mat ℝ → Outcome (Mat ℝ)) : Prop :=
  ∀ (A B : Mat ℝ) (n : ℕ), HasShape A n n → inverse A = ok B → HasShape B n n ∧ A.mul B = ok (identity n)

/-- The inverse succeeds on every regular square matrix. -/
def InvertsRegular (inverse : Mat ℝ → Outcome (Mat ℝ)) : Prop :=
  ∀ (A : Mat ℝ) (n : ℕ), HasShape A n n → FullColumnRank A → ∃ B, inverse A = ok B

end RM.Spec
