import Verif.Base.Linalg

/-! Linear systems. rulinalg's `Matrix::solve` and `Matrix::inverse` (external) are LU decompositions with partial pivoting.
The models of the learners take the solver as a parameter, and their theorems assume only the contracts of Verif/Spec/Solve.lean.
This file has a concrete solver, Gaussian elimination with partial pivoting, which Verif/Proofs/Solve.lean proves to meet
the contracts, so the theorems are not about an empty class of solvers. -/

namespace RM
open Outcome Scalar
variable {F : Type} [Scalar F]

/-- `.expect(..)` or `.unwrap()` on a result. -/
def expectOk {α : Type} : Outcome α → Outcome α
  | .err _ => .panic
  | r => r

/-- The multiple of the pivot row that clears the first coefficient of a row, and that row without its first coefficient. A
row is the coefficients and the right-hand side. -/
def eliminate (p r : List F × F) : List F × F :=
  let m := r.1.headD Scalar.zero /. p.1.headD Scalar.zero
  (List.zipWith (fun a b => a -. m *. b) r.1.tail p.1.tail, r.2 -. m *. p.2)

/-- Gaussian elimination of `n` unknowns: the row with the largest first coefficient is the pivot, a pivot not above `tol`
is an error. -/
def gauss (tol : F) : ℕ → List (List F × F) → Outcome (List F)
  | 0, _ => ok []
  | n + 1, rows => do
    let i ← argmaxBy Scalar.lt (rows.map fun r => Scalar.abs (r.1.headD Scalar.zero))
    let p := rows.getD i.1 ([], Scalar.zero)
    if tol <. Scalar.abs (p.1.headD Scalar.zero) then do
      let x ← gauss tol n ((rows.eraseIdx i.1).map (eliminate p))
      ok ((p.2 -. dot p.1.tail x) /. p.1.headD Scalar.zero :: x)
    else err .LinearAlgebra

/-- A solver: panics unless the matrix is square and fits the right-hand side. -/
def gaussSolve (tol : F) (A : Mat F) (b : List F) : Outcome (List F) :=
  if A.rows.length = A.cols ∧ A.rows.length = b.length then gauss tol A.cols (A.rows.zip b) else panic

/-- The unit vector `e_j`. -/
def unitVec (n j : ℕ) : List F := (List.range n).map fun i => if i = j then Scalar.one else Scalar.zero

/-- The systems of the inverse, column after column. -/
def solveColumns (tol : F) (A : Mat F) : List ℕ → Outcome (List (List F))
  | [] => ok []
  | j :: js => do
    let x ← gaussSolve tol A (unitVec A.cols j)
    let xs ← solveColumns tol A js
    ok (x :: xs)

/-- The inverse. -/
def gaussInverse (tol : F) (A : Mat F) : Outcome (Mat F) := do
  let xs ← solveColumns tol A (List.range A.cols)
  ok (Mat.transpose ⟨A.cols, xs⟩)

end RM
