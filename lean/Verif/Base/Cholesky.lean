import Verif.Base.Solve

/-! A Cholesky decomposition. rulinalg's `Cholesky::decompose` is external; the model of the learners takes it as a parameter
with the contract of Verif/Spec/Cholesky.lean. This one, row operations on the trailing block, is proved to meet the contract
in Verif/Proofs/Cholesky.lean. -/

namespace RM
open Outcome Scalar
variable {F : Type} [Scalar F]

/-- The rows of the factor of the leading `n` rows. -/
def choleskyRows : ℕ → List (List F) → Outcome (List (List F))
  | 0, _ => ok []
  | n + 1, rows =>
    let a := (rows.headD []).headD Scalar.zero
    if Scalar.zero <. a then do
      let l := Scalar.sqrt a
      let col := rows.tail.map fun r => r.headD Scalar.zero /. l
      let L ← choleskyRows n (List.zipWith (fun r c => List.zipWith (fun x d => x -. c *. d) r.tail col) rows.tail col)
      ok ((l :: List.replicate n Scalar.zero) :: List.zipWith (· :: ·) col L)
    else err .LinearAlgebra

/-- The decomposition: panics unless the matrix is square. -/
def choleskyFactor (A : Mat F) : Outcome (Mat F) :=
  if A.rows.length = A.cols then do
    let L ← choleskyRows A.cols A.rows
    ok ⟨A.cols, L⟩
  else panic

end RM
