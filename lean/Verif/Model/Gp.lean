import Verif.Model.Kernel
import Verif.Base.Cholesky

/-! Model of src/learning/gp.rs. The traits `Kernel` and `MeanFunc` are open: kernels and mean functions are arbitrary
functions. -/

namespace RM
open Outcome Scalar
variable {F : Type} [Scalar F]

/-- `ker_mat`, src/learning/gp.rs lines 124-140, src/learning/svm.rs lines 105-121. -/
def kerMat (ker : Kernel F) (m1 m2 : Mat F) : Outcome (Mat F) :=
  if m1.cols ≠ m2.cols then err .InvalidState
  else do
    let rows ← m1.rows.mapM fun r1 => m2.rows.mapM fun r2 => ker r1 r2
    ok ⟨m2.rows.length, rows⟩

/-- `ConstMean::func`, src/learning/gp.rs lines 54-58; its default is 0, lines 48-52. -/
def constMean (a : F) (x : Mat F) : List F := List.replicate x.rows.length (Scalar.zero +. a)

/-- `GaussianProcess`, src/learning/gp.rs lines 65-74; `new`, lines 112-121, and `Default`, lines 86-97, leave the last three
empty. -/
structure Gp (F : Type) where
  ker : Kernel F
  mean : Mat F → List F
  noise : F
  alpha : Option (List F) := none
  trainMat : Option (Mat F) := none
  trainData : Option (Mat F) := none

/-- The functions of rulinalg used by the Gaussian process: `Cholesky::decompose(..)` and `unpack`, `solve_l_triangular`,
`solve_u_triangular` (external). -/
structure TriLib (F : Type) where
  cholesky : Mat F → Outcome (Mat F)
  solveL : Mat F → List F → Outcome (List F)
  solveU : Mat F → List F → Outcome (List F)

/-- `Matrix::identity(n) * s`, src/learning/gp.rs line 159. -/
def scaledIdentity (n : ℕ) (s : F) : Mat F :=
  ⟨n, (List.range n).map fun i => (List.range n).map fun j => (if i = j then Scalar.one else Scalar.zero) *. s⟩

/-- `map_err` of the decomposition, src/learning/gp.rs lines 163-166. -/
def orInvalidState {α : Type} : Outcome α → Outcome α
  | .err _ => .err .InvalidState
  | r => r

/-- `train`, src/learning/gp.rs lines 158-176. The model changes only at the end. -/
def Gp.train (lib : TriLib F) (g : Gp F) (inputs : Mat F) (targets : List F) : Outcome (Gp F) := do
  let noiseMat := scaledIdentity inputs.rows.length g.noise
  let k ← expectOk (kerMat g.ker inputs inputs)
  let a ← Mat.zip Scalar.add k noiseMat
  let l ← orInvalidState (lib.cholesky a)
  let r ← vecZip Scalar.sub targets (g.mean inputs)
  let x ← expectOk (lib.solveL l r)
  let alpha ← expectOk (lib.solveU l.transpose x)
  ok { g with trainMat := some l, trainData := some inputs, alpha := some alpha }

/-- `predict`, src/learning/gp.rs lines 145-155. -/
def Gp.predict (g : Gp F) (inputs : Mat F) : Outcome (List F) :=
  match g.alpha, g.trainData with
  | some alpha, some tData => do
    let mean := g.mean inputs
    let k ← kerMat g.ker inputs tData
    let post ← k.mulVec alpha
    vecZip Scalar.add mean post
  | _, _ => err .UntrainedModel

/-- `get_posterior`, src/learning/gp.rs lines 185-210. -/
def Gp.posterior (lib : TriLib F) (g : Gp F) (inputs : Mat F) : Outcome (List F × Mat F) :=
  match g.trainMat, g.alpha, g.trainData with
  | some tMat, some alpha, some tData => do
    let mean := g.mean inputs
    let k ← kerMat g.ker inputs tData
    let p ← k.mulVec alpha
    let postMean ← vecZip Scalar.add mean p
    let testMat ← kerMat g.ker inputs tData
    let rows ← testMat.rows.mapM fun row => expectOk (lib.solveL tMat row)
    let v ← Mat.new testMat.rows.length testMat.cols rows.flatten
    let kk ← kerMat g.ker inputs inputs
    let vv ← v.mul v.transpose
    let postVar ← Mat.zip Scalar.sub kk vv
    ok (postMean, postVar)
  | _, _, _ => err .UntrainedModel

end RM
