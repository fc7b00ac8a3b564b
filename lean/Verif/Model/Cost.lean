import Verif.Base.Linalg

/-! Model of src/learning/toolkit/cost_fn.rs (matrix and vector versions). -/

namespace RM
open Outcome Scalar
variable {F : Type} [Scalar F]

/-- `MeanSqError::cost` on matrices, src/learning/toolkit/cost_fn.rs lines 30-37. -/
def mseCost (outputs targets : Mat F) : Outcome F := do
  let diff ← Mat.zip Scalar.sub outputs targets
  let sq ← Mat.zip Scalar.mul diff diff
  ok (sq.sum /. (Scalar.ofNat 2 *. Scalar.ofNat diff.rows.length))

/-- `MeanSqError::grad_cost` on matrices, src/learning/toolkit/cost_fn.rs lines 39-41. -/
def mseGrad (outputs targets : Mat F) : Outcome (Mat F) := Mat.zip Scalar.sub outputs targets

/-- `MeanSqError::cost` on vectors, src/learning/toolkit/cost_fn.rs lines 45-52. -/
def mseCostVec (outputs targets : List F) : Outcome F := do
  let diff ← vecZip Scalar.sub outputs targets
  let sq ← vecZip Scalar.mul diff diff
  ok (fsum sq /. (Scalar.ofNat 2 *. Scalar.ofNat diff.length))

/-- `MeanSqError::grad_cost` on vectors, src/learning/toolkit/cost_fn.rs lines 54-56. -/
def mseGradVec (outputs targets : List F) : Outcome (List F) := vecZip Scalar.sub outputs targets

/-- `-x + 1` of `(-outputs + 1f64)`, src/learning/toolkit/cost_fn.rs lines 66, 69. -/
def oneMinus (x : F) : F := Scalar.neg x +. Scalar.one

/-- `CrossEntropyError::cost` on matrices, src/learning/toolkit/cost_fn.rs lines 64-74. -/
def ceCost (outputs targets : Mat F) : Outcome F := do
  let logInv := (outputs.map oneMinus).map Scalar.ln
  let logOut := outputs.map Scalar.ln
  let a ← Mat.zip Scalar.mul targets logOut
  let b ← Mat.zip Scalar.mul (targets.map oneMinus) logInv
  let c ← Mat.zip Scalar.add a b
  ok (Scalar.neg c.sum /. Scalar.ofNat outputs.rows.length)

/-- `CrossEntropyError::grad_cost` on matrices, src/learning/toolkit/cost_fn.rs lines 76-78. -/
def ceGrad (outputs targets : Mat F) : Outcome (Mat F) := do
  let d ← Mat.zip Scalar.sub outputs targets
  let v ← Mat.zip Scalar.mul outputs (outputs.map oneMinus)
  Mat.zip Scalar.div d v

/-- `CrossEntropyError::cost` on vectors, src/learning/toolkit/cost_fn.rs lines 82-92. -/
def ceCostVec (outputs targets : List F) : Outcome F := do
  let logInv := (outputs.map oneMinus).map Scalar.ln
  let logOut := outputs.map Scalar.ln
  let a ← vecZip Scalar.mul targets logOut
  let b ← vecZip Scalar.mul (targets.map oneMinus) logInv
  let c ← vecZip Scalar.add a b
  ok (Scalar.neg (fsum c) /. Scalar.ofNat outputs.length)

/-- `CrossEntropyError::grad_cost` on vectors, src/learning/toolkit/cost_fn.rs lines 94-96. -/
def ceGradVec (outputs targets : List F) : Outcome (List F) := do
  let d ← vecZip Scalar.sub outputs targets
  let v ← vecZip Scalar.mul outputs (outputs.map oneMinus)
  vecZip Scalar.div d v

end RM
