import Verif.Model.Cost
import Verif.Model.Activ
import Verif.Model.Optim

/-! Model of src/learning/lin_reg.rs and src/learning/logistic_reg.rs. -/

namespace RM
open Outcome Scalar
variable {F : Type} [Scalar F]

/-- The inputs with a first column of ones, src/learning/lin_reg.rs lines 86-87, 99-100, 152-153;
src/learning/logistic_reg.rs lines 117-118, 132-133. -/
def withOnes (inputs : Mat F) : Outcome (Mat F) := (Mat.ones inputs.rows.length 1).hcat inputs

/-- `?` on a rulinalg result: its errors become `LinearAlgebra`, src/learning/error.rs lines 60-64. -/
def fromLinalg {α : Type} : Outcome α → Outcome α
  | .err _ => err .LinearAlgebra
  | x => x

/-- `LinRegressor`, src/learning/lin_reg.rs lines 46-49; its `Default` has no parameters, lines 51-55. -/
structure LinReg (F : Type) where
  parameters : Option (List F) := none

/-- `train`, src/learning/lin_reg.rs lines 85-92; `solve` is rulinalg's solver. Only a success changes the model, and what
was there before does not matter. -/
def LinReg.train (solve : Mat F → List F → Outcome (List F)) (inputs : Mat F) (targets : List F) : Outcome (LinReg F) := do
  let full ← withOnes inputs
  let xt := full.transpose
  let a ← xt.mul full
  let b ← xt.mulVec targets
  let p ← fromLinalg (solve a b)
  ok ⟨some p⟩

/-- `predict`, src/learning/lin_reg.rs lines 97-105. -/
def LinReg.predict (m : LinReg F) (inputs : Mat F) : Outcome (List F) :=
  match m.parameters with
  | some v => do
    let full ← withOnes inputs
    full.mulVec v
  | none => err .UntrainedModel

/-- `compute_grad`, src/learning/lin_reg.rs lines 112-125. -/
def linComputeGrad (params : List F) (inputs : Mat F) (targets : List F) : Outcome (F × List F) := do
  let outputs ← inputs.mulVec params
  let cost ← mseCostVec outputs targets
  let diff ← vecZip Scalar.sub outputs targets
  let g ← inputs.transpose.mulVec diff
  ok (cost, g.map fun x => x /. Scalar.ofNat inputs.rows.length)

/-- `train_with_optimization`, src/learning/lin_reg.rs lines 151-160. -/
def LinReg.trainWithOptimization (inputs : Mat F) (targets : List F) : Outcome (LinReg F) := do
  let full ← withOnes inputs
  let w ← (GradientDesc.default.optimize (fun w => linComputeGrad w full targets) (List.replicate full.cols Scalar.zero)).out
  ok ⟨some w⟩

/-- `LogisticRegressor` without its algorithm, and `BaseLogisticRegressor`, src/learning/logistic_reg.rs lines 50-55, 145-147. -/
structure LogReg (F : Type) where
  parameters : Option (List F) := none

/-- `compute_grad`, src/learning/logistic_reg.rs lines 181-194. -/
def logComputeGrad (params : List F) (inputs : Mat F) (targets : List F) : Outcome (F × List F) := do
  let scores ← inputs.mulVec params
  let outputs := scores.map sigmoid.func
  let cost ← ceCostVec outputs targets
  let diff ← vecZip Scalar.sub outputs targets
  let g ← inputs.transpose.mulVec diff
  ok (cost, g.map fun x => x /. Scalar.ofNat inputs.rows.length)

/-- `train`, src/learning/logistic_reg.rs lines 116-125, for any optimisation algorithm: a function of `compute_grad` on the
given inputs and targets and of the starting parameters. -/
def LogReg.train (opt : (List F → Outcome (F × List F)) → List F → Outcome (List F)) (inputs : Mat F) (targets : List F) :
    Outcome (LogReg F) := do
  let full ← withOnes inputs
  let w ← opt (fun w => logComputeGrad w full targets) (List.replicate full.cols (Scalar.ofRat (1 / 2)))
  ok ⟨some w⟩

/-- `predict`, src/learning/logistic_reg.rs lines 130-138. -/
def LogReg.predict (m : LogReg F) (inputs : Mat F) : Outcome (List F) :=
  match m.parameters with
  | some v => do
    let full ← withOnes inputs
    let s ← full.mulVec v
    ok (s.map sigmoid.func)
  | none => err .UntrainedModel

end RM
