import Verif.Base.Solve
import Verif.Model.LinReg

/-! Model of src/learning/glm.rs for the families in the crate. Criteria of the user's own (the traits are open) are in
`Model/GlmCriterion`. -/

namespace RM
open Outcome Scalar
variable {F : Type} [Scalar F]

/-- The trait `LinkFunc`, src/learning/glm.rs lines 215-225. -/
structure LinkFn (F : Type) where
  func : F → F
  funcGrad : F → F
  funcInv : F → F

/-- `Logit`, src/learning/glm.rs lines 236-248. -/
def logitLink : LinkFn F where
  func x := Scalar.ln (x /. (Scalar.one -. x))
  funcGrad x := Scalar.one /. (x *. (Scalar.one -. x))
  funcInv x := Scalar.one /. (Scalar.one +. Scalar.exp (Scalar.neg x))

/-- `Log`, src/learning/glm.rs lines 259-271. -/
def logLink : LinkFn F where
  func x := Scalar.ln x
  funcGrad x := Scalar.one /. x
  funcInv x := Scalar.exp x

/-- `Identity`, src/learning/glm.rs lines 282-294. -/
def identityLink : LinkFn F where
  func x := x
  funcGrad _ := Scalar.one
  funcInv x := x

/-- The families `Bernoulli`, `Binomial`, `Normal`, `Poisson`, src/learning/glm.rs lines 300, 366-368, 437, 449.
(`Binomial` has a private field and no constructor, so users cannot build one.) -/
inductive Family (F : Type)
  | bernoulli
  | binomial (weights : List F)
  | normal
  | poisson

/-- The associated type `Link`, src/learning/glm.rs lines 303, 371, 440, 452. -/
def Family.link : Family F → LinkFn F
  | .bernoulli => logitLink
  | .binomial _ => logitLink
  | .normal => identityLink
  | .poisson => logLink

/-- `model_variance`, src/learning/glm.rs lines 305-313, 373-382, 442-444, 454-456. -/
def Family.variance : Family F → F → F
  | .normal, _ => Scalar.one
  | .poisson, mu => mu
  | _, mu =>
    let var := mu *. (Scalar.one -. mu)
    if Scalar.abs var <. Scalar.ofRat (1 / 10 ^ 10) then Scalar.ofRat (1 / 10 ^ 10) else var

/-- One element of `initialize_mu`, src/learning/glm.rs lines 158-160, 315-329, 384-398, 458-470. -/
def Family.startMean : Family F → F → F
  | .normal, y => y
  | .poisson, y => if y <. Scalar.ofRat (1 / 10 ^ 10) then Scalar.ofRat (1 / 10 ^ 10) else y
  | _, y =>
    if y <. Scalar.ofRat (1 / 10 ^ 10) then Scalar.ofRat (1 / 10 ^ 10)
    else if Scalar.one -. Scalar.ofRat (1 / 10 ^ 10) <. y then Scalar.one -. Scalar.ofRat (1 / 10 ^ 10)
    else y

/-- The lower bound `1e-5` on the working weights, src/learning/glm.rs lines 337-341, 406-410. -/
def floorWeight (var : F) : F := if Scalar.abs var <. Scalar.ofRat (1 / 10 ^ 5) then Scalar.ofRat (1 / 10 ^ 5) else var

/-- `compute_working_weight`, src/learning/glm.rs lines 169-178, 331-345, 400-414, 472-474. `self.weights[idx]` panics when
there are fewer weights than means. -/
def Family.workingWeight (f : Family F) (mu : List F) : Outcome (List F) :=
  match f with
  | .bernoulli => ok (mu.map fun m => floorWeight (f.variance m))
  | .binomial ws => if mu.length ≤ ws.length then ok (List.zipWith (fun m w => floorWeight (f.variance m /. w)) mu ws) else panic
  | .normal => ok (mu.map fun m => Scalar.one /. (f.variance m *. f.link.funcGrad m *. f.link.funcGrad m))
  | .poisson => ok mu

/-- One element of `compute_y_bar`, src/learning/glm.rs lines 190, 351-357, 420-426. -/
def Family.adjust (f : Family F) (y m : F) : F :=
  match f with
  | .normal => f.link.funcGrad m *. (y -. m)
  | .poisson => f.link.funcGrad m *. (y -. m)
  | _ =>
    let d := y -. m
    if Scalar.abs d <. Scalar.ofRat (1 / 10 ^ 15) then Scalar.zero else f.link.funcGrad m *. d

/-- `compute_y_bar`, src/learning/glm.rs lines 186-194, 347-361, 416-430. (`y[idx]` would panic with fewer targets than means;
`train` calls it with equally many.) -/
def Family.yBar (f : Family F) (y mu : List F) : Outcome (List F) := vecZip f.adjust y mu

/-- `Matrix::from_diag` of rulinalg (external). -/
def diagMat (d : List F) : Mat F :=
  ⟨d.length, (List.range d.length).map fun i => (List.range d.length).map fun j => if i = j then d.getD i Scalar.zero else Scalar.zero⟩

/-- One pass of the loop of `train` up to the new parameters, src/learning/glm.rs lines 112-123: working weights and
adjustments at `mu`, then the weighted least squares fit of `z`. `.expect` panics when there is no inverse. -/
def irlsStep (inverse : Mat F → Outcome (Mat F)) (f : Family F) (full xt : Mat F) (y mu z : List F) : Outcome (List F × List F) := do
  let w ← f.workingWeight mu
  let yb ← f.yBar y mu
  let xtw ← xt.mul (diagMat w)
  let a ← xtw.mul full
  let inv ← expectOk (inverse a)
  let t ← inv.mul xtw
  let b ← t.mulVec z
  ok (yb, b)

/-- The loop of `train`, src/learning/glm.rs lines 111-135: passes left, `mu`, `z`, `beta`. -/
def irlsLoop (inverse : Mat F → Outcome (Mat F)) (f : Family F) (full xt : Mat F) (y : List F) :
    ℕ → (mu z beta : List F) → Outcome (List F)
  | 0, _, _, beta => ok beta
  | n + 1, mu, z, beta => do
    let s ← irlsStep inverse f full xt y mu z
    let d ← vecZip Scalar.sub beta s.2
    if fsum (d.map Scalar.abs) <. Scalar.ofRat (1 / 10 ^ 10) then ok s.2
    else do
      let fitted ← full.mulVec s.2
      let z ← vecZip Scalar.add s.1 fitted
      irlsLoop inverse f full xt y n (fitted.map f.link.funcInv) z s.2

/-- `GenLinearModel`, src/learning/glm.rs lines 50-53, new: lines 67-72. -/
structure Glm (F : Type) where
  family : Family F
  parameters : Option (List F) := none

/-- `train`, src/learning/glm.rs lines 93-138; `inverse` is rulinalg's matrix inverse. -/
def Glm.train (inverse : Mat F → Outcome (Mat F)) (m : Glm F) (inputs : Mat F) (targets : List F) : Outcome (Glm F) :=
  if inputs.rows.length ≠ targets.length then err .InvalidData
  else do
    let mu := targets.map m.family.startMean
    let full ← withOnes inputs
    let b ← irlsLoop inverse m.family full full.transpose targets 8 mu mu (List.replicate (inputs.cols + 1) Scalar.zero)
    ok ⟨m.family, some b⟩

/-- `predict`, src/learning/glm.rs lines 82-90. -/
def Glm.predict (m : Glm F) (inputs : Mat F) : Outcome (List F) :=
  match m.parameters with
  | some v => do
    let full ← withOnes inputs
    let s ← full.mulVec v
    ok (s.map m.family.link.funcInv)
  | none => err .UntrainedModel

end RM
