import Verif.Model.Glm

/-! Generalised linear models with a criterion of the user's own: the trait `Criterion` of src/learning/glm.rs is public and asks only
for a link and a variance. -/

namespace RM
open Outcome Scalar
variable {F : Type} [Scalar F]

/-- An implementation of the trait `Criterion`, src/learning/glm.rs lines 148-210, as `train` and `predict` use it: the methods on vectors,
each of which the user may override. `none` is a panic. The methods are taken to be functions of their arguments. -/
structure GlmCriterion (F : Type) where
  startMeans : List F → Option (List F)
  workingWeights : List F → Option (List F)
  adjustments : List F → List F → Option (List F)
  inverseLink : List F → Option (List F)

/-- A criterion that gives a link and a variance and keeps the default methods, src/learning/glm.rs lines 158-160, 169-178, 186-194, 202-204
and 207-209. (`y[idx]` panics with fewer targets than means.) -/
def GlmCriterion.ofLink (link : LinkFn F) (variance : F → F) : GlmCriterion F where
  startMeans y := some y
  workingWeights mu := some (mu.map fun m => Scalar.one /. (variance m *. link.funcGrad m *. link.funcGrad m))
  adjustments y mu := if mu.length ≤ y.length then some (List.zipWith (fun t m => link.funcGrad m *. (t -. m)) y mu) else none
  inverseLink s := some (s.map link.funcInv)

/-- `Bernoulli`, `Binomial`, `Normal` and `Poisson` as criteria, src/learning/glm.rs lines 302-362, 370-431, 439-445, 451-475: what each
overrides (`adjust`, `floorWeight`, `startMean` are in `Model/Glm`). -/
def Family.criterion : Family F → GlmCriterion F
  | .bernoulli => { GlmCriterion.ofLink logitLink (Family.bernoulli : Family F).variance with
      startMeans := fun y => some (y.map (Family.bernoulli : Family F).startMean)
      workingWeights := fun mu => some (mu.map fun m => floorWeight ((Family.bernoulli : Family F).variance m))
      adjustments := fun y mu => if mu.length ≤ y.length then some (List.zipWith (Family.bernoulli : Family F).adjust y mu) else none }
  | .binomial ws => { GlmCriterion.ofLink logitLink (Family.binomial ws).variance with
      startMeans := fun y => some (y.map (Family.binomial ws).startMean)
      workingWeights := fun mu =>
        if mu.length ≤ ws.length then some (List.zipWith (fun m w => floorWeight ((Family.binomial ws).variance m /. w)) mu ws) else none
      adjustments := fun y mu => if mu.length ≤ y.length then some (List.zipWith (Family.binomial ws).adjust y mu) else none }
  | .normal => GlmCriterion.ofLink identityLink fun _ => Scalar.one
  | .poisson => { GlmCriterion.ofLink logLink fun m => m with
      startMeans := fun y => some (y.map (Family.poisson : Family F).startMean)
      workingWeights := fun mu => some mu }

/-- One pass of the loop of `train`, src/learning/glm.rs lines 112-123. -/
def GlmCriterion.step (inverse : Mat F → Outcome (Mat F)) (c : GlmCriterion F) (full xt : Mat F) (y mu z : List F) : Outcome (List F × List F) := do
  let w ← ofOption (c.workingWeights mu)
  let yb ← ofOption (c.adjustments y mu)
  let xtw ← xt.mul (diagMat w)
  let a ← xtw.mul full
  let inv ← expectOk (inverse a)
  let t ← inv.mul xtw
  let b ← t.mulVec z
  ok (yb, b)

/-- The loop of `train`, src/learning/glm.rs lines 111-135. -/
def GlmCriterion.loop (inverse : Mat F → Outcome (Mat F)) (c : GlmCriterion F) (full xt : Mat F) (y : List F) :
    ℕ → (mu z beta : List F) → Outcome (List F)
  | 0, _, _, beta => ok beta
  | n + 1, mu, z, beta => do
    let s ← c.step inverse full xt y mu z
    let d ← vecZip Scalar.sub beta s.2
    if fsum (d.map Scalar.abs) <. Scalar.ofRat (1 / 10 ^ 10) then ok s.2
    else do
      let fitted ← full.mulVec s.2
      let z ← vecZip Scalar.add s.1 fitted
      let mu ← ofOption (c.inverseLink fitted)
      GlmCriterion.loop inverse c full xt y n mu z s.2

/-- `train`, src/learning/glm.rs lines 93-138: the parameters. -/
def GlmCriterion.train (inverse : Mat F → Outcome (Mat F)) (c : GlmCriterion F) (inputs : Mat F) (targets : List F) : Outcome (List F) :=
  if inputs.rows.length ≠ targets.length then err .InvalidData
  else do
    let mu ← ofOption (c.startMeans targets)
    let full ← withOnes inputs
    c.loop inverse full full.transpose targets 8 mu mu (List.replicate (inputs.cols + 1) Scalar.zero)

/-- `predict`, src/learning/glm.rs lines 82-90, for the parameters of a model (`none`: not trained). -/
def GlmCriterion.predict (c : GlmCriterion F) (parameters : Option (List F)) (inputs : Mat F) : Outcome (List F) :=
  match parameters with
  | some v => do
    let full ← withOnes inputs
    let s ← full.mulVec v
    ofOption (c.inverseLink s)
  | none => err .UntrainedModel

end RM
