import Verif.Model.LinReg
import Verif.Model.Glm
import Verif.Model.Gp
import Verif.Model.Svm
import Verif.Model.Pca
import Verif.Model.Gmm
import Verif.Model.NNet

/-! The `train` calls of the models as they are seen by the caller: the model afterwards, and the result. `knnTrain`, `kmTrain` and
`nbTrain` have this form already. For the model after a panic see `Model/Unwind`;
here the model before stands for it. -/

namespace RM
open Outcome Scalar
variable {F : Type} [Scalar F]

/-- A `train` whose assignments to `self` all come after its last `?` or `return Err`: src/learning/lin_reg.rs lines 85-92 and
151-160, src/learning/logistic_reg.rs lines 116-125, src/learning/glm.rs lines 93-138, src/learning/gp.rs lines 158-176,
src/learning/svm.rs lines 144-171, src/learning/pca.rs lines 165-199. -/
def assignLast {M : Type} (m : M) : Outcome M → M × Outcome Unit
  | .ok m' => (m', ok ())
  | .err e => (m, err e)
  | .panic => (m, panic)
  | .ub => (m, ub)

/-- `LinRegressor::train`, src/learning/lin_reg.rs lines 85-92. -/
def LinReg.trainCall (solve : Mat F → List F → Outcome (List F)) (m : LinReg F) (inputs : Mat F) (targets : List F) :
    LinReg F × Outcome Unit := assignLast m (LinReg.train solve inputs targets)

/-- `LinRegressor::train_with_optimization`, src/learning/lin_reg.rs lines 151-160. -/
def LinReg.optCall (m : LinReg F) (inputs : Mat F) (targets : List F) : LinReg F × Outcome Unit :=
  assignLast m (LinReg.trainWithOptimization inputs targets)

/-- `LogisticRegressor::train`, src/learning/logistic_reg.rs lines 116-125. -/
def LogReg.trainCall (opt : (List F → Outcome (F × List F)) → List F → Outcome (List F)) (m : LogReg F) (inputs : Mat F)
    (targets : List F) : LogReg F × Outcome Unit := assignLast m (LogReg.train opt inputs targets)

/-- `GenLinearModel::train`, src/learning/glm.rs lines 93-138. -/
def Glm.trainCall (inverse : Mat F → Outcome (Mat F)) (m : Glm F) (inputs : Mat F) (targets : List F) : Glm F × Outcome Unit :=
  assignLast m (m.train inverse inputs targets)

/-- `GaussianProcess::train`, src/learning/gp.rs lines 158-176. -/
def Gp.trainCall (lib : TriLib F) (g : Gp F) (inputs : Mat F) (targets : List F) : Gp F × Outcome Unit :=
  assignLast g (g.train lib inputs targets)

/-- `SVM::train`, src/learning/svm.rs lines 144-171. -/
def Svm.trainCall (draws : ℕ → ℕ) (m : Svm F) (inputs : Mat F) (targets : List F) : Svm F × Outcome Unit :=
  assignLast m (m.train draws inputs targets)

/-- `PCA::train`, src/learning/pca.rs lines 165-199: after the check of the number of components only panics are possible. -/
def Pca.trainCall (svd : Mat F → Outcome (Mat F × Mat F × Mat F)) (m : Pca F) (inputs : Mat F) : Pca F × Outcome Unit :=
  assignLast m (m.train svd inputs)

/-- `NeuralNet::train`, src/learning/nnet/mod.rs lines 89-93. -/
def BaseNet.trainCall (opt : ComputeGrad F → List F → Mat F → Mat F → Outcome (List F)) (net : BaseNet F) (inputs targets : Mat F) :
    BaseNet F × Outcome Unit := assignLast net (net.train opt inputs targets)

/-- The loop of `GaussianMixtureModel::train`, src/learning/gmm.rs lines 91-103, on the model itself: an error of an iteration leaves
the model of the iteration before. -/
def Gmm.emCalls (lup : Mat F → Outcome (F × Outcome (Mat F))) (inputs : Mat F) : ℕ → Gmm F → Gmm F × Outcome Unit
  | 0, m => (m, ok ())
  | n + 1, m =>
    match m.memberships lup inputs with
    | .ok (weights, l) =>
      if Scalar.abs (l -. m.logLik) <. Scalar.ofRat (1 / 10 ^ 15) then (m, ok ())
      else match Gmm.update { m with logLik := l } inputs weights with
        | .ok m' => Gmm.emCalls lup inputs n m'
        | .err e => ({ m with logLik := l }, err e)
        | .panic => (m, panic)
        | .ub => (m, ub)
    | .err e => (m, err e)
    | .panic => (m, panic)
    | .ub => (m, ub)

/-- `GaussianMixtureModel::train`, src/learning/gmm.rs lines 72-106, on the model itself: the covariances are stored before the means
are chosen, and both before the first iteration. -/
def Gmm.trainCall (lup : Mat F → Outcome (F × Outcome (Mat F))) (draws : ℕ → ℕ) (m : Gmm F) (inputs : Mat F) : Gmm F × Outcome Unit :=
  if 1 < inputs.rows.length then
    match m.initCov inputs (Scalar.one /. Scalar.ofNat (inputs.rows.length - 1)) with
    | .ok cov =>
      let m1 : Gmm F := { m with covars := some (List.replicate m.compCount cov) }
      match reservoirSample draws (List.range inputs.rows.length) m.compCount with
      | .ok rows =>
        match inputs.selectRows rows with
        | .ok means => Gmm.emCalls lup inputs m.maxIters { m1 with means := some means }
        | .err e => (m1, err e)
        | .panic => (m, panic)
        | .ub => (m, ub)
      | .err e => (m1, err e)
      | .panic => (m, panic)
      | .ub => (m, ub)
    | .err e => (m, err e)
    | .panic => (m, panic)
    | .ub => (m, ub)
  else (m, err .InvalidData)

end RM
