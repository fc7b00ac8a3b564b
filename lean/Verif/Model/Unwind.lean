import Verif.Model.Pca
import Verif.Model.KMeans
import Verif.Model.Gmm

/-! The model that a panicking call leaves behind. A panic unwinds to the caller, who may catch it (`std::panic::catch_unwind`) and
go on using the model: what the call had assigned to `self` before the panic stays assigned. Modelled here are the `train` functions that
assign before they can panic: PCA, k-means and mixture models. For naive Bayes `nbTrain` has this form already. The other `train` functions
assign after everything that can panic (`Model/Calls`, `assignLast`; for nearest neighbours `knnTrain`). -/

namespace RM
open Outcome Scalar
variable {F : Type} [Scalar F]

/-- `PCA::train`, src/learning/pca.rs lines 165-199: the model afterwards, panic or not, and the result. `self.centers` is assigned on
line 179, before the decomposition (line 184) can panic; `self.inv` on line 187, before the selection of columns (line 193) can. -/
def Pca.trainUnwind (svd : Mat F → Outcome (Mat F × Mat F × Mat F)) (m : Pca F) (inputs : Mat F) : Pca F × Outcome Unit :=
  if tooManyComponents m.n inputs.cols then (m, err .InvalidData)
  else match m.prepare inputs with
    | ok (data, centers) =>
      let m1 := { m with centers := centers }
      match expectOk (svd data) with
      | ok (_, _, v) =>
        let wide := decide (inputs.rows.length < inputs.cols)
        let m2 := { m1 with inv := if wide then true else m.inv }
        match selectComponents m.n (if wide then v.transpose else v) with
        | ok comps => ({ m2 with components := some comps, nFeatures := some inputs.cols }, ok ())
        | err e => (m2, err e)
        | .panic => (m2, panic)
        | ub => (m2, ub)
      | err e => (m1, err e)
      | .panic => (m1, panic)
      | ub => (m1, ub)
    | err e => (m, err e)
    | .panic => (m, panic)
    | ub => (m, ub)

/-- The loop of `train`, src/learning/k_means.rs lines 97-107, with the centroids that are in `self` when it ends, panic or not:
`update_centroids` assigns on its last line (226). -/
def kmLoopUnwind (k : ℕ) (inputs : Mat F) : ℕ → F → Mat F → Mat F × Outcome Unit
  | 0, _, centroids => (centroids, ok ())
  | n + 1, cost, centroids =>
    match findClosest centroids inputs with
    | ok (idx, distances) =>
      match updateCentroids k inputs idx with
      | ok centroids' =>
        let costI := fsum distances
        if Scalar.abs (cost -. costI) <. Scalar.ofRat (1 / 10 ^ 14) then (centroids', ok ())
        else kmLoopUnwind k inputs n costI centroids'
      | err e => (centroids, err e)
      | .panic => (centroids, panic)
      | ub => (centroids, ub)
    | err e => (centroids, err e)
    | .panic => (centroids, panic)
    | ub => (centroids, ub)

/-- `train`, src/learning/k_means.rs lines 92-110: the model afterwards, panic or not, and the result. `self.centroids` is assigned on
line 203, after the initialiser has returned. -/
def kmTrainUnwind (init : ℕ → Mat F → Outcome (Mat F)) (m : KMeans F) (inputs : Mat F) : KMeans F × Outcome Unit :=
  match kmInit init m.k inputs with
  | ok c0 =>
    let r := kmLoopUnwind m.k inputs m.iters Scalar.zero c0
    ({ m with centroids := some r.1 }, r.2)
  | err e => (m, err e)
  | .panic => (m, panic)
  | ub => (m, ub)

/-- The loop of `GaussianMixtureModel::train`, src/learning/gmm.rs lines 91-103, on the model itself, panic or not: `log_lik` is assigned
on line 100, the mixture weights on line 310, before the rest of `update_params` (lines 312-336) can panic. -/
def Gmm.emUnwind (lup : Mat F → Outcome (F × Outcome (Mat F))) (inputs : Mat F) : ℕ → Gmm F → Gmm F × Outcome Unit
  | 0, m => (m, ok ())
  | n + 1, m =>
    match m.memberships lup inputs with
    | .ok (weights, l) =>
      if Scalar.abs (l -. m.logLik) <. Scalar.ofRat (1 / 10 ^ 15) then (m, ok ())
      else
        let m1 : Gmm F := { m with logLik := l, mixWeights := weights.sumRows.map fun s => s /. Scalar.ofNat weights.rows.length }
        match Gmm.update { m with logLik := l } inputs weights with
        | .ok m' => Gmm.emUnwind lup inputs n m'
        | .err e => (m1, err e)
        | .panic => (m1, panic)
        | .ub => (m1, ub)
    | .err e => (m, err e)
    | .panic => (m, panic)
    | .ub => (m, ub)

/-- `GaussianMixtureModel::train`, src/learning/gmm.rs lines 72-106: the model afterwards, panic or not, and the result. The covariances
are assigned on lines 82-85, before the assertion of `reservoir_sample` (line 88), the means on line 89. -/
def Gmm.trainUnwind (lup : Mat F → Outcome (F × Outcome (Mat F))) (draws : ℕ → ℕ) (m : Gmm F) (inputs : Mat F) : Gmm F × Outcome Unit :=
  if 1 < inputs.rows.length then
    match m.initCov inputs (Scalar.one /. Scalar.ofNat (inputs.rows.length - 1)) with
    | .ok cov =>
      let m1 : Gmm F := { m with covars := some (List.replicate m.compCount cov) }
      match reservoirSample draws (List.range inputs.rows.length) m.compCount with
      | .ok rows =>
        match inputs.selectRows rows with
        | .ok means => Gmm.emUnwind lup inputs m.maxIters { m1 with means := some means }
        | .err e => (m1, err e)
        | .panic => (m1, panic)
        | .ub => (m1, ub)
      | .err e => (m1, err e)
      | .panic => (m1, panic)
      | .ub => (m1, ub)
    | .err e => (m, err e)
    | .panic => (m, panic)
    | .ub => (m, ub)
  else (m, err .InvalidData)

end RM
