import Verif.Base.Solve
import Verif.Model.KMeans
import Verif.Model.LinReg
import Verif.Model.RandUtils

/-! Model of src/learning/gmm.rs. -/

namespace RM
open Outcome Scalar
variable {F : Type} [Scalar F]

/-- `CovOption`, src/learning/gmm.rs lines 46-54. -/
inductive CovOption (F : Type) where
  | full
  | regularized (eps : F)
  | diagonal

/-- `GaussianMixtureModel`, src/learning/gmm.rs lines 59-68. -/
structure Gmm (F : Type) where
  compCount : ℕ
  mixWeights : List F
  means : Option (Mat F)
  covars : Option (List (Mat F))
  logLik : F
  maxIters : ℕ
  covOption : CovOption F

/-- `GaussianMixtureModel::new`, src/learning/gmm.rs lines 131-141. -/
def Gmm.new (k : ℕ) : Gmm F :=
  ⟨k, (List.replicate k Scalar.one).map fun x => x /. Scalar.ofNat k, none, none, Scalar.zero, 100, .full⟩

/-- `with_weights`, src/learning/gmm.rs lines 165-184. -/
def Gmm.withWeights (k : ℕ) (weights : List F) : Outcome (Gmm F) :=
  if weights.length ≠ k then err .InvalidParameters
  else if weights.any fun x => x <. Scalar.zero then err .InvalidParameters
  else ok ⟨k, weights.map fun x => x /. fsum weights, none, none, Scalar.zero, 100, .full⟩

/-- `set_max_iters`, src/learning/gmm.rs lines 223-225. -/
def Gmm.setMaxIters (m : Gmm F) (iters : ℕ) : Gmm F := { m with maxIters := iters }

/-- `Matrix::from_diag` (rulinalg). -/
def fromDiag (v : List F) : Mat F :=
  ⟨v.length, (List.range v.length).map fun i => (List.range v.length).map fun j =>
    if i = j then v.getD i Scalar.zero else Scalar.zero⟩

/-- `m * s` for a matrix and a scalar. -/
def Mat.scaleBy (s : F) (m : Mat F) : Mat F := m.map fun x => x *. s

/-- `Matrix::identity(n)`. -/
def eyeMat (n : ℕ) : Mat F := fromDiag (List.replicate n Scalar.one)

/-- `MatrixSlice::from_matrix(m, [i, 0], 1, m.cols())` as a matrix of one row. -/
def rowMat (r : List F) : Mat F := ⟨r.length, [r]⟩

/-- The covariance sums of `initialize_covariances`, src/learning/gmm.rs lines 235-243. The entry at `(j, k)` is the sum over
the rows. -/
def scatterMat (inputs : Mat F) : Mat F :=
  let means := inputs.meanRow
  ⟨inputs.cols, (List.range inputs.cols).map fun j => (List.range inputs.cols).map fun k =>
    fsum (inputs.rows.map fun r =>
      (r.getD j Scalar.zero -. means.getD j Scalar.zero) *. (r.getD k Scalar.zero -. means.getD k Scalar.zero))⟩

/-- `initialize_covariances`, src/learning/gmm.rs lines 227-251. -/
def Gmm.initCov (m : Gmm F) (inputs : Mat F) (regValue : F) : Outcome (Mat F) :=
  match m.covOption with
  | .diagonal => do
    let variance ← fromLinalg inputs.varianceRow
    ok ((fromDiag variance).scaleBy (Scalar.sqrt regValue))
  | .full => ok ((scatterMat inputs).scaleBy regValue)
  | .regularized eps => ((scatterMat inputs).scaleBy regValue).zip Scalar.add ((eyeMat inputs.cols).scaleBy eps)

/-- The determinants and inverses of `membership_weights`, src/learning/gmm.rs lines 262-274. `lup` is the LU decomposition with
partial pivoting of rulinalg (external): it fails or gives the determinant and the result of the inverse. -/
def covParts (lup : Mat F → Outcome (F × Outcome (Mat F))) (cov : Mat F) : Outcome (F × Mat F) := do
  let (det, inv) ← expectOk (lup cov)
  let inv ← fromLinalg inv
  ok (Scalar.sqrt det, inv)

/-- The density of one component at one row, src/learning/gmm.rs lines 284-290. -/
def compPdf (x mu : List F) (inv : Mat F) (sqrtDet : F) : Outcome F := do
  let diff ← vecZip Scalar.sub x mu
  let a ← (rowMat diff).mul inv
  let b ← a.mul (rowMat diff).transpose
  let v ← getAt (b.scaleBy (Scalar.ofRat (-1 / 2))).data 0
  ok (Scalar.exp v /. sqrtDet)

/-- The densities of all components at one row, src/learning/gmm.rs lines 284-291. -/
def compPdfs (k : ℕ) (means : Mat F) (parts : List (F × Mat F)) (x : List F) : Outcome (List F) :=
  (List.range k).mapM fun j => do
    let mu ← getAt means.rows j
    let p ← getAt parts j
    compPdf x mu p.2 p.1

/-- One row of the membership weights and the sum of weighted densities, src/learning/gmm.rs lines 281-300. -/
def memberRow (k : ℕ) (mix : List F) (means : Mat F) (parts : List (F × Mat F)) (x : List F) : Outcome (List F × F) := do
  let pdfs ← compPdfs k means parts x
  let s := dot pdfs mix
  let row ← (List.range pdfs.length).mapM fun i => do
    let w ← getAt mix i
    let p ← getAt pdfs i
    ok ((w *. p) /. s)
  ok (row, s)

/-- `membership_weights`, src/learning/gmm.rs lines 253-302: the membership weights and the logarithm of the likelihood. Without
means the data of the result is empty, and `Matrix::new` panics unless the result is. -/
def Gmm.memberships (lup : Mat F → Outcome (F × Outcome (Mat F))) (m : Gmm F) (inputs : Mat F) : Outcome (Mat F × F) := do
  let parts ← (m.covars.getD []).mapM (covParts lup)
  match m.means with
  | none => if inputs.rows.length * m.compCount = 0 then ok (⟨m.compCount, inputs.rows.map fun _ => []⟩, Scalar.zero) else panic
  | some means => do
    let rs ← inputs.rows.mapM (memberRow m.compCount m.mixWeights means parts)
    ok (⟨m.compCount, rs.map Prod.fst⟩, (rs.map fun r => Scalar.ln r.2).foldl Scalar.add Scalar.zero)

/-- `compute_cov`, src/learning/gmm.rs lines 342-347. -/
def computeCov (opt : CovOption F) (diff : List F) (weight : F) : Outcome (Mat F) :=
  match opt with
  | .diagonal => do
    let sq ← vecZip Scalar.mul diff diff
    ok ((fromDiag sq).scaleBy weight)
  | _ => do
    let p ← (rowMat diff).transpose.mul (rowMat diff)
    ok (p.scaleBy weight)

/-- The sum over the rows for component `k`, src/learning/gmm.rs lines 320-327. -/
def covSum (opt : CovOption F) (inputs : Mat F) (weights : Mat F) (mu : List F) (k : ℕ) : Outcome (Mat F) :=
  (List.range weights.rows.length).foldlM (fun acc i => do
    let x ← getAt inputs.rows i
    let diff ← vecZip Scalar.sub x mu
    let wr ← getAt weights.rows i
    let w ← getAt wr k
    let c ← computeCov opt diff w
    acc.zip Scalar.add c) (Mat.zeros inputs.cols inputs.cols)

/-- The regularisation, src/learning/gmm.rs lines 329-331. -/
def addReg (opt : CovOption F) (cov : Mat F) : Outcome (Mat F) :=
  match opt with
  | .regularized eps => cov.zip Scalar.add ((eyeMat cov.cols).scaleBy eps)
  | _ => ok cov

/-- The new covariance of component `k`, src/learning/gmm.rs lines 318-335. -/
def newCov (opt : CovOption F) (inputs weights newMeans : Mat F) (sumWeights : List F) (k : ℕ) : Outcome (Mat F) := do
  let mu ← getAt newMeans.rows k
  let cov ← covSum opt inputs weights mu k
  let cov ← addReg opt cov
  let s ← getAt sumWeights k
  ok (cov.map fun x => x /. s)

/-- `update_params`, src/learning/gmm.rs lines 304-340. -/
def Gmm.update (m : Gmm F) (inputs weights : Mat F) : Outcome (Gmm F) := do
  let n := weights.rows.length
  let sumWeights := weights.sumRows
  let prod ← weights.transpose.mul inputs
  let newMeans : Mat F := ⟨prod.cols, List.zipWith (fun r w => r.map fun x => x /. w) prod.rows sumWeights⟩
  let covs ← (List.range m.compCount).mapM (newCov m.covOption inputs weights newMeans sumWeights)
  ok { m with
    mixWeights := sumWeights.map fun s => s /. Scalar.ofNat n
    means := some newMeans
    covars := some covs }

/-- One iteration of the loop of `train`, src/learning/gmm.rs lines 89-101: `none` for the `break`. -/
def Gmm.emStep (lup : Mat F → Outcome (F × Outcome (Mat F))) (m : Gmm F) (inputs : Mat F) : Outcome (Option (Gmm F)) := do
  let (weights, l) ← m.memberships lup inputs
  if Scalar.abs (l -. m.logLik) <. Scalar.ofRat (1 / 10 ^ 15) then ok none
  else do
    let m' ← Gmm.update { m with logLik := l } inputs weights
    ok (some m')

/-- The loop of `train`, src/learning/gmm.rs lines 88-103. -/
def Gmm.emLoop (lup : Mat F → Outcome (F × Outcome (Mat F))) (inputs : Mat F) : ℕ → Gmm F → Outcome (Gmm F)
  | 0, m => ok m
  | n + 1, m => do
    match ← m.emStep lup inputs with
    | none => ok m
    | some m' => Gmm.emLoop lup inputs n m'

/-- The initialisation of `train`, src/learning/gmm.rs lines 72-87; `draws` are the random numbers of the sampling. -/
def Gmm.init (draws : ℕ → ℕ) (m : Gmm F) (inputs : Mat F) : Outcome (Gmm F) :=
  if 1 < inputs.rows.length then do
    let cov ← m.initCov inputs (Scalar.one /. Scalar.ofNat (inputs.rows.length - 1))
    let rows ← reservoirSample draws (List.range inputs.rows.length) m.compCount
    let means ← inputs.selectRows rows
    ok { m with covars := some (List.replicate m.compCount cov), means := some means }
  else err .InvalidData

/-- `train`, src/learning/gmm.rs lines 72-106. The model after an error or a panic is not represented. -/
def Gmm.train (lup : Mat F → Outcome (F × Outcome (Mat F))) (draws : ℕ → ℕ) (m : Gmm F) (inputs : Mat F) : Outcome (Gmm F) := do
  let m0 ← m.init draws inputs
  m0.emLoop lup inputs m.maxIters

/-- `predict`, src/learning/gmm.rs lines 109-117. -/
def Gmm.predict (lup : Mat F → Outcome (F × Outcome (Mat F))) (m : Gmm F) (inputs : Mat F) : Outcome (Mat F) :=
  match m.means, m.covars with
  | some _, some _ => do
    let (w, _) ← m.memberships lup inputs
    ok w
  | _, _ => err .UntrainedModel

end RM
