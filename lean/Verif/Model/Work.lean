import Verif.Base.Logged
import Verif.Model.BinaryTree
import Verif.Model.Dbscan
import Verif.Model.Svm

/-! The searchers, DBSCAN, the Gaussian process and the SVM once more, now with the list of the distances measured, the
neighbourhoods queried and the kernel values asked for. `Verif/Props/Work.lean` shows that the results are those of the models
without lists. -/

namespace RM
open Outcome Scalar
variable {F : Type} [Scalar F]

namespace Logged
variable {C α β : Type}

/-- A function applied to the outcome of a computation (`expect`, `map_err`). -/
def mapOut (f : Outcome α → Outcome β) (x : Logged C α) : Logged C β := ⟨x.log, f x.out⟩

end Logged

/-! ### Searchers -/

/-- `get_distances`, src/learning/knn/mod.rs lines 264-276, with the rows whose distance to the point is computed. -/
def getDistancesLog (data : Mat F) (point : List F) (ids : List ℕ) : Logged ℕ (List F) := do
  Logged.lift (assert (!ids.isEmpty))
  ids.mapM fun id => do
    let row ← Logged.lift (getAt data.rows id)
    Logged.call id (ok (knnDist point row))

/-- `BruteForce::search`, src/learning/knn/brute_force.rs lines 53-73, with the rows whose distance to the point is computed.
The loop over the rows after the `k`-th computes every distance before looking at it, so the list of its distances is written
down first. -/
def bruteSearchLog (data : Option (Mat F)) (point : List F) (k : ℕ) : Logged ℕ (List ℕ × List F) :=
  match data with
  | none => Logged.lift (err .UntrainedModel)
  | some data => do
    let distances ← getDistancesLog data point (List.range k)
    let pairs ← Logged.lift (knearestNew k (List.range k) distances)
    let cur ← Logged.lift (knearestDist k pairs)
    let rest ← (⟨(indexedDists point k (data.rows.drop k)).map Prod.fst, ok (indexedDists point k (data.rows.drop k))⟩ :
      Logged ℕ (List (ℕ × F)))
    let pairs' ← Logged.lift (offerAll k rest pairs cur)
    pure (knearestResults pairs')

/-- `BinaryTree::search_leaf`, src/learning/knn/binary_tree.rs lines 350-382, with the rows whose distance is computed. -/
def searchLeafLog {B : Type} (data : Mat F) (point : List F) (k : ℕ) :
    Node F B → List (Node F B) → Logged ℕ (List (ℕ × F) × List (Node F B))
  | .leaf children, queue => do
    let distances ← getDistancesLog data point children
    let kn ← Logged.lift (knearestNew k children distances)
    pure (kn, queue)
  | .branch dim split _ left right, queue =>
    match point[dim]? with
    | none => Logged.lift ub
    | some p =>
      if p <. split then searchLeafLog data point k left (queue ++ [right])
      else searchLeafLog data point k right (queue ++ [left])

/-- The main loop of `BinaryTree::search`, src/learning/knn/binary_tree.rs lines 401-423, with the rows whose distance is
computed. -/
def searchQueueLog {B : Type} (K : SplitKind F B) (data : Mat F) (point : List F) (k : ℕ) :
    List (Node F B) → List (ℕ × F) → Logged ℕ (List (ℕ × F))
  | [], pairs => pure pairs
  | .leaf children :: queue, pairs => do
    let distances ← getDistancesLog data point children
    let cur ← Logged.lift (knearestDist k pairs)
    let pairs' ← Logged.lift (offerAll k (children.zip distances) pairs cur)
    searchQueueLog K data point k queue pairs'
  | .branch _ _ b l r :: queue, pairs => do
    let cur ← Logged.lift (knearestDist k pairs)
    if K.dist b point <. cur then searchQueueLog K data point k (queue ++ [l, r]) pairs
    else searchQueueLog K data point k queue pairs
termination_by q _ => (q.map Node.size).sum
decreasing_by
  · simp [Node.size]
  · simp [Node.size]; omega
  · simp [Node.size]

/-- `BinaryTree::search`, src/learning/knn/binary_tree.rs lines 398-428, with the rows whose distance is computed. -/
def treeSearchLog {B : Type} (K : SplitKind F B) (t : BinaryTree F B) (point : List F) (k : ℕ) : Logged ℕ (List ℕ × List F) :=
  match t.data, t.root with
  | some data, some root => do
    let q ← searchLeafLog data point k root []
    let pairs ← searchQueueLog K data point k q.2 q.1
    pure (knearestResults pairs)
  | _, _ => Logged.lift (err .UntrainedModel)

/-- `KNNClassifier::predict`, src/learning/knn/mod.rs lines 109-125, with the searches asked for: point and number of neighbours. -/
def knnPredictLog {S : Type} (R : Searcher F S) (c : KNNClassifier S) (inputs : Mat F) : Logged (List F × ℕ) (List ℕ) :=
  match c.target with
  | none => Logged.lift (err .UntrainedModel)
  | some target => inputs.rows.mapM fun row => do
      let q ← Logged.call (row, c.k) (R.search c.searcher row c.k)
      Logged.lift (knnVote target q.1)

/-! ### DBSCAN -/

/-- The loop of `expand_cluster`, src/learning/dbscan.rs lines 182-193, as `expandLoop`, with the list of the points whose
neighbourhood has been queried so far (`region_query`, lines 186 and 197-213). -/
def expandLoopLog (eps : F) (minPoints : ℕ) (inputs : Mat F) (cluster : ℕ) :
    ℕ → List ℕ → DbState × List ℕ → Option (Outcome (DbState × List ℕ))
  | _, [], s => some (ok s)
  | 0, _ :: _, _ => none
  | fuel + 1, d :: rest, s =>
    match visitPoint eps inputs d s.1 with
    | ok none => expandLoopLog eps minPoints inputs cluster fuel rest s
    | ok (some (st', sub)) =>
      if sub.length ≥ minPoints then
        match labelPoint d cluster st' with
        | ok st'' =>
          match expandLoopLog eps minPoints inputs cluster fuel sub (st'', s.2 ++ [d]) with
          | some (ok s3) => expandLoopLog eps minPoints inputs cluster fuel rest s3
          | r => r
        | err k => some (err k)
        | .panic => some panic
        | ub => some ub
      else expandLoopLog eps minPoints inputs cluster fuel rest (st', s.2 ++ [d])
    | err k => some (err k)
    | .panic => some panic
    | ub => some ub

/-- The loop of `train`, src/learning/dbscan.rs lines 84-97, as `dbTrainLoop`, with the points whose neighbourhood has been
queried so far. -/
def dbTrainLoopLog (eps : F) (minPoints : ℕ) (inputs : Mat F) (fuel : ℕ) :
    List ℕ → ℕ → DbState × List ℕ → Option (Outcome (DbState × List ℕ))
  | [], _, s => some (ok s)
  | idx :: rest, cluster, s =>
    match visitPoint eps inputs idx s.1 with
    | ok none => dbTrainLoopLog eps minPoints inputs fuel rest cluster s
    | ok (some (st', nbrs)) =>
      if nbrs.length ≥ minPoints then
        match labelPoint idx cluster st' with
        | ok st'' =>
          match expandLoopLog eps minPoints inputs cluster fuel nbrs (st'', s.2 ++ [idx]) with
          | some (ok s3) => dbTrainLoopLog eps minPoints inputs fuel rest (cluster + 1) s3
          | r => r
        | err k => some (err k)
        | .panic => some panic
        | ub => some ub
      else dbTrainLoopLog eps minPoints inputs fuel rest cluster (st', s.2 ++ [idx])
    | err k => some (err k)
    | .panic => some panic
    | ub => some ub

/-- `train`, src/learning/dbscan.rs lines 80-104, with the points whose neighbourhood is queried. -/
def dbTrainLog (fuel : ℕ) (m : Dbscan F) (inputs : Mat F) : Option (Outcome (Dbscan F × List ℕ)) :=
  let n := inputs.rows.length
  match dbTrainLoopLog m.eps m.minPoints inputs fuel (List.range n) 0
      (⟨List.replicate n false, List.replicate n none⟩, []) with
  | some (ok s) => some (ok ({ m with
      clusters := some s.1.clusters, visited := s.1.visited,
      clusterData := if m.predictive then some inputs else m.clusterData }, s.2))
  | some (err k) => some (err k)
  | some .panic => some panic
  | some ub => some ub
  | none => none

/-! ### Kernels -/

/-- `ker_mat`, src/learning/gp.rs lines 124-140, src/learning/svm.rs lines 105-121, with the arguments of the calls of the
kernel. -/
def kerMatLog (ker : Kernel F) (m1 m2 : Mat F) : Logged (List F × List F) (Mat F) :=
  if m1.cols ≠ m2.cols then Logged.lift (err .InvalidState)
  else do
    let rows ← m1.rows.mapM fun r1 => m2.rows.mapM fun r2 => Logged.call (r1, r2) (ker r1 r2)
    pure ⟨m2.rows.length, rows⟩

/-- `GaussianProcess::train`, src/learning/gp.rs lines 158-176, with the calls of the kernel. -/
def Gp.trainLog (lib : TriLib F) (g : Gp F) (inputs : Mat F) (targets : List F) : Logged (List F × List F) (Gp F) := do
  let noiseMat := scaledIdentity inputs.rows.length g.noise
  let k ← Logged.mapOut expectOk (kerMatLog g.ker inputs inputs)
  let a ← Logged.lift (Mat.zip Scalar.add k noiseMat)
  let l ← Logged.lift (orInvalidState (lib.cholesky a))
  let r ← Logged.lift (vecZip Scalar.sub targets (g.mean inputs))
  let x ← Logged.lift (expectOk (lib.solveL l r))
  let alpha ← Logged.lift (expectOk (lib.solveU l.transpose x))
  pure { g with trainMat := some l, trainData := some inputs, alpha := some alpha }

/-- `GaussianProcess::predict`, src/learning/gp.rs lines 145-155, with the calls of the kernel. -/
def Gp.predictLog (g : Gp F) (inputs : Mat F) : Logged (List F × List F) (List F) :=
  match g.alpha, g.trainData with
  | some alpha, some tData => do
    let mean := g.mean inputs
    let k ← kerMatLog g.ker inputs tData
    let post ← Logged.lift (k.mulVec alpha)
    Logged.lift (vecZip Scalar.add mean post)
  | _, _ => Logged.lift (err .UntrainedModel)

/-- `GaussianProcess::get_posterior`, src/learning/gp.rs lines 185-210, with the calls of the kernel. -/
def Gp.posteriorLog (lib : TriLib F) (g : Gp F) (inputs : Mat F) : Logged (List F × List F) (List F × Mat F) :=
  match g.trainMat, g.alpha, g.trainData with
  | some tMat, some alpha, some tData => do
    let mean := g.mean inputs
    let k ← kerMatLog g.ker inputs tData
    let p ← Logged.lift (k.mulVec alpha)
    let postMean ← Logged.lift (vecZip Scalar.add mean p)
    let testMat ← kerMatLog g.ker inputs tData
    let rows ← Logged.lift (testMat.rows.mapM fun row => expectOk (lib.solveL tMat row))
    let v ← Logged.lift (Mat.new testMat.rows.length testMat.cols rows.flatten)
    let kk ← kerMatLog g.ker inputs inputs
    let vv ← Logged.lift (v.mul v.transpose)
    let postVar ← Logged.lift (Mat.zip Scalar.sub kk vv)
    pure (postMean, postVar)
  | _, _, _ => Logged.lift (err .UntrainedModel)

/-- The sum of the kernels of row `i` with all rows, src/learning/svm.rs lines 156-157, with the calls of the kernel. -/
def kernelRowSumLog (ker : Kernel F) (row : List F) (full : Mat F) : Logged (List F × List F) F :=
  full.rows.foldlM (fun s r => do let k ← Logged.call (row, r) (ker row r); pure (s +. k)) Scalar.zero

/-- One iteration of the loop of `SVM::train`, src/learning/svm.rs lines 153-163, with the calls of the kernel. -/
def svmStepLog (ker : Kernel F) (lambda : F) (full : Mat F) (targets : List F) (alpha : List F) (t raw : ℕ) :
    Logged (List F × List F) (List F) := do
  let i ← Logged.lift (genRange raw 0 full.rows.length)
  let row ← Logged.lift (getAt full.rows i)
  let s ← kernelRowSumLog ker row full
  let y ← Logged.lift (getAt targets i)
  let sum := (s *. y) /. (lambda *. Scalar.ofNat t)
  if sum <. Scalar.one then pure (alpha.modify i fun a => a +. Scalar.one) else pure alpha

/-- `SVM::train`, src/learning/svm.rs lines 144-171, with the calls of the kernel. -/
def Svm.trainLog (draws : ℕ → ℕ) (m : Svm F) (inputs : Mat F) (targets : List F) : Logged (List F × List F) (Svm F) := do
  let full ← Logged.lift (withOnes inputs)
  let alpha ← (List.range m.optimIters).foldlM (fun a t => svmStepLog m.ker m.lambda full targets a t (draws t))
    (List.replicate inputs.rows.length Scalar.zero)
  pure { m with
    alpha := some (alpha.map fun a => a /. Scalar.ofNat m.optimIters)
    trainInputs := some full
    trainTargets := some targets }

/-- `SVM::predict`, src/learning/svm.rs lines 127-142, with the calls of the kernel. -/
def Svm.predictLog (m : Svm F) (inputs : Mat F) : Logged (List F × List F) (List F) := do
  let full ← Logged.lift (withOnes inputs)
  match m.alpha, m.trainInputs, m.trainTargets with
  | some alpha, some trainInputs, some trainTargets => do
    let k ← kerMatLog m.ker full trainInputs
    let w ← Logged.lift (vecZip Scalar.mul alpha trainTargets)
    let d ← Logged.lift (k.mulVec (w.map fun x => x /. m.lambda))
    pure (d.map signum)
  | _, _, _ => Logged.lift (err .UntrainedModel)

end RM
