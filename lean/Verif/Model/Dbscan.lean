import Verif.Base.Linalg

/-! Model of src/learning/dbscan.rs. -/

namespace RM
open Outcome Scalar
variable {F : Type} [Scalar F]

/-- `DBSCAN`, src/learning/dbscan.rs lines 50-57. -/
structure Dbscan (F : Type) where
  eps : F
  minPoints : ℕ
  clusters : Option (List (Option ℕ))
  predictive : Bool
  visited : List Bool
  clusterData : Option (Mat F)

/-- `DBSCAN::default`, src/learning/dbscan.rs lines 65-76. -/
def dbscanDefault : Dbscan F := ⟨Scalar.ofRat (1/2), 5, none, false, [], none⟩

/-- `DBSCAN::new`, src/learning/dbscan.rs lines 143-154. -/
def dbscanNew (eps : F) (minPoints : ℕ) : Outcome (Dbscan F) := do
  Outcome.assert (Scalar.zero <. eps)
  ok ⟨eps, minPoints, none, false, [], none⟩

/-- `DBSCAN::set_predictive`, src/learning/dbscan.rs lines 161-163. -/
def Dbscan.setPredictive (m : Dbscan F) (b : Bool) : Dbscan F := { m with predictive := b }

/-- The distance computed in `region_query` and `predict`, src/learning/dbscan.rs lines 117-119 and 204-205 (`vec_bin_op` with its
length assertion active). -/
def dbDist (u v : List F) : Outcome F := do
  let d ← vecZip Scalar.sub u v
  ok (Scalar.sqrt (dot d d))

/-- The loop of `region_query`, src/learning/dbscan.rs lines 202-210, from row `idx` on. -/
def regionLoop (eps : F) (point : List F) : ℕ → List (List F) → Outcome (List ℕ)
  | _, [] => ok []
  | idx, r :: rs => do
    let dist ← dbDist r point
    let rest ← regionLoop eps point (idx + 1) rs
    ok (if dist <. eps then idx :: rest else rest)

/-- `region_query`, src/learning/dbscan.rs lines 197-213. -/
def regionQuery (eps : F) (point : List F) (inputs : Mat F) : Outcome (List ℕ) :=
  regionLoop eps point 0 inputs.rows

/-- The mutable fields `expand_cluster` works on. -/
structure DbState where
  visited : List Bool
  clusters : List (Option ℕ)

/-- Marking a point visited and querying its neighbourhood, src/learning/dbscan.rs lines 184-188: `none` if it was already
visited, otherwise the new state and its neighbours. `row_unchecked` with a bad index would be undefined behaviour. -/
def visitPoint (eps : F) (inputs : Mat F) (idx : ℕ) (st : DbState) : Outcome (Option (DbState × List ℕ)) := do
  let v ← getAt st.visited idx
  if v then ok none
  else do
    let visited' ← setAt st.visited idx true
    match inputs.rows[idx]? with
    | none => ub
    | some row => do
      let sub ← regionQuery eps row inputs
      ok (some ({ st with visited := visited' }, sub))

/-- `clusters[point_idx] = Some(cluster)`, src/learning/dbscan.rs line 180 (during training `clusters` is always `Some`,
see `init_params`). -/
def labelPoint (idx cluster : ℕ) (st : DbState) : Outcome DbState := do
  let c ← setAt st.clusters idx (some cluster)
  ok { st with clusters := c }

/-- The loop of `expand_cluster`, src/learning/dbscan.rs lines 182-193, with its recursive calls. The recursion has no
bound: `none` means "not finished with this much fuel" (each step and each nested call costs one unit). -/
def expandLoop (eps : F) (minPoints : ℕ) (inputs : Mat F) (cluster : ℕ) : ℕ → List ℕ → DbState → Option (Outcome DbState)
  | _, [], st => some (ok st)
  | 0, _ :: _, _ => none
  | fuel + 1, d :: rest, st =>
    match visitPoint eps inputs d st with
    | ok none => expandLoop eps minPoints inputs cluster fuel rest st
    | ok (some (st', sub)) =>
      if sub.length ≥ minPoints then
        match labelPoint d cluster st' with
        | ok st'' =>
          match expandLoop eps minPoints inputs cluster fuel sub st'' with
          | some (ok st3) => expandLoop eps minPoints inputs cluster fuel rest st3
          | r => r
        | r => some r
      else expandLoop eps minPoints inputs cluster fuel rest st'
    | err k => some (err k)
    | .panic => some panic
    | ub => some ub

/-- `expand_cluster`, src/learning/dbscan.rs lines 170-194. -/
def expandCluster (eps : F) (minPoints : ℕ) (inputs : Mat F) (fuel idx : ℕ) (nbrs : List ℕ) (cluster : ℕ) (st : DbState) :
    Option (Outcome DbState) :=
  match labelPoint idx cluster st with
  | ok st' => expandLoop eps minPoints inputs cluster fuel nbrs st'
  | r => some r

/-- The loop of `train`, src/learning/dbscan.rs lines 84-97, over the remaining row indices. -/
def dbTrainLoop (eps : F) (minPoints : ℕ) (inputs : Mat F) (fuel : ℕ) : List ℕ → ℕ → DbState → Option (Outcome DbState)
  | [], _, st => some (ok st)
  | idx :: rest, cluster, st =>
    match visitPoint eps inputs idx st with
    | ok none => dbTrainLoop eps minPoints inputs fuel rest cluster st
    | ok (some (st', nbrs)) =>
      if nbrs.length ≥ minPoints then
        match expandCluster eps minPoints inputs fuel idx nbrs cluster st' with
        | some (ok st'') => dbTrainLoop eps minPoints inputs fuel rest (cluster + 1) st''
        | r => r
      else dbTrainLoop eps minPoints inputs fuel rest cluster st'
    | err k => some (err k)
    | .panic => some panic
    | ub => some ub

/-- `train`, src/learning/dbscan.rs lines 80-104 with `init_params` (lines 215-226). `none`: not finished with this fuel. -/
def dbTrain (fuel : ℕ) (m : Dbscan F) (inputs : Mat F) : Option (Outcome (Dbscan F)) :=
  let n := inputs.rows.length
  match dbTrainLoop m.eps m.minPoints inputs fuel (List.range n) 0 ⟨List.replicate n false, List.replicate n none⟩ with
  | some (ok st) => some (ok { m with
      clusters := some st.clusters, visited := st.visited,
      clusterData := if m.predictive then some inputs else m.clusterData })
  | some (err k) => some (err k)
  | some .panic => some panic
  | some ub => some ub
  | none => none

/-- One iteration of the loop of `predict`, src/learning/dbscan.rs lines 112-129. -/
def dbClassify (eps : F) (data : Mat F) (clusters : List (Option ℕ)) (point : List F) : Outcome (Option ℕ) := do
  let distances ← data.rows.mapM fun c => dbDist point c
  match argminBy Scalar.lt distances with
  | ok (idx, dist) => if dist <. eps then getAt clusters idx else ok none
  | err k => err k
  | .panic => panic
  | ub => ub

/-- `predict`, src/learning/dbscan.rs lines 106-137. -/
def dbPredict (m : Dbscan F) (inputs : Mat F) : Outcome (List (Option ℕ)) :=
  if m.predictive then
    match m.clusterData, m.clusters with
    | some data, some clusters => inputs.rows.mapM (dbClassify m.eps data clusters)
    | _, _ => err .UntrainedModel
  else err .InvalidState

end RM
