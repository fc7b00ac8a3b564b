import Verif.Model.Dbscan

/-! Model of the call stack of src/learning/dbscan.rs: the same recursion as in `Model/Dbscan`, with the number of nested calls of
`expand_cluster` counted instead of the steps. -/

namespace RM
open Outcome Scalar
variable {F : Type} [Scalar F]

/-- The loop of `expand_cluster`, src/learning/dbscan.rs lines 182-193, when the stack has room for `frames` more calls of
`expand_cluster`. `none` is a stack overflow. -/
def expandFrames (eps : F) (minPoints : ℕ) (inputs : Mat F) (cluster : ℕ) : ℕ → List ℕ → DbState → Option (Outcome DbState)
  | _, [], st => some (ok st)
  | frames, d :: rest, st =>
    match visitPoint eps inputs d st with
    | ok none => expandFrames eps minPoints inputs cluster frames rest st
    | ok (some (st', sub)) =>
      if sub.length ≥ minPoints then
        match frames with
        | 0 => none
        | frames + 1 =>
          match labelPoint d cluster st' with
          | ok st'' =>
            match expandFrames eps minPoints inputs cluster frames sub st'' with
            | some (ok st3) => expandFrames eps minPoints inputs cluster (frames + 1) rest st3
            | r => r
          | r => some r
      else expandFrames eps minPoints inputs cluster frames rest st'
    | err k => some (err k)
    | .panic => some panic
    | ub => some ub
  termination_by frames nbrs => (frames, nbrs.length)

/-- The loop of `train`, src/learning/dbscan.rs lines 84-97, with its call of `expand_cluster` (lines 170-180), when the stack has
room for `frames` calls of `expand_cluster`. -/
def trainFrames (eps : F) (minPoints : ℕ) (inputs : Mat F) (frames : ℕ) : List ℕ → ℕ → DbState → Option (Outcome DbState)
  | [], _, st => some (ok st)
  | idx :: rest, cluster, st =>
    match visitPoint eps inputs idx st with
    | ok none => trainFrames eps minPoints inputs frames rest cluster st
    | ok (some (st', nbrs)) =>
      if nbrs.length ≥ minPoints then
        if frames = 0 then none
        else match labelPoint idx cluster st' with
          | ok st'' =>
            match expandFrames eps minPoints inputs cluster (frames - 1) nbrs st'' with
            | some (ok st3) => trainFrames eps minPoints inputs frames rest (cluster + 1) st3
            | r => r
          | r => some r
      else trainFrames eps minPoints inputs frames rest cluster st'
    | err k => some (err k)
    | .panic => some panic
    | ub => some ub

/-- `train`, src/learning/dbscan.rs lines 80-104, when the stack has room for `frames` nested calls of `expand_cluster`. `none` is a
stack overflow. -/
def dbTrainFrames (frames : ℕ) (m : Dbscan F) (inputs : Mat F) : Option (Outcome (Dbscan F)) :=
  let n := inputs.rows.length
  match trainFrames m.eps m.minPoints inputs frames (List.range n) 0 ⟨List.replicate n false, List.replicate n none⟩ with
  | some (ok st) => some (ok { m with
      clusters := some st.clusters, visited := st.visited,
      clusterData := if m.predictive then some inputs else m.clusterData })
  | some (err k) => some (err k)
  | some .panic => some panic
  | some ub => some ub
  | none => none

end RM
