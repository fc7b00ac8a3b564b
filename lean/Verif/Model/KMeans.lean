import Verif.Base.Linalg

/-! Model of src/learning/k_means.rs. Random draws are explicit arguments. -/

namespace RM
open Outcome Scalar
variable {F : Type} [Scalar F]

/-- `KMeansClassifier`, src/learning/k_means.rs lines 68-77 (the initialiser is an argument of `train`). -/
structure KMeans (F : Type) where
  iters : ℕ
  k : ℕ
  centroids : Option (Mat F)

/-- `new_specified`, src/learning/k_means.rs lines 148-155 (`new`, lines 125-132, has 100 iterations). -/
def kmNew (k iters : ℕ) : KMeans F := ⟨iters, k, none⟩

/-- `inputs.select_rows(&idx)` of rulinalg (external): panics on an index out of range. -/
def Mat.selectRows (m : Mat F) (idx : List ℕ) : Outcome (Mat F) := do
  let rows ← idx.mapM (getAt m.rows)
  ok ⟨m.cols, rows⟩

/-- One iteration of the loop of `find_closest_centroids`, src/learning/k_means.rs lines 250-258. -/
def closestTo (centroids : Mat F) (cols : ℕ) (row : List F) : Outcome (ℕ × F) := do
  let diff ← Mat.zip Scalar.sub centroids ⟨cols, List.replicate centroids.rows.length row⟩
  let sq ← Mat.zip Scalar.mul diff diff
  argminBy Scalar.lt sq.sumCols

/-- `find_closest_centroids`, src/learning/k_means.rs lines 244-262. -/
def findClosest (centroids inputs : Mat F) : Outcome (List ℕ × List F) := do
  let r ← inputs.rows.mapM (closestTo centroids inputs.cols)
  ok (r.map Prod.fst, r.map Prod.snd)

/-- Filling `row_indexes`, src/learning/k_means.rs lines 216-219: indices of classes out of range are dropped. -/
def groupRows : ℕ → List ℕ → List (List ℕ) → List (List ℕ)
  | _, [], groups => groups
  | i, c :: cs, groups => groupRows (i + 1) cs (groups.modify c fun v => v ++ [i])

/-- `update_centroids`, src/learning/k_means.rs lines 213-227. -/
def updateCentroids (k : ℕ) (inputs : Mat F) (classes : List ℕ) : Outcome (Mat F) := do
  let rowIndexes := groupRows 0 classes (List.replicate k [])
  let means ← rowIndexes.mapM fun v => do
    let m ← inputs.selectRows v
    ok m.meanRow
  Mat.new k inputs.cols means.flatten

/-- The loop of `train`, src/learning/k_means.rs lines 97-107. -/
def kmLoop (k : ℕ) (inputs : Mat F) : ℕ → F → Mat F → Outcome (Mat F)
  | 0, _, centroids => ok centroids
  | n + 1, cost, centroids => do
    let (idx, distances) ← findClosest centroids inputs
    let centroids' ← updateCentroids k inputs idx
    let costI := fsum distances
    if Scalar.abs (cost -. costI) <. Scalar.ofRat (1 / 10 ^ 14) then ok centroids'
    else kmLoop k inputs n costI centroids'

/-- `init_centroids` of the model, src/learning/k_means.rs lines 186-208, for any initialiser `init`. -/
def kmInit (init : ℕ → Mat F → Outcome (Mat F)) (k : ℕ) (inputs : Mat F) : Outcome (Mat F) :=
  if k > inputs.rows.length then err .InvalidData
  else do
    let centroids ← init k inputs
    if centroids.rows.length ≠ k then err .InvalidState
    else if centroids.cols ≠ inputs.cols then err .InvalidState
    else ok centroids

/-- `train`, src/learning/k_means.rs lines 92-110: the model afterwards (after a panic see `kmTrainUnwind`) and the result. -/
def kmTrain (init : ℕ → Mat F → Outcome (Mat F)) (m : KMeans F) (inputs : Mat F) : KMeans F × Outcome Unit :=
  match kmInit init m.k inputs with
  | ok c0 =>
    match kmLoop m.k inputs m.iters Scalar.zero c0 with
    | ok c => ({ m with centroids := some c }, ok ())
    | err e => ({ m with centroids := some c0 }, err e)
    | .panic => (m, panic)
    | ub => (m, ub)
  | err e => (m, err e)
  | .panic => (m, panic)
  | ub => (m, ub)

/-- `predict`, src/learning/k_means.rs lines 83-89. -/
def kmPredict (m : KMeans F) (inputs : Mat F) : Outcome (List ℕ) :=
  match m.centroids with
  | some c => do
    let r ← findClosest c inputs
    ok r.1
  | none => err .UntrainedModel

/-! ### Initialisers -/

/-- The loop of `Forgy`, src/learning/k_means.rs lines 281-287; the unbounded `while` consumes random numbers from a list,
`none` means that they ran out before `k` choices were made. -/
def forgyLoop (k n : ℕ) : List ℕ → List ℕ → Option (Outcome (List ℕ))
  | raws, choices =>
    if choices.length < k then
      match raws with
      | [] => none
      | raw :: raws' =>
        match genRange raw 0 n with
        | ok r => forgyLoop k n raws' (if choices.contains r then choices else choices ++ [r])
        | err e => some (err e)
        | .panic => some panic
        | ub => some ub
    else some (ok choices)

/-- `Forgy::init_centroids`, src/learning/k_means.rs lines 278-290. -/
def forgyInit (raws : List ℕ) (k : ℕ) (inputs : Mat F) : Option (Outcome (Mat F)) :=
  match forgyLoop k inputs.rows.length raws [] with
  | some (ok choices) => some (inputs.selectRows choices)
  | some (err e) => some (err e)
  | some .panic => some panic
  | some ub => some ub
  | none => none

/-- The loop of `RandomPartition`, src/learning/k_means.rs lines 303-308: rows `i, i+1, ...`, one random number each.
`get_unchecked_mut` out of range would be undefined behaviour. -/
def partitionLoop (k : ℕ) : ℕ → List ℕ → List (List ℕ) → Outcome (List (List ℕ))
  | _, [], groups => ok groups
  | i, raw :: raws, groups => do
    let idx ← genRange raw 0 k
    if idx < groups.length then partitionLoop k (i + 1) raws (groups.modify idx fun v => v ++ [i])
    else ub

/-- `RandomPartition::init_centroids`, src/learning/k_means.rs lines 298-318; `raws` supplies one number for every row from
`k` on. -/
def partitionInit (raws : List ℕ) (k : ℕ) (inputs : Mat F) : Outcome (Mat F) := do
  let groups ← partitionLoop k k (raws.take (inputs.rows.length - k)) ((List.range k).map fun i => [i])
  let means ← groups.mapM fun v => do
    let m ← inputs.selectRows v
    ok m.meanRow
  Mat.new k inputs.cols means.flatten

/-- The loop of `sample_discretely`, src/learning/k_means.rs lines 371-378; falling through is the final panic. -/
def sampleLoop (rand : F) : ℕ → F → List F → Outcome ℕ
  | _, _, [] => panic
  | i, tempsum, p :: ps =>
    let tempsum' := tempsum +. p
    if rand <. tempsum' then ok i else sampleLoop rand (i + 1) tempsum' ps

/-- `sample_discretely`, src/learning/k_means.rs lines 364-381. `gen_range(0.0, sum)` panics unless `0 < sum`; otherwise it
is `u * sum` for the raw draw `u` in `[0,1)`. -/
def sampleDiscretely (u : F) (dist : List F) : Outcome ℕ := do
  Outcome.assert (decide (0 < dist.length))
  let sum := fsum dist
  Outcome.assert (Scalar.zero <. sum)
  sampleLoop (u *. sum) 0 Scalar.zero dist

/-- `inputs.row_unchecked(i)`: undefined behaviour out of range. -/
def rowUnchecked (m : Mat F) (i : ℕ) : Outcome (List F) :=
  match m.rows[i]? with
  | some r => ok r
  | none => ub

/-- The loop of `KPlusPlus`, src/learning/k_means.rs lines 336-355: one raw draw for every further centroid. -/
def kppLoop (inputs : Mat F) : List F → List (List F) → Outcome (List (List F))
  | [], centroids => ok centroids
  | u :: us, centroids => do
    let (_, dist) ← findClosest ⟨inputs.cols, centroids⟩ inputs
    if dist.all Scalar.isFinite then do
      let next ← sampleDiscretely u dist
      let row ← rowUnchecked inputs next
      kppLoop inputs us (centroids ++ [row])
    else err .InvalidData

/-- `KPlusPlus::init_centroids`, src/learning/k_means.rs lines 326-358; `us` supplies the draws for the centroids after the
first (`for i in 1..k`). -/
def kppInit (raw : ℕ) (us : List F) (k : ℕ) (inputs : Mat F) : Outcome (Mat F) := do
  let first ← genRange raw 0 inputs.rows.length
  let row ← rowUnchecked inputs first
  let cs ← kppLoop inputs (us.take (k - 1)) [row]
  Mat.new k inputs.cols cs.flatten

end RM
