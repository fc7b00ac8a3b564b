import Mathlib.Data.List.Sort
import Verif.Base.Linalg

/-! Model of src/learning/knn/mod.rs and src/learning/knn/brute_force.rs. -/

namespace RM
open Outcome Scalar
variable {F : Type} [Scalar F]

/-- `dist`, src/learning/knn/mod.rs lines 278-285 (`zip` stops at the shorter slice). -/
def knnDist (v1 v2 : List F) : F :=
  Scalar.sqrt ((List.zipWith (fun x y => (x -. y) *. (x -. y)) v1 v2).foldl Scalar.add Scalar.zero)

/-- `get_distances`, src/learning/knn/mod.rs lines 264-276: panics on an empty id list and (in `select_rows`) on an id out
of range. -/
def getDistances (data : Mat F) (point : List F) (ids : List ℕ) : Outcome (List F) := do
  assert (!ids.isEmpty)
  ids.mapM fun id => do
    let row ← getAt data.rows id
    ok (knnDist point row)

/-- Comparator of the sort in `KNearest::new`: `x.1 <= y.1` (stable sort, so only "not greater" matters). -/
def pairLe (x y : ℕ × F) : Prop := (x.2 <=. y.2) = true

instance : DecidableRel (pairLe (F := F)) := fun x y => inferInstanceAs (Decidable ((x.2 <=. y.2) = true))

/-- `KNearest::new`, src/learning/knn/mod.rs lines 152-168. The comparator's `partial_cmp(..).unwrap()` panics when a NaN
is compared, which any sort of two or more elements does for each element. `sort_by` is stable: insertion sort here. The
two `debug_assert!`s (index non-empty, equal lengths) hold at both call sites because `get_distances` asserts them. -/
def knearestNew (k : ℕ) (index : List ℕ) (distances : List F) : Outcome (List (ℕ × F)) :=
  let pairs := index.zip distances
  if 2 ≤ pairs.length ∧ pairs.any (fun p => Scalar.isNaN p.2) then panic
  else ok ((pairs.insertionSort pairLe).take k)

/-- The insertion loop of `KNearest::add`, src/learning/knn/mod.rs lines 195-203. The argument counts the positions still
to be inspected: `j + 1` means position `j` is next (`len - i` in the source). `get_unchecked` out of range is `ub`. -/
def addLoop (pairs : List (ℕ × F)) (x : ℕ × F) : ℕ → Outcome (List (ℕ × F))
  | 0 => ok (x :: pairs)
  | j + 1 => match pairs[j]? with
    | none => ub
    | some p => if p.2 <. x.2 then ok (pairs.insertIdx (j + 1) x) else addLoop pairs x j

/-- `KNearest::add`, src/learning/knn/mod.rs lines 172-205. Result: new pairs and the returned distance. On an empty
container `len - 1` underflows (panic in debug builds, out-of-range `get_unchecked` in release): `ub`. -/
def knearestAdd (k : ℕ) (pairs : List (ℕ × F)) (index : ℕ) (distance : F) : Outcome (List (ℕ × F) × F) :=
  let len := pairs.length
  let lastIndex := if len < k then len else len - 1
  match pairs.getLast? with
  | none => ub
  | some last =>
    if last.2 <. distance then
      let pairs' := if len < k then pairs ++ [(index, distance)] else pairs
      match pairs'[lastIndex]? with
      | none => ub
      | some p => ok (pairs', p.2)
    else do
      let pairs1 := if k ≤ len then pairs.dropLast else pairs
      let pairs' ← addLoop pairs1 (index, distance) (len - 1)
      match pairs'[lastIndex]? with
      | none => ub
      | some p => ok (pairs', p.2)

/-- `KNearest::dist`, src/learning/knn/mod.rs lines 208-220. -/
def knearestDist (k : ℕ) (pairs : List (ℕ × F)) : Outcome F :=
  if pairs.length < k then ok Scalar.maxVal
  else match pairs.getLast? with
    | none => ub
    | some p => ok p.2

/-- `KNearest::get_results`, src/learning/knn/mod.rs lines 223-231. -/
def knearestResults (pairs : List (ℕ × F)) : List ℕ × List F := (pairs.map Prod.fst, pairs.map Prod.snd)

/-- The filter-and-add loop shared by `BruteForce::search` (src/learning/knn/brute_force.rs lines 61-68) and the leaf case
of `BinaryTree::search` (src/learning/knn/binary_tree.rs lines 409-413): each `(index, distance)` with
`distance < current_dist` is added and `current_dist` becomes what `add` returns. -/
def offerAll (k : ℕ) : List (ℕ × F) → List (ℕ × F) → F → Outcome (List (ℕ × F))
  | [], pairs, _ => ok pairs
  | (i, d) :: rest, pairs, cur =>
    if d <. cur then do
      let (pairs', cur') ← knearestAdd k pairs i d
      offerAll k rest pairs' cur'
    else offerAll k rest pairs cur

/-- Rows with their indices, starting at index `i`, as `(index, dist(point, row))`. -/
def indexedDists (point : List F) : ℕ → List (List F) → List (ℕ × F)
  | _, [] => []
  | i, r :: rs => (i, knnDist point r) :: indexedDists point (i + 1) rs

/-- `BruteForce::search`, src/learning/knn/brute_force.rs lines 53-73; `data = none` before `build`. -/
def bruteSearch (data : Option (Mat F)) (point : List F) (k : ℕ) : Outcome (List ℕ × List F) :=
  match data with
  | none => err .UntrainedModel
  | some data => do
    let distances ← getDistances data point (List.range k)
    let pairs ← knearestNew k (List.range k) distances
    let cur ← knearestDist k pairs
    let pairs' ← offerAll k (indexedDists point k (data.rows.drop k)) pairs cur
    ok (knearestResults pairs')

/-- `BruteForce::build`, src/learning/knn/brute_force.rs lines 48-50. -/
def bruteBuild (_ : Option (Mat F)) (data : Mat F) : Outcome (Option (Mat F)) := ok (some data)

/-- `BTreeMap` entry update of `freq`: the map is a list sorted by key. -/
def bumpKey (l : ℕ) : List (ℕ × ℕ) → List (ℕ × ℕ)
  | [] => [(l, 1)]
  | (k, c) :: rest => if l < k then (l, 1) :: (k, c) :: rest else if l = k then (k, c + 1) :: rest else (k, c) :: bumpKey l rest

/-- `freq`, src/learning/knn/mod.rs lines 247-261: labels in increasing order with their counts. -/
def freq (labels : List ℕ) : List (ℕ × ℕ) := labels.foldl (fun m l => bumpKey l m) []

/-- A neighbour searcher: the trait `KNearestSearch`, src/learning/knn/mod.rs lines 235-243 (runs that terminate). -/
structure Searcher (F S : Type) where
  build : S → Mat F → Outcome S
  search : S → List F → ℕ → Outcome (List ℕ × List F)

/-- `KNNClassifier`, src/learning/knn/mod.rs lines 47-56. -/
structure KNNClassifier (S : Type) where
  k : ℕ
  searcher : S
  target : Option (List ℕ)

/-- The vote for one query, src/learning/knn/mod.rs lines 115-119. -/
def knnVote (target idx : List ℕ) : Outcome ℕ := do
  let res ← idx.mapM (getAt target)
  let fr := freq res
  let (id, _) ← argmaxBy (fun a b => decide (a < b)) (fr.map Prod.snd)
  getAt (fr.map Prod.fst) id

/-- `KNNClassifier::predict`, src/learning/knn/mod.rs lines 109-125. -/
def knnPredict {S : Type} (R : Searcher F S) (c : KNNClassifier S) (inputs : Mat F) : Outcome (List ℕ) :=
  match c.target with
  | none => err .UntrainedModel
  | some target => inputs.rows.mapM fun row => do
      let (idx, _) ← R.search c.searcher row c.k
      knnVote target idx

/-- `KNNClassifier::train`, src/learning/knn/mod.rs lines 127-139. -/
def knnTrain {S : Type} (R : Searcher F S) (c : KNNClassifier S) (inputs : Mat F) (targets : List ℕ) :
    KNNClassifier S × Outcome Unit :=
  if inputs.rows.length ≠ targets.length then (c, err .InvalidData)
  else if inputs.rows.length < c.k then (c, err .InvalidData)
  else match R.build c.searcher inputs with
    | ok s => ({ c with searcher := s, target := some targets }, ok ())
    | err e => (c, err e)
    | .panic => (c, panic)
    | ub => (c, ub)

/-- The brute-force searcher. -/
def bruteSearcher : Searcher F (Option (Mat F)) := ⟨bruteBuild, bruteSearch⟩

end RM
