import Verif.Model.RandUtils

/-! Model of src/analysis/cross_validation.rs. -/

namespace RM
open Outcome

/-- `&v[..e]`: panics when `e > len` (std slice indexing, external). -/
def sliceTo {α : Type} (l : List α) (e : ℕ) : Outcome (List α) :=
  if e ≤ l.length then ok (l.take e) else panic

/-- `&v[s..]`: panics when `s > len` (std slice indexing, external). -/
def sliceFrom {α : Type} (l : List α) (s : ℕ) : Outcome (List α) :=
  if s ≤ l.length then ok (l.drop s) else panic

/-- `&v[s..e]`: panics when `s > e` or `e > len` (std slice indexing, external). -/
def sliceRange {α : Type} (l : List α) (s e : ℕ) : Outcome (List α) :=
  if s ≤ e ∧ e ≤ l.length then ok ((l.drop s).take (e - s)) else panic

/-- `rulinalg::Matrix::select_rows` (external): the listed rows in order, panics on an index out of range. -/
def selectRows {X : Type} (rows : List X) (idx : List ℕ) : Outcome (List X) := idx.mapM (getAt rows)

/-- `Partition`, src/analysis/cross_validation.rs lines 90-93: the training and test index iterators as lists
(what these yield, theorem `C02_index_iterators`). -/
structure Partition where
  train : List ℕ
  test : List ℕ
  deriving DecidableEq, Repr

/-- `TestIndices`, src/analysis/cross_validation.rs line 96: the indices not yet yielded (a std slice iterator, external). -/
structure TestIndices where
  rest : List ℕ

/-- `TestIndices::new`, src/analysis/cross_validation.rs lines 104-108. -/
def TestIndices.new (indices : List ℕ) : TestIndices := ⟨indices⟩

/-- `TestIndices::next`, src/analysis/cross_validation.rs lines 113-115. -/
def TestIndices.next (t : TestIndices) : Option (ℕ × TestIndices) :=
  match t.rest with
  | [] => none
  | i :: is => some (i, ⟨is⟩)

/-- `TestIndices::len`, src/analysis/cross_validation.rs lines 119-121. -/
def TestIndices.len (t : TestIndices) : ℕ := t.rest.length

/-- `TrainingIndices`, src/analysis/cross_validation.rs lines 98-102: what is left of the two slices of the chain (std, external)
and `size`. -/
structure TrainingIndices where
  left : List ℕ
  right : List ℕ
  size : ℕ

/-- `TrainingIndices::new`, src/analysis/cross_validation.rs lines 124-132. -/
def TrainingIndices.new (left right : List ℕ) : TrainingIndices := ⟨left, right, left.length + right.length⟩

/-- `TrainingIndices::next`, src/analysis/cross_validation.rs lines 137-139. -/
def TrainingIndices.next (t : TrainingIndices) : Option (ℕ × TrainingIndices) :=
  match t.left with
  | i :: is => some (i, { t with left := is })
  | [] =>
    match t.right with
    | i :: is => some (i, { t with right := is })
    | [] => none

/-- `TrainingIndices::len`, src/analysis/cross_validation.rs lines 143-145: it does not count what was yielded. -/
def TrainingIndices.len (t : TrainingIndices) : ℕ := t.size

/-- `Folds`, src/analysis/cross_validation.rs lines 149-153. -/
structure Folds where
  numFolds : ℕ
  indices : List ℕ
  count : ℕ
  deriving DecidableEq, Repr

/-- `create_shuffled_indices`, src/analysis/cross_validation.rs lines 82-86. -/
def createShuffledIndices (r : ℕ → ℕ) (numSamples : ℕ) : Outcome (List ℕ) :=
  inPlaceFisherYates r (List.range numSamples)

/-- `Folds::new`, src/analysis/cross_validation.rs lines 160-170. -/
def Folds.new (indices : List ℕ) (numFolds : ℕ) : Outcome Folds := do
  let numSamples := indices.length
  assert (decide (numFolds > 1) && decide (numSamples ≥ numFolds))
  ok { numFolds := numFolds, indices := indices, count := 0 }

/-- `Folds::next`, src/analysis/cross_validation.rs lines 176-197: `none` at the end, otherwise the partition (slicing may
panic) and the advanced iterator. -/
def Folds.next (f : Folds) : Option (Outcome Partition × Folds) :=
  if f.count ≥ f.numFolds then none
  else
    let numSamples := f.indices.length
    let q := numSamples / f.numFolds
    let r := numSamples % f.numFolds
    let foldStart := f.count * q + min f.count r
    let foldSize := if f.count ≥ r then q else q + 1
    let foldEnd := foldStart + foldSize
    some (do
      let pre ← sliceTo f.indices foldStart
      let suf ← sliceFrom f.indices foldEnd
      let inf ← sliceRange f.indices foldStart foldEnd
      ok { train := pre ++ suf, test := inf }, { f with count := f.count + 1 })

theorem Folds.next_lt {f f' : Folds} {p : Outcome Partition} (h : f.next = some (p, f')) :
    f'.numFolds - f'.count < f.numFolds - f.count := by
  unfold Folds.next at h
  split at h
  · cases h
  · simp only [Option.some.injEq, Prod.mk.injEq] at h
    obtain ⟨_, rfl⟩ := h
    simp only
    omega

/-- Running the `Folds` iterator to its end (`for p in folds`). -/
def Folds.collect (f : Folds) : Outcome (List Partition) :=
  match h : f.next with
  | none => ok []
  | some (p, f') => do
    let p ← p
    let rest ← f'.collect
    ok (p :: rest)
termination_by f.numFolds - f.count
decreasing_by exact Folds.next_lt h

/-- A supervised model (trait `SupModel`, src/lib.rs lines 152-159): `train` mutates the state even when it
fails, `predict` does not mutate. Rows of inputs are `X`, rows of targets/outputs are `Y`. -/
structure SupModel (σ X Y : Type) where
  train : σ → List X → List Y → σ × Outcome Unit
  predict : σ → List X → Outcome (List Y)

/-- The body of `for p in folds` in `k_fold_validate`, src/analysis/cross_validation.rs lines 63-73, iterated.
Returns the final model state and the result. -/
def kFoldLoop {σ X Y S : Type} (M : SupModel σ X Y) (inputs : List X) (targets : List Y)
    (score : List Y → List Y → Outcome S) (f : Folds) (s : σ) (costs : List S) : σ × Outcome (List S) :=
  match h : f.next with
  | none => (s, ok costs)
  | some (p, f') =>
    match (do
      let p ← p
      let trainInputs ← selectRows inputs p.train
      let trainTargets ← selectRows targets p.train
      let testInputs ← selectRows inputs p.test
      let testTargets ← selectRows targets p.test
      pure (trainInputs, trainTargets, testInputs, testTargets)) with
    | ok (trainInputs, trainTargets, testInputs, testTargets) =>
      match M.train s trainInputs trainTargets with
      | (s', ok ()) =>
        match (do let outputs ← M.predict s' testInputs; score outputs testTargets) with
        | ok c => kFoldLoop M inputs targets score f' s' (costs ++ [c])
        | err k => (s', err k)
        | .panic => (s', panic)
        | ub => (s', ub)
      | (s', err k) => (s', err k)
      | (s', .panic) => (s', panic)
      | (s', ub) => (s', ub)
    | err k => (s, err k)
    | .panic => (s, panic)
    | ub => (s, ub)
termination_by f.numFolds - f.count
decreasing_by exact Folds.next_lt h

/-- `k_fold_validate`, src/analysis/cross_validation.rs lines 48-76. `r` is the random stream of the shuffle.
A matrix is the list of its rows. -/
def kFoldValidate {σ X Y S : Type} (r : ℕ → ℕ) (M : SupModel σ X Y) (s : σ) (inputs : List X) (targets : List Y) (k : ℕ)
    (score : List Y → List Y → Outcome S) : σ × Outcome (List S) :=
  match (do
    assert (decide (inputs.length = targets.length))
    let shuffled ← createShuffledIndices r inputs.length
    Folds.new shuffled k) with
  | ok folds => kFoldLoop M inputs targets score folds s []
  | err e => (s, err e)
  | .panic => (s, panic)
  | ub => (s, ub)

end RM
