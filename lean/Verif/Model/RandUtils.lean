import Verif.Base.Outcome

/-! Model of src/learning/toolkit/rand_utils.rs and of the Shuffler transformer. -/

namespace RM
open Outcome

variable {α : Type}

/-- One iteration of the loop in `in_place_fisher_yates`, src/learning/toolkit/rand_utils.rs lines 103-107.
`raw` is the random number drawn in this iteration. -/
def inPlaceFYStep (n : ℕ) (arr : List α) (i raw : ℕ) : Outcome (List α) := do
  let j ← genRange raw 0 (n - i)
  swapAt arr i (i + j)

/-- `in_place_fisher_yates`, src/learning/toolkit/rand_utils.rs lines 99-108.
`r i` is the raw random number drawn in iteration `i`. The slice is returned instead of mutated. -/
def inPlaceFisherYates (r : ℕ → ℕ) (arr : List α) : Outcome (List α) :=
  (List.range arr.length).foldlM (fun a i => inPlaceFYStep arr.length a i (r i)) arr

/-- Reading slot `j` of a buffer whose slots may be uninitialised (`set_len` on a fresh `Vec`,
src/learning/toolkit/rand_utils.rs lines 60-66): out of range panics, uninitialised is undefined behaviour. -/
def readSlot (buf : List (Option α)) (j : ℕ) : Outcome α :=
  match buf[j]? with
  | none => panic
  | some none => ub
  | some (some x) => ok x

/-- One iteration of the loop in `fisher_yates`, src/learning/toolkit/rand_utils.rs lines 68-81. -/
def fisherYatesStep (arr : List α) (buf : List (Option α)) (i raw : ℕ) : Outcome (List (Option α)) := do
  let j ← genRange raw 0 (i + 1)
  let buf ← if j ≠ i then do
      let x ← readSlot buf j
      setAt buf i (some x)
    else pure buf
  let a ← getAt arr i
  setAt buf j (some a)

/-- Handing the buffer out as a `Vec<T>`: every slot must be initialised by then. -/
def finishBuf : List (Option α) → Outcome (List α)
  | [] => ok []
  | none :: _ => ub
  | some a :: rest => do let l ← finishBuf rest; pure (a :: l)

/-- `fisher_yates` (inside-out), src/learning/toolkit/rand_utils.rs lines 56-84. -/
def fisherYates (r : ℕ → ℕ) (arr : List α) : Outcome (List α) := do
  let buf ← (List.range arr.length).foldlM (fun b i => fisherYatesStep arr b i (r i))
    (List.replicate arr.length none)
  finishBuf buf

/-- The `while !pool_mut.is_empty()` loop of `reservoir_sample`, src/learning/toolkit/rand_utils.rs lines 28-38.
`t` counts iterations (it indexes the random stream). -/
def reservoirLoop (r : ℕ → ℕ) (reservoirSize : ℕ) : (pool : List α) → (eleSeen t : ℕ) → (res : List α) →
    Outcome (List α)
  | [], _, _, res => ok res
  | p0 :: pool, eleSeen, t, res => do
    let eleSeen := eleSeen + 1
    let x ← genRange (r t) 0 eleSeen
    let res ← if x < reservoirSize then setAt res x p0 else pure res
    reservoirLoop r reservoirSize pool eleSeen (t + 1) res

/-- `reservoir_sample`, src/learning/toolkit/rand_utils.rs lines 16-41. -/
def reservoirSample (r : ℕ → ℕ) (pool : List α) (reservoirSize : ℕ) : Outcome (List α) := do
  assert (decide (reservoirSize ≤ pool.length))
  reservoirLoop r reservoirSize (pool.drop reservoirSize) reservoirSize 0 (pool.take reservoirSize)

/-- One iteration of `Shuffler::transform`, src/data/transforms/shuffle.rs lines 82-86
(`swap_rows` of rulinalg exchanges two rows and panics out of range). Rows are a list. -/
def shufflerStep (n : ℕ) (rows : List α) (i raw : ℕ) : Outcome (List α) := do
  let j ← genRange raw 0 (n - i)
  swapAt rows i (i + j)

/-- `Shuffler::transform`, src/data/transforms/shuffle.rs lines 79-88, on the list of rows of a matrix. -/
def shufflerTransform (r : ℕ → ℕ) (rows : List α) : Outcome (List α) :=
  (List.range rows.length).foldlM (fun a i => shufflerStep rows.length a i (r i)) rows

end RM
