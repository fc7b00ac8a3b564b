import Verif.Model.Cost

/-! Model of src/analysis/score.rs and src/analysis/confusion_matrix.rs. -/

namespace RM
open Outcome Scalar
variable {F : Type} [Scalar F]

/-- `accuracy`, src/analysis/score.rs lines 34-46. `eqb` is the label type's `==`. -/
def accuracy {T : Type} (eqb : T → T → Bool) (outputs targets : List T) : Outcome F := do
  assert (decide (outputs.length = targets.length))
  let len : F := Scalar.ofNat outputs.length
  let correct := ((outputs.zip targets).filter fun p => eqb p.1 p.2).length
  ok (Scalar.ofNat correct /. len)

/-- Slice equality `==` on rows of floats (std, external): same length and elementwise `==`. -/
def rowEq : List F → List F → Bool
  | [], [] => true
  | x :: xs, y :: ys => (x ==. y) && rowEq xs ys
  | _, _ => false

/-- `row_accuracy`, src/analysis/score.rs lines 49-52. -/
def rowAccuracy (outputs targets : Mat F) : Outcome F := accuracy rowEq outputs.rows targets.rows

/-- The two-class guard shared by `precision`, `recall` and `f1`, src/analysis/score.rs lines 94-97, 142-145, 191-194.
`isZero x` is `x == T::zero()`, `isOne x` is `x == T::one()`. -/
def notTwoClass {T : Type} (isZero isOne : T → Bool) (o t : T) : Bool :=
  (!isZero t && !isOne t) || (!isZero o && !isOne o)

/-- Loop of `precision`, src/analysis/score.rs lines 87-98; state `(tpfp, tp)`. -/
def precisionLoop {T : Type} (isZero isOne : T → Bool) : List (T × T) → F → F → Outcome (F × F)
  | [], tpfp, tp => ok (tpfp, tp)
  | (o, t) :: rest, tpfp, tp =>
    let tp' := if isOne o then (if isOne t then tp +. Scalar.one else tp) else tp
    let tpfp' := if isOne o then tpfp +. Scalar.one else tpfp
    if notTwoClass isZero isOne o t then panic else precisionLoop isZero isOne rest tpfp' tp'

/-- `precision`, src/analysis/score.rs lines 78-100. -/
def precision {T : Type} (isZero isOne : T → Bool) (outputs targets : List T) : Outcome F := do
  assert (decide (outputs.length = targets.length))
  let (tpfp, tp) ← precisionLoop isZero isOne (outputs.zip targets) Scalar.zero Scalar.zero
  ok (tp /. tpfp)

/-- Loop of `recall`, src/analysis/score.rs lines 135-146; state `(tpfn, tp)`. -/
def recallLoop {T : Type} (isZero isOne : T → Bool) : List (T × T) → F → F → Outcome (F × F)
  | [], tpfn, tp => ok (tpfn, tp)
  | (o, t) :: rest, tpfn, tp =>
    let tp' := if isOne t then (if isOne o then tp +. Scalar.one else tp) else tp
    let tpfn' := if isOne t then tpfn +. Scalar.one else tpfn
    if notTwoClass isZero isOne o t then panic else recallLoop isZero isOne rest tpfn' tp'

/-- `recall`, src/analysis/score.rs lines 126-148. -/
def recall {T : Type} (isZero isOne : T → Bool) (outputs targets : List T) : Outcome F := do
  assert (decide (outputs.length = targets.length))
  let (tpfn, tp) ← recallLoop isZero isOne (outputs.zip targets) Scalar.zero Scalar.zero
  ok (tp /. tpfn)

/-- Loop of `f1`, src/analysis/score.rs lines 184-195; state `(tpos, fpos, fneg)`. -/
def f1Loop {T : Type} (isZero isOne : T → Bool) : List (T × T) → F → F → F → Outcome (F × F × F)
  | [], tpos, fpos, fneg => ok (tpos, fpos, fneg)
  | (o, t) :: rest, tpos, fpos, fneg =>
    let st : F × F × F :=
      if isOne o && isOne t then (tpos +. Scalar.one, fpos, fneg)
      else if isOne t then (tpos, fpos +. Scalar.one, fneg)
      else if isOne o then (tpos, fpos, fneg +. Scalar.one)
      else (tpos, fpos, fneg)
    if notTwoClass isZero isOne o t then panic else f1Loop isZero isOne rest st.1 st.2.1 st.2.2

/-- `f1`, src/analysis/score.rs lines 174-198. -/
def f1 {T : Type} (isZero isOne : T → Bool) (outputs targets : List T) : Outcome F := do
  assert (decide (outputs.length = targets.length))
  let (tpos, fpos, fneg) ← f1Loop isZero isOne (outputs.zip targets) Scalar.zero Scalar.zero Scalar.zero
  ok ((Scalar.ofNat 2 *. tpos) /. ((Scalar.ofNat 2 *. tpos) +. fneg +. fpos))

/-- `neg_mean_squared_error`, src/analysis/score.rs lines 208-212. -/
def negMeanSquaredError (outputs targets : Mat F) : Outcome F := do
  let c ← mseCost outputs targets
  ok (Scalar.neg (Scalar.ofNat 2) *. c)

/-- Insertion of a label into the `HashMap` from labels to indices, an association list; `HashMap::insert` returns the old
value if the key was present, in which case the code panics (src/analysis/confusion_matrix.rs lines 57-63). -/
def labelIndex {T : Type} [DecidableEq T] : List T → ℕ → List (T × ℕ) → Outcome (List (T × ℕ))
  | [], _, m => ok m
  | l :: ls, i, m => if (m.lookup l).isSome then panic else labelIndex ls (i + 1) ((l, i) :: m)

/-- `Vec::dedup` (std, external): drops consecutive repetitions. -/
def dedupAdj {T : Type} [DecidableEq T] : List T → List T
  | [] => []
  | [x] => [x]
  | x :: y :: rest => if x = y then dedupAdj (y :: rest) else x :: dedupAdj (y :: rest)

/-- `ordered_distinct`, src/analysis/confusion_matrix.rs lines 80-85 (`sort` is any sort: here merge sort). -/
def orderedDistinct {T : Type} [LinearOrder T] (xs ys : List T) : List T :=
  dedupAdj ((xs ++ ys).mergeSort (fun a b => decide (a ≤ b)))

/-- `counts[[row, col]] += 1`: panics out of range. -/
def bump (m : List (List ℕ)) (row col : ℕ) : Outcome (List (List ℕ)) := do
  let r ← getAt m row
  let x ← getAt r col
  let r' ← setAt r col (x + 1)
  setAt m row r'

/-- The counting loop of `confusion_matrix`, src/analysis/confusion_matrix.rs lines 68-75; pairs are (truth, pred). -/
def countLoop {T : Type} [DecidableEq T] (idx : List (T × ℕ)) : List (T × T) → List (List ℕ) → Outcome (List (List ℕ))
  | [], m => ok m
  | (truth, pred) :: rest, m =>
    match idx.lookup truth, idx.lookup pred with
    | some row, some col => do
      let m' ← bump m row col
      countLoop idx rest m'
    | _, _ => countLoop idx rest m

/-- `confusion_matrix`, src/analysis/confusion_matrix.rs lines 44-78. -/
def confusionMatrix {T : Type} [LinearOrder T] (predictions targets : List T) (labels : Option (List T)) :
    Outcome (List (List ℕ)) := do
  assert (decide (predictions.length = targets.length))
  let labels := match labels with
    | some ls => ls
    | none => orderedDistinct predictions targets
  let idx ← labelIndex labels 0 []
  countLoop idx (targets.zip predictions) (List.replicate labels.length (List.replicate labels.length 0))

end RM
