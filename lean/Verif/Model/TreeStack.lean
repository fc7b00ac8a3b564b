import Verif.Model.BinaryTree

/-! Model of the call stack of src/learning/knn/binary_tree.rs: the same recursion as in `Model/BinaryTree`, with the number of nested
calls of `split` counted instead of the steps. -/

namespace RM
open Outcome Scalar
variable {F : Type} [Scalar F]

/-- What happens to a computation with a stack of limited size: it ends, it needs more stack than there is, or a loop in it goes on
for longer than is looked at. -/
inductive StackRun (α : Type)
  | done (o : Outcome α)
  | overflow
  | loops

/-- `split`, src/learning/knn/binary_tree.rs lines 332-347, when the stack has room for `frames` nested calls of `split` (each loop of
`select_split` is followed for `fuel` rounds). -/
def splitFrames {B : Type} (K : SplitKind F B) (data : Mat F) (leafsize fuel : ℕ) :
    ℕ → List ℕ → List F → List F → StackRun (Node F B)
  | 0, _, _, _ => .overflow
  | frames + 1, remains, dmin, dmax =>
    if remains.length < leafsize then .done (ok (.leaf remains))
    else match selectSplit data fuel remains dmin dmax with
      | none => .loops
      | some (ok s) =>
        match splitFrames K data leafsize fuel frames s.left dmin s.lMax with
        | .done (ok l) =>
          match splitFrames K data leafsize fuel frames s.right s.rMin dmax with
          | .done (ok g) => .done (do
              let b ← K.mkBound data remains dmin dmax
              ok (.branch s.dim s.split b l g))
          | r => r
        | r => r
      | some (err e) => .done (err e)
      | some .panic => .done panic
      | some ub => .done ub

/-- `BinaryTree::build`, src/learning/knn/binary_tree.rs lines 389-395, when the stack has room for `frames` nested calls of
`split`. -/
def treeBuildFrames {B : Type} (K : SplitKind F B) (fuel frames : ℕ) (t : BinaryTree F B) (data : Mat F) :
    StackRun (BinaryTree F B) :=
  match minRows data, maxRows data with
  | ok dmin, ok dmax =>
    match splitFrames K data t.leafsize fuel frames (List.range data.rows.length) dmin dmax with
    | .overflow => .overflow
    | .loops => .loops
    | .done (ok n) => .done (ok { t with data := some data, root := some n })
    | .done (err e) => .done (err e)
    | .done .panic => .done panic
    | .done ub => .done ub
  | _, _ => .done panic

end RM
