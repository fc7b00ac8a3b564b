import Verif.Model.KNN

/-! Model of src/learning/knn/binary_tree.rs. -/

namespace RM
open Outcome Scalar
variable {F : Type} [Scalar F]

/-- `Node`, src/learning/knn/binary_tree.rs lines 228-239, with the branch structs of lines 66-100: split dimension and
value, the bounding region (`min`/`max` vectors or centre and radius) and two children. -/
inductive Node (F B : Type)
  | branch (dim : ℕ) (split : F) (bound : B) (left right : Node F B)
  | leaf (children : List ℕ)

/-- The parts of trait `BinarySplit` (src/learning/knn/binary_tree.rs lines 42-62) that differ between the two trees: how
the region is computed in `build` and the distance to it. -/
structure SplitKind (F B : Type) where
  mkBound : Mat F → List ℕ → List F → List F → Outcome B
  dist : B → List F → F

/-- One step of `KDTreeBranch::dist`, src/learning/knn/binary_tree.rs lines 137-146. -/
def boxStep (d p mi ma : F) : F :=
  if p <. mi then d +. (mi -. p) *. (mi -. p)
  else if ma <. p then d +. (ma -. p) *. (ma -. p)
  else d

/-- Loop of `KDTreeBranch::dist`, src/learning/knn/binary_tree.rs lines 136-146. -/
def boxAcc : F → List F → List F → List F → F
  | d, p :: ps, mi :: mis, ma :: mas => boxAcc (boxStep d p mi ma) ps mis mas
  | d, _, _, _ => d

/-- `KDTreeBranch`: `build` lines 110-123, `dist` lines 135-148 of src/learning/knn/binary_tree.rs. -/
def kdKind : SplitKind F (List F × List F) where
  mkBound := fun _ _ mn mx => ok (mn, mx)
  dist := fun b point => Scalar.sqrt (boxAcc Scalar.zero point b.1 b.2)

/-- Sum of the selected rows, src/learning/knn/binary_tree.rs lines 167-173. -/
def sumRowsSel (data : Mat F) : List ℕ → List F → Outcome (List F)
  | [], acc => ok acc
  | i :: is, acc => do
    let row ← getAt data.rows i
    sumRowsSel data is (List.zipWith Scalar.add acc row)

/-- Largest distance of the selected rows from the centre, src/learning/knn/binary_tree.rs lines 178-185. -/
def maxDistSel (data : Mat F) (center : List F) : List ℕ → F → Outcome F
  | [], r => ok r
  | i :: is, r => do
    let row ← getAt data.rows i
    let d := knnDist center row
    maxDistSel data center is (if r <. d then d else r)

/-- `BallTreeBranch`: `build` lines 161-196, `dist` lines 208-215 of src/learning/knn/binary_tree.rs. -/
def ballKind : SplitKind F (List F × F) where
  mkBound := fun data remains _ _ => do
    let s ← sumRowsSel data remains (List.replicate data.cols Scalar.zero)
    let center := s.map fun c => c /. Scalar.ofNat remains.length
    let radius ← maxDistSel data center remains Scalar.zero
    ok (center, radius)
  dist := fun b point =>
    let d := knnDist b.1 point
    if d <. b.2 then Scalar.zero else d -. b.2

/-- The partition loop of `select_split`, src/learning/knn/binary_tree.rs lines 294-304; the unchecked read of
`data[[r, dim]]` is `ub` out of range. -/
def partitionRows (data : Mat F) (dim : ℕ) (split : F) : List ℕ → Outcome (List ℕ × List ℕ)
  | [] => ok ([], [])
  | r :: rs => match data.rows[r]?.bind fun row => row[dim]? with
    | none => ub
    | some v => do
      let (l, g) ← partitionRows data dim split rs
      ok (if v <. split then (r :: l, g) else (l, r :: g))

/-- Result of `select_split`. -/
structure Sel (F : Type) where
  dim : ℕ
  split : F
  left : List ℕ
  right : List ℕ
  lMax : List F
  rMin : List F

/-- `select_split`, src/learning/knn/binary_tree.rs lines 276-329. The `loop` has no bound: `fuel` iterations are run and
`none` means that the loop has not ended by then. -/
def selectSplit (data : Mat F) : ℕ → List ℕ → List F → List F → Option (Outcome (Sel F))
  | 0, _, _, _ => none
  | fuel + 1, remains, dmin, dmax =>
    match argmaxBy Scalar.lt (List.zipWith Scalar.sub dmax dmin) with
    | ok (dim, d) =>
      match dmin[dim]? with
      | none => some ub
      | some lo =>
        let split := lo +. d /. Scalar.ofNat 2
        match partitionRows data dim split remains with
        | ok (l, g) =>
          if l.isEmpty then selectSplit data fuel g (dmin.set dim split) dmax
          else if g.isEmpty then selectSplit data fuel l dmin (dmax.set dim split)
          else some (ok ⟨dim, split, l, g, dmax.set dim split, dmin.set dim split⟩)
        | err e => some (err e)
        | .panic => some panic
        | ub => some ub
    | err e => some (err e)
    | .panic => some panic
    | ub => some ub

/-- `split`, src/learning/knn/binary_tree.rs lines 332-347; `none` means "not finished with this much fuel". The left
child is built before the right one, then the region. -/
def splitNode {B : Type} (K : SplitKind F B) (data : Mat F) (leafsize : ℕ) :
    ℕ → List ℕ → List F → List F → Option (Outcome (Node F B))
  | 0, _, _, _ => none
  | fuel + 1, remains, dmin, dmax =>
    if remains.length < leafsize then some (ok (.leaf remains))
    else match selectSplit data fuel remains dmin dmax with
      | none => none
      | some (ok s) =>
        match splitNode K data leafsize fuel s.left dmin s.lMax with
        | none => none
        | some (ok l) =>
          match splitNode K data leafsize fuel s.right s.rMin dmax with
          | none => none
          | some (ok g) => some (do
              let b ← K.mkBound data remains dmin dmax
              ok (.branch s.dim s.split b l g))
          | some o => some o
        | some o => some o
      | some (err e) => some (err e)
      | some .panic => some panic
      | some ub => some ub

/-- The update loop of `min` (src/learning/knn/binary_tree.rs lines 440-446) and `max` (lines 458-464):
`replace old new` says when an entry is overwritten. -/
def extremeRows (replace : F → F → Bool) (rows : List (List F)) (acc : List F) : List F :=
  rows.foldl (fun acc row => List.zipWith (fun r v => if replace r v then v else r) acc row) acc

/-- `min`, src/learning/knn/binary_tree.rs lines 433-448: `data[[0, i]]` panics on a matrix without rows (and at least one
column). -/
def minRows (data : Mat F) : Outcome (List F) :=
  match data.rows with
  | [] => if data.cols = 0 then ok [] else panic
  | r :: rs => ok (extremeRows (fun r v => v <. r) (r :: rs) r)

/-- `max`, src/learning/knn/binary_tree.rs lines 451-466. -/
def maxRows (data : Mat F) : Outcome (List F) :=
  match data.rows with
  | [] => if data.cols = 0 then ok [] else panic
  | r :: rs => ok (extremeRows (fun r v => r <. v) (r :: rs) r)

/-- `BinaryTree`, src/learning/knn/binary_tree.rs lines 12-19. -/
structure BinaryTree (F B : Type) where
  leafsize : ℕ
  data : Option (Mat F)
  root : Option (Node F B)

/-- `BinaryTree::build`, src/learning/knn/binary_tree.rs lines 389-395, with `fuel` for the unbounded loops. -/
def treeBuild {B : Type} (K : SplitKind F B) (fuel : ℕ) (t : BinaryTree F B) (data : Mat F) :
    Option (Outcome (BinaryTree F B)) :=
  match minRows data, maxRows data with
  | ok dmin, ok dmax =>
    match splitNode K data t.leafsize fuel (List.range data.rows.length) dmin dmax with
    | none => none
    | some (ok n) => some (ok { t with data := some data, root := some n })
    | some (err e) => some (err e)
    | some .panic => some panic
    | some ub => some ub
  | _, _ => some panic

/-- `search_leaf`, src/learning/knn/binary_tree.rs lines 350-382: descends to the leaf on the query's side, appending the
other children to the queue. `maybe_close` (lines 125-133, 198-206) reads `point[dim]` unchecked: `ub` when the point is
too short. -/
def searchLeaf {B : Type} (data : Mat F) (point : List F) (k : ℕ) :
    Node F B → List (Node F B) → Outcome (List (ℕ × F) × List (Node F B))
  | .leaf children, queue => do
    let distances ← getDistances data point children
    let kn ← knearestNew k children distances
    ok (kn, queue)
  | .branch dim split _ left right, queue =>
    match point[dim]? with
    | none => ub
    | some p =>
      if p <. split then searchLeaf data point k left (queue ++ [right])
      else searchLeaf data point k right (queue ++ [left])

/-- Number of nodes. -/
def Node.size {B : Type} : Node F B → ℕ
  | .leaf _ => 1
  | .branch _ _ _ l r => l.size + r.size + 1

/-- The main loop of `BinaryTree::search`, src/learning/knn/binary_tree.rs lines 401-423. -/
def searchQueue {B : Type} (K : SplitKind F B) (data : Mat F) (point : List F) (k : ℕ) :
    List (Node F B) → List (ℕ × F) → Outcome (List (ℕ × F))
  | [], pairs => ok pairs
  | .leaf children :: queue, pairs => do
    let distances ← getDistances data point children
    let cur ← knearestDist k pairs
    let pairs' ← offerAll k (children.zip distances) pairs cur
    searchQueue K data point k queue pairs'
  | .branch _ _ b l r :: queue, pairs => do
    let cur ← knearestDist k pairs
    if K.dist b point <. cur then searchQueue K data point k (queue ++ [l, r]) pairs
    else searchQueue K data point k queue pairs
termination_by q _ => (q.map Node.size).sum
decreasing_by
  · simp [Node.size]
  · simp [Node.size]; omega
  · simp [Node.size]

/-- `BinaryTree::search`, src/learning/knn/binary_tree.rs lines 398-428. -/
def treeSearch {B : Type} (K : SplitKind F B) (t : BinaryTree F B) (point : List F) (k : ℕ) :
    Outcome (List ℕ × List F) :=
  match t.data, t.root with
  | some data, some root => do
    let (query, queue) ← searchLeaf data point k root []
    let pairs ← searchQueue K data point k queue query
    ok (knearestResults pairs)
  | _, _ => err .UntrainedModel

end RM
