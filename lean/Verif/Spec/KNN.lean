import Verif.Base.Linalg

/-! Specification of k-nearest-neighbour search results. -/

namespace RM.Spec

/-- Among the rows `0..n-1`, of which row `i` is at distance `dst i`, the result `(indices, distances)` lists `k` different
rows with their distances in non-decreasing order, and no row that is left out is closer than one that is listed. -/
structure KNearestOf {F : Type} [LinearOrder F] (n : ℕ) (dst : ℕ → F) (k : ℕ) (r : List ℕ × List F) : Prop where
  count : r.1.length = k
  rows : ∀ i ∈ r.1, i < n
  distinct : r.1.Nodup
  distances : r.2 = r.1.map dst
  sorted : r.2.Pairwise (· ≤ ·)
  nearest : ∀ i, i < n → i ∉ r.1 → ∀ d ∈ r.2, d ≤ dst i

/-- Weaker: between `j` and `k` rows are listed, with their distances in non-decreasing order, and no row that is left out is
closer than one of the first `j` that are listed. -/
structure PrefixNearestOf {F : Type} [LinearOrder F] (n : ℕ) (dst : ℕ → F) (j k : ℕ) (r : List ℕ × List F) : Prop where
  atLeast : j ≤ r.1.length
  atMost : r.1.length ≤ k
  rows : ∀ i ∈ r.1, i < n
  distinct : r.1.Nodup
  distances : r.2 = r.1.map dst
  sorted : r.2.Pairwise (· ≤ ·)
  nearest : ∀ i, i < n → i ∉ r.1 → ∀ d ∈ r.2.take j, d ≤ dst i

/-- Euclidean distance of two points given by their coordinates. -/
noncomputable def eucl (u v : List ℝ) : ℝ := Real.sqrt ((List.zipWith (fun x y => (x - y) ^ 2) u v).sum)

/-- `l` occurs among the labels, no label occurs more often, and `l` is the smallest such label. -/
structure MajorityLabel (labels : List ℕ) (l : ℕ) : Prop where
  occurs : l ∈ labels
  most : ∀ l', labels.count l' ≤ labels.count l
  smallest : ∀ l', labels.count l' = labels.count l → l ≤ l'

/-- A call made on a classifier. -/
inductive KnnCall (F : Type)
  | train (inputs : Mat F) (targets : List ℕ)
  | predict (inputs : Mat F)

/-- The training set in force after a sequence of calls: the last one with as many labels as rows and at least `k` rows. -/
def lastAccepted {F : Type} (k : ℕ) : List (KnnCall F) → Option (Mat F × List ℕ)
  | [] => none
  | .predict _ :: h => lastAccepted k h
  | .train x y :: h => match lastAccepted k h with
    | some r => some r
    | none => if x.rows.length = y.length ∧ k ≤ x.rows.length then some (x, y) else none

end RM.Spec
