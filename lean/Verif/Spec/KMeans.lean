import Verif.Spec.Matrix
import Verif.Spec.Score

/-! Specification vocabulary for k-means. `Spec.sqDist` is the sum of squared coordinate differences (Spec/Score). -/

namespace RM.Spec

/-- `i` is the smallest index of a centroid nearest to `x`. -/
def IsNearestIndex (cs : List (List ℝ)) (x : List ℝ) (i : ℕ) : Prop :=
  ∃ c, cs[i]? = some c ∧ (∀ c' ∈ cs, sqDist x c ≤ sqDist x c') ∧
    ∀ (t : ℕ) c', t < i → cs[t]? = some c' → sqDist x c < sqDist x c'

/-- Squared distance of `x` to the nearest of `cs` (0 if there is none). -/
noncomputable def nearestSq (x : List ℝ) : List (List ℝ) → ℝ
  | [] => 0
  | c :: cs => (cs.map (sqDist x)).foldl min (sqDist x c)

/-- The k-means objective: the sum over the points of the squared distance to the nearest centroid. -/
noncomputable def inertia (pts cs : List (List ℝ)) : ℝ := (pts.map fun x => nearestSq x cs).sum

/-- Coordinatewise mean of points of dimension `d`. -/
noncomputable def centroidOf (d : ℕ) (pts : List (List ℝ)) : List ℝ :=
  (List.range d).map fun j => mean (pts.map fun r => r.getD j 0)

/-- A centroid as the program stores it: `none` stands for a row of NaNs (the "mean" of no points at all). -/
def storedRow (d : ℕ) : Option (List ℝ) → List XR
  | some c => c.map XR.fin
  | none => List.replicate d XR.nan

/-- The centroids as the program stores them. -/
def stored (d : ℕ) (C : List (Option (List ℝ))) : Mat XR := ⟨d, C.map (storedRow d)⟩

/-- The proper (not NaN) centroids. -/
def proper (C : List (Option (List ℝ))) : List (List ℝ) := C.filterMap id

end RM.Spec
