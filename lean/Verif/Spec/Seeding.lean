import Mathlib.MeasureTheory.Constructions.Pi
import Mathlib.MeasureTheory.Measure.Lebesgue.Basic
import Verif.Spec.KMeans

/-! Specification vocabulary for random starting centroids. -/

namespace RM.Spec
open MeasureTheory

/-- The number behind a finite value. -/
def finVal : XR → ℝ
  | .fin x => x
  | _ => 0

/-- The law of one draw in `[0,1)`. -/
noncomputable def unitLaw : Measure ℝ := volume.restrict (Set.Ico 0 1)

/-- The law of `m` independent draws in `[0,1)`. -/
noncomputable def drawsLaw (m : ℕ) : Measure (Fin m → ℝ) := Measure.pi fun _ => unitLaw

/-- The k-means objective for the centroids in the result of an initialiser (0 for a failure). -/
noncomputable def startCost (X : Mat ℝ) : Outcome (Mat XR) → ℝ
  | .ok c => inertia X.rows (c.rows.map (List.map finVal))
  | _ => 0

end RM.Spec
