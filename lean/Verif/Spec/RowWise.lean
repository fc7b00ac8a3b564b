import Verif.Base.Linalg

/-! Specification vocabulary: functions of a matrix that treat every row on its own. -/

namespace RM.Spec
open RM Outcome

/-- A function of a matrix that gives one answer per row works row by row: on a matrix with at least one row it succeeds exactly
when it succeeds on each row alone, and the answer for a row is the answer for that row alone. -/
def RowWise {F β : Type} (f : Mat F → Outcome (List β)) : Prop :=
  ∀ (X : Mat F) (r : List β), X.WF → X.rows ≠ [] →
    (f X = ok r ↔ List.Forall₂ (fun row y => f ⟨X.cols, [row]⟩ = ok [y]) X.rows r)

/-- The same for a function that gives a matrix, one row for every row. -/
def RowWiseMat {F : Type} (f : Mat F → Outcome (Mat F)) : Prop :=
  ∀ (X Y : Mat F), X.WF → X.rows ≠ [] →
    (f X = ok Y ↔ List.Forall₂ (fun row y => f ⟨X.cols, [row]⟩ = ok ⟨Y.cols, [y]⟩) X.rows Y.rows)

end RM.Spec
