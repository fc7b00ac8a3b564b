import Verif.Model.UserDistr
import Verif.Spec.NaiveBayes

/-! Specification vocabulary: the calls a naive Bayes model makes on its distribution. -/

namespace RM.Spec
open RM Outcome

/-- The calls of `update_params` a training owes: for every class that occurs, in ascending order, the samples of the class in
their original order. -/
noncomputable def updateCalls (X T : Mat ℝ) : List (Mat ℝ × ℕ) :=
  ((List.range T.cols).filter fun c => decide (0 < classSize T.rows c)).map fun c => (⟨X.cols, classSamples X.rows T.rows c⟩, c)

/-- Making the calls one after the other on one distribution, until one of them does not return: the distribution afterwards
and the result. -/
def makeCalls {D : Type} (update : D → Mat ℝ → ℕ → D × Outcome Unit) : D → List (Mat ℝ × ℕ) → D × Outcome Unit
  | d, [] => (d, ok ())
  | d, call :: calls =>
    match update d call.1 call.2 with
    | (d', ok _) => makeCalls update d' calls
    | (d', r) => (d', r)

/-- The share of the samples in each class. -/
noncomputable def shares (X T : Mat ℝ) : List ℝ := (List.range T.cols).map fun c => (classSize T.rows c : ℝ) / X.rows.length

/-- The number of samples in each class. -/
noncomputable def sizes (T : Mat ℝ) : List ℕ := (List.range T.cols).map fun c => classSize T.rows c

end RM.Spec
