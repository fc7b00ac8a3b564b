import Verif.Spec.CrossValidation

/-! What the scores of a cross validation should be: each from a model that has only seen the rows outside the fold. -/

namespace RM.Spec
open Outcome

/-- The rows with the given indices. -/
def rowsAt {X : Type} (data : List X) (idx : List ℕ) : List X := idx.filterMap fun i => data[i]?

/-- The score of one fold: a model in state `s` is trained on the rows outside the fold, and its predictions for the rows of the fold are
scored. -/
def foldScore {σ X Y S : Type} (M : SupModel σ X Y) (inputs : List X) (targets : List Y) (score : List Y → List Y → Outcome S) (s : σ)
    (p : Partition) : Outcome S :=
  match M.train s (rowsAt inputs p.train) (rowsAt targets p.train) with
  | (s', ok ()) => do
    let out ← M.predict s' (rowsAt inputs p.test)
    score out (rowsAt targets p.test)
  | (_, err e) => err e
  | (_, .panic) => panic
  | (_, .ub) => ub

/-- Every score is that of a model which starts in the state `s` and has only seen the rows outside the fold. -/
def FreshScores {σ X Y S : Type} (M : SupModel σ X Y) (inputs : List X) (targets : List Y) (score : List Y → List Y → Outcome S) (s : σ)
    (folds : List Partition) (res : Outcome (List S)) : Prop :=
  res = folds.mapM (foldScore M inputs targets score s)

end RM.Spec
