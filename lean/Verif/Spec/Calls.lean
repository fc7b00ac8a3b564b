import Verif.Base.Outcome

/-! What a caller may expect of the calls of `train` that a model has seen. -/

namespace RM.Spec
open Outcome

/-- The model after a history of calls, oldest first. -/
def afterCalls {M D : Type} (train : M → D → M × Outcome Unit) : M → List D → M
  | m, [] => m
  | m, d :: ds => afterCalls train (train m d).1 ds

/-- The results of the calls of a history. -/
def callResults {M D : Type} (train : M → D → M × Outcome Unit) : M → List D → List (Outcome Unit)
  | _, [] => []
  | m, d :: ds => (train m d).2 :: callResults train (train m d).1 ds

/-- The last call of a history that succeeded. -/
def lastSuccess {M D : Type} (train : M → D → M × Outcome Unit) : M → List D → Option D
  | _, [] => none
  | m, d :: ds => (lastSuccess train (train m d).1 ds).or (if (train m d).2 = ok () then some d else none)

/-- Whatever calls of `train` a model has seen, as long as none of them panicked: it answers as the model it was at the start after the
last successful call alone, and as at the start when no call succeeded. -/
def OnlyLastSuccess {M D Q A : Type} (train : M → D → M × Outcome Unit) (ask : M → Q → A) (m : M) : Prop :=
  ∀ (ds : List D), (∀ r ∈ callResults train m ds, r ≠ panic ∧ r ≠ ub) → ∀ q,
    match lastSuccess train m ds with
    | none => ask (afterCalls train m ds) q = ask m q
    | some d => d ∈ ds ∧ (train m d).2 = ok () ∧ ask (afterCalls train m ds) q = ask (train m d).1 q

end RM.Spec
