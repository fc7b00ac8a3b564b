import Mathlib.Data.List.Perm.Basic
import Mathlib.Data.Nat.Factorial.Basic
import Mathlib.Data.Finset.Card

/-! Specification vocabulary for random procedures. -/

namespace RM.Spec

/-- All sequences of draws a procedure can see when its `t`-th draw ranges over `[0, bound t)`:
the sequences of length `m`, enumerated. A procedure that makes independent uniform draws sees each of
them with the same probability. -/
def allDraws (bound : ℕ → ℕ) : ℕ → List (List ℕ)
  | 0 => [[]]
  | m + 1 => (allDraws bound m).flatMap fun ds => (List.range (bound m)).map fun d => ds ++ [d]

/-- A draw sequence used as the random stream of a procedure. -/
def streamOf (ds : List ℕ) : ℕ → ℕ := fun t => ds.getD t 0

end RM.Spec
