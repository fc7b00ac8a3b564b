import Mathlib.Logic.Equiv.Defs
import Verif.Spec.NaiveBayes
import Verif.Spec.KNN

/-! Specification of a change of the encoding of classes. -/

namespace RM.Spec

/-- A row with one entry per class after the classes have been renamed: class `c` of the new numbering is class `ρ c` of the old. -/
def recode {k : ℕ} (ρ : Equiv.Perm (Fin k)) (row : List ℝ) : List ℝ := List.ofFn fun c : Fin k => coord row (ρ c)

/-- One entry of `l` is greater than all others. -/
def UniqueMax (l : List ℝ) : Prop := ∃ (i : ℕ) (v : ℝ), l[i]? = some v ∧ ∀ (j : ℕ) (x : ℝ), j ≠ i → l[j]? = some x → x < v

/-- One label occurs more often than any other. -/
def ClearMajority (labels : List ℕ) : Prop := ∃ l ∈ labels, ∀ l', l' ≠ l → labels.count l' < labels.count l

end RM.Spec
