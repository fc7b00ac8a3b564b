import Verif.Spec.KNN
import Mathlib.Logic.Relation
import Mathlib.Data.Finset.Card

/-! What a density clustering is, independently of how it is computed. -/

namespace RM.Spec

/-- `i` has at least `minPoints` samples (itself included) in its neighbourhood. -/
def IsCore (n minPoints : ℕ) (near : ℕ → ℕ → Prop) (i : ℕ) : Prop := ∃ s : Finset ℕ, minPoints ≤ s.card ∧ ∀ j ∈ s, j < n ∧ near i j

/-- `i` and `j` are linked by a chain of core samples, consecutive ones being near each other. -/
def Linked (n minPoints : ℕ) (near : ℕ → ℕ → Prop) : ℕ → ℕ → Prop :=
  Relation.ReflTransGen fun a b => a < n ∧ b < n ∧ IsCore n minPoints near a ∧ IsCore n minPoints near b ∧ near a b

/-- The clustering of `n` samples by density: exactly the core samples are labelled, two labelled samples share a label
exactly when they are linked, and labels are numbered 0, 1, 2, ... in the order of their first sample. -/
structure IsDensityClustering (n minPoints : ℕ) (near : ℕ → ℕ → Prop) (labels : List (Option ℕ)) : Prop where
  length : labels.length = n
  labelled : ∀ i : ℕ, i < n → ((∃ l, labels[i]? = some (some l)) ↔ IsCore n minPoints near i)
  same : ∀ (i j : ℕ) (l l' : ℕ), labels[i]? = some (some l) → labels[j]? = some (some l') → (l = l' ↔ Linked n minPoints near i j)
  order : ∀ (i : ℕ) (l l' : ℕ), labels[i]? = some (some l) → l' < l → ∃ j : ℕ, j < i ∧ labels[j]? = some (some l')

end RM.Spec
