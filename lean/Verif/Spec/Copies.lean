import Verif.Base.Linalg

/-! Specification of a training set in which every sample occurs the same number of times. -/

namespace RM.Spec

/-- The samples `S`, `k` times over. -/
def copies {α : Type} (k : ℕ) (S : List α) : List α := (List.replicate k S).flatten

/-- A matrix with its rows `k` times over. -/
def copiesMat {F : Type} (k : ℕ) (X : Mat F) : Mat F := ⟨X.cols, copies k X.rows⟩

end RM.Spec
