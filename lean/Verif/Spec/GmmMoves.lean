import Verif.Spec.Gmm

/-! Specification vocabulary: affine changes of the features of mixture models. -/

namespace RM.Spec
open RM Matrix

/-- The samples after the change `v ↦ M v + c` of the features. -/
def movedRows {n d : ℕ} (M : Matrix (Fin d) (Fin d) ℝ) (c : Fin d → ℝ) (x : Fin n → Fin d → ℝ) : Matrix (Fin n) (Fin d) ℝ :=
  Matrix.of fun i => M *ᵥ x i + c

/-- The changes of the features a covariance option takes part in: with full covariances all of them, with diagonal covariances the
ones that rescale and reorder the features, and with regularised covariances the ones that keep distances. -/
def Suits {d : ℕ} (opt : CovOption ℝ) (M : Matrix (Fin d) (Fin d) ℝ) : Prop :=
  match opt with
  | .full => True
  | .diagonal => (∀ a b b', b ≠ b' → M a b = 0 ∨ M a b' = 0) ∧ ∀ a a' b, a ≠ a' → M a b = 0 ∨ M a' b = 0
  | .regularized _ => M * Mᵀ = 1

/-- The second model is the first one after the change of the features: the same weights, the changed means and the changed
covariances, and the same settings. -/
def IsMoved {d : ℕ} (M : Matrix (Fin d) (Fin d) ℝ) (c : Fin d → ℝ) (m m' : Gmm ℝ) : Prop :=
  ∃ (k : ℕ) (w : Fin k → ℝ) (μ : Fin k → Fin d → ℝ) (S : Fin k → Matrix (Fin d) (Fin d) ℝ),
    HasParams m w μ S ∧ HasParams m' w (fun j => M *ᵥ μ j + c) (fun j => M * S j * Mᵀ) ∧
      m'.covOption = m.covOption ∧ m'.maxIters = m.maxIters

end RM.Spec
