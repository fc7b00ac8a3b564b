import Verif.Spec.Pca
import Verif.Spec.GmmMoves
import Verif.Spec.Copies

/-! Specification vocabulary: principal components of moved, reordered and repeated data. -/

namespace RM.Spec
open RM Outcome Matrix

/-- The samples `z` minus the column means of the samples `x` (`z` itself when `center` is off). -/
noncomputable def minusMeans {n p d : ℕ} (center : Bool) (x : Matrix (Fin n) (Fin d) ℝ) (z : Matrix (Fin p) (Fin d) ℝ) :
    Matrix (Fin p) (Fin d) ℝ :=
  Matrix.of fun i j => z i j - if center then (∑ l, x l j) / n else 0

/-- `σ` are the singular values of `A`, in decreasing order. -/
def HasSingularValues {n d : ℕ} (A : Matrix (Fin n) (Fin d) ℝ) (σ : Fin d → ℝ) : Prop :=
  ∃ U V, IsSvd A (Matrix.diagonal σ) U V

/-- The first `k` values are different from the remaining ones. -/
def Separated {d : ℕ} (σ : Fin d → ℝ) (k : ℕ) : Prop := ∀ i j : Fin d, (i : ℕ) < k → k ≤ (j : ℕ) → σ i ≠ σ j

/-- The number of components of a model that was asked for `n` of them, on data with `d` columns and at least as many samples. -/
def asked (n : Option ℕ) (d : ℕ) : ℕ := n.getD d

/-- What `m'` predicts for `T z` is what `m` predicts for `z`, multiplied by `c` and turned by an orthogonal matrix that mixes only
components with equal singular values. -/
def SameComponents {d k : ℕ} (σ : Fin d → ℝ) (hk : k ≤ d) (c : ℝ) (T : ∀ p, Matrix (Fin p) (Fin d) ℝ → Matrix (Fin p) (Fin d) ℝ)
    (m m' : Pca ℝ) : Prop :=
  ∃ R : Matrix (Fin k) (Fin k) ℝ, R * Rᵀ = 1 ∧ (∀ i j, σ (Fin.castLE hk i) ≠ σ (Fin.castLE hk j) → R i j = 0) ∧
    ∀ (p : ℕ) (z : Matrix (Fin p) (Fin d) ℝ), ∃ P : Matrix (Fin p) (Fin k) ℝ,
      m.predict (matOf p d fun x => z x.1 x.2) = ok (matOf p k fun x => P x.1 x.2) ∧
      m'.predict (matOf p d fun x => T p z x.1 x.2) = ok (matOf p k fun x => (c • (P * R)) x.1 x.2)

end RM.Spec
