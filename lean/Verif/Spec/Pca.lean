import Mathlib.LinearAlgebra.Matrix.Trace
import Mathlib.Order.Monotone.Defs
import Verif.Model.Pca
import Verif.Spec.AsMatrix
import Verif.Spec.Matrix

/-! Specification vocabulary: principal component analysis. -/

namespace RM.Spec
open RM Outcome Matrix

/-- `B`, `U`, `V` are a singular value decomposition of `A` (thin: as many columns as the smaller dimension): `A = U B Vᵀ`, the
columns of `U` and of `V` are orthonormal, and `B` is diagonal with the singular values, not negative and in decreasing order. -/
structure IsSvd {r c q : ℕ} (A : Matrix (Fin r) (Fin c) ℝ) (B : Matrix (Fin q) (Fin q) ℝ) (U : Matrix (Fin r) (Fin q) ℝ)
    (V : Matrix (Fin c) (Fin q) ℝ) : Prop where
  product : A = U * B * Vᵀ
  left : Uᵀ * U = 1
  right : Vᵀ * V = 1
  values : ∃ σ : Fin q → ℝ, B = Matrix.diagonal σ ∧ Antitone σ ∧ ∀ i, 0 ≤ σ i

/-- When the decomposition succeeds it returns a singular value decomposition. -/
def SvdExact (svd : Mat ℝ → Outcome (Mat ℝ × Mat ℝ × Mat ℝ)) : Prop :=
  ∀ (A B U V : Mat ℝ) (r c : ℕ), HasShape A r c → svd A = ok (B, U, V) →
    HasShape B (min r c) (min r c) ∧ HasShape U r (min r c) ∧ HasShape V c (min r c) ∧
      IsSvd (toM r c A) (toM _ _ B) (toM r (min r c) U) (toM c (min r c) V)

/-- The decomposition succeeds on every matrix. -/
def SvdTotal (svd : Mat ℝ → Outcome (Mat ℝ × Mat ℝ × Mat ℝ)) : Prop :=
  ∀ (A : Mat ℝ) (r c : ℕ), HasShape A r c → ∃ B U V, svd A = ok (B, U, V)

/-- The data minus the column means of `X` (`Z` itself when `center` is off). -/
noncomputable def centred (center : Bool) (X Z : Mat ℝ) : Matrix (Fin Z.rows.length) (Fin X.cols) ℝ :=
  Matrix.of fun i j => (Z.rows.getD i []).getD j 0 - if center then mean (col X j) else 0

/-- The number of components of a model asked for `n` of them: all of them, as many as the smaller dimension of the data, if `n`
is `none` or larger. -/
def keptComponents (n : Option ℕ) (X : Mat ℝ) : ℕ := min (n.getD (min X.rows.length X.cols)) (min X.rows.length X.cols)

/-- At least as many samples as columns, or no restriction of the number of components. -/
def Projectable (n : Option ℕ) (X : Mat ℝ) : Prop := X.cols ≤ X.rows.length ∨ n = none ∨ n = some X.cols

/-- Squared Euclidean norm. -/
def normSq {n : ℕ} (v : Fin n → ℝ) : ℝ := v ⬝ᵥ v

/-- Sum of the squares of all entries. -/
def frobSq {n m : ℕ} (M : Matrix (Fin n) (Fin m) ℝ) : ℝ := ∑ i, ∑ j, M i j ^ 2

end RM.Spec
