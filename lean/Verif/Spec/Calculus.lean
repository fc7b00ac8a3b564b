import Mathlib.Analysis.Calculus.FDeriv.Pi
import Mathlib.Analysis.Calculus.Deriv.Basic
import Verif.Base.Linalg

/-! Specification vocabulary: gradients. -/

namespace RM.Spec
open RM

/-- `g` is the gradient of `f` at `x`: `f` is (Fréchet) differentiable at `x` and its partial derivatives are the `g k`. -/
def IsGradientAt {ι : Type} [Fintype ι] (f : (ι → ℝ) → ℝ) (g x : ι → ℝ) : Prop :=
  HasFDerivAt f (∑ k, g k • (ContinuousLinearMap.proj k : (ι → ℝ) →L[ℝ] ℝ)) x

/-- `g` is the gradient at `w` of a function `f` of lists of the length of `w` that may also panic or fail: `f` succeeds at
every list of that length and its value has the gradient `g`. -/
def ListGradientAt (f : List ℝ → Outcome ℝ) (g w : List ℝ) : Prop :=
  g.length = w.length ∧ ∃ c : (Fin w.length → ℝ) → ℝ, (∀ v, f (List.ofFn v) = Outcome.ok (c v)) ∧
    IsGradientAt c (fun k => g.getD k 0) (fun k => w.getD k 0)

/-- The `r` by `c` matrix with the entries `v`. -/
def matOf (r c : ℕ) (v : Fin r × Fin c → ℝ) : Mat ℝ := ⟨c, List.ofFn fun i => List.ofFn fun j => v (i, j)⟩

/-- The entry at `i`, `j` (0 when there is none). -/
def ent (M : Mat ℝ) (i j : ℕ) : ℝ := (M.rows.getD i []).getD j 0

/-- An `r` by `c` matrix. -/
def HasShape {F : Type} (M : Mat F) (r c : ℕ) : Prop := M.rows.length = r ∧ M.cols = c ∧ ∀ row ∈ M.rows, row.length = c

/-- `G` is the gradient at `X`, an `r` by `c` matrix, of a function `f` of `r` by `c` matrices that may panic or fail, on the
open set of matrices with entries in `D`. -/
def MatGradientAt (f : Mat ℝ → Outcome ℝ) (D : Set ℝ) (r c : ℕ) (G X : Mat ℝ) : Prop :=
  HasShape G r c ∧ ∃ φ : (Fin r × Fin c → ℝ) → ℝ, (∀ v, (∀ k, v k ∈ D) → f (matOf r c v) = Outcome.ok (φ v)) ∧
    IsGradientAt φ (fun k => ent G k.1 k.2) (fun k => ent X k.1 k.2)

end RM.Spec
