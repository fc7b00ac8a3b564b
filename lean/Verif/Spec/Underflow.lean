import Verif.Base.Underflow
import Verif.Base.Linalg
import Mathlib.Algebra.BigOperators.Group.Finset.Basic

/-! Specification vocabulary: data of finite floats, in the arithmetic whose exponential has a bounded range. -/

namespace RM.Spec
open RM

/-- A vector of finite floats. -/
def ufins (v : List ℝ) : List UR := v.map UR.fin

/-- A matrix of finite floats. -/
def ufinMat (m : Mat ℝ) : Mat UR := ⟨m.cols, m.rows.map ufins⟩

/-- `(x - μ)ᵀ S (x - μ)` in dimension `d`. -/
def sqMahalanobis (d : ℕ) (S : Mat ℝ) (x mu : List ℝ) : ℝ :=
  ∑ j ∈ Finset.range d, (∑ i ∈ Finset.range d, (x.getD i 0 - mu.getD i 0) * (S.rows.getD i []).getD j 0) * (x.getD j 0 - mu.getD j 0)

end RM.Spec
