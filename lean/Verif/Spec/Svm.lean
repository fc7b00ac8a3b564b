import Verif.Model.Svm
import Verif.Spec.Optim
import Verif.Spec.Matrix
import Mathlib.Algebra.BigOperators.Group.Finset.Basic

/-! Specification vocabulary: support vector machines. Floats are `XR`: exact, with infinities and NaN, because the training
divides by zero in its first iteration. -/

namespace RM.Spec
open RM Outcome

/-- On finite points of the same dimension the kernel is the finite function `k`. -/
def FiniteKernel (K : Kernel XR) (k : List ℝ → List ℝ → ℝ) : Prop :=
  ∀ u v : List ℝ, u.length = v.length → K (fins u) (fins v) = ok (XR.fin (k u v))

/-- The point as the machine sees it, with a first coordinate 1. -/
def lifted (X : Mat ℝ) (j : ℕ) : List ℝ := 1 :: X.rows.getD j []

/-- The decision value of weights `a` at the point `z`: the weighted sum of kernels over the training points. -/
noncomputable def decision (k : List ℝ → List ℝ → ℝ) (lambda : ℝ) (X : Mat ℝ) (y : List ℝ) (a : ℕ → ℝ) (z : List ℝ) : ℝ :=
  (∑ j ∈ Finset.range X.rows.length, a j * y.getD j 0 * k (1 :: z) (lifted X j)) / lambda

/-- The multipliers of the kernelised Pegasos algorithm (Shalev-Shwartz et al., figure 3) after `T` iterations, when
iteration `t = 1, 2, ...` draws the sample `draw (t - 1)`: the drawn sample's multiplier grows by one when its margin under the
current multipliers is below 1. -/
noncomputable def pegasos (k : List ℝ → List ℝ → ℝ) (lambda : ℝ) (X : Mat ℝ) (y : List ℝ) (draw : ℕ → ℕ) : ℕ → ℕ → ℝ
  | 0, _ => 0
  | T + 1, i => pegasos k lambda X y draw T i +
      open Classical in if draw T = i ∧ y.getD i 0 * (decision k (lambda * (T + 1)) X y (pegasos k lambda X y draw T) (X.rows.getD i [])) < 1 then 1 else 0

/-- The sum of the kernels of sample `i` with all samples. -/
noncomputable def kernelMass (k : List ℝ → List ℝ → ℝ) (X : Mat ℝ) (i : ℕ) : ℝ := ∑ j ∈ Finset.range X.rows.length, k (lifted X i) (lifted X j)

/-- The number of the first `T` draws that draw sample `i`. -/
def timesDrawn (draw : ℕ → ℕ) (T i : ℕ) : ℕ := ((Finset.range T).filter fun t => draw t = i).card

end RM.Spec
