import Mathlib.Analysis.SpecialFunctions.Log.Basic
import Verif.Spec.Solve

/-! Specification vocabulary: regression. -/

namespace RM.Spec
open RM Outcome

/-- `Σ x_j w_j`. -/
def inner (x w : List ℝ) : ℝ := (List.zipWith (· * ·) x w).sum

/-- The value at `x` of the affine function with intercept `b` and slopes `w`, when `β = b :: w`. -/
def affine (β x : List ℝ) : ℝ := β.headD 0 + inner x β.tail

/-- The residual sum of squares of the data under the affine function `β`. -/
def rss (X : Mat ℝ) (y β : List ℝ) : ℝ := (List.zipWith (fun x t => (t - affine β x) ^ 2) X.rows y).sum

/-- The constant function and the features are linearly independent on the data. -/
def AffinelyIndependent (X : Mat ℝ) : Prop :=
  ∀ β : List ℝ, β.length = X.cols + 1 → (∀ x ∈ X.rows, affine β x = 0) → β = zeroVec (X.cols + 1)

/-- Half the mean squared error of the linear function `w`. -/
noncomputable def halfMeanSquares (X : Mat ℝ) (y w : List ℝ) : ℝ :=
  (List.zipWith (fun x t => (inner x w - t) ^ 2) X.rows y).sum / (2 * X.rows.length)

/-- The logistic function. -/
noncomputable def logistic (s : ℝ) : ℝ := 1 / (1 + Real.exp (-s))

/-- The mean cross entropy of the logistic model `w`. -/
noncomputable def meanCrossEntropy (X : Mat ℝ) (y w : List ℝ) : ℝ :=
  (List.zipWith (fun x t => -(t * Real.log (logistic (inner x w)) + (1 - t) * Real.log (1 - logistic (inner x w)))) X.rows y).sum /
    X.rows.length

end RM.Spec
