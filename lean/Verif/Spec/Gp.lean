import Mathlib.LinearAlgebra.Matrix.NonsingularInverse
import Verif.Model.Gp
import Verif.Spec.Cholesky
import Verif.Spec.Kernel

/-! Specification vocabulary: Gaussian processes. -/

namespace RM.Spec
open RM Outcome

/-- The kernel is the function `k` on points of the same dimension, and `k` is symmetric. (Theorem `C59_kernels`: so is every
kernel that can be built with the library.) -/
structure IsKernel (K : Kernel ℝ) (k : List ℝ → List ℝ → ℝ) : Prop where
  value : ∀ u v, u.length = v.length → K u v = ok (k u v)
  symm : ∀ u v, u.length = v.length → k u v = k v u

/-- The values of `k` on the rows of two data sets. -/
def gram (k : List ℝ → List ℝ → ℝ) (Z X : Mat ℝ) : Matrix (Fin Z.rows.length) (Fin X.rows.length) ℝ :=
  Matrix.of fun i j => k (Z.rows.getD i []) (X.rows.getD j [])

/-- The covariance of the noisy observations at `X`: the kernel values plus the noise on the diagonal. -/
def noisyGram (k : List ℝ → List ℝ → ℝ) (noise : ℝ) (X : Mat ℝ) : Matrix (Fin X.rows.length) (Fin X.rows.length) ℝ :=
  gram k X X + noise • 1

/-- The mean function gives one value for each row. -/
def MeanSized (mean : Mat ℝ → List ℝ) : Prop := ∀ X : Mat ℝ, (mean X).length = X.rows.length

/-- The contracts of the linear algebra library. -/
structure TriLibOk (lib : TriLib ℝ) : Prop where
  exact : CholeskyExact lib.cholesky
  total : CholeskyPosDef lib.cholesky
  lower : SolvesLower lib.solveL
  upper : SolvesUpper lib.solveU

end RM.Spec
