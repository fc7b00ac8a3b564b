import Mathlib.LinearAlgebra.Matrix.NonsingularInverse
import Mathlib.Analysis.SpecialFunctions.Sqrt
import Mathlib.Analysis.SpecialFunctions.Log.Basic
import Mathlib.Analysis.Real.Pi.Bounds
import Verif.Model.Gmm
import Verif.Spec.AsMatrix
import Verif.Spec.Matrix

/-! Specification vocabulary: Gaussian mixtures. -/

namespace RM.Spec
open RM Outcome Matrix

/-- The LU decomposition of a square matrix gives its determinant, and when the inverse succeeds it is the inverse. -/
def LupExact (lup : Mat ℝ → Outcome (ℝ × Outcome (Mat ℝ))) : Prop :=
  ∀ (A : Mat ℝ) (n : ℕ) (d : ℝ) (inv : Outcome (Mat ℝ)), HasShape A n n → lup A = ok (d, inv) →
    d = (toM n n A).det ∧ ∀ B, inv = ok B → HasShape B n n ∧ toM n n A * toM n n B = 1

/-- The decomposition and the inverse succeed on regular matrices. -/
def LupRegular (lup : Mat ℝ → Outcome (ℝ × Outcome (Mat ℝ))) : Prop :=
  ∀ (A : Mat ℝ) (n : ℕ), HasShape A n n → (toM n n A).det ≠ 0 → ∃ d B, lup A = ok (d, ok B)

/-- The decomposition of a singular matrix is an error. -/
def LupSingular (lup : Mat ℝ → Outcome (ℝ × Outcome (Mat ℝ))) : Prop :=
  ∀ (A : Mat ℝ) (n : ℕ), HasShape A n n → (toM n n A).det = 0 → ∃ e, lup A = err e

/-- The density of the normal distribution with mean `μ` and covariance `S`. -/
noncomputable def gaussDensity {d : ℕ} (μ : Fin d → ℝ) (S : Matrix (Fin d) (Fin d) ℝ) (x : Fin d → ℝ) : ℝ :=
  Real.exp (-(1 / 2) * ((x - μ) ⬝ᵥ S⁻¹ *ᵥ (x - μ))) / Real.sqrt ((2 * Real.pi) ^ d * S.det)

/-- The density of the mixture of `k` normal distributions with weights `w`. -/
noncomputable def mixDensity {k d : ℕ} (w : Fin k → ℝ) (μ : Fin k → Fin d → ℝ) (S : Fin k → Matrix (Fin d) (Fin d) ℝ)
    (x : Fin d → ℝ) : ℝ := ∑ j, w j * gaussDensity (μ j) (S j) x

/-- The probability that `x` comes from component `j`. -/
noncomputable def posterior {k d : ℕ} (w : Fin k → ℝ) (μ : Fin k → Fin d → ℝ) (S : Fin k → Matrix (Fin d) (Fin d) ℝ)
    (x : Fin d → ℝ) (j : Fin k) : ℝ := w j * gaussDensity (μ j) (S j) x / mixDensity w μ S x

/-- The logarithm of the likelihood of the samples, the rows of `x`. -/
noncomputable def logLikelihood {n k d : ℕ} (w : Fin k → ℝ) (μ : Fin k → Fin d → ℝ) (S : Fin k → Matrix (Fin d) (Fin d) ℝ)
    (x : Fin n → Fin d → ℝ) : ℝ := ∑ i, Real.log (mixDensity w μ S (x i))

/-- The accessors `mixture_weights`, `means` and `covariances` return these. -/
def HasParams {k d : ℕ} (m : Gmm ℝ) (w : Fin k → ℝ) (μ : Fin k → Fin d → ℝ) (S : Fin k → Matrix (Fin d) (Fin d) ℝ) : Prop :=
  m.compCount = k ∧ m.mixWeights = List.ofFn w ∧ m.means = some (matOf k d fun a => μ a.1 a.2) ∧
    m.covars = some (List.ofFn fun j => matOf d d fun a => S j a.1 a.2)

/-- Positive weights with sum 1. -/
def IsMixture {k : ℕ} (w : Fin k → ℝ) : Prop := (∀ j, 0 < w j) ∧ ∑ j, w j = 1

/-- The total weight of a component. -/
def compTotal {n k : ℕ} (r : Fin n → Fin k → ℝ) (j : Fin k) : ℝ := ∑ i, r i j

/-- The weighted average of the samples. -/
noncomputable def weightedMean {n k d : ℕ} (r : Fin n → Fin k → ℝ) (x : Fin n → Fin d → ℝ) (j : Fin k) : Fin d → ℝ :=
  fun a => (∑ i, r i j * x i a) / compTotal r j

/-- The weighted covariance of the samples around their weighted average. -/
noncomputable def weightedCov {n k d : ℕ} (r : Fin n → Fin k → ℝ) (x : Fin n → Fin d → ℝ) (j : Fin k) : Matrix (Fin d) (Fin d) ℝ :=
  Matrix.of fun a b => (∑ i, r i j * ((x i a - weightedMean r x j a) * (x i b - weightedMean r x j b))) / compTotal r j

/-- The covariance of the options: the weighted covariance, its diagonal, or the weighted covariance plus the regularisation
constant over the total weight on the diagonal. -/
noncomputable def optionCov {n k d : ℕ} (opt : CovOption ℝ) (r : Fin n → Fin k → ℝ) (x : Fin n → Fin d → ℝ) (j : Fin k) :
    Matrix (Fin d) (Fin d) ℝ :=
  match opt with
  | .full => weightedCov r x j
  | .diagonal => Matrix.diagonal fun a => weightedCov r x j a a
  | .regularized eps => weightedCov r x j + (eps / compTotal r j) • (1 : Matrix (Fin d) (Fin d) ℝ)

/-- The sample covariance, with divisor `n - 1`. -/
noncomputable def sampleCov {n d : ℕ} (x : Fin n → Fin d → ℝ) : Matrix (Fin d) (Fin d) ℝ :=
  Matrix.of fun a b => (∑ i, (x i a - (∑ i, x i a) / n) * (x i b - (∑ i, x i b) / n)) / ((n - 1 : ℕ) : ℝ)

/-- The covariance every component starts with: the sample covariance, with the regularisation constant on the diagonal, or the
variances times the root of `1 / (n - 1)`. -/
noncomputable def startCov {n d : ℕ} (opt : CovOption ℝ) (x : Fin n → Fin d → ℝ) : Matrix (Fin d) (Fin d) ℝ :=
  match opt with
  | .full => sampleCov x
  | .diagonal => Matrix.diagonal fun a => sampleCov x a a * Real.sqrt (1 / ((n - 1 : ℕ) : ℝ))
  | .regularized eps => sampleCov x + eps • (1 : Matrix (Fin d) (Fin d) ℝ)

/-- The models a program can have: made by `new` with at least one component or by `with_weights` with positive weights, with any
number of iterations and any option with a regularisation constant that is not negative, and trained any number of times on any
data. -/
inductive GmmHistory (lup : Mat ℝ → Outcome (ℝ × Outcome (Mat ℝ))) : Gmm ℝ → Prop
  | new (k : ℕ) : 0 < k → GmmHistory lup (Gmm.new k)
  | withWeights (k : ℕ) (ws : List ℝ) (m : Gmm ℝ) : 0 < k → (∀ w ∈ ws, 0 < w) → Gmm.withWeights k ws = ok m → GmmHistory lup m
  | setMaxIters (m : Gmm ℝ) (t : ℕ) : GmmHistory lup m → GmmHistory lup (m.setMaxIters t)
  | setOption (m : Gmm ℝ) (opt : CovOption ℝ) : (∀ eps, opt = .regularized eps → 0 ≤ eps) → GmmHistory lup m →
      GmmHistory lup { m with covOption := opt }
  | train (m m' : Gmm ℝ) (draws : ℕ → ℕ) (X : Mat ℝ) : X.WF → GmmHistory lup m → m.train lup draws X = ok m' → GmmHistory lup m'

end RM.Spec
