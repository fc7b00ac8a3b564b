import Verif.Model.Glm
import Verif.Spec.Regression

/-! Specification vocabulary: generalised linear models. -/

namespace RM.Spec
open RM Outcome

/-- On the set `D` of means, `func` and `funcInv` are inverse bijections between `D` and the reals and `funcGrad` is the
derivative of `func`. -/
structure LinkLaws (l : LinkFn ℝ) (D : Set ℝ) : Prop where
  inv_mem : ∀ s, l.funcInv s ∈ D
  inv_func : ∀ m ∈ D, l.funcInv (l.func m) = m
  func_inv : ∀ s, l.func (l.funcInv s) = s
  deriv : ∀ m ∈ D, HasDerivAt l.func (l.funcGrad m) m

/-- The means a family can have. -/
def MeanRange : Family ℝ → Set ℝ
  | .normal => Set.univ
  | .poisson => Set.Ioi 0
  | _ => Set.Ioo 0 1

/-- Binomial weights, if there are any, are positive and enough for `n` samples. -/
def GoodWeights (f : Family ℝ) (n : ℕ) : Prop :=
  match f with
  | .binomial ws => n ≤ ws.length ∧ ∀ w ∈ ws, 0 < w
  | _ => True

/-- The outcomes a family can produce. -/
def Support : Family ℝ → Set ℝ
  | .normal => Set.univ
  | .poisson => {y | ∃ n : ℕ, y = n}
  | .bernoulli => {y | y = 0 ∨ y = 1}
  | .binomial _ => Set.Icc 0 1

/-- The log-likelihood of the outcome `y` when the linear predictor is `s`, up to a term which does not depend on `s`. -/
noncomputable def sampleLogLik : Family ℝ → ℝ → ℝ → ℝ
  | .normal, y, s => -(y - s) ^ 2 / 2
  | .poisson, y, s => y * s - Real.exp s
  | _, y, s => y * Real.log (logistic s) + (1 - y) * Real.log (1 - logistic s)

/-- The log-likelihood of the data under the parameters `β`. -/
noncomputable def logLik (f : Family ℝ) (X : Mat ℝ) (y β : List ℝ) : ℝ :=
  (List.zipWith (fun x t => sampleLogLik f t (affine β x)) X.rows y).sum

/-- `β` maximises the likelihood of the data. -/
def MaxLikelihood (f : Family ℝ) (X : Mat ℝ) (y β : List ℝ) : Prop :=
  ∀ c : List ℝ, c.length = X.cols + 1 → logLik f X y c ≤ logLik f X y β

/-- The weighted residual sum of squares of the linear predictor itself against the targets. -/
noncomputable def weightedRss (w : List ℝ) (X : Mat ℝ) (y β : List ℝ) : ℝ :=
  ∑ i : Fin X.rows.length, w.getD i 0 * (y.getD i 0 - affine β (X.rows.getD i [])) ^ 2

end RM.Spec
