import Verif.Model.GlmCriterion
import Verif.Spec.Glm

/-! Specification vocabulary: the equations that define the fit of a generalised linear model, for any link and variance. -/

namespace RM.Spec
open RM Outcome

/-- The mean that the parameters `β` give to a sample. -/
noncomputable def meanAt (l : LinkFn ℝ) (β x : List ℝ) : ℝ := l.funcInv (affine β x)

/-- The estimating equations of a generalised linear model with link `l` and variance function `V`: for the constant (`j = 0`) and for each
feature, the residuals, divided by the variance and by the derivative of the link, are orthogonal to it. -/
def SolvesScore (l : LinkFn ℝ) (V : ℝ → ℝ) (X : Mat ℝ) (y β : List ℝ) : Prop :=
  ∀ j ≤ X.cols, ∑ i : Fin X.rows.length, (1 :: X.rows.getD i []).getD j 0 *
    ((y.getD i 0 - meanAt l β (X.rows.getD i [])) / (V (meanAt l β (X.rows.getD i [])) * l.funcGrad (meanAt l β (X.rows.getD i [])))) = 0

/-- At the mean `m` the variance is positive and the link has a slope. -/
def Regular (l : LinkFn ℝ) (V : ℝ → ℝ) (m : ℝ) : Prop := 0 < V m ∧ l.funcGrad m ≠ 0

end RM.Spec
