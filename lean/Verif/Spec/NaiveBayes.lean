import Mathlib.Analysis.SpecialFunctions.Trigonometric.Basic
import Verif.Spec.Matrix

/-! Specification vocabulary for naive Bayes. -/

namespace RM.Spec

/-- The class a target row denotes: the position of its first entry equal to 1. -/
noncomputable def classOf (t : List ℝ) : Option ℕ := t.findIdx? fun x => decide (x = 1)

/-- The training rows of class `c`. -/
noncomputable def classSamples (X T : List (List ℝ)) (c : ℕ) : List (List ℝ) :=
  ((X.zip T).filter fun p => decide (classOf p.2 = some c)).map Prod.fst

/-- The number of target rows of class `c`. -/
noncomputable def classSize (T : List (List ℝ)) (c : ℕ) : ℕ := T.countP fun t => decide (classOf t = some c)

/-- Entry `j` of a list (0 if missing). -/
def coord (x : List ℝ) (j : ℕ) : ℝ := x.getD j 0

/-- The normal density with mean `μ` and variance `v`. -/
noncomputable def normalPdf (μ v x : ℝ) : ℝ := (Real.sqrt (2 * Real.pi * v))⁻¹ * Real.exp (-(x - μ) ^ 2 / (2 * v))

/-- `row` has length `k`, a single 1 at position `i` and zeros elsewhere. -/
def IsOneHot (k i : ℕ) (row : List ℝ) : Prop := row.length = k ∧ i < k ∧ ∀ j < k, coord row j = if j = i then 1 else 0

/-- `i` is the first position of a maximal entry of `l`. -/
def IsFirstMax (l : List ℝ) (i : ℕ) : Prop :=
  ∃ v, l[i]? = some v ∧ (∀ x ∈ l, x ≤ v) ∧ ∀ (t : ℕ) x, t < i → l[t]? = some x → x < v

end RM.Spec
