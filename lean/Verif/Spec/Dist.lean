import Mathlib.MeasureTheory.Integral.Bochner.Set
import Mathlib.MeasureTheory.Measure.Lebesgue.Basic
import Mathlib.Analysis.SpecialFunctions.Exp
import Mathlib.Analysis.Real.Pi.Bounds

/-! The normal distribution function. -/

namespace RM.Spec

/-- The normal cumulative distribution function with mean `m` and variance `v`. -/
noncomputable def normalCdf (m v x : ℝ) : ℝ := ∫ t in Set.Iic x, Real.exp (-(t - m) ^ 2 / (2 * v)) / Real.sqrt (2 * Real.pi * v)

end RM.Spec
