import Verif.Spec.Kernel

/-! Specification vocabulary: strictly positive definite kernels. -/

namespace RM.Spec
open RM

/-- A symmetric matrix whose quadratic form is positive. -/
def SPD {n : ℕ} (G : Fin n → Fin n → ℝ) : Prop := (∀ i j, G i j = G j i) ∧ ∀ c : Fin n → ℝ, c ≠ 0 → 0 < ∑ i, ∑ j, c i * c j * G i j

/-- On every finite set of distinct points of dimension `d` the kernel has a value for every pair and the Gram matrix is
positive definite. -/
def StrictKernel (K : Kernel ℝ) (d : ℕ) : Prop :=
  ∀ (n : ℕ) (x : Fin n → List ℝ), (∀ i, (x i).length = d) → Function.Injective x →
    ∃ G : Fin n → Fin n → ℝ, (∀ i j, K (x i) (x j) = Outcome.ok (G i j)) ∧ SPD G

/-- The squared exponential, the exponential and the rational quadratic kernel, their products, and their sums with each
other and with the kernels of `PSDBuilt`, to any depth. -/
inductive StrictBuilt : Kernel ℝ → Prop
  | sqExp {ls ampl : ℝ} : ls ≠ 0 → 0 < ampl → StrictBuilt (sqExpKernel ls ampl)
  | exp {ls ampl : ℝ} : ls ≠ 0 → 0 < ampl → StrictBuilt (expKernel ls ampl)
  | rationalQuadratic {alpha ls : ℝ} : 0 < alpha → ls ≠ 0 → StrictBuilt (rationalQuadraticKernel alpha ls)
  | sum_left {k1 k2 : Kernel ℝ} : StrictBuilt k1 → PSDBuilt k2 → StrictBuilt (kernelSum k1 k2)
  | sum_right {k1 k2 : Kernel ℝ} : PSDBuilt k1 → StrictBuilt k2 → StrictBuilt (kernelSum k1 k2)
  | prod {k1 k2 : Kernel ℝ} : StrictBuilt k1 → StrictBuilt k2 → StrictBuilt (kernelProd k1 k2)

end RM.Spec
