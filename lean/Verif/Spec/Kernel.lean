import Verif.Model.Kernel
import Verif.Spec.Score

/-! Specification vocabulary for kernels. -/

namespace RM.Spec
open RM

/-- Laws of float multiplication and subtraction that make kernels symmetric; they hold for IEEE floats (NaN included, up to
the payload of a NaN). -/
class SymmScalar (F : Type) [Scalar F] : Prop where
  mul_comm : ∀ a b : F, Scalar.mul a b = Scalar.mul b a
  sub_sq : ∀ a b : F, Scalar.mul (Scalar.sub a b) (Scalar.sub a b) = Scalar.mul (Scalar.sub b a) (Scalar.sub b a)

/-- The kernels a user can build: the seven kinds of the library (any parameters) and their sums and products, to any
depth. -/
inductive Built {F : Type} [Scalar F] : Kernel F → Prop
  | linear (c : F) : Built (linearKernel c)
  | poly (alpha c d : F) : Built (polyKernel alpha c d)
  | sqExp (ls ampl : F) : Built (sqExpKernel ls ampl)
  | exp (ls ampl : F) : Built (expKernel ls ampl)
  | hyperTan (alpha c : F) : Built (hyperTanKernel alpha c)
  | multiquadric (c : F) : Built (multiquadricKernel c)
  | rationalQuadratic (alpha ls : F) : Built (rationalQuadraticKernel alpha ls)
  | sum {k1 k2 : Kernel F} : Built k1 → Built k2 → Built (kernelSum k1 k2)
  | prod {k1 k2 : Kernel F} : Built k1 → Built k2 → Built (kernelProd k1 k2)

/-- Inner product. -/
noncomputable def innerProd (u v : List ℝ) : ℝ := (List.zipWith (· * ·) u v).sum

/-- A symmetric matrix whose quadratic form is non-negative. -/
def PSD {n : ℕ} (G : Fin n → Fin n → ℝ) : Prop := (∀ i j, G i j = G j i) ∧ ∀ c : Fin n → ℝ, 0 ≤ ∑ i, ∑ j, c i * c j * G i j

/-- On every finite set of points of dimension `d` the kernel has a value for every pair and the Gram matrix is positive
semi-definite. -/
def PSDKernel (K : Kernel ℝ) (d : ℕ) : Prop :=
  ∀ (n : ℕ) (x : Fin n → List ℝ), (∀ i, (x i).length = d) →
    ∃ G : Fin n → Fin n → ℝ, (∀ i j, K (x i) (x j) = Outcome.ok (G i j)) ∧ PSD G

/-- The kernels built from those proved positive semi-definite: linear with a non-negative constant, polynomial of natural
degree with non-negative coefficients, squared exponential, exponential and rational quadratic, and their sums and
products, to any depth. -/
inductive PSDBuilt : Kernel ℝ → Prop
  | linear {c : ℝ} : 0 ≤ c → PSDBuilt (linearKernel c)
  | poly {alpha c : ℝ} (d : ℕ) : 0 ≤ alpha → 0 ≤ c → PSDBuilt (polyKernel alpha c d)
  | sqExp {ls ampl : ℝ} : ls ≠ 0 → 0 ≤ ampl → PSDBuilt (sqExpKernel ls ampl)
  | exp {ls ampl : ℝ} : ls ≠ 0 → 0 ≤ ampl → PSDBuilt (expKernel ls ampl)
  | rationalQuadratic {alpha ls : ℝ} : 0 < alpha → ls ≠ 0 → PSDBuilt (rationalQuadraticKernel alpha ls)
  | sum {k1 k2 : Kernel ℝ} : PSDBuilt k1 → PSDBuilt k2 → PSDBuilt (kernelSum k1 k2)
  | prod {k1 k2 : Kernel ℝ} : PSDBuilt k1 → PSDBuilt k2 → PSDBuilt (kernelProd k1 k2)

end RM.Spec
