import Verif.Base.Linalg

/-! Model of src/learning/toolkit/kernel.rs. -/

namespace RM
open Outcome Scalar
variable {F : Type} [Scalar F]

/-- The trait `Kernel`, src/learning/toolkit/kernel.rs lines 15-19. -/
abbrev Kernel (F : Type) := List F → List F → Outcome F

/-- `KernelSum::kernel`, src/learning/toolkit/kernel.rs lines 57-59, built by `+` on `KernelArith`, lines 107-116. -/
def kernelSum (k1 k2 : Kernel F) : Kernel F := fun x1 x2 => do
  let a ← k1 x1 x2
  let b ← k2 x1 x2
  ok (a +. b)

/-- `KernelProd::kernel`, src/learning/toolkit/kernel.rs lines 98-100, built by `*` on `KernelArith`, lines 118-127. -/
def kernelProd (k1 k2 : Kernel F) : Kernel F := fun x1 x2 => do
  let a ← k1 x1 x2
  let b ← k2 x1 x2
  ok (a *. b)

/-- `Linear::kernel`, src/learning/toolkit/kernel.rs lines 167-171. `utils::dot` ignores the tail of the longer slice. -/
def linearKernel (c : F) : Kernel F := fun x1 x2 => ok (dot x1 x2 +. c)

/-- `Polynomial::kernel`, src/learning/toolkit/kernel.rs lines 226-230. -/
def polyKernel (alpha c d : F) : Kernel F := fun x1 x2 => ok (Scalar.powf (alpha *. dot x1 x2 +. c) d)

/-- `SquaredExp::kernel`, src/learning/toolkit/kernel.rs lines 284-294. -/
def sqExpKernel (ls ampl : F) : Kernel F := fun x1 x2 => do
  assert (x1.length == x2.length)
  let diff ← vecZip Scalar.sub x1 x2
  let x := Scalar.neg (dot diff diff) /. ((Scalar.ofNat 2 *. ls) *. ls)
  ok (ampl *. Scalar.exp x)

/-- `Exponential::kernel`, src/learning/toolkit/kernel.rs lines 346-356. -/
def expKernel (ls ampl : F) : Kernel F := fun x1 x2 => do
  assert (x1.length == x2.length)
  let diff ← vecZip Scalar.sub x1 x2
  let x := Scalar.neg (Scalar.sqrt (dot diff diff)) /. ((Scalar.ofNat 2 *. ls) *. ls)
  ok (ampl *. Scalar.exp x)

/-- `HyperTan::kernel`, src/learning/toolkit/kernel.rs lines 406-410. -/
def hyperTanKernel (alpha c : F) : Kernel F := fun x1 x2 => ok (Scalar.tanh (alpha *. dot x1 x2 +. c))

/-- `Multiquadric::kernel`, src/learning/toolkit/kernel.rs lines 451-457. `hypot(a, b)` is written `sqrt(a*a + b*b)` (it also
guards against overflow of the squares). -/
def multiquadricKernel (c : F) : Kernel F := fun x1 x2 => do
  assert (x1.length == x2.length)
  let diff ← vecZip Scalar.sub x1 x2
  let d := Scalar.sqrt (dot diff diff)
  ok (Scalar.sqrt (d *. d +. c *. c))

/-- `RationalQuadratic::kernel`, src/learning/toolkit/kernel.rs lines 507-513 (the subtraction of vectors of different sizes
panics in rulinalg). -/
def rationalQuadraticKernel (alpha ls : F) : Kernel F := fun x1 x2 => do
  let diff ← vecZip Scalar.sub x1 x2
  ok (Scalar.powf (Scalar.one +. dot diff diff /. (((Scalar.ofNat 2 *. alpha) *. ls) *. ls)) (Scalar.neg alpha))

/-- `Linear::default`, lines 161-165. -/
def linearDefault : Kernel F := linearKernel Scalar.zero
/-- `SquaredExp::default`, lines 275-282. -/
def sqExpDefault : Kernel F := sqExpKernel Scalar.one Scalar.one

end RM
