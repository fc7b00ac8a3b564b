import Verif.Base.Linalg

/-! Model of src/learning/toolkit/activ_fn.rs. -/

namespace RM
open Outcome Scalar
variable {F : Type} [Scalar F]

/-- The trait `ActivationFunc`, src/learning/toolkit/activ_fn.rs lines 14-27: the function, its gradient, the gradient
computed from the output, the inverse. -/
structure Activ (F : Type) where
  func : F → F
  funcGrad : F → F
  gradFromOutput : F → F
  funcInv : F → F

/-- `Sigmoid`, src/learning/toolkit/activ_fn.rs lines 33-55. -/
def sigmoid : Activ F where
  func x := Scalar.one /. (Scalar.one +. Scalar.exp (Scalar.neg x))
  funcGrad x := (Scalar.one /. (Scalar.one +. Scalar.exp (Scalar.neg x))) *.
    (Scalar.one -. Scalar.one /. (Scalar.one +. Scalar.exp (Scalar.neg x)))
  gradFromOutput y := y *. (Scalar.one -. y)
  funcInv x := Scalar.ln (x /. (Scalar.one -. x))

/-- `Linear`, src/learning/toolkit/activ_fn.rs lines 61-77. -/
def linearActiv : Activ F where
  func x := x
  funcGrad _ := Scalar.one
  gradFromOutput _ := Scalar.one
  funcInv x := x

/-- `Exp`, src/learning/toolkit/activ_fn.rs lines 83-99. -/
def expActiv : Activ F where
  func x := Scalar.exp x
  funcGrad x := Scalar.exp x
  gradFromOutput y := y
  funcInv x := Scalar.ln x

/-- `Tanh`, src/learning/toolkit/activ_fn.rs lines 105-122. -/
def tanhActiv : Activ F where
  func x := Scalar.tanh x
  funcGrad x := Scalar.one -. Scalar.tanh x *. Scalar.tanh x
  gradFromOutput y := Scalar.one -. y *. y
  funcInv x := Scalar.ofRat (1 / 2) *. Scalar.ln ((Scalar.one +. x) /. (Scalar.one -. x))

end RM
