import Verif.Base.Linalg

/-! Model of src/learning/toolkit/regularization.rs. -/

namespace RM
open Outcome Scalar
variable {F : Type} [Scalar F]

/-- `Regularization`, src/learning/toolkit/regularization.rs lines 23-32. -/
inductive Reg (F : Type)
  | l1 (x : F)
  | l2 (x : F)
  | elasticNet (x y : F)
  | none

/-- `l1_reg_cost`, src/learning/toolkit/regularization.rs lines 59-62. rulinalg's `Lp::Integer(1)` norm is the sum of
`|a|^1`, raised to the power `1/1`: the two unit powers are left out. -/
def l1Cost (m : Mat F) (x : F) : F :=
  (fsum (m.data.map Scalar.abs) *. x) /. ((Scalar.one +. Scalar.one) *. Scalar.ofNat m.rows.length)

/-- `l1_reg_grad`, src/learning/toolkit/regularization.rs lines 64-76. -/
def l1Grad (m : Mat F) (x : F) : Mat F :=
  let m2 := (Scalar.one +. Scalar.one) *. Scalar.ofNat m.rows.length
  m.map fun y => if Scalar.signNeg y then Scalar.neg x /. m2 else x /. m2

/-- `l2_reg_cost`, src/learning/toolkit/regularization.rs lines 78-80 (rulinalg's `Euclidean` norm is the square root of the
sum of squares). -/
def l2Cost (m : Mat F) (x : F) : F :=
  (Scalar.sqrt (fsum (m.data.map fun a => a *. a)) *. x) /. ((Scalar.one +. Scalar.one) *. Scalar.ofNat m.rows.length)

/-- `l2_reg_grad`, src/learning/toolkit/regularization.rs lines 82-84. -/
def l2Grad (m : Mat F) (x : F) : Mat F := m.map fun a => a *. (x /. Scalar.ofNat m.rows.length)

/-- `reg_cost`, src/learning/toolkit/regularization.rs lines 36-45. -/
def regCost (r : Reg F) (m : Mat F) : F :=
  match r with
  | .l1 x => l1Cost m x
  | .l2 x => l2Cost m x
  | .elasticNet x y => l1Cost m x +. l2Cost m y
  | .none => Scalar.zero

/-- `reg_grad`, src/learning/toolkit/regularization.rs lines 48-57. -/
def regGrad (r : Reg F) (m : Mat F) : Outcome (Mat F) :=
  match r with
  | .l1 x => ok (l1Grad m x)
  | .l2 x => ok (l2Grad m x)
  | .elasticNet x y => Mat.zip Scalar.add (l1Grad m x) (l2Grad m y)
  | .none => ok (Mat.zeros m.rows.length m.cols)

end RM
