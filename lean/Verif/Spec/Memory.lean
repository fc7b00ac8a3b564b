import Verif.Model.NNet
import Verif.Model.Fmincg
import Verif.Model.BinaryTree

/-! What it means that a call stays clear of undefined behaviour, whatever else happens to it. -/

namespace RM.Spec
open RM Outcome Scalar

variable {α F : Type}

/-- The call does not run into undefined behaviour; if it returns a value, the value satisfies `P`. It may return an error, and it
may panic. -/
def Defined (P : α → Prop) : Outcome α → Prop
  | .ok a => P a
  | .err _ => True
  | .panic => True
  | .ub => False

/-- The optimisers of the library, with the random streams of those that shuffle. -/
inductive LibOpt (F : Type)
  | gradientDesc (o : GradientDesc F)
  | conjugateGD (o : ConjugateGD F)
  | stochasticGD (o : StochasticGD F) (r : ℕ → ℕ → ℕ)
  | adaGrad (o : AdaGrad F) (r : ℕ → ℕ → ℕ)
  | rmsProp (o : RMSProp F) (r : ℕ → ℕ → ℕ)

/-- `optimize` of the optimiser. -/
def LibOpt.run [Scalar F] : LibOpt F → ComputeGrad F → List F → Mat F → Mat F → Outcome (List F)
  | .gradientDesc o, g, start, X, Y => (o.optimize (fun w => g w X Y) start).out
  | .conjugateGD o, g, start, X, Y => (o.optimize (fun w => g w X Y) start).out
  | .stochasticGD o r, g, start, X, Y => (o.optimize g r start X Y).out
  | .adaGrad o r, g, start, X, Y => (o.optimize g r start X Y).out
  | .rmsProp o r, g, start, X, Y => (o.optimize g r start X Y).out

/-- The networks that can be made with the library's constructors, layers and optimisers: any layers in any order, fitting or not,
added before or after any successful trainings on any data. -/
inductive NetMade [Scalar F] : BaseNet F → Prop
  | new (c : Criterion F) : NetMade (BaseNet.new c)
  | mlp (sizes : List ℕ) (c : Criterion F) (A : Activ F) (r : ℕ → ℕ → F) (net : BaseNet F) :
      BaseNet.mlp sizes c A r = ok net → NetMade net
  | add (net : BaseNet F) (l : NetLayer F) (r : ℕ → F) : NetMade net → NetMade (net.add l r)
  | addLayers (net : BaseNet F) (ls : List (NetLayer F × (ℕ → F))) : NetMade net → NetMade (net.addLayers ls)
  | trained (net net' : BaseNet F) (o : LibOpt F) (X Y : Mat F) : NetMade net → net.train o.run X Y = ok net' → NetMade net'

/-- Going down the tree on the query's side of every split, one comes to a split on a column the query does not have. -/
def RunsShort [Scalar F] {B : Type} (point : List F) : Node F B → Prop
  | .leaf _ => False
  | .branch dim split _ l r => match point[dim]? with
    | none => True
    | some p => if p <. split then RunsShort point l else RunsShort point r

/-- The tree has been split at least once. -/
def IsSplit {B : Type} : Node F B → Prop
  | .leaf _ => False
  | .branch .. => True

end RM.Spec
