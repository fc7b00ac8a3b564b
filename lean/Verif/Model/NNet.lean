import Verif.Model.Activ
import Verif.Model.Cost
import Verif.Model.Regularization
import Verif.Model.Optim

/-! Model of src/learning/nnet/net_layer.rs and src/learning/nnet/mod.rs.

`NetLayer` is an open trait; this file covers the two implementations in the crate (for others see Verif/Model/UserNet.lean), `Linear` and the blanket one for
activation functions. The `debug_assert`s are not modelled: those in net_layer.rs only repeat what the matrix products
check (src/learning/nnet/net_layer.rs lines 122, 132), and without the one on the weights' length
(src/learning/nnet/mod.rs line 313) a short vector is undefined behaviour, which is what the model says. -/

namespace RM
open Outcome Scalar
variable {F : Type} [Scalar F]

/-- `.unwrap()` of a `LearningResult`. -/
def Outcome.unwrap {α : Type} : Outcome α → Outcome α
  | .err _ => .panic
  | x => x

/-- The layers: `Linear`, src/learning/nnet/net_layer.rs lines 46-53 (`inputSize` counts the bias row), and an activation
function, lines 156-185. -/
inductive NetLayer (F : Type)
  | linear (inputSize outputSize : ℕ) (hasBias : Bool)
  | activ (A : Activ F)

/-- `Linear::new`, src/learning/nnet/net_layer.rs lines 57-63. -/
def NetLayer.new (inputSize outputSize : ℕ) : NetLayer F := .linear (inputSize + 1) outputSize true

/-- `Linear::without_bias`, src/learning/nnet/net_layer.rs lines 66-72. -/
def NetLayer.withoutBias (inputSize outputSize : ℕ) : NetLayer F := .linear inputSize outputSize false

/-- `param_shape`, src/learning/nnet/net_layer.rs lines 151-153, 182-184. -/
def NetLayer.paramShape : NetLayer F → ℕ × ℕ
  | .linear i o _ => (i, o)
  | .activ _ => (0, 0)

/-- `num_params`, src/learning/nnet/net_layer.rs lines 33-36. -/
def NetLayer.numParams (l : NetLayer F) : ℕ := l.paramShape.1 * l.paramShape.2

/-- `default_params`, src/learning/nnet/net_layer.rs lines 140-149, 178-180; `r` is the stream of raw draws of `StandardNormal`
(crate `rand`, external): a sample of `Normal::new(mean, sd)` is `mean + sd * n` for the raw draw `n`. -/
def NetLayer.defaultParams (r : ℕ → F) : NetLayer F → List F
  | .linear i o _ => (List.range (i * o)).map fun j => Scalar.zero +. (Scalar.sqrt (Scalar.ofRat 2 /. Scalar.ofNat (i + o)) *. r j)
  | .activ _ => []

/-- The loop of `remove_first_col`, src/learning/nnet/net_layer.rs lines 86-92: indices still to visit, data, `del`. -/
def removeLoop (cols : ℕ) : List ℕ → List F → ℕ → Outcome (List F × ℕ)
  | [], v, del => ok (v, del)
  | i :: is, v, del =>
    if i % cols = 0 then removeLoop cols is v (del + 1)
    else if 0 < del then do
      let x ← getAt v i
      let v ← setAt v (i - del) x
      removeLoop cols is v del
    else removeLoop cols is v del

/-- `remove_first_col`, src/learning/nnet/net_layer.rs lines 75-98. It is only called with at least one column (the gradient
of a layer with a bias), so `i % cols` and `cols - 1` do not panic. -/
def removeFirstCol (m : Mat F) : Outcome (Mat F) := do
  let r ← removeLoop m.cols (List.range m.data.length) m.data 0
  Mat.new m.rows.length (m.cols - 1) (if 0 < r.2 then r.1.take (m.data.length - r.2) else r.1)

/-- `forward`, src/learning/nnet/net_layer.rs lines 105-119, 158-164. -/
def NetLayer.forward (l : NetLayer F) (input params : Mat F) : Outcome (Mat F) :=
  match l with
  | .linear _ _ hasBias =>
    if hasBias then
      if input.cols + 1 ≠ params.rows.length then err .InvalidData
      else do
        let x ← (Mat.ones input.rows.length 1).hcat input
        x.mul params
    else
      if input.cols ≠ params.rows.length then err .InvalidData
      else input.mul params
  | .activ A => Mat.new input.rows.length input.cols (input.data.map A.func)

/-- `back_input`, src/learning/nnet/net_layer.rs lines 121-129, 166-172. -/
def NetLayer.backInput (l : NetLayer F) (outGrad output params : Mat F) : Outcome (Mat F) :=
  match l with
  | .linear _ _ hasBias => do
    let gradient ← outGrad.mul params.transpose
    if hasBias then removeFirstCol gradient else ok gradient
  | .activ A =>
    Mat.new output.rows.length output.cols
      (List.zipWith (fun y g => A.gradFromOutput y *. g) output.data outGrad.data)

/-- `back_params`, src/learning/nnet/net_layer.rs lines 131-138, 174-176. -/
def NetLayer.backParams (l : NetLayer F) (outGrad input : Mat F) : Outcome (Mat F) :=
  match l with
  | .linear _ _ hasBias =>
    if hasBias then do
      let x ← (Mat.ones input.rows.length 1).hcat input
      x.transpose.mul outGrad
    else input.transpose.mul outGrad
  | .activ _ => Mat.new 0 0 []

/-- `BCECriterion` and `MSECriterion`, src/learning/nnet/mod.rs lines 513-524, 554-565: which cost function. -/
inductive CritKind
  | bce
  | mse

/-- A `Criterion`, src/learning/nnet/mod.rs lines 452-507: cost function and regularisation. -/
structure Criterion (F : Type) where
  kind : CritKind
  reg : Reg F

/-- `Criterion::cost`, src/learning/nnet/mod.rs lines 459-461. -/
def Criterion.cost (c : Criterion F) (outputs targets : Mat F) : Outcome F :=
  match c.kind with
  | .bce => ceCost outputs targets
  | .mse => mseCost outputs targets

/-- `Criterion::cost_grad`, src/learning/nnet/mod.rs lines 466-468. -/
def Criterion.costGrad (c : Criterion F) (outputs targets : Mat F) : Outcome (Mat F) :=
  match c.kind with
  | .bce => ceGrad outputs targets
  | .mse => mseGrad outputs targets

/-- `Criterion::is_regularized`, src/learning/nnet/mod.rs lines 480-485. -/
def Criterion.isRegularized (c : Criterion F) : Bool :=
  match c.reg with
  | .none => false
  | _ => true

/-- `BaseNeuralNet`, src/learning/nnet/mod.rs lines 248-252. -/
structure BaseNet (F : Type) where
  layers : List (NetLayer F)
  weights : List F
  criterion : Criterion F

/-- `BaseNeuralNet::new`, src/learning/nnet/mod.rs lines 266-272. -/
def BaseNet.new (c : Criterion F) : BaseNet F := ⟨[], [], c⟩

/-- `BaseNeuralNet::add`, src/learning/nnet/mod.rs lines 290-294; `r` is the random stream. -/
def BaseNet.add (net : BaseNet F) (l : NetLayer F) (r : ℕ → F) : BaseNet F :=
  ⟨net.layers ++ [l], net.weights ++ l.defaultParams r, net.criterion⟩

/-- `BaseNeuralNet::add_layers`, src/learning/nnet/mod.rs lines 297-304; every layer has its own random stream. -/
def BaseNet.addLayers (net : BaseNet F) : List (NetLayer F × (ℕ → F)) → BaseNet F
  | [] => net
  | (l, r) :: ls => (net.add l r).addLayers ls

/-- The loop of `mlp` over `layer_sizes.windows(2)`, src/learning/nnet/mod.rs lines 282-285; `r i` is the random stream of
the `i`-th linear layer (activation layers draw nothing). -/
def mlpLoop (A : Activ F) (r : ℕ → ℕ → F) : BaseNet F → ℕ → List ℕ → BaseNet F
  | net, i, a :: b :: rest => mlpLoop A r ((net.add (.new a b) (r i)).add (.activ A) (r i)) (i + 1) (b :: rest)
  | net, _, _ => net

/-- `BaseNeuralNet::mlp`, src/learning/nnet/mod.rs lines 275-287. With no sizes at all `2*(layer_sizes.len()-1)` overflows
and the capacity request fails: a panic. -/
def BaseNet.mlp (sizes : List ℕ) (c : Criterion F) (A : Activ F) (r : ℕ → ℕ → F) : Outcome (BaseNet F) :=
  if sizes.length = 0 then panic else ok (mlpLoop A r (BaseNet.new c) 0 sizes)

/-- `MatrixSlice::from_raw_parts(weights.as_ptr().offset(start), rows, cols, cols)`: a view into the weights, undefined
behaviour when it goes beyond their end. -/
def sliceAt (weights : List F) (start : ℕ) (shape : ℕ × ℕ) : Outcome (Mat F) :=
  if start + shape.1 * shape.2 ≤ weights.length then ok ⟨shape.2, chunk shape.2 shape.1 (weights.drop start)⟩ else ub

/-- `get_layer_weights`, src/learning/nnet/mod.rs lines 307-324. -/
def BaseNet.layerWeights (net : BaseNet F) (weights : List F) (idx : ℕ) : Outcome (Mat F) := do
  let start := ((net.layers.take idx).map NetLayer.numParams).sum
  let l ← getAt net.layers idx
  sliceAt weights start l.paramShape

/-- `get_net_weights`, src/learning/nnet/mod.rs lines 239-241. -/
def BaseNet.netWeights (net : BaseNet F) (idx : ℕ) : Outcome (Mat F) := net.layerWeights net.weights idx

/-- The forward loop of `compute_grad`, src/learning/nnet/mod.rs lines 344-363: layers still to do, `index`, `activations`,
`params`. The test `i == 0` is made as `activations` being empty. -/
def netForward (weights : List F) (inputs : Mat F) :
    List (NetLayer F) → ℕ → List (Mat F) → List (Mat F) → Outcome (ℕ × List (Mat F) × List (Mat F))
  | [], index, acts, ps => ok (index, acts, ps)
  | l :: ls, index, acts, ps => do
    let slice ← sliceAt weights index l.paramShape
    let output ← (l.forward (acts.getLast?.getD inputs) slice).unwrap
    netForward weights inputs ls (index + l.numParams) (acts ++ [output]) (ps ++ [slice])

/-- `gradients[start..start+n].copy_from_slice(src)` on a vector that may still be uninitialised (`none`): panics when the
range does not exist or the lengths differ. -/
def copyInto (g : List (Option F)) (start n : ℕ) (src : List F) : Outcome (List (Option F)) :=
  if start + n ≤ g.length ∧ src.length = n then ok (g.take start ++ src.map some ++ g.drop (start + n)) else panic

/-- `if i == 0 {inputs} else {&activations[i-1]}`, src/learning/nnet/mod.rs line 372. -/
def layerInput (inputs : Mat F) (acts : List (Mat F)) (i : ℕ) : Outcome (Mat F) :=
  if i = 0 then ok inputs else getAt acts (i - 1)

/-- The backward loop of `compute_grad`, src/learning/nnet/mod.rs lines 371-380, over the enumerated layers in reverse:
`index`, `out_grad`, `gradients`. -/
def netBackward (inputs : Mat F) (acts params : List (Mat F)) :
    List (NetLayer F × ℕ) → ℕ → Mat F → List (Option F) → Outcome (List (Option F))
  | [], _, _, g => ok g
  | (l, i) :: ls, index, outGrad, g => do
    let activation ← layerInput inputs acts i
    let result ← getAt acts i
    let p ← getAt params i
    let gp ← l.backParams outGrad activation
    let g ← copyInto g (index - l.numParams) l.numParams gp.data
    let outGrad ← l.backInput outGrad result p
    netBackward inputs acts params ls (index - l.numParams) outGrad g

/-- Reading a vector that was created uninitialised: undefined behaviour unless every element has been written. -/
def allInit : List (Option F) → Outcome (List F)
  | [] => ok []
  | none :: _ => ub
  | some x :: xs => do
    let r ← allInit xs
    ok (x :: r)

/-- `compute_grad`, src/learning/nnet/mod.rs lines 327-393. -/
def BaseNet.computeGrad (net : BaseNet F) (weights : List F) (inputs targets : Mat F) : Outcome (F × List F) := do
  let fw ← netForward weights inputs net.layers 0 [] []
  let output ← ofOption fw.2.1.getLast?
  let outGrad ← net.criterion.costGrad output targets
  let g ← netBackward inputs fw.2.1 fw.2.2 net.layers.zipIdx.reverse fw.1 outGrad (List.replicate weights.length none)
  let cost ← net.criterion.cost output targets
  let g ← allInit g
  if net.criterion.isRegularized then do
    let allParams : Mat F := ⟨1, weights.map fun w => [w]⟩
    let rg ← regGrad net.criterion.reg allParams
    ok (cost +. regCost net.criterion.reg allParams, inPlaceBin Scalar.add g rg.data)
  else ok (cost, g)

/-- The loop of `forward_prop` over the layers after the first, src/learning/nnet/mod.rs lines 411-428. -/
def forwardRest (weights : List F) : List (NetLayer F) → ℕ → Mat F → Outcome (Mat F)
  | [], _, outputs => ok outputs
  | l :: ls, index, outputs => do
    let slice ← sliceAt weights index l.paramShape
    match l.forward outputs slice with
    | .ok act => forwardRest weights ls (index + l.numParams) act
    | .err _ => err .InvalidParameters
    | .panic => panic
    | .ub => ub

/-- `forward_prop`, src/learning/nnet/mod.rs lines 396-430; also `predict`, lines 84-86. -/
def BaseNet.forwardProp (net : BaseNet F) (inputs : Mat F) : Outcome (Mat F) :=
  match net.layers with
  | [] => ok inputs
  | l :: ls => do
    let slice ← sliceAt net.weights 0 l.paramShape
    let outputs ← l.forward inputs slice
    forwardRest net.weights ls l.numParams outputs

/-- `train`, src/learning/nnet/mod.rs lines 89-93, for any optimiser: a function of the model's `compute_grad`, the starting
weights, the inputs and the targets. -/
def BaseNet.train (opt : ComputeGrad F → List F → Mat F → Mat F → Outcome (List F)) (net : BaseNet F) (inputs targets : Mat F) :
    Outcome (BaseNet F) := do
  let w ← opt net.computeGrad net.weights inputs targets
  ok ⟨net.layers, w, net.criterion⟩

end RM
