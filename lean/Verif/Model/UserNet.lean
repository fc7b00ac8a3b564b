import Verif.Model.NNet

/-! Model of src/learning/nnet/mod.rs for layers and criteria of the user's own.

`NetLayer` (src/learning/nnet/net_layer.rs lines 16-37) and `Criterion` (src/learning/nnet/mod.rs lines 452-507) are open
traits; Verif/Model/NNet.lean has the implementations in the crate, this file has the network around arbitrary ones. Methods
take `&self`; the model takes them to be functions of their arguments (an implementation with interior mutability or one that
draws random numbers outside `default_params` is not modelled). The `debug_assert`s are not modelled. -/

namespace RM
open Outcome Scalar
variable {F : Type} [Scalar F]

/-- An implementation of `NetLayer`, src/learning/nnet/net_layer.rs lines 16-37. `numParams` is a field of its own, because the
default method (lines 33-36) can be overridden; `defaultParams` gets a stream of random draws. -/
structure UserLayer (F : Type) where
  forward : (input params : Mat F) → Outcome (Mat F)
  backInput : (outGrad input output params : Mat F) → Outcome (Mat F)
  backParams : (outGrad input output params : Mat F) → Outcome (Mat F)
  defaultParams : (ℕ → F) → List F
  paramShape : ℕ × ℕ
  numParams : ℕ

/-- The layers of the crate as implementations of the trait, src/learning/nnet/net_layer.rs lines 103-185. -/
def NetLayer.toUser (l : NetLayer F) : UserLayer F where
  forward := l.forward
  backInput := fun outGrad _ output params => l.backInput outGrad output params
  backParams := fun outGrad input _ _ => l.backParams outGrad input
  defaultParams := fun r => l.defaultParams r
  paramShape := l.paramShape
  numParams := l.numParams

/-- An implementation of `Criterion`, src/learning/nnet/mod.rs lines 452-507, by the methods the network calls. -/
structure UserCriterion (F : Type) where
  cost : (outputs targets : Mat F) → Outcome F
  costGrad : (outputs targets : Mat F) → Outcome (Mat F)
  isRegularized : Bool
  regCost : (weights : Mat F) → Outcome F
  regGrad : (weights : Mat F) → Outcome (Mat F)

/-- The criteria of the crate as implementations of the trait, src/learning/nnet/mod.rs lines 459-506, 526-536, 567-577. -/
def Criterion.toUser (c : Criterion F) : UserCriterion F where
  cost := c.cost
  costGrad := c.costGrad
  isRegularized := c.isRegularized
  regCost := fun w => ok (RM.regCost c.reg w)
  regGrad := fun w => RM.regGrad c.reg w

/-- `BaseNeuralNet`, src/learning/nnet/mod.rs lines 248-252. -/
structure UserNet (F : Type) where
  layers : List (UserLayer F)
  weights : List F
  criterion : UserCriterion F

/-- `BaseNeuralNet::new`, src/learning/nnet/mod.rs lines 266-272. -/
def UserNet.new (c : UserCriterion F) : UserNet F := ⟨[], [], c⟩

/-- `BaseNeuralNet::add`, src/learning/nnet/mod.rs lines 290-294; `r` is the random stream. -/
def UserNet.add (net : UserNet F) (l : UserLayer F) (r : ℕ → F) : UserNet F :=
  ⟨net.layers ++ [l], net.weights ++ l.defaultParams r, net.criterion⟩

/-- `BaseNeuralNet::add_layers`, src/learning/nnet/mod.rs lines 297-304; every layer has its own random stream. -/
def UserNet.addLayers (net : UserNet F) : List (UserLayer F × (ℕ → F)) → UserNet F
  | [] => net
  | (l, r) :: ls => (net.add l r).addLayers ls

/-- `get_net_weights` with `get_layer_weights`, src/learning/nnet/mod.rs lines 239-241, 307-324. -/
def UserNet.netWeights (net : UserNet F) (idx : ℕ) : Outcome (Mat F) := do
  let start := ((net.layers.take idx).map UserLayer.numParams).sum
  let l ← getAt net.layers idx
  sliceAt net.weights start l.paramShape

/-- The forward loop of `compute_grad`, src/learning/nnet/mod.rs lines 344-363: layers still to do, `index`, `activations`,
`params`. The test `i == 0` is made as `activations` being empty. -/
def userForward (weights : List F) (inputs : Mat F) :
    List (UserLayer F) → ℕ → List (Mat F) → List (Mat F) → Outcome (ℕ × List (Mat F) × List (Mat F))
  | [], index, acts, ps => ok (index, acts, ps)
  | l :: ls, index, acts, ps => do
    let slice ← sliceAt weights index l.paramShape
    let output ← (l.forward (acts.getLast?.getD inputs) slice).unwrap
    userForward weights inputs ls (index + l.numParams) (acts ++ [output]) (ps ++ [slice])

/-- The backward loop of `compute_grad`, src/learning/nnet/mod.rs lines 371-380, over the enumerated layers in reverse; the
state is `index`, `out_grad`, `gradients`. -/
def userBackward (inputs : Mat F) (acts params : List (Mat F)) :
    List (UserLayer F × ℕ) → ℕ → Mat F → List (Option F) → Outcome (ℕ × Mat F × List (Option F))
  | [], index, outGrad, g => ok (index, outGrad, g)
  | (l, i) :: ls, index, outGrad, g => do
    let activation ← layerInput inputs acts i
    let result ← getAt acts i
    let p ← getAt params i
    let gp ← l.backParams outGrad activation result p
    let g ← copyInto g (index - l.numParams) l.numParams gp.data
    let outGrad ← l.backInput outGrad activation result p
    userBackward inputs acts params ls (index - l.numParams) outGrad g

/-- `compute_grad`, src/learning/nnet/mod.rs lines 327-393. -/
def UserNet.computeGrad (net : UserNet F) (weights : List F) (inputs targets : Mat F) : Outcome (F × List F) := do
  let fw ← userForward weights inputs net.layers 0 [] []
  let output ← ofOption fw.2.1.getLast?
  let outGrad ← net.criterion.costGrad output targets
  let bw ← userBackward inputs fw.2.1 fw.2.2 net.layers.zipIdx.reverse fw.1 outGrad (List.replicate weights.length none)
  let cost ← net.criterion.cost output targets
  let g ← allInit bw.2.2
  if net.criterion.isRegularized then do
    let allParams : Mat F := ⟨1, weights.map fun w => [w]⟩
    let rg ← net.criterion.regGrad allParams
    let rc ← net.criterion.regCost allParams
    ok (cost +. rc, inPlaceBin Scalar.add g rg.data)
  else ok (cost, g)

/-- The loop of `forward_prop` over the layers after the first, src/learning/nnet/mod.rs lines 411-428. -/
def userRest (weights : List F) : List (UserLayer F) → ℕ → Mat F → Outcome (Mat F)
  | [], _, outputs => ok outputs
  | l :: ls, index, outputs => do
    let slice ← sliceAt weights index l.paramShape
    match l.forward outputs slice with
    | .ok act => userRest weights ls (index + l.numParams) act
    | .err _ => err .InvalidParameters
    | .panic => panic
    | .ub => ub

/-- `forward_prop`, src/learning/nnet/mod.rs lines 396-430; also `predict`, lines 84-86. -/
def UserNet.forwardProp (net : UserNet F) (inputs : Mat F) : Outcome (Mat F) :=
  match net.layers with
  | [] => ok inputs
  | l :: ls => do
    let slice ← sliceAt net.weights 0 l.paramShape
    let outputs ← l.forward inputs slice
    userRest net.weights ls l.numParams outputs

/-- `train`, src/learning/nnet/mod.rs lines 89-93, for any optimiser. -/
def UserNet.train (opt : ComputeGrad F → List F → Mat F → Mat F → Outcome (List F)) (net : UserNet F) (inputs targets : Mat F) :
    Outcome (UserNet F) := do
  let w ← opt net.computeGrad net.weights inputs targets
  ok ⟨net.layers, w, net.criterion⟩

/-- The layers, weights and criterion of a network of the crate's own layers, seen through the traits. -/
def BaseNet.toUser (net : BaseNet F) : UserNet F := ⟨net.layers.map NetLayer.toUser, net.weights, net.criterion.toUser⟩

end RM
