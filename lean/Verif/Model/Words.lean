import Verif.Model.NNet
import Verif.Model.BinaryTree

/-! Sizes as machine words. The other models compute sizes in the natural numbers; here the size arithmetic of the network
constructors and of a search, the places where a size given by the caller is used before anything checks it, is that of `usize` on a
64-bit machine. -/

namespace RM
open Outcome Scalar
variable {F : Type} [Scalar F]

/-- How the crate is compiled: in a debug build overflowing arithmetic panics and `debug_assert`s are checked; in a release build
(the profile of /repo/Cargo.toml is the default one) arithmetic wraps and there are no `debug_assert`s. -/
inductive Build
  | debug
  | release

/-- `a + b` on `usize`, as used in src/learning/nnet/net_layer.rs lines 59, 144 and src/learning/nnet/mod.rs lines 315, 362, 428. -/
def wadd (B : Build) (a b : ℕ) : Outcome ℕ :=
  if a + b < 2 ^ 64 then ok (a + b) else match B with
    | .debug => panic
    | .release => ok ((a + b) % 2 ^ 64)

/-- `a * b` on `usize`, as used in src/learning/nnet/net_layer.rs lines 35, 147 and src/learning/nnet/mod.rs line 278. -/
def wmul (B : Build) (a b : ℕ) : Outcome ℕ :=
  if a * b < 2 ^ 64 then ok (a * b) else match B with
    | .debug => panic
    | .release => ok ((a * b) % 2 ^ 64)

/-- `a - b` on `usize`, as used in src/learning/nnet/mod.rs line 278. -/
def wsub (B : Build) (a b : ℕ) : Outcome ℕ :=
  if b ≤ a then ok (a - b) else match B with
    | .debug => panic
    | .release => ok (a + 2 ^ 64 - b)

/-- `debug_assert!(p)`. -/
def debugAssert (B : Build) (p : Prop) [Decidable p] : Outcome Unit :=
  match B with
  | .debug => if p then ok () else panic
  | .release => ok ()

/-- Reserving memory for `n` elements of so many bytes (`Vec::with_capacity`, `collect` and `extend_from_slice` of a known length):
requests of more than `isize::MAX` bytes panic ("capacity overflow"). Smaller requests that the machine cannot meet abort the
process; that is not modelled. -/
def reserve (bytes n : ℕ) : Outcome Unit := if n * bytes < 2 ^ 63 then ok () else panic

/-- `Linear::new`, src/learning/nnet/net_layer.rs lines 57-63. -/
def NetLayer.newW (B : Build) (inputSize outputSize : ℕ) : Outcome (NetLayer F) := do
  let i ← wadd B inputSize 1
  ok (.linear i outputSize true)

/-- `num_params`, src/learning/nnet/net_layer.rs lines 33-36. -/
def NetLayer.numParamsW (B : Build) (l : NetLayer F) : Outcome ℕ := wmul B l.paramShape.1 l.paramShape.2

/-- `default_params`, src/learning/nnet/net_layer.rs lines 143-149, 178-180. -/
def NetLayer.defaultParamsW (B : Build) (r : ℕ → F) : NetLayer F → Outcome (List F)
  | .linear i o _ => do
    let s ← wadd B i o
    let n ← wmul B i o
    reserve 8 n
    ok ((List.range n).map fun j => Scalar.zero +. (Scalar.sqrt (Scalar.ofRat 2 /. Scalar.ofNat s) *. r j))
  | .activ _ => ok []

/-- `add`, src/learning/nnet/mod.rs lines 290-294. -/
def BaseNet.addW (B : Build) (net : BaseNet F) (l : NetLayer F) (r : ℕ → F) : Outcome (BaseNet F) := do
  let p ← l.defaultParamsW B r
  reserve 8 (net.weights.length + p.length)
  ok ⟨net.layers ++ [l], net.weights ++ p, net.criterion⟩

/-- The loop of `mlp`, src/learning/nnet/mod.rs lines 282-285. -/
def mlpLoopW (B : Build) (A : Activ F) (r : ℕ → ℕ → F) : BaseNet F → ℕ → List ℕ → Outcome (BaseNet F)
  | net, i, a :: b :: rest => do
    let l ← NetLayer.newW B a b
    let net ← net.addW B l (r i)
    let net ← net.addW B (.activ A) (r i)
    mlpLoopW B A r net (i + 1) (b :: rest)
  | net, _, _ => ok net

/-- `mlp`, src/learning/nnet/mod.rs lines 275-287; a boxed layer takes 16 bytes. -/
def BaseNet.mlpW (B : Build) (sizes : List ℕ) (c : Criterion F) (A : Activ F) (r : ℕ → ℕ → F) : Outcome (BaseNet F) := do
  let n ← wsub B sizes.length 1
  let n ← wmul B 2 n
  reserve 16 n
  mlpLoopW B A r (BaseNet.new c) 0 sizes

/-- `layers.iter().map(|l| l.num_params()).sum()`, src/learning/nnet/mod.rs lines 311, 315. -/
def sumParamsW (B : Build) : ℕ → List (NetLayer F) → Outcome ℕ
  | acc, [] => ok acc
  | acc, l :: ls => do
    let n ← l.numParamsW B
    let acc ← wadd B acc n
    sumParamsW B acc ls

/-- `get_layer_weights`, src/learning/nnet/mod.rs lines 307-324. -/
def BaseNet.layerWeightsW (B : Build) (net : BaseNet F) (weights : List F) (idx : ℕ) : Outcome (Mat F) := do
  debugAssert B (idx < net.layers.length)
  let full ← sumParamsW B 0 net.layers
  debugAssert B (full = weights.length)
  let start ← sumParamsW B 0 (net.layers.take idx)
  let l ← getAt net.layers idx
  sliceAt weights start l.paramShape

/-- `get_net_weights`, src/learning/nnet/mod.rs lines 239-241. -/
def BaseNet.netWeightsW (B : Build) (net : BaseNet F) (idx : ℕ) : Outcome (Mat F) := net.layerWeightsW B net.weights idx

/-- The loop of `forward_prop`, src/learning/nnet/mod.rs lines 411-428. -/
def forwardRestW (B : Build) (weights : List F) : List (NetLayer F) → ℕ → Mat F → Outcome (Mat F)
  | [], _, outputs => ok outputs
  | l :: ls, index, outputs => do
    let slice ← sliceAt weights index l.paramShape
    match l.forward outputs slice with
    | .ok act => do
      let n ← l.numParamsW B
      let index ← wadd B index n
      forwardRestW B weights ls index act
    | .err _ => err .InvalidParameters
    | .panic => panic
    | .ub => ub

/-- `forward_prop`, src/learning/nnet/mod.rs lines 396-430; also `predict`, lines 84-86. The `+ 1` on the number of columns of the
input in `forward` (src/learning/nnet/net_layer.rs line 107) is left exact. -/
def BaseNet.forwardPropW (B : Build) (net : BaseNet F) (inputs : Mat F) : Outcome (Mat F) :=
  match net.layers with
  | [] => ok inputs
  | l :: ls => do
    let slice ← sliceAt net.weights 0 l.paramShape
    let outputs ← l.forward inputs slice
    let index ← l.numParamsW B
    forwardRestW B net.weights ls index outputs

/-- The forward loop of `compute_grad`, src/learning/nnet/mod.rs lines 344-363. -/
def netForwardW (B : Build) (weights : List F) (inputs : Mat F) :
    List (NetLayer F) → ℕ → List (Mat F) → List (Mat F) → Outcome (ℕ × List (Mat F) × List (Mat F))
  | [], index, acts, ps => ok (index, acts, ps)
  | l :: ls, index, acts, ps => do
    let slice ← sliceAt weights index l.paramShape
    let output ← (l.forward (acts.getLast?.getD inputs) slice).unwrap
    let n ← l.numParamsW B
    let index ← wadd B index n
    netForwardW B weights inputs ls index (acts ++ [output]) (ps ++ [slice])

/-- The backward loop of `compute_grad`, src/learning/nnet/mod.rs lines 371-380. The range `index..index+n` is given to the copy by
its start and length; where `index + n` wraps, the range is empty or backwards and slicing panics. -/
def netBackwardW (B : Build) (inputs : Mat F) (acts params : List (Mat F)) :
    List (NetLayer F × ℕ) → ℕ → Mat F → List (Option F) → Outcome (List (Option F))
  | [], _, _, g => ok g
  | (l, i) :: ls, index, outGrad, g => do
    let activation ← layerInput inputs acts i
    let result ← getAt acts i
    let n ← l.numParamsW B
    let index ← wsub B index n
    let stop ← wadd B index n
    let p ← getAt params i
    let gp ← l.backParams outGrad activation
    let g ← if stop < index then panic else copyInto g index (stop - index) gp.data
    let outGrad ← l.backInput outGrad result p
    netBackwardW B inputs acts params ls index outGrad g

/-- `compute_grad`, src/learning/nnet/mod.rs lines 327-393. -/
def BaseNet.computeGradW (B : Build) (net : BaseNet F) (weights : List F) (inputs targets : Mat F) : Outcome (F × List F) := do
  let fw ← netForwardW B weights inputs net.layers 0 [] []
  let output ← ofOption fw.2.1.getLast?
  let outGrad ← net.criterion.costGrad output targets
  let g ← netBackwardW B inputs fw.2.1 fw.2.2 net.layers.zipIdx.reverse fw.1 outGrad (List.replicate weights.length none)
  let cost ← net.criterion.cost output targets
  let g ← allInit g
  if net.criterion.isRegularized then do
    let allParams : Mat F := ⟨1, weights.map fun w => [w]⟩
    let rg ← regGrad net.criterion.reg allParams
    ok (cost +. regCost net.criterion.reg allParams, inPlaceBin Scalar.add g rg.data)
  else ok (cost, g)

/-- `BinaryTree::search`, src/learning/knn/binary_tree.rs lines 398-428, with the two reservations of `get_results`,
src/learning/knn/mod.rs lines 223-225. -/
def treeSearchW {S : Type} (K : SplitKind F S) (t : BinaryTree F S) (point : List F) (k : ℕ) : Outcome (List ℕ × List F) :=
  match t.data, t.root with
  | some data, some root => do
    let (query, queue) ← searchLeaf data point k root []
    let pairs ← searchQueue K data point k queue query
    reserve 8 k
    reserve 8 k
    ok (knearestResults pairs)
  | _, _ => err .UntrainedModel

end RM
