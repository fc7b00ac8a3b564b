import Verif.Base.Linalg
import Verif.Base.Logged
import Verif.Model.RandUtils
import Verif.Model.KMeans

/-! Model of src/learning/optim/grad_desc.rs. -/

namespace RM
open Outcome Scalar
variable {F : Type} [Scalar F]

/-- `LEARNING_EPS`, src/learning/optim/grad_desc.rs line 18. -/
def learningEps : F := Scalar.ofRat (1 / 10 ^ 20)

/-- The trait method `Optimizable::compute_grad`, src/lib.rs lines 176-184, for a fixed model, as a function of the
parameters, inputs and targets: the cost and the gradient. -/
abbrev ComputeGrad (F : Type) := List F → Mat F → Mat F → Outcome (F × List F)

/-- `vector * scalar` of rulinalg (external). -/
def vecScale (v : List F) (a : F) : List F := v.map fun x => x *. a

/-- `GradientDesc`, src/learning/optim/grad_desc.rs lines 22-27. -/
structure GradientDesc (F : Type) where
  alpha : F
  iters : ℕ

/-- `GradientDesc::new`, src/learning/optim/grad_desc.rs lines 57-65. -/
def GradientDesc.new (alpha : F) (iters : ℕ) : Outcome (GradientDesc F) := do
  assert (Scalar.zero <. alpha)
  ok ⟨alpha, iters⟩

/-- `GradientDesc::default`, src/learning/optim/grad_desc.rs lines 35-42. -/
def GradientDesc.default : GradientDesc F := ⟨Scalar.ofRat (3 / 10), 100⟩

/-- The loop of `GradientDesc::optimize`, src/learning/optim/grad_desc.rs lines 81-94: remaining iterations, parameters,
cost of the previous iteration. `g` is `compute_grad` on the fixed inputs and targets. The log lists the arguments of its calls. -/
def gdLoop (alpha : F) (g : List F → Outcome (F × List F)) : ℕ → List F → F → Logged (List F) (List F)
  | 0, w, _ => pure w
  | n + 1, w, prev => do
    let r ← Logged.call w (g w)
    if Scalar.abs (prev -. r.1) <. learningEps then pure w
    else do
      let w' ← Logged.lift (vecZip Scalar.sub w (vecScale r.2 alpha))
      gdLoop alpha g n w' r.1

/-- `GradientDesc::optimize`, src/learning/optim/grad_desc.rs lines 69-96. -/
def GradientDesc.optimize (o : GradientDesc F) (g : List F → Outcome (F × List F)) (start : List F) :
    Logged (List F) (List F) :=
  gdLoop o.alpha g o.iters start Scalar.zero

/-- A call of `compute_grad` by a stochastic optimiser: parameters, the selected input row(s), the selected target row(s). -/
structure SampleCall (F : Type) where
  params : List F
  input : Mat F
  target : Mat F

/-- The loop over the permuted samples, src/learning/optim/grad_desc.rs lines 181-196 (StochasticGD), 280-296 (AdaGrad),
394-410 (RMSProp): the same code up to the update of parameters and auxiliary vector, which is the argument `upd`
(parameters, auxiliary vector, gradient). The accumulated cost is threaded through. -/
def stochPass (upd : List F → List F → List F → Outcome (List F × List F)) (g : ComputeGrad F) (inputs targets : Mat F) :
    List ℕ → List F × List F × F → Logged (SampleCall F) (List F × List F × F)
  | [], s => pure s
  | i :: is, s => do
    let x ← Logged.lift (inputs.selectRows [i])
    let y ← Logged.lift (targets.selectRows [i])
    let r ← Logged.call ⟨s.1, x, y⟩ (g s.1 x y)
    let u ← Logged.lift (upd s.1 s.2.1 r.2)
    stochPass upd g inputs targets is (u.1, u.2, s.2.2 +. r.1)

/-- The loop over the epochs, src/learning/optim/grad_desc.rs lines 176-207 (StochasticGD), 275-306 (AdaGrad), 389-419
(RMSProp). `r e` is the random stream of epoch `e`; `e` counts epochs. -/
def stochLoop (upd : List F → List F → List F → Outcome (List F × List F)) (g : ComputeGrad F) (inputs targets : Mat F)
    (r : ℕ → ℕ → ℕ) : ℕ → (e : ℕ) → (perm : List ℕ) → List F → List F → (prev : F) → Logged (SampleCall F) (List F)
  | 0, _, _, w, _, _ => pure w
  | n + 1, e, perm, w, aux, prev => do
    let perm ← Logged.lift (inPlaceFisherYates (r e) perm)
    let s ← stochPass upd g inputs targets perm (w, aux, Scalar.zero)
    let endCost := s.2.2 /. Scalar.ofNat inputs.rows.length
    if Scalar.abs (prev -. endCost) <. learningEps then pure s.1
    else stochLoop upd g inputs targets r n (e + 1) perm s.1 s.2.1 endCost

/-- The common frame of the three stochastic `optimize` methods: zero auxiliary vector, identity permutation, zero cost;
src/learning/optim/grad_desc.rs lines 167-174, 266-273, 380-387. -/
def stochOptimize (upd : List F → List F → List F → Outcome (List F × List F)) (iters : ℕ) (g : ComputeGrad F)
    (r : ℕ → ℕ → ℕ) (start : List F) (inputs targets : Mat F) : Logged (SampleCall F) (List F) :=
  stochLoop upd g inputs targets r iters 0 (List.range inputs.rows.length) start
    (List.replicate start.length Scalar.zero) Scalar.zero

/-- `StochasticGD`, src/learning/optim/grad_desc.rs lines 103-110. -/
structure StochasticGD (F : Type) where
  alpha : F
  mu : F
  iters : ℕ

/-- `StochasticGD::default`, src/learning/optim/grad_desc.rs lines 119-127. -/
def StochasticGD.default : StochasticGD F := ⟨Scalar.ofRat (1 / 10), Scalar.ofRat (1 / 10), 20⟩

/-- `StochasticGD::new`, src/learning/optim/grad_desc.rs lines 144-153. -/
def StochasticGD.new (alpha mu : F) (iters : ℕ) : Outcome (StochasticGD F) := do
  assert (Scalar.zero <. alpha)
  assert (Scalar.zero <. mu)
  ok ⟨alpha, mu, iters⟩

/-- The update of `StochasticGD`, src/learning/optim/grad_desc.rs lines 187-193; the auxiliary vector is `delta_w`. -/
def sgdUpdate (alpha mu : F) (w delta grad : List F) : Outcome (List F × List F) := do
  let delta' ← vecZip Scalar.add (vecScale grad mu) (vecScale delta alpha)
  let step ← vecZip Scalar.add (vecScale delta (Scalar.neg alpha)) (vecScale delta' (Scalar.one +. alpha))
  let w' ← vecZip Scalar.sub w step
  ok (w', delta')

/-- `StochasticGD::optimize`, src/learning/optim/grad_desc.rs lines 159-209. -/
def StochasticGD.optimize (o : StochasticGD F) (g : ComputeGrad F) (r : ℕ → ℕ → ℕ) (start : List F) (inputs targets : Mat F) :
    Logged (SampleCall F) (List F) :=
  stochOptimize (sgdUpdate o.alpha o.mu) o.iters g r start inputs targets

/-- `utils::in_place_vec_bin_op` of rulinalg (external): updates the common prefix of the first slice. -/
def inPlaceBin (f : F → F → F) (u v : List F) : List F := List.zipWith f u v ++ u.drop v.length

/-- `AdaGrad`, src/learning/optim/grad_desc.rs lines 216-220. -/
structure AdaGrad (F : Type) where
  alpha : F
  tau : F
  iters : ℕ

/-- `AdaGrad::default`, src/learning/optim/grad_desc.rs lines 247-255. -/
def AdaGrad.default : AdaGrad F := ⟨Scalar.one, Scalar.ofRat 3, 100⟩

/-- `AdaGrad::new`, src/learning/optim/grad_desc.rs lines 234-244. -/
def AdaGrad.new (alpha tau : F) (iters : ℕ) : Outcome (AdaGrad F) := do
  assert (Scalar.zero <. alpha)
  assert (Scalar.zero <=. tau)
  ok ⟨alpha, tau, iters⟩

/-- The update of `AdaGrad`, src/learning/optim/grad_desc.rs lines 285-293; the auxiliary vector is `ada_s`. -/
def adaUpdate (alpha tau : F) (w s grad : List F) : Outcome (List F × List F) := do
  let s' := inPlaceBin (fun x y => x +. y *. y) s grad
  let step := inPlaceBin (fun x y => alpha *. (x /. (tau +. Scalar.sqrt y))) grad s'
  let w' ← vecZip Scalar.sub w step
  ok (w', s')

/-- `AdaGrad::optimize`, src/learning/optim/grad_desc.rs lines 258-308. -/
def AdaGrad.optimize (o : AdaGrad F) (g : ComputeGrad F) (r : ℕ → ℕ → ℕ) (start : List F) (inputs targets : Mat F) :
    Logged (SampleCall F) (List F) :=
  stochOptimize (adaUpdate o.alpha o.tau) o.iters g r start inputs targets

/-- `RMSProp`, src/learning/optim/grad_desc.rs lines 315-324. -/
structure RMSProp (F : Type) where
  learningRate : F
  decayRate : F
  epsilon : F
  iters : ℕ

/-- `RMSProp::default`, src/learning/optim/grad_desc.rs lines 334-343. -/
def RMSProp.default : RMSProp F := ⟨Scalar.ofRat (1 / 100), Scalar.ofRat (9 / 10), Scalar.ofRat (1 / 10 ^ 5), 50⟩

/-- `RMSProp::new`, src/learning/optim/grad_desc.rs lines 357-368. -/
def RMSProp.new (learningRate decayRate epsilon : F) (iters : ℕ) : Outcome (RMSProp F) := do
  assert (Scalar.zero <. learningRate)
  assert (Scalar.zero <. decayRate && decayRate <. Scalar.one)
  assert (Scalar.zero <. epsilon)
  ok ⟨learningRate, decayRate, epsilon, iters⟩

/-- The update of `RMSProp`, src/learning/optim/grad_desc.rs lines 399-407; the auxiliary vector is `rmsprop_cache`. -/
def rmsUpdate (lr decay eps : F) (w cache grad : List F) : Outcome (List F × List F) := do
  let sq := grad.map fun x => x *. x
  let cache' ← vecZip Scalar.add (vecScale cache decay) (vecScale sq (Scalar.one -. decay))
  let step := inPlaceBin (fun x y => (x *. lr) /. Scalar.sqrt (y +. eps)) grad cache'
  let w' ← vecZip Scalar.sub w step
  ok (w', cache')

/-- `RMSProp::optimize`, src/learning/optim/grad_desc.rs lines 373-421. -/
def RMSProp.optimize (o : RMSProp F) (g : ComputeGrad F) (r : ℕ → ℕ → ℕ) (start : List F) (inputs targets : Mat F) :
    Logged (SampleCall F) (List F) :=
  stochOptimize (rmsUpdate o.learningRate o.decayRate o.epsilon) o.iters g r start inputs targets

end RM
