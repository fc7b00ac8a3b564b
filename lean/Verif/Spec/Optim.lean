import Verif.Model.Optim

/-! Specification vocabulary for the optimisers. -/

namespace RM.Spec
open Outcome Scalar

section
variable {F : Type} [Scalar F]

/-- The points of gradient descent with step `alpha`: `w₀ = start`, `wⱼ₊₁ = wⱼ - alpha * grad wⱼ`, coordinate by coordinate. -/
def descentPoint (alpha : F) (grad : List F → List F) (start : List F) : ℕ → List F
  | 0 => start
  | j + 1 => List.zipWith (fun x d => x -. d *. alpha) (descentPoint alpha grad start j) (grad (descentPoint alpha grad start j))

/-- Two consecutive costs count as equal. -/
def SameCost (a b : F) : Prop := (Scalar.abs (a -. b) <. Scalar.ofRat (1 / 10 ^ 20)) = true

/-- The cost before step `j`, 0 before the first one. -/
def costBefore (cost : ℕ → F) : ℕ → F
  | 0 => Scalar.zero
  | j + 1 => cost j

/-- One training sample: its input row and its target row. -/
abbrev Sample (F : Type) := List F × List F

/-- The sample of index `i` of a data set. -/
def sampleAt (inputs targets : Mat F) (i : ℕ) : Sample F := (inputs.rows.getD i [], targets.rows.getD i [])

/-- A coordinate rule: (parameter, memory, gradient) to (new parameter, new memory). -/
abbrev CoordRule (F : Type) := F → F → F → F × F

/-- Applying a coordinate rule to all coordinates. -/
def CoordRule.step (u : CoordRule F) (s : List F × List F) (g : List F) : List F × List F :=
  let r := List.zipWith (fun (p : F × F) d => u p.1 p.2 d) (List.zip s.1 s.2) g
  (r.map Prod.fst, r.map Prod.snd)

/-- The states after processing a list of samples one after the other: the state before each sample, in order. -/
def statesBefore (u : CoordRule F) (grad : List F → Sample F → List F) : List (Sample F) → List F × List F → List (List F × List F)
  | [], _ => []
  | x :: xs, s => s :: statesBefore u grad xs (u.step s (grad s.1 x))

/-- The state after processing a list of samples. -/
def stateAfter (u : CoordRule F) (grad : List F → Sample F → List F) (xs : List (Sample F)) (s : List F × List F) :
    List F × List F :=
  xs.foldl (fun s x => u.step s (grad s.1 x)) s

/-- The state at the start of epoch `e` when epoch `i` processes the samples `epoch i`. -/
def epochState (u : CoordRule F) (grad : List F → Sample F → List F) (epoch : ℕ → List (Sample F)) (s : List F × List F) :
    ℕ → List F × List F
  | 0 => s
  | e + 1 => stateAfter u grad (epoch e) (epochState u grad epoch s e)

/-- Nesterov momentum: velocity `d' = mu*g + alpha*d`, `w' = w - ((1+alpha)*d' - alpha*d)`. -/
def sgdRule (alpha mu : F) : CoordRule F := fun w d g =>
  let d' := g *. mu +. d *. alpha
  (w -. (d *. Scalar.neg alpha +. d' *. (Scalar.one +. alpha)), d')

/-- AdaGrad: `s' = s + g²`, `w' = w - alpha * g / (tau + sqrt s')`. -/
def adaRule (alpha tau : F) : CoordRule F := fun w s g =>
  let s' := s +. g *. g
  (w -. alpha *. (g /. (tau +. Scalar.sqrt s')), s')

/-- RMSProp: `c' = decay*c + (1-decay)*g²`, `w' = w - lr * g / sqrt (c' + eps)`. -/
def rmsRule (lr decay eps : F) : CoordRule F := fun w c g =>
  let c' := c *. decay +. (g *. g) *. (Scalar.one -. decay)
  (w -. (g *. lr) /. Scalar.sqrt (c' +. eps), c')

/-- A call for a given state and sample. -/
def callOf (ic tc : ℕ) (s : List F × List F) (x : Sample F) : SampleCall F := ⟨s.1, ⟨ic, [x.1]⟩, ⟨tc, [x.2]⟩⟩

/-- On every single sample of the data set the model computes the cost `f` and the gradient `df`, of length `len`. -/
def Computes (g : ComputeGrad F) (f : List F → Sample F → F) (df : List F → Sample F → List F) (inputs targets : Mat F) (len : ℕ) : Prop :=
  ∀ w : List F, w.length = len → (∀ x : Sample F, (df w x).length = len) ∧
    ∀ i < inputs.rows.length, i < targets.rows.length → g w ⟨inputs.cols, [inputs.rows.getD i []]⟩ ⟨targets.cols, [targets.rows.getD i []]⟩ =
      ok (f w (sampleAt inputs targets i), df w (sampleAt inputs targets i))

/-- The order of the samples before epoch `e`. -/
def prevOrder (order : ℕ → List ℕ) (N : ℕ) : ℕ → List ℕ
  | 0 => List.range N
  | e + 1 => order e

/-- The calls of an epoch: state before each sample, and the sample. -/
def epochCalls (u : CoordRule F) (df : List F → Sample F → List F) (ic tc : ℕ) (xs : List (Sample F)) (s : List F × List F) :
    List (SampleCall F) := List.zipWith (callOf ic tc) (statesBefore u df xs s) xs

/-- The mean cost seen in an epoch. -/
def epochCost (u : CoordRule F) (f : List F → Sample F → F) (df : List F → Sample F → List F) (xs : List (Sample F))
    (s : List F × List F) : F :=
  fsum (List.zipWith (fun t x => f t.1 x) (statesBefore u df xs s) xs) /. Scalar.ofNat xs.length

/-- A run of a stochastic optimiser with coordinate rule `u` on a data set, as seen by the model and the caller.
Epoch `e` processes all samples in the order `order e`, obtained by shuffling the previous order; in every call the
model gets the current parameters and one sample; the run stops after the first epoch whose mean cost repeats the previous
one (0 at the start), or after `iters` epochs; the result is the state after the last epoch. -/
def StochRun (u : CoordRule F) (iters : ℕ) (f : List F → Sample F → F) (df : List F → Sample F → List F) (r : ℕ → ℕ → ℕ)
    (start : List F) (inputs targets : Mat F) (res : Logged (SampleCall F) (List F)) : Prop :=
  ∃ (order : ℕ → List ℕ) (S : ℕ → List F × List F) (cost : ℕ → F) (epochs : ℕ),
    (∀ e, inPlaceFisherYates (r e) (prevOrder order inputs.rows.length e) = ok (order e)) ∧
    (∀ e, (order e).Perm (List.range inputs.rows.length)) ∧
    (S = epochState u df (fun e => (order e).map (sampleAt inputs targets)) (start, List.replicate start.length Scalar.zero)) ∧
    (∀ e, cost e = epochCost u f df ((order e).map (sampleAt inputs targets)) (S e)) ∧
    epochs ≤ iters ∧
    res.log = (List.range epochs).flatMap (fun e =>
      epochCalls u df inputs.cols targets.cols ((order e).map (sampleAt inputs targets)) (S e)) ∧
    res.out = ok (S epochs).1 ∧
    (∀ e, e + 1 < epochs → ¬ SameCost (costBefore cost e) (cost e)) ∧
    (epochs < iters → ∃ e, epochs = e + 1 ∧ SameCost (costBefore cost e) (cost e))

end

/-- A finite vector, as floats with special values. -/
def fins (v : List ℝ) : List XR := v.map XR.fin

/-- A model that computes the finite cost `f` and the finite gradient `df` on finite vectors of length `n`. -/
def FiniteModel (g : List XR → Outcome (XR × List XR)) (f : List ℝ → ℝ) (df : List ℝ → List ℝ) (n : ℕ) : Prop :=
  ∀ v : List ℝ, v.length = n → g (fins v) = ok (.fin (f v), fins (df v)) ∧ (df v).length = n

end RM.Spec
