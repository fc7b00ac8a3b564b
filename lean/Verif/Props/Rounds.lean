import Verif.Props.Optim
import Verif.Props.FreshFolds
import Verif.Proofs.NNet
import Verif.Model.Calls

/-! C117: training in several rounds. -/

set_option linter.unusedSectionVars false

namespace RM
open Outcome Scalar Spec
variable {F : Type} [Scalar F]

theorem descentPoint_add (alpha : F) (df : List F → List F) (start : List F) (n i : ℕ) :
    descentPoint alpha df (descentPoint alpha df start n) i = descentPoint alpha df start (n + i) := by
  induction i with
  | zero => rfl
  | succ i ih => rw [descentPoint, ih, ← Nat.add_assoc, descentPoint]

/-- The number of steps is determined by where the cost repeats. -/
theorem steps_unique {Same : ℕ → Prop} {N j j' : ℕ} (h1 : j ≤ N) (h2 : ∀ i < j, ¬ Same i) (h3 : j < N → Same j) (h1' : j' ≤ N) (h2' : ∀ i < j', ¬ Same i)
    (h3' : j' < N → Same j') : j = j' := by
  rcases lt_trichotomy j j' with h | h | h
  · exact absurd (h3 (by omega)) (h2' j h)
  · exact h
  · exact absurd (h3' (by omega)) (h2 j' h)

/-- **C117 (gradient descent).** Two rounds of gradient descent, the second starting where the first ended, are one round with the sum of the iterations: the
same evaluations and the same result, as long as the costs of the first `n` steps differ and the cost at the seam is not zero. Any arithmetic. -/
theorem C117_gradient_descent (alpha : F) (n m : ℕ) (g : List F → Outcome (F × List F)) (f : List F → F) (df : List F → List F) (start : List F)
    (hg : ∀ w : List F, w.length = start.length → g w = ok (f w, df w) ∧ (df w).length = start.length)
    (hdiff : ∀ i ≤ n, ¬ SameCost (costBefore (fun i => f (descentPoint alpha df start i)) i) (f (descentPoint alpha df start i)))
    (hseam : ¬ SameCost Scalar.zero (f (descentPoint alpha df start n))) :
    ∃ w, ((⟨alpha, n⟩ : GradientDesc F).optimize g start).out = ok w ∧
      ((⟨alpha, n + m⟩ : GradientDesc F).optimize g start).out = ((⟨alpha, m⟩ : GradientDesc F).optimize g w).out ∧
      ((⟨alpha, n + m⟩ : GradientDesc F).optimize g start).log =
        ((⟨alpha, n⟩ : GradientDesc F).optimize g start).log ++ ((⟨alpha, m⟩ : GradientDesc F).optimize g w).log := by
  obtain ⟨j1, a1, a2, a3, a4, a5⟩ := C44_trajectory ⟨alpha, n⟩ g f df start hg
  obtain ⟨j, b1, b2, b3, b4, b5⟩ := C44_trajectory ⟨alpha, n + m⟩ g f df start hg
  simp only at a1 a2 a3 a4 a5 b1 b2 b3 b4 b5
  have hj1 : j1 = n := by
    rcases a1.lt_or_eq with h | h
    · exact absurd (a5 h) (hdiff j1 a1)
    · exact h
  subst hj1
  have hl := descentPoint_length alpha df start (fun w h => (hg w h).2) j1
  obtain ⟨j2, c1, c2, c3, c4, c5⟩ := C44_trajectory ⟨alpha, m⟩ g f df (descentPoint alpha df start j1) (by
    intro w hw
    rw [hl] at hw ⊢
    exact hg w hw)
  simp only [descentPoint_add] at c1 c2 c3 c4 c5
  -- the two runs test the same costs, except at the seam, where neither stops
  have hsame : ∀ i, SameCost (costBefore (fun i => f (descentPoint alpha df start (j1 + i))) i) (f (descentPoint alpha df start (j1 + i))) ↔
      SameCost (costBefore (fun i => f (descentPoint alpha df start i)) (j1 + i)) (f (descentPoint alpha df start (j1 + i))) := by
    intro i
    cases i with
    | zero => exact ⟨fun h => absurd h hseam, fun h => absurd h (hdiff j1 le_rfl)⟩
    | succ i => exact Iff.rfl
  have hj : j = j1 + j2 := by
    refine steps_unique b1 b4 b5 (by omega) ?_ ?_
    · intro i hi
      rcases lt_or_ge i j1 with h | h
      · exact hdiff i h.le
      · obtain ⟨k, rfl⟩ := Nat.exists_eq_add_of_le h
        rw [← hsame]
        exact c4 k (by omega)
    · intro h
      rw [← hsame]
      exact c5 (by omega)
  refine ⟨_, a2, by rw [b2, c2, hj], ?_⟩
  rw [a3, b3, c3, hj]
  have e1 : min (j1 + 1) j1 = j1 := by omega
  have e2 : min (j1 + j2 + 1) (j1 + m) = j1 + min (j2 + 1) m := by omega
  rw [e1, e2, List.range_add, List.map_append, List.map_map]
  congr 1
  exact List.map_congr_left fun i _ => (descentPoint_add alpha df start j1 i).symm

/-- **C117 (more iterations after an early stop).** If the cost repeats after `j < n` steps, no number of further iterations changes the result. -/
theorem C117_early_stop (alpha : F) (n m : ℕ) (g : List F → Outcome (F × List F)) (f : List F → F) (df : List F → List F) (start : List F)
    (hg : ∀ w : List F, w.length = start.length → g w = ok (f w, df w) ∧ (df w).length = start.length)
    (hstop : ∃ j < n, SameCost (costBefore (fun i => f (descentPoint alpha df start i)) j) (f (descentPoint alpha df start j))) :
    ((⟨alpha, n + m⟩ : GradientDesc F).optimize g start).out = ((⟨alpha, n⟩ : GradientDesc F).optimize g start).out := by
  obtain ⟨j1, a1, a2, -, a4, a5⟩ := C44_trajectory ⟨alpha, n⟩ g f df start hg
  obtain ⟨j, b1, b2, -, b4, b5⟩ := C44_trajectory ⟨alpha, n + m⟩ g f df start hg
  simp only at a1 a2 a4 a5 b1 b2 b4 b5
  obtain ⟨k, hk, hs⟩ := hstop
  have h1 : j1 ≤ k := by
    by_contra h
    exact a4 k (by omega) hs
  have : j = j1 := steps_unique b1 b4 b5 (by omega) a4 (fun _ => a5 (by omega))
  rw [a2, b2, this]

/-- The gradient descent of a network as an optimiser on its inputs and targets. -/
def gdOn (o : GradientDesc F) (g : ComputeGrad F) (start : List F) (inputs targets : Mat F) : Outcome (List F) :=
  (o.optimize (fun w => g w inputs targets) start).out

/-- **C117 (networks).** Training a network by gradient descent for `n` and then for `m` iterations is training it for `n + m` iterations. -/
theorem C117_network (alpha : F) (n m : ℕ) (net : BaseNet F) (X Y : Mat F) (f : List F → F) (df : List F → List F)
    (hg : ∀ w : List F, w.length = net.weights.length → net.computeGrad w X Y = ok (f w, df w) ∧ (df w).length = net.weights.length)
    (hdiff : ∀ i ≤ n, ¬ SameCost (costBefore (fun i => f (descentPoint alpha df net.weights i)) i) (f (descentPoint alpha df net.weights i)))
    (hseam : ¬ SameCost Scalar.zero (f (descentPoint alpha df net.weights n))) :
    ∃ mid, net.trainCall (gdOn ⟨alpha, n⟩) X Y = (mid, ok ()) ∧
      mid.trainCall (gdOn ⟨alpha, m⟩) X Y = ((net.trainCall (gdOn ⟨alpha, n + m⟩) X Y).1, ok ()) ∧ (net.trainCall (gdOn ⟨alpha, n + m⟩) X Y).2 = ok () := by
  obtain ⟨w, h1, h2, -⟩ := C117_gradient_descent alpha n m (fun w => net.computeGrad w X Y) f df net.weights hg hdiff hseam
  obtain ⟨j, -, h3, -⟩ := C44_trajectory ⟨alpha, n + m⟩ (fun w => net.computeGrad w X Y) f df net.weights hg
  refine ⟨⟨net.layers, w, net.criterion⟩, ?_, ?_, ?_⟩
  · simp only [BaseNet.trainCall, BaseNet.train, gdOn, h1, ok_bind, assignLast]
  · have e : (fun v => (⟨net.layers, w, net.criterion⟩ : BaseNet F).computeGrad v X Y) = fun v => net.computeGrad v X Y := rfl
    simp only [BaseNet.trainCall, BaseNet.train, gdOn, e, ← h2, h3, ok_bind, assignLast]
  · simp only [BaseNet.trainCall, BaseNet.train, gdOn, h3, ok_bind, assignLast]

/-- The hypotheses of `C117_network` (and so of `C117_gradient_descent`) hold for the network of one weight, the sample `(1, 0)` and the weight 1: with step 1/2
the weights are 1, 1/2, 1/4 and the costs 1/2, 1/8, 1/32, so one iteration and then `m` more are `m + 1` iterations. -/
example (m : ℕ) : ∃ mid, (oneWeight 1).trainCall (gdOn ⟨1 / 2, 1⟩) ⟨1, [[1]]⟩ ⟨1, [[0]]⟩ = (mid, ok ()) ∧
    mid.trainCall (gdOn ⟨1 / 2, m⟩) ⟨1, [[1]]⟩ ⟨1, [[0]]⟩ = (((oneWeight 1).trainCall (gdOn ⟨1 / 2, 1 + m⟩) ⟨1, [[1]]⟩ ⟨1, [[0]]⟩).1, ok ()) ∧
    ((oneWeight 1).trainCall (gdOn ⟨1 / 2, 1 + m⟩) ⟨1, [[1]]⟩ ⟨1, [[0]]⟩).2 = ok () := by
  refine C117_network (1 / 2) 1 m (oneWeight 1) _ _ (fun w => (w.getD 0 0) ^ 2 / 2) (fun w => w) ?_ ?_ ?_
  · intro w hw
    match w, hw with
    | [x], _ =>
      refine ⟨?_, rfl⟩
      have h := oneWeight_grad x 0
      rw [sub_zero] at h
      exact h
  · intro i hi
    interval_cases i
    · simp [costBefore, SameCost, descentPoint, oneWeight]
      norm_num
    · simp [costBefore, SameCost, descentPoint, oneWeight]
      norm_num
  · simp [SameCost, descentPoint, oneWeight]
    norm_num

/-- The hypotheses of `C117_early_stop` hold for the constant cost 1 with gradient 0: the second cost repeats the first. -/
example : ∃ j < 2, SameCost (costBefore (fun i => (fun _ : List ℝ => (1 : ℝ)) (descentPoint (1 / 2) (fun _ => [0]) [3] i)) j)
    ((fun _ : List ℝ => (1 : ℝ)) (descentPoint (1 / 2) (fun _ => [0]) [3] j)) :=
  ⟨1, by norm_num, by simp [costBefore, SameCost]⟩

/-- The cost `w²/2` with gradient `w`, whatever the sample. -/
noncomputable def halfSquare : ComputeGrad ℝ := fun w _ _ => ok ((w.getD 0 0) ^ 2 / 2, w)

/-- **C117 (momentum).** A stochastic optimiser with momentum starts every round at rest: on the cost `w²/2`, one sample, from 1, two rounds of one epoch end
`alpha² mu` away from one round of two epochs. -/
theorem C117_momentum (alpha mu : ℝ) (r : ℕ → ℕ → ℕ) :
    ∃ mid two one, ((⟨alpha, mu, 1⟩ : StochasticGD ℝ).optimize halfSquare r [1] ⟨1, [[0]]⟩ ⟨1, [[0]]⟩).out = ok [mid] ∧
      ((⟨alpha, mu, 1⟩ : StochasticGD ℝ).optimize halfSquare r [mid] ⟨1, [[0]]⟩ ⟨1, [[0]]⟩).out = ok [two] ∧
      ((⟨alpha, mu, 2⟩ : StochasticGD ℝ).optimize halfSquare r [1] ⟨1, [[0]]⟩ ⟨1, [[0]]⟩).out = ok [one] ∧ two - one = alpha ^ 2 * mu := by
  have hfy : ∀ e, inPlaceFisherYates (r e) [0] = ok [0] := by
    intro e
    simp [inPlaceFisherYates, inPlaceFYStep, genRange, List.range_succ, Nat.mod_one, swapAt]
  have pass : ∀ (w d c : ℝ), stochPass (sgdUpdate alpha mu) halfSquare ⟨1, [[0]]⟩ ⟨1, [[0]]⟩ [0] ([w], [d], c) =
      ⟨[⟨[w], ⟨1, [[0]]⟩, ⟨1, [[0]]⟩⟩], ok ([w - (-(d * alpha) + (w * mu + d * alpha) * (1 + alpha))], [w * mu + d * alpha], c + w ^ 2 / 2)⟩ := by
    intro w d c
    simp [stochPass, Mat.selectRows, getAt, halfSquare, sgdUpdate, vecZip, vecScale, Logged.bind_def, Logged.bind, Logged.lift, Logged.call]
  have ep : ∀ (w d prev : ℝ) (n e : ℕ), (stochLoop (sgdUpdate alpha mu) halfSquare ⟨1, [[0]]⟩ ⟨1, [[0]]⟩ r (n + 1) e [0] [w] [d] prev).out =
      if Scalar.abs (prev -. (w ^ 2 / 2)) <. (learningEps : ℝ) then ok [w - (-(d * alpha) + (w * mu + d * alpha) * (1 + alpha))]
      else (stochLoop (sgdUpdate alpha mu) halfSquare ⟨1, [[0]]⟩ ⟨1, [[0]]⟩ r n (e + 1) [0] [w - (-(d * alpha) + (w * mu + d * alpha) * (1 + alpha))]
        [w * mu + d * alpha] (w ^ 2 / 2)).out := by
    intro w d prev n e
    have hz : (Scalar.zero : ℝ) + w ^ 2 / 2 = w ^ 2 / 2 := by simp
    have h1 : (w ^ 2 / 2) /. (Scalar.ofNat 1 : ℝ) = w ^ 2 / 2 := by simp
    rw [stochLoop, hfy e, Logged.lift_ok_bind, pass, Logged.mk_ok_bind]
    simp only [hz, List.length_cons, List.length_nil, zero_add, h1]
    split <;> rfl
  have last : ∀ (w d prev : ℝ) (e : ℕ), (stochLoop (sgdUpdate alpha mu) halfSquare ⟨1, [[0]]⟩ ⟨1, [[0]]⟩ r 1 e [0] [w] [d] prev).out =
      ok [w - (-(d * alpha) + (w * mu + d * alpha) * (1 + alpha))] := by
    intro w d prev e
    rw [ep w d prev 0 e]
    split <;> rfl
  have h0 : (List.replicate [(1 : ℝ)].length (Scalar.zero : ℝ)) = [0] := by simp
  refine ⟨1 - (-(0 * alpha) + (1 * mu + 0 * alpha) * (1 + alpha)), _,
    1 - (-(0 * alpha) + (1 * mu + 0 * alpha) * (1 + alpha)) - (-((1 * mu + 0 * alpha) * alpha) + ((1 - (-(0 * alpha) + (1 * mu + 0 * alpha) * (1 + alpha))) * mu + (1 * mu + 0 * alpha) * alpha) * (1 + alpha)),
    last 1 0 0 0, last _ 0 0 0, ?_, ?_⟩
  · show (stochLoop (sgdUpdate alpha mu) halfSquare ⟨1, [[0]]⟩ ⟨1, [[0]]⟩ r 2 0 [0] [1] [0] 0).out = _
    rw [ep 1 0 0 1 0, if_neg, last]
    simp [learningEps]
    norm_num
  · ring

end RM
