import Verif.Proofs.Optim
import Verif.Proofs.RealMat

/-!
C44 (batch gradient descent), C45 (stochastic optimisers visit each sample once per epoch), C46 (bounded steps).
-/

namespace RM
open Outcome Scalar Spec
set_option linter.unusedSectionVars false
variable {F : Type} [Scalar F]

/-! ### C44 -/

/-- C44: for a model that computes `f` and `df`, the optimiser returns the point after `j ≤ iters` steps, `j` being the
first step at which the cost repeats, and evaluates the model exactly at the points on the way. Any arithmetic. -/
theorem C44_trajectory (o : GradientDesc F) (g : List F → Outcome (F × List F)) (f : List F → F) (df : List F → List F)
    (start : List F)
    (hg : ∀ w : List F, w.length = start.length → g w = ok (f w, df w) ∧ (df w).length = start.length) :
    ∃ j, j ≤ o.iters ∧
      (o.optimize g start).out = ok (descentPoint o.alpha df start j) ∧
      (o.optimize g start).log = (List.range (min (j + 1) o.iters)).map (descentPoint o.alpha df start) ∧
      (∀ i < j, ¬ SameCost (costBefore (fun i => f (descentPoint o.alpha df start i)) i) (f (descentPoint o.alpha df start i))) ∧
      (j < o.iters → SameCost (costBefore (fun i => f (descentPoint o.alpha df start i)) j) (f (descentPoint o.alpha df start j))) := by
  obtain ⟨j, h1, h2, h3, h4⟩ := gdLoop_spec o.alpha f df start.length g hg (descentPoint o.alpha df start) (fun _ => rfl) rfl o.iters 0
  have e : o.optimize g start = gdLoop o.alpha g o.iters (descentPoint o.alpha df start 0)
      (costBefore (fun i => f (descentPoint o.alpha df start i)) 0) := rfl
  refine ⟨j, h1, ?_, ?_, ?_, ?_⟩
  · rw [e, h2, Nat.zero_add]
  · rw [e, h2]; simp
  · simpa using h3
  · simpa using h4

/-- C44: at most `iters` evaluations, whatever the model does (also when it panics). -/
theorem C44_calls (o : GradientDesc F) (g : List F → Outcome (F × List F)) (start : List F) :
    (o.optimize g start).log.length ≤ o.iters := gdLoop_calls _ _ _ _ _

theorem descentPoint_length (alpha : F) (df : List F → List F) (start : List F)
    (hg : ∀ w : List F, w.length = start.length → (df w).length = start.length) (j : ℕ) :
    (descentPoint alpha df start j).length = start.length := by
  induction j with
  | zero => rfl
  | succ j ih => rw [descentPoint, List.length_zipWith, hg _ ih, ih, Nat.min_self]

/-- C44: the result has the length of the start. -/
theorem C44_length (o : GradientDesc F) (g : List F → Outcome (F × List F)) (start : List F)
    (hg : ∀ w : List F, w.length = start.length → ∃ c d, g w = ok (c, d) ∧ d.length = start.length) :
    ∃ w, (o.optimize g start).out = ok w ∧ w.length = start.length := by
  classical
  have hg' : ∀ w : List F, ∃ p : F × List F, w.length = start.length → g w = ok p ∧ p.2.length = start.length := by
    intro w
    by_cases h : w.length = start.length
    · obtain ⟨c, d, h1, h2⟩ := hg w h
      exact ⟨(c, d), fun _ => ⟨h1, h2⟩⟩
    · exact ⟨(Scalar.zero, []), fun h' => absurd h' h⟩
  choose p hp using hg'
  obtain ⟨j, _, h, _⟩ := C44_trajectory o g (fun w => (p w).1) (fun w => (p w).2) start hp
  exact ⟨_, h, descentPoint_length _ _ _ (fun w h => (hp w h).2) _⟩

/-- C44: the constructor panics exactly for step sizes that are not positive. -/
theorem C44_new (alpha : ℝ) (iters : ℕ) :
    (0 < alpha → GradientDesc.new alpha iters = ok ⟨alpha, iters⟩) ∧ (¬ 0 < alpha → GradientDesc.new alpha iters = Outcome.panic) := by
  constructor
  · intro h; simp [GradientDesc.new, h]
  · intro h; simp [GradientDesc.new, h]

theorem zipWith_zero_grad (w d : List ℝ) (alpha : ℝ) (hd : ∀ x ∈ d, x = 0) (hl : d.length = w.length) :
    List.zipWith (fun x y => x -. y *. alpha) w d = w := by
  induction w generalizing d with
  | nil => simp
  | cons x w ih =>
    cases d with
    | nil => simp at hl
    | cons y d =>
      rw [List.zipWith_cons_cons, ih d (fun z hz => hd z (List.mem_cons_of_mem _ hz)) (by simpa using hl), hd y List.mem_cons_self]
      simp

/-- C44: started at a stationary point, the optimiser returns the start. -/
theorem C44_stationary (o : GradientDesc ℝ) (g : List ℝ → Outcome (ℝ × List ℝ)) (f : List ℝ → ℝ) (df : List ℝ → List ℝ)
    (start : List ℝ)
    (hg : ∀ w : List ℝ, w.length = start.length → g w = ok (f w, df w) ∧ (df w).length = start.length)
    (hs : ∀ x ∈ df start, x = 0) : (o.optimize g start).out = ok start := by
  obtain ⟨j, _, h, _⟩ := C44_trajectory o g f df start hg
  rw [h]
  have : ∀ i, descentPoint o.alpha df start i = start := by
    intro i
    induction i with
    | zero => rfl
    | succ i ih => rw [descentPoint, ih, zipWith_zero_grad _ _ _ hs (hg start rfl).2]
  rw [this]

/-- The descent inequality that characterises costs with `L`-Lipschitz gradients. -/
def Spec.SmoothAlong (f : List ℝ → ℝ) (df : List ℝ → List ℝ) (n : ℕ) (L : ℝ) : Prop :=
  ∀ x y : List ℝ, x.length = n → y.length = n →
    f y ≤ f x + (∑ i ∈ Finset.range n, (df x).getD i 0 * (y.getD i 0 - x.getD i 0)) +
      L / 2 * ∑ i ∈ Finset.range n, (y.getD i 0 - x.getD i 0) ^ 2

theorem getD_zipWith (f : ℝ → ℝ → ℝ) {u v : List ℝ} {i : ℕ} (h1 : i < u.length) (h2 : i < v.length) :
    (List.zipWith f u v).getD i 0 = f (u.getD i 0) (v.getD i 0) := by
  simp [List.getD_eq_getElem?_getD, List.getElem?_eq_getElem, h1, h2]

/-- C44: on a cost with `L`-Lipschitz gradient and a step `alpha ≤ 2/L` the cost never increases, by at least
`alpha (1 - alpha L / 2) |grad|²` in every step; so the result is at least as good as the start. -/
theorem C44_descent (o : GradientDesc ℝ) (g : List ℝ → Outcome (ℝ × List ℝ)) (f : List ℝ → ℝ) (df : List ℝ → List ℝ)
    (start : List ℝ)
    (hg : ∀ w : List ℝ, w.length = start.length → g w = ok (f w, df w) ∧ (df w).length = start.length)
    (L : ℝ) (hL : SmoothAlong f df start.length L) (ha : 0 ≤ o.alpha) (haL : o.alpha * L ≤ 2) :
    ∃ w, (o.optimize g start).out = ok w ∧ f w ≤ f start := by
  obtain ⟨j, -, h, -⟩ := C44_trajectory o g f df start hg
  refine ⟨_, h, ?_⟩
  have hlen := descentPoint_length o.alpha df start fun w h => (hg w h).2
  clear h
  induction j with
  | zero => exact le_rfl
  | succ j ih =>
    refine le_trans ?_ ih
    have hd := (hg _ (hlen j)).2
    have := hL (descentPoint o.alpha df start j) (descentPoint o.alpha df start (j + 1)) (hlen j) (hlen (j + 1))
    refine this.trans ?_
    have e : ∀ i ∈ Finset.range start.length,
        (descentPoint o.alpha df start (j + 1)).getD i 0 - (descentPoint o.alpha df start j).getD i 0 =
          -(o.alpha * (df (descentPoint o.alpha df start j)).getD i 0) := by
      intro i hi
      have hi := Finset.mem_range.1 hi
      rw [descentPoint, getD_zipWith _ (by rw [hlen]; exact hi) (by rw [hd]; exact hi)]
      simp only [real_sub, real_mul]
      ring
    have e1 : ∑ i ∈ Finset.range start.length, (df (descentPoint o.alpha df start j)).getD i 0 *
        ((descentPoint o.alpha df start (j + 1)).getD i 0 - (descentPoint o.alpha df start j).getD i 0) =
        -o.alpha * ∑ i ∈ Finset.range start.length, (df (descentPoint o.alpha df start j)).getD i 0 ^ 2 := by
      rw [Finset.mul_sum]
      refine Finset.sum_congr rfl fun i hi => ?_
      rw [e i hi]; ring
    have e2 : ∑ i ∈ Finset.range start.length,
        ((descentPoint o.alpha df start (j + 1)).getD i 0 - (descentPoint o.alpha df start j).getD i 0) ^ 2 =
        o.alpha ^ 2 * ∑ i ∈ Finset.range start.length, (df (descentPoint o.alpha df start j)).getD i 0 ^ 2 := by
      rw [Finset.mul_sum]
      refine Finset.sum_congr rfl fun i hi => ?_
      rw [e i hi]; ring
    rw [e1, e2]
    have hq : 0 ≤ ∑ i ∈ Finset.range start.length, (df (descentPoint o.alpha df start j)).getD i 0 ^ 2 :=
      Finset.sum_nonneg fun i _ => sq_nonneg _
    generalize ∑ i ∈ Finset.range start.length, (df (descentPoint o.alpha df start j)).getD i 0 ^ 2 = q at hq
    nlinarith [mul_nonneg (mul_nonneg ha hq) (by linarith : 0 ≤ 2 - o.alpha * L)]

/-- A quirk of the early stop: the cost "before the first step" is taken to be 0, so a start whose cost is 0 is returned
unchanged after a single evaluation, whatever its gradient. -/
theorem C44_zero_cost_start (o : GradientDesc ℝ) (hi : 0 < o.iters) (g : List ℝ → Outcome (ℝ × List ℝ)) (start : List ℝ)
    (d : List ℝ) (h : g start = ok (0, d)) : o.optimize g start = ⟨[start], ok start⟩ := by
  obtain ⟨n, hn⟩ := Nat.exists_eq_succ_of_ne_zero hi.ne'
  unfold GradientDesc.optimize
  rw [hn, gdLoop, h, Logged.call_ok_bind]
  have : (Scalar.abs ((Scalar.zero : ℝ) -. 0) <. learningEps) = true := by
    simp [learningEps]
  simp only [this, if_true, Logged.pure_def]

/-- A concrete instance: minimising `(w-1)²` (cost 1 at 0) from 0 with step 1/2 takes one step to the minimum. -/
example : (GradientDesc.optimize (⟨1 / 2, 1⟩ : GradientDesc ℝ) (fun w => match w with
    | [x] => ok ((x - 1) ^ 2, [2 * (x - 1)]) | _ => Outcome.panic) [0]).out = ok [1] := by
  have h : ¬ ((1 : ℝ) < 1 / 10 ^ 20) := by norm_num
  simp [GradientDesc.optimize, gdLoop, learningEps, vecScale, vecZip, Logged.bind_def, Logged.bind, Logged.call, Logged.lift]
  norm_num

/-- The hypotheses of `C44_descent` hold for `f w = w²`, with `L = 2`. -/
example : SmoothAlong (fun w => (w.getD 0 0) ^ 2) (fun w => [2 * w.getD 0 0]) 1 2 := by
  intro x y _ _
  simp
  nlinarith

/-! ### C45 -/

theorem stochOptimize_run {upd : List F → List F → List F → Outcome (List F × List F)} {u : CoordRule F}
    (iters : ℕ) (g : ComputeGrad F) (f : List F → Sample F → F) (df : List F → Sample F → List F) (r : ℕ → ℕ → ℕ)
    (start : List F) (inputs targets : Mat F) (hu : Follows upd u start.length)
    (hrows : inputs.rows.length ≤ targets.rows.length)
    (hg : Computes g f df inputs targets start.length) :
    StochRun u iters f df r start inputs targets (stochOptimize upd iters g r start inputs targets) := by
  obtain ⟨order, ho, hp⟩ := exists_orders r inputs.rows.length
  obtain ⟨E, h1, h2, h3, h4⟩ := stochLoop_spec hu inputs targets hrows hg r order ho hp
    (start, List.replicate start.length Scalar.zero) rfl (by simp) _ rfl _ rfl iters 0
  refine ⟨order, _, _, E, ho, hp, rfl, fun _ => rfl, h1, ?_, ?_, ?_, ?_⟩
  · have : stochOptimize upd iters g r start inputs targets = _ := h2
    rw [this]; simp
  · have : stochOptimize upd iters g r start inputs targets = _ := h2
    rw [this]; simp
  · simpa using h3
  · simpa using h4

/-- C45 for StochasticGD. Any arithmetic. -/
theorem C45_sgd (o : StochasticGD F) (g : ComputeGrad F) (f : List F → Sample F → F) (df : List F → Sample F → List F)
    (r : ℕ → ℕ → ℕ) (start : List F) (inputs targets : Mat F) (hrows : inputs.rows.length ≤ targets.rows.length)
    (hg : Computes g f df inputs targets start.length) :
    StochRun (sgdRule o.alpha o.mu) o.iters f df r start inputs targets (o.optimize g r start inputs targets) :=
  stochOptimize_run _ g f df r start inputs targets (sgd_follows _ _ _) hrows hg

/-- C45 for AdaGrad. Any arithmetic. -/
theorem C45_adagrad (o : AdaGrad F) (g : ComputeGrad F) (f : List F → Sample F → F) (df : List F → Sample F → List F)
    (r : ℕ → ℕ → ℕ) (start : List F) (inputs targets : Mat F) (hrows : inputs.rows.length ≤ targets.rows.length)
    (hg : Computes g f df inputs targets start.length) :
    StochRun (adaRule o.alpha o.tau) o.iters f df r start inputs targets (o.optimize g r start inputs targets) :=
  stochOptimize_run _ g f df r start inputs targets (ada_follows _ _ _) hrows hg

/-- C45 for RMSProp. Any arithmetic. -/
theorem C45_rmsprop (o : RMSProp F) (g : ComputeGrad F) (f : List F → Sample F → F) (df : List F → Sample F → List F)
    (r : ℕ → ℕ → ℕ) (start : List F) (inputs targets : Mat F) (hrows : inputs.rows.length ≤ targets.rows.length)
    (hg : Computes g f df inputs targets start.length) :
    StochRun (rmsRule o.learningRate o.decayRate o.epsilon) o.iters f df r start inputs targets (o.optimize g r start inputs targets) :=
  stochOptimize_run _ g f df r start inputs targets (rms_follows _ _ _ _) hrows hg

theorem epochCalls_samples (u : CoordRule F) (df : List F → Sample F → List F) (ic tc : ℕ) (xs : List (Sample F))
    (s : List F × List F) : (epochCalls u df ic tc xs s).map (fun c => (c.input, c.target)) =
      xs.map fun x => ((⟨ic, [x.1]⟩ : Mat F), (⟨tc, [x.2]⟩ : Mat F)) := by
  induction xs generalizing s with
  | nil => simp [epochCalls, statesBefore]
  | cons x xs ih =>
    have := ih (u.step s (df s.1 x))
    simp only [epochCalls, statesBefore, List.zipWith_cons_cons, List.map_cons] at this ⊢
    rw [this]
    rfl

/-- C45, what the model sees: the calls of a run fall into at most `iters` epochs, and the samples of every epoch are the
rows of the data set with their targets, each exactly once. -/
theorem C45_every_sample_once {u : CoordRule F} {iters : ℕ} {f : List F → Sample F → F} {df : List F → Sample F → List F}
    {r : ℕ → ℕ → ℕ} {start : List F} {inputs targets : Mat F} {res : Logged (SampleCall F) (List F)}
    (h : StochRun u iters f df r start inputs targets res) :
    ∃ epochs : List (List (SampleCall F)), epochs.length ≤ iters ∧ res.log = epochs.flatten ∧
      ∀ ep ∈ epochs, (ep.map fun c => (c.input, c.target)).Perm
        ((List.range inputs.rows.length).map fun i =>
          ((⟨inputs.cols, [inputs.rows.getD i []]⟩ : Mat F), (⟨targets.cols, [targets.rows.getD i []]⟩ : Mat F))) := by
  obtain ⟨order, S, cost, E, _, hp, _, _, hE, hlog, _⟩ := h
  refine ⟨(List.range E).map fun e => epochCalls u df inputs.cols targets.cols ((order e).map (sampleAt inputs targets)) (S e),
    by simpa using hE, by rw [hlog, List.flatMap_def], ?_⟩
  intro ep hep
  obtain ⟨e, _, rfl⟩ := List.mem_map.1 hep
  rw [epochCalls_samples, List.map_map]
  exact (hp e).map _

/-- C45: the result has the length of the start. -/
theorem C45_length {u : CoordRule F} {iters : ℕ} {f : List F → Sample F → F} {df : List F → Sample F → List F}
    {r : ℕ → ℕ → ℕ} {start : List F} {inputs targets : Mat F} {res : Logged (SampleCall F) (List F)}
    (h : StochRun u iters f df r start inputs targets res)
    (hdf : ∀ (w : List F) (x : Sample F), w.length = start.length → (df w x).length = start.length) :
    ∃ w, res.out = ok w ∧ w.length = start.length := by
  obtain ⟨order, S, cost, E, _, hp, hS, _, hE, _, hout, _⟩ := h
  refine ⟨_, hout, ?_⟩
  have : ∀ e, (S e).1.length = start.length ∧ (S e).2.length = start.length := by
    intro e
    subst hS
    induction e with
    | zero => simp [epochState]
    | succ e ih => exact stateAfter_length hdf _ _ ih.1 ih.2
  exact (this E).1

theorem step_fixed {u : CoordRule ℝ} (hu : ∀ w : ℝ, u w 0 0 = (w, 0)) : ∀ (w g : List ℝ), g.length = w.length → (∀ x ∈ g, x = 0) →
    u.step (w, List.replicate w.length 0) g = (w, List.replicate w.length 0)
  | [], g, _, _ => by simp [CoordRule.step]
  | x :: w, [], h, _ => by simp at h
  | x :: w, y :: g, h, h0 => by
    have ih := step_fixed hu w g (by simpa using h) fun z hz => h0 z (List.mem_cons_of_mem _ hz)
    have hy := h0 y List.mem_cons_self
    simp only [CoordRule.step, List.length_cons, List.replicate_succ, List.zip_cons_cons, List.zipWith_cons_cons, List.map_cons, Prod.mk.injEq] at ih ⊢
    rw [ih.1, ih.2, hy, hu]
    simp

theorem stochRun_zero {u : CoordRule ℝ} {iters : ℕ} {f : List ℝ → Sample ℝ → ℝ} {df : List ℝ → Sample ℝ → List ℝ}
    {r : ℕ → ℕ → ℕ} {start : List ℝ} {inputs targets : Mat ℝ} {res : Logged (SampleCall ℝ) (List ℝ)}
    (h : StochRun u iters f df r start inputs targets res) (hu : ∀ w : ℝ, u w 0 0 = (w, 0))
    (hdf : ∀ x : Sample ℝ, (df start x).length = start.length ∧ ∀ d ∈ df start x, d = 0) : res.out = ok start := by
  obtain ⟨order, S, cost, E, _, hp, hS, _, hE, _, hout, _⟩ := h
  have hpass : ∀ xs : List (Sample ℝ), stateAfter u df xs (start, List.replicate start.length 0) = (start, List.replicate start.length 0) := by
    intro xs
    induction xs with
    | nil => rfl
    | cons x xs ih =>
      unfold stateAfter at ih ⊢
      rw [List.foldl_cons]
      simp only
      rw [step_fixed hu start _ (hdf x).1 (hdf x).2, ih]
  have : ∀ e, S e = (start, List.replicate start.length 0) := by
    intro e
    subst hS
    induction e with
    | zero => rfl
    | succ e ih => rw [epochState, ih, hpass]
  rw [hout, this]

/-- C45: when all gradients vanish at the start, the three optimisers return the start. -/
theorem C45_zero_gradients (g : ComputeGrad ℝ) (f : List ℝ → Sample ℝ → ℝ) (df : List ℝ → Sample ℝ → List ℝ)
    (r : ℕ → ℕ → ℕ) (start : List ℝ) (inputs targets : Mat ℝ) (hrows : inputs.rows.length ≤ targets.rows.length)
    (hg : Computes g f df inputs targets start.length) (h0 : ∀ x : Sample ℝ, ∀ d ∈ df start x, d = 0) :
    (∀ o : StochasticGD ℝ, (o.optimize g r start inputs targets).out = ok start) ∧
    (∀ o : AdaGrad ℝ, (o.optimize g r start inputs targets).out = ok start) ∧
    (∀ o : RMSProp ℝ, (o.optimize g r start inputs targets).out = ok start) := by
  have hd : ∀ x : Sample ℝ, (df start x).length = start.length ∧ ∀ d ∈ df start x, d = 0 := fun x => ⟨(hg start rfl).1 x, h0 x⟩
  refine ⟨fun o => stochRun_zero (C45_sgd o g f df r start inputs targets hrows hg) (fun w => ?_) hd,
    fun o => stochRun_zero (C45_adagrad o g f df r start inputs targets hrows hg) (fun w => ?_) hd,
    fun o => stochRun_zero (C45_rmsprop o g f df r start inputs targets hrows hg) (fun w => ?_) hd⟩
  · simp [sgdRule]
  · simp [adaRule]
  · simp [rmsRule]

theorem stochPass_panic {upd : List F → List F → List F → Outcome (List F × List F)} {u : CoordRule F} {len : ℕ}
    (hu : Follows upd u len) {g : ComputeGrad F} {f : List F → Sample F → F} {df : List F → Sample F → List F}
    (inputs targets : Mat F) (hg : Computes g f df inputs targets len) :
    ∀ (is : List ℕ) (s : List F × List F) (c : F), (∀ i ∈ is, i < inputs.rows.length) → (∃ i ∈ is, targets.rows.length ≤ i) →
      s.1.length = len → s.2.length = len → (stochPass upd g inputs targets is (s.1, s.2, c)).out = Outcome.panic := by
  intro is
  induction is with
  | nil => intro s c _ h; simp at h
  | cons i is ih =>
    intro s c hi hex h1 h2
    rw [stochPass, selectRows_one _ _ (hi i List.mem_cons_self), Logged.lift_ok_bind]
    by_cases hb : i < targets.rows.length
    · have hgi : _ ∧ (df s.1 (sampleAt inputs targets i)).length = len := ⟨(hg s.1 h1).2 i (hi i List.mem_cons_self) hb, (hg s.1 h1).1 _⟩
      have hl := step_length u h1 h2 hgi.2
      rw [selectRows_one _ _ hb, Logged.lift_ok_bind]
      have e : g s.1 ⟨inputs.cols, [inputs.rows.getD i []]⟩ ⟨targets.cols, [targets.rows.getD i []]⟩ =
        ok (f s.1 (sampleAt inputs targets i), df s.1 (sampleAt inputs targets i)) := hgi.1
      simp only
      rw [e, Logged.call_ok_bind, hu s.1 s.2 _ h1 h2 hgi.2, Logged.lift_ok_bind]
      refine ih (u.step (s.1, s.2) (df s.1 (sampleAt inputs targets i))) _ (fun k hk => hi k (List.mem_cons_of_mem _ hk)) ?_ hl.1 hl.2
      obtain ⟨k, hk, hk2⟩ := hex
      rcases List.mem_cons.1 hk with rfl | hk
      · omega
      · exact ⟨k, hk, hk2⟩
    · have : targets.selectRows [i] = Outcome.panic := by
        simp [Mat.selectRows, getAt, List.getElem?_eq_none (not_lt.1 hb)]
      rw [this]
      rfl

/-- C45: with fewer target rows than input rows the optimisers panic (no sample is paired with a wrong target). -/
theorem C45_fewer_targets_panic (g : ComputeGrad F) (f : List F → Sample F → F) (df : List F → Sample F → List F)
    (r : ℕ → ℕ → ℕ) (start : List F) (inputs targets : Mat F) (hrows : targets.rows.length < inputs.rows.length)
    (hg : Computes g f df inputs targets start.length) :
    (∀ o : StochasticGD F, 0 < o.iters → (o.optimize g r start inputs targets).out = Outcome.panic) ∧
    (∀ o : AdaGrad F, 0 < o.iters → (o.optimize g r start inputs targets).out = Outcome.panic) ∧
    (∀ o : RMSProp F, 0 < o.iters → (o.optimize g r start inputs targets).out = Outcome.panic) := by
  have key : ∀ (upd : List F → List F → List F → Outcome (List F × List F)) (u : CoordRule F) (iters : ℕ),
      Follows upd u start.length → 0 < iters → (stochOptimize upd iters g r start inputs targets).out = Outcome.panic := by
    intro upd u iters hu hi
    obtain ⟨n, rfl⟩ := Nat.exists_eq_succ_of_ne_zero hi.ne'
    obtain ⟨order, ho, hp⟩ := exists_orders r inputs.rows.length
    have h0 := ho 0
    rw [prevOrder] at h0
    rw [stochOptimize, stochLoop, h0, Logged.lift_ok_bind]
    have := stochPass_panic hu inputs targets hg (order 0) (start, List.replicate start.length Scalar.zero) Scalar.zero
      (fun i hi => List.mem_range.1 ((hp 0).mem_iff.1 hi)) ⟨targets.rows.length, (hp 0).mem_iff.2 (List.mem_range.2 hrows), le_rfl⟩ rfl (by simp)
    rw [Logged.bind_def, Logged.bind, this]
  exact ⟨fun o => key _ _ _ (sgd_follows _ _ _), fun o => key _ _ _ (ada_follows _ _ _), fun o => key _ _ _ (rms_follows _ _ _ _)⟩

/-! ### C46 -/

/-- Consecutive parameter vectors differ by at most `b` in every coordinate. -/
def Spec.StepsBounded (b : ℝ) (ws : List (List ℝ)) : Prop :=
  ws.IsChain fun p q => ∀ i : ℕ, |q.getD i 0 - p.getD i 0| ≤ b

/-- All memory entries are non-negative. -/
def NonnegMem (s : List ℝ × List ℝ) : Prop := ∀ x ∈ s.2, 0 ≤ x

theorem step_bound {u : CoordRule ℝ} {b : ℝ} (hb : 0 ≤ b) (hu : ∀ w s g : ℝ, 0 ≤ s → |(u w s g).1 - w| ≤ b ∧ 0 ≤ (u w s g).2) :
    ∀ (w a g : List ℝ), w.length = a.length → w.length = g.length → NonnegMem (w, a) →
      (∀ i : ℕ, |(u.step (w, a) g).1.getD i 0 - w.getD i 0| ≤ b) ∧ NonnegMem (u.step (w, a) g)
  | [], a, g, _, _, _ => by simp [CoordRule.step, NonnegMem, hb]
  | x :: w, [], g, h, _, _ => by simp at h
  | x :: w, y :: a, [], _, h, _ => by simp at h
  | x :: w, y :: a, z :: g, h1, h2, hn => by
    have ih := step_bound hb hu w a g (by simpa using h1) (by simpa using h2) fun t ht => hn t (List.mem_cons_of_mem _ ht)
    have hy := hu x y z (hn y List.mem_cons_self)
    constructor
    · intro i
      cases i with
      | zero => simpa [CoordRule.step] using hy.1
      | succ i => simpa [CoordRule.step] using ih.1 i
    · intro t ht
      have : t = (u x y z).2 ∨ t ∈ (u.step (w, a) g).2 := by simpa [CoordRule.step] using ht
      rcases this with rfl | ht
      · exact hy.2
      · exact ih.2 t ht

theorem states_bounded {u : CoordRule ℝ} {b : ℝ} (hb : 0 ≤ b) (hu : ∀ w s g : ℝ, 0 ≤ s → |(u w s g).1 - w| ≤ b ∧ 0 ≤ (u w s g).2)
    {df : List ℝ → Sample ℝ → List ℝ} {len : ℕ}
    (hdf : ∀ (w : List ℝ) (x : Sample ℝ), w.length = len → (df w x).length = len) (ic tc : ℕ) (xs : List (Sample ℝ)) :
    ∀ s : List ℝ × List ℝ, s.1.length = len → s.2.length = len → NonnegMem s → ∀ rest : List (List ℝ),
      StepsBounded b ((stateAfter u df xs s).1 :: rest) →
      StepsBounded b (((epochCalls u df ic tc xs s).map SampleCall.params) ++ (stateAfter u df xs s).1 :: rest) ∧
      (((epochCalls u df ic tc xs s).map SampleCall.params) ++ (stateAfter u df xs s).1 :: rest).head? = some s.1 ∧
      NonnegMem (stateAfter u df xs s) := by
  induction xs with
  | nil => intro s _ _ hn rest hr; exact ⟨by simpa [epochCalls, statesBefore] using hr, by simp [epochCalls, statesBefore, stateAfter], hn⟩
  | cons x xs ih =>
    intro s h1 h2 hn rest hr
    have hl := step_length u h1 h2 (hdf s.1 x h1)
    have hsb := step_bound hb hu s.1 s.2 (df s.1 x) (by omega) (by rw [h1, hdf s.1 x h1]) hn
    have ih' := ih (u.step s (df s.1 x)) hl.1 hl.2 hsb.2 rest hr
    have e1 : stateAfter u df (x :: xs) s = stateAfter u df xs (u.step s (df s.1 x)) := rfl
    have e2 : (epochCalls u df ic tc (x :: xs) s).map SampleCall.params =
        s.1 :: (epochCalls u df ic tc xs (u.step s (df s.1 x))).map SampleCall.params := rfl
    rw [e1, e2]
    refine ⟨?_, rfl, ih'.2.2⟩
    rw [List.cons_append]
    obtain ⟨c1, c2, _⟩ := ih'
    unfold StepsBounded at c1 ⊢
    rw [List.isChain_cons]
    refine ⟨fun y hy => ?_, c1⟩
    rw [c2] at hy
    cases hy
    exact hsb.1

theorem run_bounded {u : CoordRule ℝ} {b : ℝ} (hb : 0 ≤ b) (hu : ∀ w s g : ℝ, 0 ≤ s → |(u w s g).1 - w| ≤ b ∧ 0 ≤ (u w s g).2)
    {iters : ℕ} {f : List ℝ → Sample ℝ → ℝ} {df : List ℝ → Sample ℝ → List ℝ}
    {r : ℕ → ℕ → ℕ} {start : List ℝ} {inputs targets : Mat ℝ} {res : Logged (SampleCall ℝ) (List ℝ)}
    (h : StochRun u iters f df r start inputs targets res)
    (hdf : ∀ (w : List ℝ) (x : Sample ℝ), w.length = start.length → (df w x).length = start.length) :
    ∃ w, res.out = ok w ∧ StepsBounded b (res.log.map SampleCall.params ++ [w]) ∧
      (res.log.map SampleCall.params ++ [w]).head? = some start := by
  obtain ⟨order, S, cost, E, _, hp, hS, _, hE, hlog, hout, _⟩ := h
  refine ⟨_, hout, ?_⟩
  have hSs : ∀ e, S (e + 1) = stateAfter u df ((order e).map (sampleAt inputs targets)) (S e) := by
    intro e; subst hS; rfl
  have hS0 : S 0 = (start, List.replicate start.length 0) := by subst hS; rfl
  have hl : ∀ e, (S e).1.length = start.length ∧ (S e).2.length = start.length := by
    intro e
    induction e with
    | zero => rw [hS0]; simp
    | succ e ih => rw [hSs]; exact stateAfter_length hdf _ _ ih.1 ih.2
  have hn : ∀ e, NonnegMem (S e) := by
    intro e
    induction e with
    | zero => rw [hS0]; intro x hx; rw [(List.mem_replicate.1 hx).2]
    | succ e ih =>
      rw [hSs]
      exact (states_bounded hb hu hdf inputs.cols targets.cols _ _ (hl e).1 (hl e).2 ih [] (List.isChain_singleton _)).2.2
  rw [hlog]
  -- from the last epoch backwards
  have key : ∀ n e, StepsBounded b ((((List.range n).flatMap fun i => epochCalls u df inputs.cols targets.cols
        ((order (e + i)).map (sampleAt inputs targets)) (S (e + i))).map SampleCall.params) ++ [(S (e + n)).1]) ∧
      ((((List.range n).flatMap fun i => epochCalls u df inputs.cols targets.cols
        ((order (e + i)).map (sampleAt inputs targets)) (S (e + i))).map SampleCall.params) ++ [(S (e + n)).1]).head? = some (S e).1 := by
    intro n
    induction n with
    | zero => intro e; simp [StepsBounded]
    | succ n ih =>
      intro e
      obtain ⟨c1, c2⟩ := ih (e + 1)
      have e1 : ((List.range (n + 1)).flatMap fun i => epochCalls u df inputs.cols targets.cols
          ((order (e + i)).map (sampleAt inputs targets)) (S (e + i))) =
          epochCalls u df inputs.cols targets.cols ((order e).map (sampleAt inputs targets)) (S e) ++
          ((List.range n).flatMap fun i => epochCalls u df inputs.cols targets.cols
          ((order (e + 1 + i)).map (sampleAt inputs targets)) (S (e + 1 + i))) := by
        rw [List.range_succ_eq_map, List.flatMap_cons, List.flatMap_map, Nat.add_zero]
        congr 1
        refine List.flatMap_congr fun i _ => ?_
        rw [show e + i.succ = e + 1 + i by omega]
      rw [e1, List.map_append, List.append_assoc, show e + (n + 1) = e + 1 + n by omega]
      generalize ((List.range n).flatMap fun i => epochCalls u df inputs.cols targets.cols
          ((order (e + 1 + i)).map (sampleAt inputs targets)) (S (e + 1 + i))).map SampleCall.params ++ [(S (e + 1 + n)).1] = tl at c1 c2
      cases tl with
      | nil => simp at c2
      | cons t tl =>
        simp only [List.head?_cons, Option.some.injEq] at c2
        subst c2
        rw [hSs] at c1 ⊢
        have := states_bounded hb hu hdf inputs.cols targets.cols _ _ (hl e).1 (hl e).2 (hn e) tl c1
        exact ⟨this.1, this.2.1⟩
  have := key E 0
  simp only [Nat.zero_add] at this
  rw [hS0] at this
  exact this

/-- C46: every AdaGrad update moves every coordinate by at most `alpha`. -/
theorem C46_adagrad (o : AdaGrad ℝ) (ha : 0 < o.alpha) (ht : 0 ≤ o.tau) (g : ComputeGrad ℝ) (f : List ℝ → Sample ℝ → ℝ)
    (df : List ℝ → Sample ℝ → List ℝ) (r : ℕ → ℕ → ℕ) (start : List ℝ) (inputs targets : Mat ℝ)
    (hrows : inputs.rows.length ≤ targets.rows.length) (hg : Computes g f df inputs targets start.length) :
    ∃ w, (o.optimize g r start inputs targets).out = ok w ∧
      StepsBounded o.alpha ((o.optimize g r start inputs targets).log.map SampleCall.params ++ [w]) ∧
      ((o.optimize g r start inputs targets).log.map SampleCall.params ++ [w]).head? = some start := by
  refine run_bounded ha.le ?_ (C45_adagrad o g f df r start inputs targets hrows hg) fun w x h => (hg w h).1 x
  intro w s d hs
  have hs' : 0 ≤ s + d * d := by nlinarith [mul_self_nonneg d]
  refine ⟨?_, by simpa [adaRule] using hs'⟩
  simp only [adaRule, real_sub, real_mul, real_div, real_add, real_sqrt]
  have hd : |d| ≤ o.tau + Real.sqrt (s + d * d) := by
    have : |d| ≤ Real.sqrt (s + d * d) := by
      rw [← Real.sqrt_mul_self_eq_abs]
      exact Real.sqrt_le_sqrt (by linarith)
    linarith
  have e : w - o.alpha * (d / (o.tau + Real.sqrt (s + d * d))) - w = -(o.alpha * (d / (o.tau + Real.sqrt (s + d * d)))) := by ring
  rw [e, abs_neg, abs_mul, abs_of_pos ha, abs_div]
  have hpos : 0 ≤ o.tau + Real.sqrt (s + d * d) := by positivity
  rw [abs_of_nonneg hpos]
  have : |d| / (o.tau + Real.sqrt (s + d * d)) ≤ 1 := div_le_one_of_le₀ hd hpos
  nlinarith

/-- C46: every RMSProp update moves every coordinate by at most `learning_rate / sqrt (1 - decay)`. -/
theorem C46_rmsprop (o : RMSProp ℝ) (hl : 0 < o.learningRate) (hd0 : 0 < o.decayRate) (hd1 : o.decayRate < 1)
    (he : 0 < o.epsilon) (g : ComputeGrad ℝ) (f : List ℝ → Sample ℝ → ℝ)
    (df : List ℝ → Sample ℝ → List ℝ) (r : ℕ → ℕ → ℕ) (start : List ℝ) (inputs targets : Mat ℝ)
    (hrows : inputs.rows.length ≤ targets.rows.length) (hg : Computes g f df inputs targets start.length) :
    ∃ w, (o.optimize g r start inputs targets).out = ok w ∧
      StepsBounded (o.learningRate / Real.sqrt (1 - o.decayRate)) ((o.optimize g r start inputs targets).log.map SampleCall.params ++ [w]) ∧
      ((o.optimize g r start inputs targets).log.map SampleCall.params ++ [w]).head? = some start := by
  refine run_bounded (by positivity) ?_ (C45_rmsprop o g f df r start inputs targets hrows hg) fun w x h => (hg w h).1 x
  intro w s d hs
  have h1 : 0 < 1 - o.decayRate := by linarith
  have hc : 0 ≤ s * o.decayRate + d * d * (1 - o.decayRate) := by nlinarith [mul_nonneg hs hd0.le, mul_nonneg (mul_self_nonneg d) h1.le]
  refine ⟨?_, by simpa [rmsRule] using hc⟩
  simp only [rmsRule, real_sub, real_mul, real_div, real_add, real_sqrt, real_one]
  generalize hC : s * o.decayRate + d * d * (1 - o.decayRate) = C at hc
  have hC' : d * d * (1 - o.decayRate) ≤ C := by rw [← hC]; nlinarith [mul_nonneg hs hd0.le]
  have e : w - d * o.learningRate / Real.sqrt (C + o.epsilon) - w = -(d * o.learningRate / Real.sqrt (C + o.epsilon)) := by ring
  rw [e, abs_neg, abs_div, abs_mul, abs_of_pos hl, abs_of_nonneg (Real.sqrt_nonneg _), div_le_div_iff₀ (Real.sqrt_pos.2 (by linarith)) (Real.sqrt_pos.2 h1)]
  have : |d| * Real.sqrt (1 - o.decayRate) ≤ Real.sqrt (C + o.epsilon) := by
    rw [← Real.sqrt_mul_self_eq_abs, ← Real.sqrt_mul (mul_self_nonneg d)]
    exact Real.sqrt_le_sqrt (by linarith)
  nlinarith

/-- The constructors accept exactly the ranges used above. -/
theorem C46_constructors (a b c : ℝ) (n : ℕ) :
    (AdaGrad.new a b n = if 0 < a ∧ 0 ≤ b then ok ⟨a, b, n⟩ else Outcome.panic) ∧
    (RMSProp.new a b c n = if 0 < a ∧ 0 < b ∧ b < 1 ∧ 0 < c then ok ⟨a, b, c, n⟩ else Outcome.panic) ∧
    (StochasticGD.new a b n = if 0 < a ∧ 0 < b then ok ⟨a, b, n⟩ else Outcome.panic) := by
  refine ⟨?_, ?_, ?_⟩
  · by_cases h1 : 0 < a <;> by_cases h2 : 0 ≤ b <;> simp [AdaGrad.new, h1, h2]
  · by_cases h1 : 0 < a <;> by_cases h2 : 0 < b <;> by_cases h3 : b < 1 <;> by_cases h4 : 0 < c <;> simp [RMSProp.new, h1, h2, h3, h4]
  · by_cases h1 : 0 < a <;> by_cases h2 : 0 < b <;> simp [StochasticGD.new, h1, h2]

/-- The boundary value `tau = 0` is accepted by the constructor, but with special values a coordinate whose gradient is 0
becomes NaN in its first update. -/
theorem C46_tau_zero_nan (alpha : ℝ) (w : ℝ) :
    adaUpdate (XR.fin alpha) (XR.fin 0) [.fin w] [.fin 0] [.fin 0] = ok ([.nan], [.fin 0]) := by
  have h : Scalar.sqrt (XR.fin 0) = .fin 0 := by rw [xr_sqrt _ le_rfl, Real.sqrt_zero]
  have e : XR.infOf 0 = .nan := by simp [XR.infOf]
  have e1 : Scalar.mul (XR.fin alpha) .nan = .nan := rfl
  have e2 : Scalar.sub (XR.fin w) .nan = .nan := rfl
  simp [adaUpdate, inPlaceBin, vecZip, h, xr_div_zero, e, e1, e2]

/-- The hypotheses of the C45 and C46 theorems hold, for example, for the model with cost `Σ (wⱼ - t)²/2` and gradient `wⱼ - t`,
`t` being the sum of the target row; here on two samples. -/
example : (⟨1, [[1], [2]]⟩ : Mat ℝ).rows.length ≤ (⟨1, [[3], [5]]⟩ : Mat ℝ).rows.length ∧
    Computes (F := ℝ) (fun w _ y => ok (fsum (w.map fun a => (a - y.sum) ^ 2 / 2), w.map fun a => a - y.sum))
      (fun w x => fsum (w.map fun a => (a - fsum x.2) ^ 2 / 2)) (fun w x => w.map fun a => a - fsum x.2)
      ⟨1, [[1], [2]]⟩ ⟨1, [[3], [5]]⟩ 2 := by
  refine ⟨by simp, fun w h => ⟨fun x => by simpa using h, fun i _ _ => ?_⟩⟩
  simp [Mat.sum, Mat.data, sampleAt]

end RM
