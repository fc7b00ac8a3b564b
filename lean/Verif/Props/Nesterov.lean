import Verif.Props.Optim

/-! C88: `StochasticGD` follows Nesterov's momentum method. -/

set_option linter.unusedSectionVars false

namespace RM
open Outcome Scalar Spec

section
variable {F : Type} [Scalar F]

/-- The data of the sample of a call: its input row and its target row. -/
def Spec.callSample (c : SampleCall F) : Sample F := (c.input.rows.headD [], c.target.rows.headD [])

/-- All epochs of a run, one after the other, are a single pass over the samples of the epochs. -/
theorem stochRun_flat {u : CoordRule F} {iters : ℕ} {f : List F → Sample F → F} {df : List F → Sample F → List F}
    {r : ℕ → ℕ → ℕ} {start : List F} {inputs targets : Mat F} {res : Logged (SampleCall F) (List F)}
    (h : StochRun u iters f df r start inputs targets res) :
    ∃ xs : List (Sample F), res.log = epochCalls u df inputs.cols targets.cols xs (start, List.replicate start.length Scalar.zero) ∧
      res.out = ok (stateAfter u df xs (start, List.replicate start.length Scalar.zero)).1 := by
  obtain ⟨order, S, cost, E, _, _, hS, _, _, hlog, hout, _⟩ := h
  have app : ∀ (xs ys : List (Sample F)) (s : List F × List F),
      epochCalls u df inputs.cols targets.cols (xs ++ ys) s =
        epochCalls u df inputs.cols targets.cols xs s ++ epochCalls u df inputs.cols targets.cols ys (stateAfter u df xs s) := by
    intro xs
    induction xs with
    | nil => intro ys s; rfl
    | cons x xs ih =>
      intro ys s
      have := ih ys (u.step s (df s.1 x))
      simp only [epochCalls, List.cons_append, statesBefore, List.zipWith_cons_cons, stateAfter, List.foldl_cons] at this ⊢
      rw [this]
  have key : ∀ E, (List.range E).flatMap (fun e => epochCalls u df inputs.cols targets.cols ((order e).map (sampleAt inputs targets)) (S e)) =
        epochCalls u df inputs.cols targets.cols ((List.range E).flatMap fun e => (order e).map (sampleAt inputs targets))
          (start, List.replicate start.length Scalar.zero) ∧
      S E = stateAfter u df ((List.range E).flatMap fun e => (order e).map (sampleAt inputs targets)) (start, List.replicate start.length Scalar.zero) := by
    intro E
    induction E with
    | zero => subst hS; exact ⟨rfl, rfl⟩
    | succ E ih =>
      rw [List.range_succ, List.flatMap_append, List.flatMap_append, ih.1, app, ← ih.2]
      refine ⟨by simp, ?_⟩
      have e1 : S (E + 1) = stateAfter u df ((order E).map (sampleAt inputs targets)) (S E) := by subst hS; rfl
      rw [e1, ih.2]
      simp [stateAfter, List.foldl_append]
  exact ⟨_, by rw [hlog, (key E).1], by rw [hout, (key E).2]⟩

/-- The state before sample `t`. -/
def stateAt (u : CoordRule F) (df : List F → Sample F → List F) (xs : List (Sample F)) (s : List F × List F) (t : ℕ) : List F × List F :=
  stateAfter u df (xs.take t) s

theorem stateAt_succ (u : CoordRule F) (df : List F → Sample F → List F) (xs : List (Sample F)) (s : List F × List F) {t : ℕ}
    (ht : t < xs.length) :
    stateAt u df xs s (t + 1) = u.step (stateAt u df xs s t) (df (stateAt u df xs s t).1 xs[t]) := by
  simp only [stateAt, stateAfter]
  rw [← List.take_append_getElem ht, List.foldl_append]
  rfl

theorem statesBefore_getElem (u : CoordRule F) (df : List F → Sample F → List F) : ∀ (xs : List (Sample F)) (s : List F × List F) (t : ℕ)
    (h : t < (statesBefore u df xs s).length), (statesBefore u df xs s)[t] = stateAt u df xs s t
  | [], s, t, h => by simp [statesBefore] at h
  | x :: xs, s, 0, h => rfl
  | x :: xs, s, t + 1, h => by
    have := statesBefore_getElem u df xs (u.step s (df s.1 x)) t (by simpa [statesBefore] using h)
    simpa [statesBefore, stateAt, stateAfter] using this

theorem epochCalls_length (u : CoordRule F) (df : List F → Sample F → List F) (ic tc : ℕ) (xs : List (Sample F)) (s : List F × List F) :
    (epochCalls u df ic tc xs s).length = xs.length := by
  simp [epochCalls, statesBefore_length]

theorem epochCalls_getElem (u : CoordRule F) (df : List F → Sample F → List F) (ic tc : ℕ) (xs : List (Sample F)) (s : List F × List F)
    (t : ℕ) (h : t < (epochCalls u df ic tc xs s).length) (h' : t < xs.length) :
    (epochCalls u df ic tc xs s)[t] = callOf ic tc (stateAt u df xs s t) xs[t] := by
  simp only [epochCalls, List.getElem_zipWith]
  rw [statesBefore_getElem]

/-- A run, call by call: there are states `st 0, st 1, ...` such that call `t` is made at the parameters of `st t`, the state after it is
obtained by the rule from the gradient of that call, and the result is the last one. -/
theorem stochRun_states {u : CoordRule F} {iters : ℕ} {f : List F → Sample F → F} {df : List F → Sample F → List F}
    {r : ℕ → ℕ → ℕ} {start : List F} {inputs targets : Mat F} {res : Logged (SampleCall F) (List F)}
    (h : StochRun u iters f df r start inputs targets res)
    (hdf : ∀ (w : List F) (x : Sample F), w.length = start.length → (df w x).length = start.length) :
    ∃ st : ℕ → List F × List F, st 0 = (start, List.replicate start.length Scalar.zero) ∧
      (∀ t ≤ res.log.length, (st t).1.length = start.length ∧ (st t).2.length = start.length) ∧
      (∀ t (ht : t < res.log.length), res.log[t].params = (st t).1 ∧
        st (t + 1) = u.step (st t) (df res.log[t].params (callSample res.log[t]))) ∧
      res.out = ok (st res.log.length).1 := by
  obtain ⟨xs, hlog, hout⟩ := stochRun_flat h
  have hlen : res.log.length = xs.length := by rw [hlog, epochCalls_length]
  refine ⟨stateAt u df xs (start, List.replicate start.length Scalar.zero), rfl, ?_, ?_, ?_⟩
  · intro t ht
    exact stateAfter_length hdf _ _ rfl (by simp)
  · intro t ht
    have e : res.log[t] = callOf inputs.cols targets.cols (stateAt u df xs (start, List.replicate start.length Scalar.zero) t) (xs[t]'(by omega)) := by
      have := epochCalls_getElem u df inputs.cols targets.cols xs (start, List.replicate start.length Scalar.zero) t
        (by rw [epochCalls_length]; omega) (by omega)
      rw [← this]
      simp only [hlog]
    rw [e]
    exact ⟨rfl, stateAt_succ u df xs _ (by omega)⟩
  · rw [hout, stateAt, hlen, List.take_length]

end

theorem step_getD (u : CoordRule ℝ) {s : List ℝ × List ℝ} {g : List ℝ} {n i : ℕ} (h1 : s.1.length = n) (h2 : s.2.length = n) (h3 : g.length = n)
    (hi : i < n) : (u.step s g).1.getD i 0 = (u (s.1.getD i 0) (s.2.getD i 0) (g.getD i 0)).1 ∧
      (u.step s g).2.getD i 0 = (u (s.1.getD i 0) (s.2.getD i 0) (g.getD i 0)).2 := by
  constructor <;>
    simp [CoordRule.step, List.getD_eq_getElem?_getD, h1, h2, h3, hi]

/-- Nesterov's method for the gradients `G`, coordinate by coordinate: a position `x` and a velocity `v`, both of `n` coordinates. In step `t` the gradient is
taken ahead, at `x + alpha v`; the velocity becomes `alpha v - mu * gradient` and is added to the position. -/
structure Spec.NesterovRun (n : ℕ) (alpha mu : ℝ) (start : List ℝ) (T : ℕ) (grad : ℕ → List ℝ) (x v : ℕ → ℕ → ℝ) : Prop where
  start_x : ∀ i < n, x 0 i = start.getD i 0
  start_v : ∀ i < n, v 0 i = 0
  velocity : ∀ t < T, ∀ i < n, v (t + 1) i = alpha * v t i - mu * (grad t).getD i 0
  position : ∀ t < T, ∀ i < n, x (t + 1) i = x t i + v (t + 1) i

/-- **C88.** A run of `StochasticGD` is a run of Nesterov's method with step size `mu` and momentum `alpha`: there are positions and velocities that
follow the method, the model is asked for its gradient exactly at the points ahead `x + alpha v`, and the result is the last point ahead. -/
theorem C88_nesterov (o : StochasticGD ℝ) (g : ComputeGrad ℝ) (f : List ℝ → Sample ℝ → ℝ) (df : List ℝ → Sample ℝ → List ℝ)
    (r : ℕ → ℕ → ℕ) (start : List ℝ) (inputs targets : Mat ℝ) (hrows : inputs.rows.length ≤ targets.rows.length)
    (hg : Computes g f df inputs targets start.length) :
    ∃ (w : List ℝ) (x v : ℕ → ℕ → ℝ), let log := (o.optimize g r start inputs targets).log
      (o.optimize g r start inputs targets).out = ok w ∧ w.length = start.length ∧
      NesterovRun start.length o.alpha o.mu start log.length
        (fun t => if h : t < log.length then df log[t].params (callSample log[t]) else []) x v ∧
      (∀ t (h : t < log.length), log[t].params.length = start.length ∧ ∀ i < start.length, log[t].params.getD i 0 = x t i + o.alpha * v t i) ∧
      ∀ i < start.length, w.getD i 0 = x log.length i + o.alpha * v log.length i := by
  have hdf := fun (w : List ℝ) (x : Sample ℝ) h => (hg w h).1 x
  obtain ⟨st, h0, hl, hstep, hout⟩ := stochRun_states (C45_sgd o g f df r start inputs targets hrows hg) hdf
  generalize (o.optimize g r start inputs targets) = res at *
  refine ⟨_, fun t i => (st t).1.getD i 0 + o.alpha * (st t).2.getD i 0, fun t i => -(st t).2.getD i 0, hout, (hl _ le_rfl).1, ?_, ?_, ?_⟩
  · have zero : ∀ i : ℕ, (List.replicate start.length (Scalar.zero : ℝ)).getD i 0 = 0 := by
      intro i
      rcases lt_or_ge i start.length with h | h
      · rw [getD_lt 0 (by simpa using h), List.getElem_replicate]; rfl
      · rw [getD_ge _ (by simpa using h)]
    refine ⟨fun i _ => by rw [h0]; dsimp only; rw [zero]; ring, fun i _ => by rw [h0]; dsimp only; rw [zero]; ring, ?_, ?_⟩
    · intro t ht i hi
      obtain ⟨hp, hs⟩ := hstep t ht
      have hlt := hl t ht.le
      have e := step_getD (sgdRule o.alpha o.mu) hlt.1 hlt.2 (hdf res.log[t].params (callSample res.log[t]) (by rw [hp]; exact hlt.1)) hi
      rw [hs, e.2, dif_pos ht]
      simp only [sgdRule, real_add, real_mul]
      ring
    · intro t ht i hi
      obtain ⟨hp, hs⟩ := hstep t ht
      have hlt := hl t ht.le
      have e := step_getD (sgdRule o.alpha o.mu) hlt.1 hlt.2 (hdf res.log[t].params (callSample res.log[t]) (by rw [hp]; exact hlt.1)) hi
      rw [hs, e.1, e.2]
      simp only [sgdRule, real_add, real_mul, real_sub, real_neg, real_one]
      ring
  · intro t ht
    obtain ⟨hp, -⟩ := hstep t ht
    rw [hp]
    exact ⟨(hl t ht.le).1, fun i _ => by ring⟩
  · intro i _
    ring

/-- **C88 (step size).** While the gradient stays the same vector, sample `t` moves the parameters by `-(1 + alpha + ... + alpha^(t+1)) mu` times
that vector: the step size is `mu` (amplified by momentum towards `mu / (1 - alpha)`), not its square. -/
theorem C88_constant_gradient (o : StochasticGD ℝ) (g : ComputeGrad ℝ) (f : List ℝ → Sample ℝ → ℝ) (df : List ℝ → Sample ℝ → List ℝ)
    (r : ℕ → ℕ → ℕ) (start : List ℝ) (inputs targets : Mat ℝ) (hrows : inputs.rows.length ≤ targets.rows.length)
    (hg : Computes g f df inputs targets start.length) (G : List ℝ) (hG : ∀ w x, df w x = G) :
    ∃ w : List ℝ, let log := (o.optimize g r start inputs targets).log
      (o.optimize g r start inputs targets).out = ok w ∧
      ∀ t < log.length, ∀ i < start.length,
        (((log.map SampleCall.params) ++ [w]).getD (t + 1) []).getD i 0 =
          (((log.map SampleCall.params) ++ [w]).getD t []).getD i 0 - o.mu * (∑ k ∈ Finset.range (t + 2), o.alpha ^ k) * G.getD i 0 := by
  have hdf := fun (w : List ℝ) (x : Sample ℝ) h => (hg w h).1 x
  obtain ⟨st, h0, hl, hstep, hout⟩ := stochRun_states (C45_sgd o g f df r start inputs targets hrows hg) hdf
  generalize (o.optimize g r start inputs targets) = res at *
  refine ⟨_, hout, ?_⟩
  have ev : ∀ t ≤ res.log.length, ((res.log.map SampleCall.params) ++ [(st res.log.length).1]).getD t [] = (st t).1 := by
    intro t ht
    rw [List.getD_eq_getElem?_getD]
    rcases ht.eq_or_lt with h | h
    · subst h; simp
    · rw [List.getElem?_append_left (by simpa using h), List.getElem?_map, List.getElem?_eq_getElem h]
      simpa using (hstep t h).1
  have hd : ∀ t ≤ res.log.length, ∀ i < start.length, (st t).2.getD i 0 = o.mu * (∑ k ∈ Finset.range t, o.alpha ^ k) * G.getD i 0 := by
    intro t
    induction t with
    | zero =>
      intro _ i hi
      rw [h0, getD_lt 0 (by simpa using hi), List.getElem_replicate]
      simp
    | succ t ih =>
      intro ht i hi
      obtain ⟨hp, hs⟩ := hstep t ht
      have hlt := hl t (by omega)
      have e := step_getD (sgdRule o.alpha o.mu) hlt.1 hlt.2 (hdf res.log[t].params (callSample res.log[t]) (by rw [hp]; exact hlt.1)) hi
      rw [hs, e.2, hG]
      simp only [sgdRule, real_add, real_mul]
      rw [ih (by omega) i hi, Finset.sum_range_succ']
      have : ∑ k ∈ Finset.range t, o.alpha ^ (k + 1) = o.alpha * ∑ k ∈ Finset.range t, o.alpha ^ k := by
        rw [Finset.mul_sum]; exact Finset.sum_congr rfl fun k _ => by ring
      rw [this]
      ring
  intro t ht i hi
  rw [ev t (by omega), ev (t + 1) (by omega)]
  obtain ⟨hp, hs⟩ := hstep t ht
  have hlt := hl t (by omega)
  have e := step_getD (sgdRule o.alpha o.mu) hlt.1 hlt.2 (hdf res.log[t].params (callSample res.log[t]) (by rw [hp]; exact hlt.1)) hi
  rw [hs, e.1, hG]
  simp only [sgdRule, real_add, real_mul, real_sub, real_neg, real_one]
  rw [hd t (by omega) i hi]
  have e1 : ∑ k ∈ Finset.range (t + 2), o.alpha ^ k = 1 + o.alpha * (1 + o.alpha * ∑ k ∈ Finset.range t, o.alpha ^ k) := by
    rw [Finset.sum_range_succ', Finset.sum_range_succ']
    have : ∑ k ∈ Finset.range t, o.alpha ^ (k + 1 + 1) = o.alpha * (o.alpha * ∑ k ∈ Finset.range t, o.alpha ^ k) := by
      rw [Finset.mul_sum, Finset.mul_sum]; exact Finset.sum_congr rfl fun k _ => by ring
    rw [this]
    ring
  rw [e1]
  ring

/-- A model meeting the hypotheses: one parameter, the cost `(w - t)²` of the target `t` of a sample. -/
def squareModel : ComputeGrad ℝ := fun w _ t => ok ((w.getD 0 0 - (t.rows.headD []).headD 0) ^ 2, [2 * (w.getD 0 0 - (t.rows.headD []).headD 0)])

theorem squareModel_computes (inputs targets : Mat ℝ) :
    Computes squareModel (fun w s => (w.getD 0 0 - s.2.headD 0) ^ 2) (fun w s => [2 * (w.getD 0 0 - s.2.headD 0)]) inputs targets 1 := by
  intro w _
  exact ⟨fun _ => rfl, fun i _ _ => by simp [squareModel, sampleAt]⟩

/-- On it two epochs over two samples are a Nesterov run of up to four steps. -/
example (r : ℕ → ℕ → ℕ) : ∃ (w : List ℝ) (x v : ℕ → ℕ → ℝ),
    let log := ((⟨1 / 2, 1 / 10, 2⟩ : StochasticGD ℝ).optimize squareModel r [5] ⟨1, [[0], [1]]⟩ ⟨1, [[2], [3]]⟩).log
    ((⟨1 / 2, 1 / 10, 2⟩ : StochasticGD ℝ).optimize squareModel r [5] ⟨1, [[0], [1]]⟩ ⟨1, [[2], [3]]⟩).out = ok w ∧
      NesterovRun 1 (1 / 2) (1 / 10) [5] log.length
        (fun t => if h : t < log.length then [2 * (log[t].params.getD 0 0 - (callSample log[t]).2.headD 0)] else []) x v := by
  obtain ⟨w, x, v, h1, -, h2, -⟩ := C88_nesterov ⟨1 / 2, 1 / 10, 2⟩ squareModel _ _ r [5] ⟨1, [[0], [1]]⟩ ⟨1, [[2], [3]]⟩ (by simp) (squareModel_computes _ _)
  exact ⟨w, x, v, h1, h2⟩

end RM
