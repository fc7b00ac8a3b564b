import Mathlib.Analysis.InnerProductSpace.PiL2
import Verif.Props.Nesterov
import Verif.Props.GdRate

/-! C89: stochastic training keeps up with the best fixed parameters. -/

set_option linter.unusedSectionVars false

namespace RM
open Outcome Scalar Spec

/-- What a run paid more than fixed parameters `z` would have paid: over all calls, the cost at the parameters and the sample of the call, minus the
cost of `z` on the same sample. -/
def Spec.regret (f : List ℝ → Sample ℝ → ℝ) (log : List (SampleCall ℝ)) (z : List ℝ) : ℝ :=
  (log.map fun c => f c.params (callSample c) - f z (callSample c)).sum

/-- The sum over the calls of the squares of coordinate `i` of the gradient. -/
def Spec.gradSquares (df : List ℝ → Sample ℝ → List ℝ) (log : List (SampleCall ℝ)) (i : ℕ) : ℝ :=
  (log.map fun c => (df c.params (callSample c)).getD i 0 ^ 2).sum

/-- For every sample the cost is convex in the parameters. -/
def Spec.ConvexPerSample (f : List ℝ → Sample ℝ → ℝ) (df : List ℝ → Sample ℝ → List ℝ) (n : ℕ) : Prop :=
  ∀ x : Sample ℝ, AboveTangents (fun w => f w x) (fun w => df w x) n

/-- Convexity turns the regret into a sum of products. -/
theorem regret_le_linear {f : List ℝ → Sample ℝ → ℝ} {df : List ℝ → Sample ℝ → List ℝ} {n : ℕ} (hc : ConvexPerSample f df n)
    {z : List ℝ} (hz : z.length = n) : ∀ log : List (SampleCall ℝ), (∀ c ∈ log, c.params.length = n) →
      regret f log z ≤ ∑ i ∈ Finset.range n, (log.map fun c => (df c.params (callSample c)).getD i 0 * (c.params.getD i 0 - z.getD i 0)).sum
  | [], _ => by simp [regret]
  | c :: log, h => by
    have ih := regret_le_linear hc hz log fun c' h' => h c' (List.mem_cons_of_mem _ h')
    have h1 := hc (callSample c) c.params z (h c List.mem_cons_self) hz
    dsimp only at h1
    unfold regret at ih ⊢
    simp only [List.map_cons, List.sum_cons]
    rw [Finset.sum_add_distrib]
    have : ∑ i ∈ Finset.range n, (df c.params (callSample c)).getD i 0 * (c.params.getD i 0 - z.getD i 0) =
        -∑ i ∈ Finset.range n, (df c.params (callSample c)).getD i 0 * (z.getD i 0 - c.params.getD i 0) := by
      rw [← Finset.sum_neg_distrib]
      exact Finset.sum_congr rfl fun i _ => by ring
    linarith

theorem sum_take_succ {α : Type} (f : α → ℝ) (l : List α) (t : ℕ) (h : t < l.length) :
    ((l.take (t + 1)).map f).sum = ((l.take t).map f).sum + f l[t] := by
  rw [← List.take_append_getElem h, List.map_append, List.sum_append]
  simp

/-- One coordinate of one AdaGrad step. -/
theorem ada_coord {α τ w s g z D : ℝ} (hα : 0 < α) (hτ : 0 ≤ τ) (hs : 0 ≤ s) (hD : |w - z| ≤ D) :
    g * (w - z) + (τ + Real.sqrt s) / (2 * α) * (D ^ 2 - (w - z) ^ 2) + α * Real.sqrt s ≤
      (τ + Real.sqrt (s + g * g)) / (2 * α) * (D ^ 2 - (w - α * (g / (τ + Real.sqrt (s + g * g))) - z) ^ 2) + α * Real.sqrt (s + g * g) := by
  have hs' : 0 ≤ s + g * g := by nlinarith
  set a := Real.sqrt s with ha
  set b := Real.sqrt (s + g * g) with hb
  have ha0 : 0 ≤ a := Real.sqrt_nonneg _
  have hb0 : 0 ≤ b := Real.sqrt_nonneg _
  have haa : a * a = s := Real.mul_self_sqrt hs
  have hbb : b * b = s + g * g := Real.mul_self_sqrt hs'
  have hab : a ≤ b := Real.sqrt_le_sqrt (by nlinarith)
  have hD2 : (w - z) ^ 2 ≤ D ^ 2 := by
    rw [← sq_abs (w - z)]
    exact pow_le_pow_left₀ (abs_nonneg _) hD 2
  rcases (add_nonneg hτ hb0).eq_or_lt with h0 | h0
  · have hb' : b = 0 := by linarith
    have ha' : a = 0 := le_antisymm (hb' ▸ hab) ha0
    have hg : g = 0 := by
      have : g * g = 0 := by nlinarith
      simpa using this
    have ht : τ = 0 := by linarith
    simp [hg, ha', hb', ht]
  · set h' := τ + b with hh'
    have e : h' / (2 * α) * ((w - z) ^ 2 - (w - α * (g / h') - z) ^ 2) = g * (w - z) - α * (g * g) / (2 * h') := by
      field_simp
      ring
    have h1 : g * g / (2 * h') ≤ b - a := by
      rw [div_le_iff₀ (by positivity)]
      have : (b - a) * (b + a) = g * g := by nlinarith
      have h2 : (b - a) * (b + a) ≤ (b - a) * (2 * h') := mul_le_mul_of_nonneg_left (by linarith) (by linarith)
      linarith
    have h2 : (τ + a) / (2 * α) * (D ^ 2 - (w - z) ^ 2) ≤ h' / (2 * α) * (D ^ 2 - (w - z) ^ 2) :=
      mul_le_mul_of_nonneg_right (div_le_div_of_nonneg_right (by linarith) (by positivity)) (by linarith)
    have h3 : h' / (2 * α) * (D ^ 2 - (w - α * (g / h') - z) ^ 2) = h' / (2 * α) * (D ^ 2 - (w - z) ^ 2) + (g * (w - z) - α * (g * g) / (2 * h')) := by
      rw [← e]; ring
    have h4 : α * (g * g) / (2 * h') ≤ α * (b - a) := by
      rw [mul_div_assoc]
      exact mul_le_mul_of_nonneg_left h1 hα.le
    rw [h3]
    linarith

/-- **C89 (AdaGrad).** With per-sample costs convex in the parameters, whatever the order of the samples: if the parameters of all calls are within `D` of
`z` in every coordinate, the run paid at most `∑ᵢ D² / (2 alpha) (tau + √Sᵢ) + alpha √Sᵢ` more than `z`, where `Sᵢ` is the sum of the squares of coordinate
`i` of the gradients. -/
theorem C89_adagrad (o : AdaGrad ℝ) (ha : 0 < o.alpha) (ht : 0 ≤ o.tau) (g : ComputeGrad ℝ) (f : List ℝ → Sample ℝ → ℝ) (df : List ℝ → Sample ℝ → List ℝ)
    (r : ℕ → ℕ → ℕ) (start : List ℝ) (inputs targets : Mat ℝ) (hrows : inputs.rows.length ≤ targets.rows.length)
    (hg : Computes g f df inputs targets start.length) (hc : ConvexPerSample f df start.length) (z : List ℝ) (hz : z.length = start.length) (D : ℝ)
    (hD : ∀ c ∈ (o.optimize g r start inputs targets).log, ∀ i < start.length, |c.params.getD i 0 - z.getD i 0| ≤ D) :
    regret f (o.optimize g r start inputs targets).log z ≤ ∑ i ∈ Finset.range start.length,
      (D ^ 2 / (2 * o.alpha) * (o.tau + Real.sqrt (gradSquares df (o.optimize g r start inputs targets).log i)) +
        o.alpha * Real.sqrt (gradSquares df (o.optimize g r start inputs targets).log i)) := by
  have hdf := fun (w : List ℝ) (x : Sample ℝ) h => (hg w h).1 x
  obtain ⟨st, h0, hl, hstep, -⟩ := stochRun_states (C45_adagrad o g f df r start inputs targets hrows hg) hdf
  generalize (o.optimize g r start inputs targets) = res at *
  have hparams : ∀ c ∈ res.log, c.params.length = start.length := by
    intro c hc
    obtain ⟨t, ht, rfl⟩ := List.mem_iff_getElem.1 hc
    rw [(hstep t ht).1]
    exact (hl t ht.le).1
  refine (regret_le_linear hc hz res.log hparams).trans (Finset.sum_le_sum fun i hi => ?_)
  have hi := Finset.mem_range.1 hi
  rcases Nat.eq_zero_or_pos res.log.length with hlen | hlen
  · have : res.log = [] := List.length_eq_zero_iff.1 hlen
    simp only [this, List.map_nil, List.sum_nil, gradSquares, Real.sqrt_zero, add_zero, mul_zero]
    positivity
  have key : ∀ t ≤ res.log.length, (st t).2.getD i 0 = gradSquares df (res.log.take t) i ∧
      ((res.log.take t).map fun c => (df c.params (callSample c)).getD i 0 * (c.params.getD i 0 - z.getD i 0)).sum ≤
        (o.tau + Real.sqrt (gradSquares df (res.log.take t) i)) / (2 * o.alpha) * (D ^ 2 - ((st t).1.getD i 0 - z.getD i 0) ^ 2) +
          o.alpha * Real.sqrt (gradSquares df (res.log.take t) i) := by
    intro t
    induction t with
    | zero =>
      intro _
      have hp := hD res.log[0] (List.getElem_mem _) i hi
      rw [(hstep 0 hlen).1] at hp
      rw [h0] at hp ⊢
      have hp2 : (start.getD i 0 - z.getD i 0) ^ 2 ≤ D ^ 2 := by
        rw [← sq_abs (start.getD i 0 - z.getD i 0)]
        exact pow_le_pow_left₀ (abs_nonneg _) hp 2
      constructor
      · rw [getD_lt 0 (by simpa using hi), List.getElem_replicate]
        simp [gradSquares]
      · simp only [List.take_zero, List.map_nil, List.sum_nil, gradSquares, Real.sqrt_zero, add_zero, mul_zero]
        exact mul_nonneg (by positivity) (by linarith)
    | succ t ih =>
      intro htl
      obtain ⟨ih1, ih2⟩ := ih (by omega)
      obtain ⟨hp, hs⟩ := hstep t htl
      have hlt := hl t (by omega)
      have e := step_getD (adaRule o.alpha o.tau) hlt.1 hlt.2 (hdf res.log[t].params (callSample res.log[t]) (by rw [hp]; exact hlt.1)) hi
      have hq : gradSquares df (res.log.take (t + 1)) i = gradSquares df (res.log.take t) i +
          (df res.log[t].params (callSample res.log[t])).getD i 0 * (df res.log[t].params (callSample res.log[t])).getD i 0 := by
        unfold gradSquares
        rw [sum_take_succ _ _ _ htl]
        ring
      have hnn : 0 ≤ gradSquares df (res.log.take t) i := list_sum_nonneg' _ fun x hx => by
        obtain ⟨c, _, rfl⟩ := List.mem_map.1 hx
        positivity
      rw [hs, e.1, e.2, sum_take_succ _ _ _ htl, hq]
      simp only [adaRule, real_add, real_mul, real_sub, real_div, real_sqrt]
      rw [ih1]
      refine ⟨rfl, ?_⟩
      have hDt := hD res.log[t] (List.getElem_mem _) i hi
      have := ada_coord (g := (df res.log[t].params (callSample res.log[t])).getD i 0) ha ht hnn hDt
      rw [hp] at this ⊢
      linarith
  have := (key res.log.length le_rfl).2
  rw [List.take_length] at this
  refine this.trans ?_
  have hsq := Real.sqrt_nonneg (gradSquares df res.log i)
  have : (o.tau + Real.sqrt (gradSquares df res.log i)) / (2 * o.alpha) * (D ^ 2 - ((st res.log.length).1.getD i 0 - z.getD i 0) ^ 2) ≤
      D ^ 2 / (2 * o.alpha) * (o.tau + Real.sqrt (gradSquares df res.log i)) := by
    have h1 : D ^ 2 / (2 * o.alpha) * (o.tau + Real.sqrt (gradSquares df res.log i)) =
        (o.tau + Real.sqrt (gradSquares df res.log i)) / (2 * o.alpha) * D ^ 2 := by ring
    rw [h1]
    exact mul_le_mul_of_nonneg_left (by nlinarith [sq_nonneg ((st res.log.length).1.getD i 0 - z.getD i 0)]) (by positivity)
  linarith

/-- **C89 (AdaGrad, rate).** If moreover no coordinate of a gradient exceeds `G`, the run paid on average over its `T` calls at most
`n (D² / (2 alpha) + alpha) G / √T + n D² tau / (2 alpha T)` more than `z`: the gap vanishes like `1 / √T`. -/
theorem C89_adagrad_rate (o : AdaGrad ℝ) (ha : 0 < o.alpha) (ht : 0 ≤ o.tau) (g : ComputeGrad ℝ) (f : List ℝ → Sample ℝ → ℝ) (df : List ℝ → Sample ℝ → List ℝ)
    (r : ℕ → ℕ → ℕ) (start : List ℝ) (inputs targets : Mat ℝ) (hrows : inputs.rows.length ≤ targets.rows.length)
    (hg : Computes g f df inputs targets start.length) (hc : ConvexPerSample f df start.length) (z : List ℝ) (hz : z.length = start.length) (D G : ℝ)
    (hD : ∀ c ∈ (o.optimize g r start inputs targets).log, ∀ i < start.length, |c.params.getD i 0 - z.getD i 0| ≤ D)
    (hG0 : 0 ≤ G) (hG : ∀ c ∈ (o.optimize g r start inputs targets).log, ∀ i < start.length, |(df c.params (callSample c)).getD i 0| ≤ G) :
    regret f (o.optimize g r start inputs targets).log z ≤ start.length *
      ((D ^ 2 / (2 * o.alpha) + o.alpha) * G * Real.sqrt (o.optimize g r start inputs targets).log.length + D ^ 2 * o.tau / (2 * o.alpha)) := by
  refine (C89_adagrad o ha ht g f df r start inputs targets hrows hg hc z hz D hD).trans ?_
  generalize (o.optimize g r start inputs targets).log = log at *
  have : ∀ i ∈ Finset.range start.length, (D ^ 2 / (2 * o.alpha) * (o.tau + Real.sqrt (gradSquares df log i)) + o.alpha * Real.sqrt (gradSquares df log i)) ≤
      (D ^ 2 / (2 * o.alpha) + o.alpha) * G * Real.sqrt log.length + D ^ 2 * o.tau / (2 * o.alpha) := by
    intro i hi
    have hi := Finset.mem_range.1 hi
    have h1 : gradSquares df log i ≤ G ^ 2 * log.length := by
      have : ∀ l : List (SampleCall ℝ), (∀ c ∈ l, |(df c.params (callSample c)).getD i 0| ≤ G) → gradSquares df l i ≤ G ^ 2 * l.length := by
        intro l
        induction l with
        | nil => intro _; simp [gradSquares]
        | cons c l ih =>
          intro h
          have ih := ih fun c' h' => h c' (List.mem_cons_of_mem _ h')
          have h2 : (df c.params (callSample c)).getD i 0 ^ 2 ≤ G ^ 2 := by
            rw [← sq_abs]
            exact pow_le_pow_left₀ (abs_nonneg _) (h c List.mem_cons_self) 2
          simp only [gradSquares, List.map_cons, List.sum_cons, List.length_cons] at ih ⊢
          push_cast
          linarith
      exact this log fun c h => hG c h i hi
    have h2 : Real.sqrt (gradSquares df log i) ≤ G * Real.sqrt log.length := by
      refine (Real.sqrt_le_sqrt h1).trans ?_
      rw [Real.sqrt_mul (by positivity), Real.sqrt_sq hG0]
    have h3 := mul_le_mul_of_nonneg_left h2 (by positivity : 0 ≤ D ^ 2 / (2 * o.alpha) + o.alpha)
    have h4 : D ^ 2 / (2 * o.alpha) * o.tau = D ^ 2 * o.tau / (2 * o.alpha) := by ring
    nlinarith
  refine (Finset.sum_le_sum this).trans ?_
  rw [Finset.sum_const, Finset.card_range, nsmul_eq_mul]

section momentum
variable {E : Type} [NormedAddCommGroup E] [InnerProductSpace ℝ E]

/-- One momentum step. -/
theorem momentum_step {α μ G : ℝ} (hα0 : 0 < α) (hα : α < 1) (hμ : 0 < μ) (hG0 : 0 ≤ G) (w d g z : E) (hd : ‖d‖ ≤ μ * G / (1 - α)) (hg : ‖g‖ ≤ G) :
    let d' := μ • g + α • d
    let w' := w - ((-α) • d + (1 + α) • d')
    ‖d'‖ ≤ μ * G / (1 - α) ∧
      inner ℝ g (w - z) ≤ (1 - α) / (2 * μ) * (‖w - (α ^ 2 / (1 - α)) • d - z‖ ^ 2 - ‖w' - (α ^ 2 / (1 - α)) • d' - z‖ ^ 2) +
        μ * G ^ 2 * (1 / (2 * (1 - α)) + α ^ 2 / (1 - α) ^ 2) := by
  intro d' w'
  have h1 : 0 < 1 - α := by linarith
  constructor
  · calc ‖d'‖ ≤ ‖μ • g‖ + ‖α • d‖ := norm_add_le _ _
      _ = μ * ‖g‖ + α * ‖d‖ := by rw [norm_smul, norm_smul, Real.norm_of_nonneg hμ.le, Real.norm_of_nonneg hα0.le]
      _ ≤ μ * G + α * (μ * G / (1 - α)) := by gcongr
      _ = μ * G / (1 - α) := by field_simp; ring
  · have e : w' - (α ^ 2 / (1 - α)) • d' - z = (w - (α ^ 2 / (1 - α)) • d - z) - (μ / (1 - α)) • g := by
      have : w' - (α ^ 2 / (1 - α)) • d' = w - (α ^ 2 / (1 - α)) • d - (μ / (1 - α)) • g := by
        simp only [w', d']
        match_scalars <;> field_simp <;> ring
      rw [this]
      abel
    rw [e]
    set q := w - (α ^ 2 / (1 - α)) • d - z with hq
    have e2 : ‖q - (μ / (1 - α)) • g‖ ^ 2 = ‖q‖ ^ 2 - 2 * (μ / (1 - α)) * inner ℝ g q + (μ / (1 - α)) ^ 2 * ‖g‖ ^ 2 := by
      rw [norm_sub_sq_real, norm_smul, Real.norm_of_nonneg (by positivity), inner_smul_right, real_inner_comm]
      ring
    have e3 : inner ℝ g (w - z) = inner ℝ g q + α ^ 2 / (1 - α) * inner ℝ g d := by
      rw [← inner_smul_right, ← inner_add_right]
      congr 1
      rw [hq]
      abel
    have h2 : inner ℝ g d ≤ G * (μ * G / (1 - α)) :=
      (real_inner_le_norm g d).trans (mul_le_mul hg hd (norm_nonneg _) hG0)
    have h3 : ‖g‖ ^ 2 ≤ G ^ 2 := pow_le_pow_left₀ (norm_nonneg _) hg 2
    have e4 : (1 - α) / (2 * μ) * (‖q‖ ^ 2 - (‖q‖ ^ 2 - 2 * (μ / (1 - α)) * inner ℝ g q + (μ / (1 - α)) ^ 2 * ‖g‖ ^ 2)) =
        inner ℝ g q - μ / (2 * (1 - α)) * ‖g‖ ^ 2 := by
      field_simp
      ring
    rw [e2, e3, e4]
    have h4 := mul_le_mul_of_nonneg_left h2 (by positivity : 0 ≤ α ^ 2 / (1 - α))
    have h5 := mul_le_mul_of_nonneg_left h3 (by positivity : 0 ≤ μ / (2 * (1 - α)))
    have e5 : μ * G ^ 2 * (1 / (2 * (1 - α)) + α ^ 2 / (1 - α) ^ 2) = μ / (2 * (1 - α)) * G ^ 2 + α ^ 2 / (1 - α) * (G * (μ * G / (1 - α))) := by
      field_simp
    rw [e5]
    linarith

end momentum

/-- A list of numbers as a point of Euclidean space. -/
def euc (n : ℕ) (l : List ℝ) : EuclideanSpace ℝ (Fin n) := WithLp.toLp 2 fun i => l.getD i 0

theorem euc_inner (n : ℕ) (a b : List ℝ) (z : List ℝ) :
    inner ℝ (euc n a) (euc n b - euc n z) = ∑ i ∈ Finset.range n, a.getD i 0 * (b.getD i 0 - z.getD i 0) := by
  rw [PiLp.inner_apply, Finset.sum_range]
  refine Finset.sum_congr rfl fun i _ => ?_
  simp [euc, mul_comm]

theorem euc_normSq (n : ℕ) (a z : List ℝ) : ‖euc n a - euc n z‖ ^ 2 = distSq n a z := by
  rw [EuclideanSpace.norm_sq_eq, distSq, Finset.sum_range]
  refine Finset.sum_congr rfl fun i _ => ?_
  simp [euc]

/-- **C89 (StochasticGD).** With per-sample costs convex in the parameters, momentum below 1 and gradients of length at most `G` at the calls, whatever the
order of the samples: the run paid in its `T` calls at most `(1 - alpha) / (2 mu) |start - z|²` plus `T` times
`mu G² (1 / (2 (1 - alpha)) + alpha² / (1 - alpha)²)` more than any fixed parameters `z`. -/
theorem C89_sgd (o : StochasticGD ℝ) (ha0 : 0 < o.alpha) (ha : o.alpha < 1) (hm : 0 < o.mu) (g : ComputeGrad ℝ) (f : List ℝ → Sample ℝ → ℝ)
    (df : List ℝ → Sample ℝ → List ℝ) (r : ℕ → ℕ → ℕ) (start : List ℝ) (inputs targets : Mat ℝ) (hrows : inputs.rows.length ≤ targets.rows.length)
    (hg : Computes g f df inputs targets start.length) (hc : ConvexPerSample f df start.length) (z : List ℝ) (hz : z.length = start.length) (G : ℝ)
    (hG0 : 0 ≤ G)
    (hG : ∀ c ∈ (o.optimize g r start inputs targets).log, ∑ i ∈ Finset.range start.length, (df c.params (callSample c)).getD i 0 ^ 2 ≤ G ^ 2) :
    regret f (o.optimize g r start inputs targets).log z ≤ (1 - o.alpha) / (2 * o.mu) * distSq start.length start z +
      (o.optimize g r start inputs targets).log.length * (o.mu * G ^ 2 * (1 / (2 * (1 - o.alpha)) + o.alpha ^ 2 / (1 - o.alpha) ^ 2)) := by
  have hdf := fun (w : List ℝ) (x : Sample ℝ) h => (hg w h).1 x
  obtain ⟨st, h0, hl, hstep, -⟩ := stochRun_states (C45_sgd o g f df r start inputs targets hrows hg) hdf
  generalize (o.optimize g r start inputs targets) = res at *
  have hparams : ∀ c ∈ res.log, c.params.length = start.length := by
    intro c hc
    obtain ⟨t, ht, rfl⟩ := List.mem_iff_getElem.1 hc
    rw [(hstep t ht).1]
    exact (hl t ht.le).1
  have hsum : ∀ l : List (SampleCall ℝ), ∑ i ∈ Finset.range start.length,
      (l.map fun c => (df c.params (callSample c)).getD i 0 * (c.params.getD i 0 - z.getD i 0)).sum =
      (l.map fun c => inner ℝ (euc start.length (df c.params (callSample c))) (euc start.length c.params - euc start.length z)).sum := by
    intro l
    induction l with
    | nil => simp
    | cons c l ih =>
      simp only [List.map_cons, List.sum_cons]
      rw [Finset.sum_add_distrib, ih, euc_inner]
  refine (regret_le_linear hc hz res.log hparams).trans ?_
  rw [hsum]
  have h1a : 0 < 1 - o.alpha := by linarith
  set K := o.mu * G ^ 2 * (1 / (2 * (1 - o.alpha)) + o.alpha ^ 2 / (1 - o.alpha) ^ 2) with hK
  set N := start.length with hN
  have key : ∀ t ≤ res.log.length, ‖euc N (st t).2‖ ≤ o.mu * G / (1 - o.alpha) ∧
      ((res.log.take t).map fun c => inner ℝ (euc N (df c.params (callSample c))) (euc N c.params - euc N z)).sum ≤
        (1 - o.alpha) / (2 * o.mu) * (distSq N start z - ‖euc N (st t).1 - (o.alpha ^ 2 / (1 - o.alpha)) • euc N (st t).2 - euc N z‖ ^ 2) + t * K := by
    intro t
    induction t with
    | zero =>
      intro _
      have e0 : euc N (List.replicate N (Scalar.zero : ℝ)) = 0 := by
        ext i
        simp only [euc, PiLp.zero_apply]
        rw [getD_lt 0 (by simp), List.getElem_replicate]
        rfl
      rw [h0]
      dsimp only
      rw [e0, norm_zero, smul_zero, sub_zero, euc_normSq]
      refine ⟨by positivity, by simp⟩
    | succ t ih =>
      intro htl
      obtain ⟨ih1, ih2⟩ := ih (by omega)
      obtain ⟨hp, hs⟩ := hstep t htl
      have hlt := hl t (by omega)
      have hgl := hdf res.log[t].params (callSample res.log[t]) (by rw [hp]; exact hlt.1)
      have e2 : euc N (st (t + 1)).2 = o.mu • euc N (df res.log[t].params (callSample res.log[t])) + o.alpha • euc N (st t).2 := by
        ext i
        have e := step_getD (sgdRule o.alpha o.mu) hlt.1 hlt.2 hgl i.2
        simp only [euc, PiLp.add_apply, PiLp.smul_apply, smul_eq_mul]
        rw [hs, e.2]
        simp only [sgdRule, real_add, real_mul]
        ring
      have e1 : euc N (st (t + 1)).1 = euc N (st t).1 - ((-o.alpha) • euc N (st t).2 + (1 + o.alpha) • euc N (st (t + 1)).2) := by
        rw [e2]
        ext i
        have e := step_getD (sgdRule o.alpha o.mu) hlt.1 hlt.2 hgl i.2
        simp only [euc, PiLp.add_apply, PiLp.sub_apply, PiLp.smul_apply, smul_eq_mul]
        rw [hs, e.1]
        simp only [sgdRule, real_add, real_mul, real_sub, real_neg, real_one]
        ring
      have hgn : ‖euc N (df res.log[t].params (callSample res.log[t]))‖ ≤ G := by
        have h := hG res.log[t] (List.getElem_mem _)
        have e := euc_normSq N (df res.log[t].params (callSample res.log[t])) []
        have ez : euc N [] = 0 := by ext i; simp [euc]
        rw [ez, sub_zero] at e
        refine le_of_sq_le_sq ?_ hG0
        rw [e]
        simpa [distSq] using h
      have := momentum_step ha0 ha hm hG0 (euc N (st t).1) (euc N (st t).2) (euc N (df res.log[t].params (callSample res.log[t]))) (euc N z) ih1 hgn
      dsimp only at this
      rw [← e2, ← e1] at this
      refine ⟨this.1, ?_⟩
      rw [sum_take_succ _ _ _ htl]
      have h3 := this.2
      push_cast
      rw [hp] at h3 ⊢
      have h4 : (1 - o.alpha) / (2 * o.mu) * (distSq N start z - ‖euc N (st (t + 1)).1 - (o.alpha ^ 2 / (1 - o.alpha)) • euc N (st (t + 1)).2 - euc N z‖ ^ 2) =
          (1 - o.alpha) / (2 * o.mu) * (distSq N start z - ‖euc N (st t).1 - (o.alpha ^ 2 / (1 - o.alpha)) • euc N (st t).2 - euc N z‖ ^ 2) +
          (1 - o.alpha) / (2 * o.mu) * (‖euc N (st t).1 - (o.alpha ^ 2 / (1 - o.alpha)) • euc N (st t).2 - euc N z‖ ^ 2 -
            ‖euc N (st (t + 1)).1 - (o.alpha ^ 2 / (1 - o.alpha)) • euc N (st (t + 1)).2 - euc N z‖ ^ 2) := by ring
      rw [h4]
      linarith
  have h := (key res.log.length le_rfl).2
  rw [List.take_length] at h
  refine h.trans ?_
  have : 0 ≤ (1 - o.alpha) / (2 * o.mu) * ‖euc N (st res.log.length).1 - (o.alpha ^ 2 / (1 - o.alpha)) • euc N (st res.log.length).2 - euc N z‖ ^ 2 := by positivity
  nlinarith

theorem perm_sum_real {l l' : List ℝ} (h : l.Perm l') : l.sum = l'.sum := h.sum_eq

/-- **C89 (what the comparison means).** A run makes `E` passes over the data: `T = E N` calls, and what `z` pays on their samples is `E` times what it
pays on the data set. So for `T > 0` the average cost paid exceeds the mean cost of `z` on the data set by exactly the regret over `T`. -/
theorem C89_data {u : CoordRule ℝ} {iters : ℕ} {f : List ℝ → Sample ℝ → ℝ} {df : List ℝ → Sample ℝ → List ℝ}
    {r : ℕ → ℕ → ℕ} {start : List ℝ} {inputs targets : Mat ℝ} {res : Logged (SampleCall ℝ) (List ℝ)}
    (h : StochRun u iters f df r start inputs targets res) (z : List ℝ) (hT : res.log ≠ []) :
    (∃ E ≤ iters, res.log.length = E * inputs.rows.length) ∧
    (res.log.map fun c => f c.params (callSample c)).sum / res.log.length =
      (∑ i ∈ Finset.range inputs.rows.length, f z (sampleAt inputs targets i)) / inputs.rows.length + regret f res.log z / res.log.length := by
  obtain ⟨epochs, hE, hlog, hep⟩ := C45_every_sample_once h
  have hlen : ∀ es : List (List (SampleCall ℝ)), (∀ ep ∈ es, ep ∈ epochs) → es.flatten.length = es.length * inputs.rows.length ∧
      (es.flatten.map fun c => f z (callSample c)).sum = es.length * ∑ i ∈ Finset.range inputs.rows.length, f z (sampleAt inputs targets i) := by
    intro es
    induction es with
    | nil => simp
    | cons ep es ih =>
      intro hes
      have ih := ih fun e he => hes e (List.mem_cons_of_mem _ he)
      have hp := hep ep (hes ep List.mem_cons_self)
      have h1 := hp.length_eq
      simp only [List.length_map, List.length_range] at h1
      have h2 : (ep.map fun c => f z (callSample c)).sum = ∑ i ∈ Finset.range inputs.rows.length, f z (sampleAt inputs targets i) := by
        have h3 := perm_sum_real (hp.map fun p : Mat ℝ × Mat ℝ => f z (p.1.rows.headD [], p.2.rows.headD []))
        rw [List.map_map, List.map_map] at h3
        have e1 : (ep.map fun c => f z (callSample c)) = ep.map ((fun p : Mat ℝ × Mat ℝ => f z (p.1.rows.headD [], p.2.rows.headD [])) ∘ fun c => (c.input, c.target)) := rfl
        rw [e1, h3, lsum_range]
        rfl
      rw [List.flatten_cons, List.length_append, List.map_append, List.sum_append, ih.1, ih.2, h1, h2, List.length_cons]
      constructor
      · ring
      · push_cast; ring
  obtain ⟨h1, h2⟩ := hlen epochs fun _ h => h
  rw [← hlog] at h1 h2
  refine ⟨⟨_, hE, h1⟩, ?_⟩
  have hpos : 0 < res.log.length := List.length_pos_of_ne_nil hT
  have hreg : regret f res.log z = (res.log.map fun c => f c.params (callSample c)).sum - (res.log.map fun c => f z (callSample c)).sum := by
    unfold regret
    generalize res.log = l
    induction l with
    | nil => simp
    | cons c l ih => simp only [List.map_cons, List.sum_cons]; rw [ih]; ring
  rw [hreg, h2]
  have hEN : (res.log.length : ℝ) = epochs.length * inputs.rows.length := by exact_mod_cast h1
  have hEN0 : 0 < epochs.length * inputs.rows.length := h1 ▸ hpos
  have hN0 : (inputs.rows.length : ℝ) ≠ 0 := by
    have : inputs.rows.length ≠ 0 := by rintro h; simp [h] at hEN0
    exact_mod_cast this
  have hE0 : (epochs.length : ℝ) ≠ 0 := by
    have : epochs.length ≠ 0 := by rintro h; simp [h] at hEN0
    exact_mod_cast this
  rw [hEN]
  field_simp
  ring

/-- The absolute deviation of the single parameter from the target: convex, with gradients of length at most 1. -/
noncomputable def absModel : ComputeGrad ℝ := fun w _ t =>
  ok (|w.getD 0 0 - (t.rows.headD []).headD 0|, [if (t.rows.headD []).headD 0 ≤ w.getD 0 0 then 1 else -1])

/-- Its cost and gradient on a sample. -/
noncomputable def absCost (w : List ℝ) (s : Sample ℝ) : ℝ := |w.getD 0 0 - s.2.headD 0|
/-- Its gradient on a sample. -/
noncomputable def absGrad (w : List ℝ) (s : Sample ℝ) : List ℝ := [if s.2.headD 0 ≤ w.getD 0 0 then 1 else -1]

theorem absModel_computes (inputs targets : Mat ℝ) : Computes absModel absCost absGrad inputs targets 1 := by
  intro w _
  exact ⟨fun _ => rfl, fun i _ _ => by simp [absModel, sampleAt, absCost, absGrad]⟩

theorem absModel_convex : ConvexPerSample absCost absGrad 1 := by
  intro s x y _ _
  simp only [absCost, absGrad, Finset.sum_range_one]
  generalize x.getD 0 0 = p, y.getD 0 0 = q, s.2.headD 0 = t
  simp only [List.getD_cons_zero]
  split
  · rename_i h
    rw [abs_of_nonneg (by linarith)]
    linarith [le_abs_self (q - t)]
  · rename_i h
    rw [abs_of_neg (by linarith)]
    linarith [neg_abs_le (q - t)]

/-- An instance of `C89_sgd`: all hypotheses hold on this model for the default optimiser; every parameter is beaten by at most
`9/2 (5 - z)²` plus `T/10 (5/9 + 1/81)`. -/
example (r : ℕ → ℕ → ℕ) (z : ℝ) :
    regret absCost ((StochasticGD.default : StochasticGD ℝ).optimize absModel r [5] ⟨1, [[0], [1]]⟩ ⟨1, [[2], [3]]⟩).log [z] ≤ 9 / 2 * (5 - z) ^ 2 +
      ((StochasticGD.default : StochasticGD ℝ).optimize absModel r [5] ⟨1, [[0], [1]]⟩ ⟨1, [[2], [3]]⟩).log.length * (1 / 10 * (5 / 9 + 1 / 81)) := by
  have ea : (StochasticGD.default : StochasticGD ℝ).alpha = 1 / 10 := by simp [StochasticGD.default]
  have em : (StochasticGD.default : StochasticGD ℝ).mu = 1 / 10 := by simp [StochasticGD.default]
  have := C89_sgd StochasticGD.default (by rw [ea]; norm_num) (by rw [ea]; norm_num) (by rw [em]; norm_num) absModel absCost absGrad r [5] ⟨1, [[0], [1]]⟩
    ⟨1, [[2], [3]]⟩ (by simp) (absModel_computes _ _) absModel_convex [z] rfl 1 (by norm_num) (by
      intro c _
      simp only [absGrad, List.length_cons, List.length_nil, Finset.sum_range_one, List.getD_cons_zero, zero_add]
      split <;> norm_num)
  refine this.trans (le_of_eq ?_)
  rw [ea, em]
  simp only [distSq, List.length_cons, List.length_nil, Finset.sum_range_one, List.getD_cons_zero, zero_add]
  ring

/-- The bound on gradients of `C89_adagrad_rate` holds on this model. -/
example (c : SampleCall ℝ) : ∀ i < 1, |(absGrad c.params (callSample c)).getD i 0| ≤ 1 := by
  intro i hi
  obtain rfl : i = 0 := by omega
  simp only [absGrad, List.getD_cons_zero]
  split <;> simp

end RM
