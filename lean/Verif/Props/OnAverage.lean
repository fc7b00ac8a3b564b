import Verif.Props.RandomFolds
import Verif.Props.Nesterov
import Verif.Props.Svm
import Mathlib.Data.List.GetD

/-! C110: what random choices do on average. Averages are means over all equally likely sequences of draws. -/

namespace RM
open Outcome Scalar Spec

/-! ### Specification -/

/-- The mean of a quantity over a list of equally likely cases. -/
noncomputable def Spec.meanOver {α : Type} (cases : List α) (q : α → ℝ) : ℝ := (cases.map q).sum / cases.length

/-- What `φ` says about the sample that the model was given in call `t`. -/
noncomputable def Spec.calledWith {α : Type} (φ : Mat ℝ → Mat ℝ → ℝ) (res : Logged (SampleCall ℝ) α) (t : ℕ) : ℝ :=
  (res.log[t]?).elim 0 fun c => φ c.input c.target

/-- Coordinate `c` of the parameters in call `t`. -/
noncomputable def Spec.paramInCall {α : Type} (c : ℕ) (res : Logged (SampleCall ℝ) α) (t : ℕ) : ℝ :=
  (res.log[t]?).elim 0 fun k => k.params.getD c 0

/-- The random streams of the epochs, with the draws `ds` in epoch `e`. -/
def Spec.withEpoch (r : ℕ → ℕ → ℕ) (e : ℕ) (ds : List ℕ) : ℕ → ℕ → ℕ := Function.update r e (streamOf ds)

/-! ### Positions of a shuffle -/

theorem at_count {n j : ℕ} (hj : j < n) {i : ℕ} (hi : i < n) : ((arrangements n).filter fun l => l.getD j 0 = i).card = (n - 1).factorial := by
  have hconst : ∀ i' < n, ((arrangements n).filter fun l => l.getD j 0 = i').card = ((arrangements n).filter fun l => l.getD j 0 = i).card := by
    intro i' hi'
    rw [← rename_count (Equiv.swap (⟨i, hi⟩ : Fin n) ⟨i', hi'⟩) (fun l => l.getD j 0 = i')]
    congr 1
    apply Finset.filter_congr
    intro l hl
    rw [mem_arrangements] at hl
    have hlen : j < l.length := by rw [hl.length_eq]; simpa using hj
    have hlt : l[j] < n := List.mem_range.1 (hl.mem_iff.1 (List.getElem_mem hlen))
    rw [List.getD_eq_getElem _ _ (by simpa using hlen), List.getElem_map, List.getD_eq_getElem _ _ hlen, rename_lt _ hlt]
    constructor
    · intro h
      have h2 : Equiv.swap (⟨i, hi⟩ : Fin n) ⟨i', hi'⟩ ⟨l[j], hlt⟩ = ⟨i', hi'⟩ := Fin.ext h
      rw [Equiv.swap_apply_eq_iff, Equiv.swap_apply_right] at h2
      exact congrArg Fin.val h2
    · intro h
      have h2 : (⟨l[j], hlt⟩ : Fin n) = ⟨i, hi⟩ := Fin.ext h
      rw [h2, Equiv.swap_apply_left]
  have hsum : ∑ i' ∈ Finset.range n, ((arrangements n).filter fun l => l.getD j 0 = i').card = (arrangements n).card := by
    rw [← Finset.card_eq_sum_card_fiberwise]
    intro l hl
    have hl := mem_arrangements.1 hl
    have hlen : j < l.length := by rw [hl.length_eq]; simpa using hj
    beta_reduce
    rw [List.getD_eq_getElem _ _ hlen]
    simpa using hl.mem_iff.1 (List.getElem_mem hlen)
  rw [Finset.sum_congr rfl fun i' h => hconst i' (Finset.mem_range.1 h), Finset.sum_const, Finset.card_range, card_arrangements, smul_eq_mul] at hsum
  obtain ⟨m, rfl⟩ : ∃ m, n = m + 1 := ⟨n - 1, by omega⟩
  rw [Nat.factorial_succ] at hsum
  simpa using Nat.eq_of_mul_eq_mul_left (by omega) hsum

theorem at_sum {n j : ℕ} (hj : j < n) (φ : ℕ → ℝ) : ∑ l ∈ arrangements n, φ (l.getD j 0) = (n - 1).factorial * ∑ i ∈ Finset.range n, φ i := by
  have hmap : ∀ l ∈ arrangements n, l.getD j 0 ∈ Finset.range n := by
    intro l hl
    have hl := mem_arrangements.1 hl
    have hlen : j < l.length := by rw [hl.length_eq]; simpa using hj
    rw [List.getD_eq_getElem _ _ hlen]
    simpa using hl.mem_iff.1 (List.getElem_mem hlen)
  rw [← Finset.sum_fiberwise_of_maps_to hmap, Finset.mul_sum]
  apply Finset.sum_congr rfl
  intro i hi
  rw [Finset.sum_congr rfl (g := fun _ => φ i) (fun l hl => by rw [(Finset.mem_filter.1 hl).2]), Finset.sum_const, at_count hj (Finset.mem_range.1 hi), nsmul_eq_mul]

theorem fyRec_map {α β : Type} (f : α → β) (r : ℕ → ℕ) (l : List α) : fyRec r 0 (l.map f) = (fyRec r 0 l).map f := by
  have := C04_in_place_shuffle_natural f r l
  rw [inPlaceFisherYates_eq, inPlaceFisherYates_eq] at this
  injection this

/-- Wherever the samples lie before a shuffle, each of them comes to position `j` equally often. -/
theorem position_mean {n j : ℕ} (hj : j < n) {p : List ℕ} (hp : p.Perm (List.range n)) (φ : ℕ → ℝ) :
    meanOver (shuffleDraws n) (fun ds => φ ((fyRec (streamOf ds) 0 p).getD j 0)) = (∑ i ∈ Finset.range n, φ i) / n := by
  have hlen : p.length = n := by simpa using hp.length_eq
  have hpm : p = (List.range n).map fun i => p.getD i 0 := by
    refine List.ext_getElem (by simp [hlen]) ?_
    intro i h1 h2
    simp [List.getD_eq_getElem?_getD, List.getElem?_eq_getElem h1]
  have e : ∀ ds, (fyRec (streamOf ds) 0 p).getD j 0 = p.getD ((fyRec (streamOf ds) 0 (List.range n)).getD j 0) 0 := by
    intro ds
    conv_lhs => rw [hpm, fyRec_map]
    have hl : j < (fyRec (streamOf ds) 0 (List.range n)).length := by
      rw [(fyRec_perm (streamOf ds) n 0 (List.range n) (by simp)).length_eq]; simpa using hj
    rw [List.getD_eq_getElem _ _ (by simpa using hl), List.getElem_map, List.getD_eq_getElem _ _ hl]
  unfold meanOver
  simp only [e]
  rw [draws_sum n (fun l => φ (p.getD (l.getD j 0) 0)), at_sum hj (fun i => φ (p.getD i 0)), C109_number]
  have hs : ∑ i ∈ Finset.range n, φ (p.getD i 0) = ∑ i ∈ Finset.range n, φ i := by
    have h1 : ∀ ψ : ℕ → ℝ, ∑ i ∈ Finset.range n, ψ i = ((List.range n).map ψ).sum := fun ψ => by
      rw [← List.toFinset_range, List.sum_toFinset _ List.nodup_range]
    rw [h1, h1, ← (hp.map φ).sum_eq]
    congr 1
    conv_rhs => rw [hpm]
    rw [List.map_map]
    rfl
  rw [hs]
  obtain ⟨m, rfl⟩ : ∃ m, n = m + 1 := ⟨n - 1, by omega⟩
  rw [Nat.add_sub_cancel, Nat.factorial_succ]
  have h0 : (m.factorial : ℝ) ≠ 0 := by exact_mod_cast m.factorial_ne_zero
  push_cast
  field_simp

/-! ### Stochastic optimisers -/

theorem orders_unique {r r' : ℕ → ℕ → ℕ} {N e : ℕ} (hr : ∀ e' < e, r e' = r' e') {o o' : ℕ → List ℕ}
    (ho : ∀ e, inPlaceFisherYates (r e) (prevOrder o N e) = ok (o e)) (ho' : ∀ e, inPlaceFisherYates (r' e) (prevOrder o' N e) = ok (o' e)) :
    prevOrder o N e = prevOrder o' N e := by
  induction e with
  | zero => rfl
  | succ e ih =>
    have h1 := ho e
    rw [ih fun e' h => hr e' (by omega), hr e (by omega), ho' e] at h1
    injection h1 with h1
    exact h1.symm

theorem stochRun_position {u : CoordRule ℝ} {iters : ℕ} {f : List ℝ → Sample ℝ → ℝ} {df : List ℝ → Sample ℝ → List ℝ} (r : ℕ → ℕ → ℕ) {start : List ℝ}
    {inputs targets : Mat ℝ} {run : (ℕ → ℕ → ℕ) → Logged (SampleCall ℝ) (List ℝ)} (h : ∀ r, StochRun u iters f df r start inputs targets (run r)) (e : ℕ) {j : ℕ}
    (hj : j < inputs.rows.length) (hreach : ∀ ds ∈ shuffleDraws inputs.rows.length, (e + 1) * inputs.rows.length ≤ (run (withEpoch r e ds)).log.length)
    (φ : Mat ℝ → Mat ℝ → ℝ) :
    meanOver (shuffleDraws inputs.rows.length) (fun ds => calledWith φ (run (withEpoch r e ds)) (e * inputs.rows.length + j)) =
      (∑ i ∈ Finset.range inputs.rows.length, φ ⟨inputs.cols, [inputs.rows.getD i []]⟩ ⟨targets.cols, [targets.rows.getD i []]⟩) / inputs.rows.length := by
  obtain ⟨o0, ho0, hp0⟩ := exists_orders r inputs.rows.length
  have hp : (prevOrder o0 inputs.rows.length e).Perm (List.range inputs.rows.length) := by
    cases e with
    | zero => exact List.Perm.refl _
    | succ e => exact hp0 e
  rw [← position_mean hj hp]
  unfold meanOver
  congr 2
  apply List.map_congr_left
  intro ds hds
  obtain ⟨order, S, cost, E, ho, hpe, hS, hcost, hE, hlog, -, -, -⟩ := h (withEpoch r e ds)
  have hlenE : (run (withEpoch r e ds)).log.length = E * inputs.rows.length := by
    rw [hlog, List.length_flatMap]
    simp only [epochCalls_length, List.length_map, (hpe _).length_eq, List.length_range]
    simp
  have heE : e < E := by
    have h1 := hreach ds hds
    rw [hlenE] at h1
    have := Nat.le_of_mul_le_mul_right h1 (by omega)
    omega
  have horder : order e = fyRec (streamOf ds) 0 (prevOrder o0 inputs.rows.length e) := by
    have h1 := ho e
    rw [inPlaceFisherYates_eq] at h1
    injection h1 with h1
    rw [← h1]
    unfold withEpoch
    rw [Function.update_self, orders_unique (r := Function.update r e (streamOf ds)) (r' := r) (o := order) (o' := o0) _ ho ho0]
    intro e' he'
    exact Function.update_of_ne (by omega) _ _
  have hsplit : ∀ (E : ℕ) (g : ℕ → List (SampleCall ℝ)), (∀ e, (g e).length = inputs.rows.length) → e < E →
      ((List.range E).flatMap g)[e * inputs.rows.length + j]? = (g e)[j]? := by
    intro E g hg
    induction E with
    | zero => omega
    | succ E ih =>
      intro hE
      rw [List.range_succ, List.flatMap_append]
      have hl : ((List.range E).flatMap g).length = E * inputs.rows.length := by
        rw [List.length_flatMap]; simp [hg]
      by_cases h : e < E
      · rw [List.getElem?_append_left, ih h]
        rw [hl]
        have : (e + 1) * inputs.rows.length ≤ E * inputs.rows.length := Nat.mul_le_mul_right _ h
        rw [Nat.add_mul, one_mul] at this
        omega
      · obtain rfl : e = E := by omega
        rw [List.getElem?_append_right (by rw [hl]; omega), hl]
        simp
  unfold calledWith
  rw [hlog, hsplit E _ (fun e' => by rw [epochCalls_length, List.length_map, (hpe e').length_eq, List.length_range]) heE]
  have hl : j < (order e).length := by rw [(hpe e).length_eq]; simpa using hj
  rw [List.getElem?_eq_getElem (by rw [epochCalls_length, List.length_map]; exact hl), epochCalls_getElem (h' := by rw [List.length_map]; exact hl), List.getElem_map, ← horder,
    List.getD_eq_getElem _ _ hl]
  rfl

/-- The first epoch always takes place, unless no iterations are asked for. -/
theorem stochRun_first_epoch {u : CoordRule ℝ} {iters : ℕ} (hit : 0 < iters) {f : List ℝ → Sample ℝ → ℝ} {df : List ℝ → Sample ℝ → List ℝ} {r : ℕ → ℕ → ℕ} {start : List ℝ}
    {inputs targets : Mat ℝ} {res : Logged (SampleCall ℝ) (List ℝ)} (h : StochRun u iters f df r start inputs targets res) : inputs.rows.length ≤ res.log.length := by
  obtain ⟨order, S, cost, E, ho, hpe, hS, hcost, hE, hlog, -, -, hstop⟩ := h
  have hE0 : 0 < E := by
    by_contra h
    obtain ⟨e, he, -⟩ := hstop (by omega)
    omega
  rw [hlog, List.length_flatMap]
  simp only [epochCalls_length, List.length_map, (hpe _).length_eq, List.length_range]
  simp only [List.map_const', List.length_range, List.sum_replicate, smul_eq_mul]
  exact Nat.le_mul_of_pos_left _ hE0

section
variable {g : ComputeGrad ℝ} {f : List ℝ → Sample ℝ → ℝ} {df : List ℝ → Sample ℝ → List ℝ} (r : ℕ → ℕ → ℕ) {start : List ℝ} {inputs targets : Mat ℝ}
  (hrows : inputs.rows.length ≤ targets.rows.length) (hg : Computes g f df inputs targets start.length)
include hrows hg

/-- **C110 (stochastic optimisers).** Whatever happened in earlier epochs, each sample is equally likely to be the `j`-th one of an epoch that takes place: the mean over
all shuffles of anything that depends on that sample is its mean over the samples. -/
theorem C110_position (e : ℕ) {j : ℕ} (hj : j < inputs.rows.length) (φ : Mat ℝ → Mat ℝ → ℝ) (run : (ℕ → ℕ → ℕ) → Logged (SampleCall ℝ) (List ℝ))
    (hrun : (∃ o : StochasticGD ℝ, run = fun r => o.optimize g r start inputs targets) ∨ (∃ o : AdaGrad ℝ, run = fun r => o.optimize g r start inputs targets) ∨
      ∃ o : RMSProp ℝ, run = fun r => o.optimize g r start inputs targets)
    (hreach : ∀ ds ∈ shuffleDraws inputs.rows.length, (e + 1) * inputs.rows.length ≤ (run (withEpoch r e ds)).log.length) :
    meanOver (shuffleDraws inputs.rows.length) (fun ds => calledWith φ (run (withEpoch r e ds)) (e * inputs.rows.length + j)) =
      (∑ i ∈ Finset.range inputs.rows.length, φ ⟨inputs.cols, [inputs.rows.getD i []]⟩ ⟨targets.cols, [targets.rows.getD i []]⟩) / inputs.rows.length := by
  rcases hrun with ⟨o, rfl⟩ | ⟨o, rfl⟩ | ⟨o, rfl⟩
  · exact stochRun_position r (fun r => C45_sgd o g f df r start inputs targets hrows hg) e hj hreach φ
  · exact stochRun_position r (fun r => C45_adagrad o g f df r start inputs targets hrows hg) e hj hreach φ
  · exact stochRun_position r (fun r => C45_rmsprop o g f df r start inputs targets hrows hg) e hj hreach φ

end

theorem sgd_first_coord (alpha mu : ℝ) {start d : List ℝ} (hd : d.length = start.length) {c : ℕ} (hc : c < start.length) :
    ((sgdRule alpha mu).step (start, List.replicate start.length Scalar.zero) d).1.getD c 0 = start.getD c 0 - mu * (1 + alpha) * d.getD c 0 := by
  have hl : c < ((sgdRule alpha mu).step (start, List.replicate start.length Scalar.zero) d).1.length := by simp [CoordRule.step, hd, hc]
  rw [List.getD_eq_getElem _ _ hl, List.getD_eq_getElem _ _ hc, List.getD_eq_getElem _ _ (hd ▸ hc)]
  simp [CoordRule.step, sgdRule]
  ring

/-- **C110 (stochastic gradient descent).** The first step is unbiased: from the same start, the parameters that the model gets in its second call are, on average over all
shuffles, one gradient step away from the start, with the mean of the gradients of the single samples and step size `mu * (1 + alpha)`. -/
theorem C110_sgd_step (o : StochasticGD ℝ) (hit : 0 < o.iters) {g : ComputeGrad ℝ} {f : List ℝ → Sample ℝ → ℝ} {df : List ℝ → Sample ℝ → List ℝ} (r : ℕ → ℕ → ℕ)
    {start : List ℝ} {inputs targets : Mat ℝ} (hrows : inputs.rows.length ≤ targets.rows.length) (hg : Computes g f df inputs targets start.length)
    (hn : 2 ≤ inputs.rows.length) {c : ℕ} (hc : c < start.length) :
    meanOver (shuffleDraws inputs.rows.length) (fun ds => paramInCall c (o.optimize g (withEpoch r 0 ds) start inputs targets) 1) =
      start.getD c 0 - o.mu * (1 + o.alpha) *
        ((∑ i ∈ Finset.range inputs.rows.length, (df start (sampleAt inputs targets i)).getD c 0) / inputs.rows.length) := by
  have hn0 : (inputs.rows.length : ℝ) ≠ 0 := by
    have : inputs.rows.length ≠ 0 := by omega
    exact_mod_cast this
  have key := position_mean (n := inputs.rows.length) (j := 0) (by omega) (List.Perm.refl _)
    (fun i => start.getD c 0 - o.mu * (1 + o.alpha) * (df start (sampleAt inputs targets i)).getD c 0)
  rw [Finset.sum_sub_distrib, ← Finset.mul_sum, Finset.sum_const, Finset.card_range, nsmul_eq_mul, sub_div, mul_div_cancel_left₀ _ hn0, mul_div_assoc] at key
  rw [← key]
  unfold meanOver
  congr 2
  apply List.map_congr_left
  intro ds hds
  obtain ⟨order, S, cost, E, ho, hpe, hS, hcost, hE, hlog, -, -, hstop⟩ := C45_sgd o g f df (withEpoch r 0 ds) start inputs targets hrows hg
  have hE0 : 0 < E := by
    by_contra h
    obtain ⟨e, he, -⟩ := hstop (by omega)
    omega
  obtain ⟨E, rfl⟩ : ∃ E', E = E' + 1 := ⟨E - 1, by omega⟩
  have horder : order 0 = fyRec (streamOf ds) 0 (List.range inputs.rows.length) := by
    have h1 := ho 0
    rw [inPlaceFisherYates_eq] at h1
    injection h1 with h1
    rw [← h1]
    simp [withEpoch, prevOrder]
  have hl : (order 0).length = inputs.rows.length := by rw [(hpe 0).length_eq]; simp
  have hl2 : 1 < (epochCalls (sgdRule o.alpha o.mu) df inputs.cols targets.cols ((order 0).map (sampleAt inputs targets)) (S 0)).length := by
    rw [epochCalls_length, List.length_map, hl]; omega
  unfold paramInCall
  rw [hlog, List.range_succ_eq_map, List.flatMap_cons, List.getElem?_append_left hl2, List.getElem?_eq_getElem hl2,
    epochCalls_getElem (h' := by rw [List.length_map, hl]; omega), ← horder]
  have hS0 : S 0 = (start, List.replicate start.length Scalar.zero) := by rw [hS]; rfl
  have h0 : 0 < (order 0).length := by omega
  simp only [callOf, Option.elim_some]
  rw [stateAt_succ _ _ _ _ (by rw [List.length_map]; exact h0), show stateAt (sgdRule o.alpha o.mu) df ((order 0).map (sampleAt inputs targets)) (S 0) 0 = S 0 from by simp [stateAt, stateAfter],
    hS0, List.getElem_map, sgd_first_coord _ _ ((hg start rfl).1 _) hc, List.getD_eq_getElem _ _ h0]

/-! ### Independent draws -/

theorem meanOver_congr {α : Type} {l : List α} {q q' : α → ℝ} (h : ∀ a ∈ l, q a = q' a) : meanOver l q = meanOver l q' := by
  unfold meanOver
  rw [List.map_congr_left h]

theorem allDraws_length_pos {bound : ℕ → ℕ} (hb : ∀ t, 0 < bound t) : ∀ m, 0 < (allDraws bound m).length
  | 0 => by simp [allDraws]
  | m + 1 => by
    rw [allDraws, List.length_flatMap]
    simp only [List.length_map, List.length_range, List.map_const', List.sum_replicate, smul_eq_mul]
    exact Nat.mul_pos (allDraws_length_pos hb m) (hb m)

theorem meanOver_succ {bound : ℕ → ℕ} (m : ℕ) (q : List ℕ → ℝ) :
    meanOver (allDraws bound (m + 1)) q = meanOver (allDraws bound m) fun ds => (∑ d ∈ Finset.range (bound m), q (ds ++ [d])) / bound m := by
  have h1 : ∀ l : List (List ℕ), ((l.flatMap fun ds => (List.range (bound m)).map fun d => ds ++ [d]).map q).sum
      = (l.map fun ds => ∑ d ∈ Finset.range (bound m), q (ds ++ [d])).sum := by
    intro l
    induction l with
    | nil => rfl
    | cons a l ih =>
      rw [List.flatMap_cons, List.map_append, List.sum_append, ih, List.map_cons, List.sum_cons, List.map_map, ← List.toFinset_range, List.sum_toFinset _ List.nodup_range]
      rfl
  have h2 : ∀ (l : List (List ℕ)) (φ : List ℕ → ℝ) (b : ℝ), (l.map fun ds => φ ds / b).sum = (l.map φ).sum / b := by
    intro l φ b
    induction l with
    | nil => simp
    | cons a l ih => simp [ih, add_div]
  unfold meanOver
  rw [allDraws, h1, h2, List.length_flatMap]
  simp only [List.length_map, List.length_range, List.map_const', List.sum_replicate, smul_eq_mul, Nat.cast_mul]
  rw [div_div, mul_comm]

theorem meanOver_add {α : Type} (l : List α) (q q' : α → ℝ) : meanOver l (fun a => q a + q' a) = meanOver l q + meanOver l q' := by
  unfold meanOver
  rw [List.sum_map_add, add_div]

theorem meanOver_const {α : Type} {l : List α} (h : 0 < l.length) (x : ℝ) : meanOver l (fun _ => x) = x := by
  unfold meanOver
  rw [List.map_const', List.sum_replicate, nsmul_eq_mul]
  have : (l.length : ℝ) ≠ 0 := by exact_mod_cast h.ne'
  field_simp

theorem meanOver_mul {α : Type} (l : List α) (q : α → ℝ) (x : ℝ) : meanOver l (fun a => x * q a) = x * meanOver l q := by
  unfold meanOver
  rw [List.sum_map_mul_left, mul_div_assoc]

/-- The mean of a sum over independent draws is the sum of the means. -/
theorem draws_additive {n : ℕ} (hn : 0 < n) (ψ : ℕ → ℕ → ℝ) : ∀ T, meanOver (allDraws (fun _ => n) T) (fun ds => ∑ t ∈ Finset.range T, ψ t (streamOf ds t)) =
    ∑ t ∈ Finset.range T, (∑ d ∈ Finset.range n, ψ t d) / n
  | 0 => by simp [meanOver, allDraws]
  | T + 1 => by
    have hn' : (n : ℝ) ≠ 0 := by exact_mod_cast hn.ne'
    rw [meanOver_succ, Finset.sum_range_succ _ T, ← draws_additive hn ψ T, ← meanOver_const (allDraws_length_pos (fun _ => hn) T) ((∑ d ∈ Finset.range n, ψ T d) / n), ← meanOver_add]
    apply meanOver_congr
    intro ds hds
    have hl := (mem_allDraws.1 hds).1
    have e : ∀ d, ∑ t ∈ Finset.range (T + 1), ψ t (streamOf (ds ++ [d]) t) = ∑ t ∈ Finset.range T, ψ t (streamOf ds t) + ψ T d := by
      intro d
      rw [Finset.sum_range_succ]
      congr 1
      · apply Finset.sum_congr rfl
        intro t ht
        have : t < ds.length := by rw [hl]; exact Finset.mem_range.1 ht
        simp [streamOf, List.getElem?_append_left this]
      · simp [streamOf, ← hl]
    simp only [e]
    rw [Finset.sum_add_distrib, Finset.sum_const, Finset.card_range, nsmul_eq_mul, add_div, mul_div_cancel_left₀ _ hn']

section
variable {m : Svm XR} {k : List ℝ → List ℝ → ℝ} (hk : FiniteKernel m.ker k) {lambda : ℝ} (hm : m.lambda = XR.fin lambda) (hl : 0 < lambda)
  {X : Mat ℝ} (hX : X.WF) {y : List ℝ} (hy : y.length = X.rows.length) (hn : X.rows ≠ []) (hT : 0 < m.optimIters)
include hk hm hl hX hy hn hT

/-- **C110 (support vector machine).** On average over all sequences of draws, the multiplier of sample `i` is the share of the iterations `t` in which `y_i` times the sum of
the kernels of sample `i` with all samples is below `λ t`, divided by the number of samples. -/
theorem C110_svm : ∃ a : List ℕ → ℕ → ℝ,
    (∀ ds, ∃ m', m.train (streamOf ds) (finMat X) (fins y) = ok m' ∧ m'.alpha = some ((List.range X.rows.length).map fun i => XR.fin (a ds i))) ∧
    ∀ i < X.rows.length, meanOver (allDraws (fun _ => X.rows.length) m.optimIters) (fun ds => a ds i) =
      (((Finset.range m.optimIters).filter fun t => y.getD i 0 * kernelMass k X i < lambda * (t : ℕ)).card : ℝ) / m.optimIters / X.rows.length := by
  classical
  have hnpos : 0 < X.rows.length := List.length_pos_iff.2 hn
  refine ⟨fun ds i => (((Finset.range m.optimIters).filter fun t => streamOf ds t % X.rows.length = i ∧ y.getD i 0 * kernelMass k X i < lambda * t).card : ℝ) / m.optimIters,
    fun ds => ?_, ?_⟩
  · obtain ⟨m', h1, -, -, -, -, h6⟩ := C68_multipliers_partial hk hm hl hX hy hn hT (streamOf ds)
    exact ⟨m', h1, h6⟩
  · intro i hi
    have e : ∀ ds, (((Finset.range m.optimIters).filter fun t => streamOf ds t % X.rows.length = i ∧ y.getD i 0 * kernelMass k X i < lambda * t).card : ℝ) / m.optimIters
        = (1 / m.optimIters : ℝ) * ∑ t ∈ Finset.range m.optimIters,
          (fun t d => if d % X.rows.length = i ∧ y.getD i 0 * kernelMass k X i < lambda * (t : ℕ) then (1 : ℝ) else 0) t (streamOf ds t) := by
      intro ds
      rw [Finset.sum_boole]
      ring
    simp only [e]
    rw [meanOver_mul, draws_additive hnpos (fun t d => if d % X.rows.length = i ∧ y.getD i 0 * kernelMass k X i < lambda * (t : ℕ) then (1 : ℝ) else 0)]
    have hin : ∀ t : ℕ, ∑ d ∈ Finset.range X.rows.length, (if d % X.rows.length = i ∧ y.getD i 0 * kernelMass k X i < lambda * (t : ℕ) then (1 : ℝ) else 0)
        = if y.getD i 0 * kernelMass k X i < lambda * (t : ℕ) then 1 else 0 := by
      intro t
      rw [Finset.sum_eq_single i]
      · rw [Nat.mod_eq_of_lt hi]; simp
      · intro d hd hne
        rw [Nat.mod_eq_of_lt (Finset.mem_range.1 hd), if_neg fun h => hne h.1]
      · intro h; exact absurd (Finset.mem_range.2 hi) h
    simp only [hin]
    rw [← Finset.sum_div, Finset.sum_boole]
    ring

end

/-! ### Sampling without replacement -/

theorem resStep_sum {α : Type} (v : α → ℝ) {k m : ℕ} {R : List α} (hR : R.length = k) (p : α) :
    ∑ d ∈ Finset.range (k + m + 1), ((resStep k R (p, d)).map v).sum = (k + m) * (R.map v).sum + k * v p := by
  have hset : ∀ d < k, ((resStep k R (p, d)).map v).sum = (R.map v).sum + v p - ((R.map v).getD d 0) := by
    intro d hd
    have hd' : d < R.length := hR ▸ hd
    have h := ((cons_set_perm p R d hd').map v).sum_eq
    simp only [List.map_cons, List.sum_cons] at h
    rw [List.getD_eq_getElem _ _ (by simpa using hd'), List.getElem_map]
    simp only [resStep, hd, ↓reduceIte]
    linarith
  have hsum : ∑ d ∈ Finset.range k, (R.map v).getD d 0 = (R.map v).sum := by
    subst hR
    rw [← List.toFinset_range, List.sum_toFinset _ List.nodup_range]
    congr 1
    refine List.ext_getElem (by simp) ?_
    intro i h1 h2
    have : i < (R.map v).length := h2
    rw [List.getElem_map, List.getElem_range, List.getD_eq_getElem _ _ this]
  rw [show k + m + 1 = k + (m + 1) by omega, Finset.sum_range_add, Finset.sum_congr rfl fun d hd => hset d (Finset.mem_range.1 hd), Finset.sum_sub_distrib, hsum,
    Finset.sum_congr (s₁ := Finset.range (m + 1)) rfl (g := fun _ => (R.map v).sum) (fun d _ => by simp [resStep])]
  simp only [Finset.sum_const, Finset.card_range, nsmul_eq_mul]
  push_cast
  ring

theorem reservoir_mean {α : Type} (v : α → ℝ) {k : ℕ} {first : List α} (hk : first.length = k) (rest : List α) :
    (k + rest.length : ℝ) * meanOver (allDraws (fun t => k + t + 1) rest.length) (fun ds => (((rest.zip ds).foldl (resStep k) first).map v).sum) =
      k * ((first ++ rest).map v).sum := by
  induction rest using List.reverseRecOn with
  | nil => simp [meanOver, allDraws]
  | append_singleton rest p ih =>
    rw [List.length_append, List.length_singleton, meanOver_succ]
    have e : ∀ ds ∈ allDraws (fun t => k + t + 1) rest.length,
        (∑ d ∈ Finset.range (k + rest.length + 1), ((((rest ++ [p]).zip (ds ++ [d])).foldl (resStep k) first).map v).sum) / ((k + rest.length + 1 : ℕ) : ℝ) =
          ((k + rest.length : ℝ) / (k + rest.length + 1)) * (((rest.zip ds).foldl (resStep k) first).map v).sum + k * v p / (k + rest.length + 1) := by
      intro ds hds
      have hl := (mem_allDraws.1 hds).1
      have e1 : ∀ d, ((rest ++ [p]).zip (ds ++ [d])).foldl (resStep k) first = resStep k ((rest.zip ds).foldl (resStep k) first) (p, d) := by
        intro d
        rw [List.zip_append hl.symm, List.foldl_append]
        rfl
      simp only [e1]
      rw [resStep_sum v (by rw [resFold_length, hk])]
      push_cast
      ring
    rw [meanOver_congr e, meanOver_add, meanOver_mul, meanOver_const (allDraws_length_pos (fun t => Nat.succ_pos _) _), ← List.append_assoc, List.map_append, List.sum_append, mul_add (k : ℝ), ← ih]
    have h0 : (k + rest.length + 1 : ℝ) ≠ 0 := by positivity
    simp only [List.map_cons, List.map_nil, List.sum_singleton]
    push_cast
    field_simp
    ring

/-- **C110 (sampling without replacement).** The mean of any quantity over the sample is unbiased: averaged over all sequences of draws it is the mean over the pool. -/
theorem C110_sample {α : Type} (v : α → ℝ) {pool : List α} {k : ℕ} (hk0 : 0 < k) (hk : k ≤ pool.length) :
    meanOver (allDraws (fun t => k + t + 1) (pool.length - k)) (fun ds => match reservoirSample (streamOf ds) pool k with
      | ok res => (res.map v).sum / k
      | _ => 0) = (pool.map v).sum / pool.length := by
  have h := reservoir_mean v (k := k) (first := pool.take k) (by simpa using hk) (pool.drop k)
  rw [List.take_append_drop, List.length_drop] at h
  have e : ∀ ds ∈ allDraws (fun t => k + t + 1) (pool.length - k), (match reservoirSample (streamOf ds) pool k with
      | ok res => (res.map v).sum / k
      | _ => 0) = (1 / k : ℝ) * ((((pool.drop k).zip ds).foldl (resStep k) (pool.take k)).map v).sum := by
    intro ds hds
    obtain ⟨h1, h2⟩ := mem_allDraws.1 hds
    rw [reservoirSample_eq _ _ _ hk, ← h1, resDraws_streamOf k ds h2]
    simp only []
    ring
  rw [meanOver_congr e, meanOver_mul]
  have hc : (k : ℝ) + ((pool.length - k : ℕ) : ℝ) = pool.length := by rw [Nat.cast_sub hk]; ring
  rw [hc] at h
  have hk' : (k : ℝ) ≠ 0 := by exact_mod_cast hk0.ne'
  have hp' : (pool.length : ℝ) ≠ 0 := by
    have : pool.length ≠ 0 := by omega
    exact_mod_cast this
  field_simp
  linarith

/-! ### Instances -/

/-- Two epochs over two samples: whatever the streams, each of the two samples comes first in the first epoch equally often, and the second call is made, on average, one step with
the mean gradient away from the start. -/
example (r : ℕ → ℕ → ℕ) :
    meanOver (shuffleDraws (⟨1, [[0], [1]]⟩ : Mat ℝ).rows.length) (fun ds => paramInCall 0
      ((⟨1 / 2, 1 / 10, 2⟩ : StochasticGD ℝ).optimize squareModel (withEpoch r 0 ds) [5] ⟨1, [[0], [1]]⟩ ⟨1, [[2], [3]]⟩) 1) = 5 - 1 / 10 * (3 / 2) * ((2 * (5 - 2) + 2 * (5 - 3)) / 2) := by
  rw [C110_sgd_step ⟨1 / 2, 1 / 10, 2⟩ (by norm_num) r (by simp) (squareModel_computes ⟨1, [[0], [1]]⟩ ⟨1, [[2], [3]]⟩) (by simp) (by simp)]
  norm_num [Finset.sum_range_succ, sampleAt]

/-- In the first epoch the second sample is as likely as not to come last: its target is 3 or 2, on average 5/2. -/
example (r : ℕ → ℕ → ℕ) :
    meanOver (shuffleDraws (⟨1, [[0], [1]]⟩ : Mat ℝ).rows.length) (fun ds => calledWith (fun _ t => (t.rows.headD []).headD 0)
      ((⟨1 / 2, 1 / 10, 2⟩ : StochasticGD ℝ).optimize squareModel (withEpoch r 0 ds) [5] ⟨1, [[0], [1]]⟩ ⟨1, [[2], [3]]⟩)
      (0 * (⟨1, [[0], [1]]⟩ : Mat ℝ).rows.length + 1)) = 5 / 2 := by
  rw [C110_position r (by simp) (squareModel_computes ⟨1, [[0], [1]]⟩ ⟨1, [[2], [3]]⟩) (start := [5]) 0 (j := 1) (by simp) (fun _ t => (t.rows.headD []).headD 0)
    (fun r => (⟨1 / 2, 1 / 10, 2⟩ : StochasticGD ℝ).optimize squareModel r [5] ⟨1, [[0], [1]]⟩ ⟨1, [[2], [3]]⟩) (Or.inl ⟨_, rfl⟩) ?_]
  · norm_num [Finset.sum_range_succ]
  · intro ds _
    rw [zero_add, one_mul]
    exact stochRun_first_epoch (by norm_num) (C45_sgd ⟨1 / 2, 1 / 10, 2⟩ squareModel _ _ _ [5] _ _ (by simp) (squareModel_computes _ _))

/-- A sample of two out of three numbers. -/
example : meanOver (allDraws (fun t => 2 + t + 1) ([1, 2, 6].length - 2)) (fun ds => match reservoirSample (streamOf ds) [1, 2, 6] 2 with
      | ok res => (res.map fun x : ℕ => (x : ℝ)).sum / (2 : ℕ)
      | _ => 0) = 3 :=
  (C110_sample (fun x : ℕ => (x : ℝ)) (pool := [1, 2, 6]) (k := 2) (by norm_num) (by simp)).trans (by norm_num)

/-- The default support vector machine on two samples. -/
example : ∃ (k : List ℝ → List ℝ → ℝ) (a : List ℕ → ℕ → ℝ), ∀ i < badX.rows.length,
    meanOver (allDraws (fun _ => badX.rows.length) (Svm.default : Svm XR).optimIters) (fun ds => a ds i) =
      (((Finset.range (Svm.default : Svm XR).optimIters).filter fun t => [1, -1].getD i 0 * kernelMass k badX i < 3 / 10 * (t : ℕ)).card : ℝ) /
        (Svm.default : Svm XR).optimIters / badX.rows.length := by
  obtain ⟨a, -, h⟩ := C110_svm (m := Svm.default) (C58_kernels.2 1 1 one_ne_zero) (lambda := 3 / 10) (by simp [Svm.default]) (by norm_num)
    (X := badX) (y := [1, -1]) (by intro r hr; simp [badX] at hr; rcases hr with rfl | rfl <;> rfl) rfl (by simp [badX]) (by change 0 < 100; norm_num)
  exact ⟨_, a, h⟩

end RM
