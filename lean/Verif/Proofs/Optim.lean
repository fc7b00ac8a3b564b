import Verif.Model.Optim
import Verif.Spec.Optim
import Verif.Proofs.RandUtils

namespace RM
set_option linter.unusedSectionVars false
open Outcome Scalar Spec
variable {F : Type} [Scalar F]

theorem vecZip_same {f : F → F → F} {u v : List F} (h : u.length = v.length) : vecZip f u v = ok (List.zipWith f u v) := by
  rw [vecZip, if_pos h]

theorem zipWith_scale (w g : List F) (alpha : F) :
    List.zipWith Scalar.sub w (vecScale g alpha) = List.zipWith (fun x d => x -. d *. alpha) w g := by
  rw [vecScale, List.zipWith_map_right]

/-! ### Batch gradient descent -/

/-- Any number of loop iterations makes at most that many calls, whatever the model does. -/
theorem gdLoop_calls (alpha : F) (g : List F → Outcome (F × List F)) :
    ∀ (n : ℕ) (w : List F) (prev : F), (gdLoop alpha g n w prev).log.length ≤ n
  | 0, _, _ => by simp [gdLoop]
  | n + 1, w, prev => by
    rw [gdLoop, Nat.add_comm]
    refine Logged.log_bind_length _ _ 1 n (by simp) fun r _ => ?_
    split
    · simp
    · exact (Logged.log_bind_length _ _ 0 n (by simp) fun w' _ => gdLoop_calls alpha g n w' r.1).trans (by omega)

theorem gdLoop_spec (alpha : F) (f : List F → F) (df : List F → List F) (len : ℕ)
    (g : List F → Outcome (F × List F)) (hg : ∀ w : List F, w.length = len → g w = ok (f w, df w) ∧ (df w).length = len)
    (W : ℕ → List F) (hW : ∀ j, W (j + 1) = List.zipWith (fun x d => x -. d *. alpha) (W j) (df (W j)))
    (hlen : (W 0).length = len) :
    ∀ (n k : ℕ), ∃ j, j ≤ n ∧
      (gdLoop alpha g n (W k) (costBefore (fun i => f (W i)) k)) = ⟨(List.range (min (j + 1) n)).map fun i => W (k + i), ok (W (k + j))⟩ ∧
      (∀ i < j, ¬ SameCost (costBefore (fun i => f (W i)) (k + i)) (f (W (k + i)))) ∧
      (j < n → SameCost (costBefore (fun i => f (W i)) (k + j)) (f (W (k + j)))) := by
  have hl : ∀ j, (W j).length = len := by
    intro j
    induction j with
    | zero => exact hlen
    | succ j ih => rw [hW, List.length_zipWith, (hg _ ih).2, ih, Nat.min_self]
  intro n
  induction n with
  | zero =>
    intro k
    exact ⟨0, le_rfl, by simp [gdLoop], by simp, by simp⟩
  | succ n ih =>
    intro k
    have hgk := hg (W k) (hl k)
    rw [gdLoop, hgk.1, Logged.call_ok_bind]
    by_cases hs : SameCost (costBefore (fun i => f (W i)) k) (f (W k))
    · refine ⟨0, Nat.zero_le _, ?_, by simp, fun _ => by simpa using hs⟩
      have hs' : (Scalar.abs (costBefore (fun i => f (W i)) k -. f (W k)) <. learningEps) = true := hs
      simp [hs']
    · obtain ⟨j, hj, he, h1, h2⟩ := ih (k + 1)
      have hs' : (Scalar.abs (costBefore (fun i => f (W i)) k -. f (W k)) <. learningEps) = false := by
        rw [← Bool.not_eq_true]; exact hs
      have hc : costBefore (fun i => f (W i)) (k + 1) = f (W k) := rfl
      refine ⟨j + 1, by omega, ?_, ?_, ?_⟩
      · simp only [hs']
        rw [vecZip_same (by rw [vecScale, List.length_map, hgk.2, hl]), Logged.lift_ok_bind, zipWith_scale, ← hW, ← hc]
        simp only [Bool.false_eq_true, if_false]
        rw [he]
        have e1 : k + 1 + j = k + (j + 1) := by omega
        have e2 : min (j + 1 + 1) (n + 1) = min (j + 1) n + 1 := by omega
        simp only [e1, e2, List.range_succ_eq_map, List.map_cons, List.map_map, Nat.add_zero]
        congr 2
        refine List.map_congr_left fun i _ => ?_
        simp only [Function.comp]
        congr 1
        omega
      · intro i hi
        cases i with
        | zero => simpa using hs
        | succ i =>
          have := h1 i (by omega)
          rwa [show k + 1 + i = k + (i + 1) by omega] at this
      · intro h
        have := h2 (by omega)
        rwa [show k + 1 + j = k + (j + 1) by omega] at this

/-! ### Stochastic optimisers -/

/-- `upd` applies the coordinate rule `u` to vectors of length `len`. -/
def Follows (upd : List F → List F → List F → Outcome (List F × List F)) (u : CoordRule F) (len : ℕ) : Prop :=
  ∀ w aux g : List F, w.length = len → aux.length = len → g.length = len → upd w aux g = ok (u.step (w, aux) g)

theorem step_length (u : CoordRule F) {s : List F × List F} {g : List F} {len : ℕ} (h1 : s.1.length = len)
    (h2 : s.2.length = len) (h3 : g.length = len) : (u.step s g).1.length = len ∧ (u.step s g).2.length = len := by
  simp [CoordRule.step, h1, h2, h3]

theorem zipWith_zip_map {α β γ δ : Type} (p : α → β → γ → δ) : ∀ (a : List α) (b : List β) (c : List γ),
    List.zipWith (fun (x : α × β) y => p x.1 x.2 y) (List.zip a b) c =
      List.zipWith (fun x (y : β × γ) => p x y.1 y.2) a (List.zip b c)
  | [], _, _ => by simp
  | _ :: _, [], _ => by simp
  | _ :: _, _ :: _, [] => by simp
  | a :: as, b :: bs, c :: cs => by simp [zipWith_zip_map p as bs cs]

/-- Both components of a step, as coordinate maps. -/
theorem step_fst (u : CoordRule F) (w aux g : List F) :
    (u.step (w, aux) g).1 = List.zipWith (fun (p : F × F) d => (u p.1 p.2 d).1) (List.zip w aux) g := by
  simp [CoordRule.step, List.map_zipWith]

theorem step_snd (u : CoordRule F) (w aux g : List F) :
    (u.step (w, aux) g).2 = List.zipWith (fun (p : F × F) d => (u p.1 p.2 d).2) (List.zip w aux) g := by
  simp [CoordRule.step, List.map_zipWith]

theorem follows_of_coord {upd : List F → List F → List F → Outcome (List F × List F)} {u : CoordRule F} {len : ℕ}
    (h : ∀ w aux g : List F, w.length = len → aux.length = len → g.length = len → ∃ w' aux', upd w aux g = ok (w', aux') ∧
      w'.length = len ∧ aux'.length = len ∧ ∀ i (hw : i < w.length) (ha : i < aux.length) (hg : i < g.length),
        w'[i]? = some (u w[i] aux[i] g[i]).1 ∧ aux'[i]? = some (u w[i] aux[i] g[i]).2) : Follows upd u len := by
  intro w aux g hw ha hg
  obtain ⟨w', aux', he, h1, h2, h3⟩ := h w aux g hw ha hg
  rw [he]
  congr 1
  refine Prod.ext ?_ ?_
  · rw [step_fst]
    refine List.ext_getElem? fun i => ?_
    by_cases hi : i < len
    · rw [(h3 i (by omega) (by omega) (by omega)).1, List.getElem?_eq_getElem (by simp; omega)]
      simp
    · rw [List.getElem?_eq_none (by simp only; omega), List.getElem?_eq_none (by simp; omega)]
  · rw [step_snd]
    refine List.ext_getElem? fun i => ?_
    by_cases hi : i < len
    · rw [(h3 i (by omega) (by omega) (by omega)).2, List.getElem?_eq_getElem (by simp; omega)]
      simp
    · rw [List.getElem?_eq_none (by simp only; omega), List.getElem?_eq_none (by simp; omega)]

theorem sgd_follows (alpha mu : F) (len : ℕ) : Follows (sgdUpdate alpha mu) (sgdRule alpha mu) len := by
  refine follows_of_coord fun w d g hw hd hg => ?_
  unfold sgdUpdate vecScale
  rw [vecZip_same (by simp [hg, hd]), ok_bind, vecZip_same (by simp [hg, hd]), ok_bind, vecZip_same (by simp [hg, hd, hw]), ok_bind]
  refine ⟨_, _, rfl, by simp [hg, hd, hw], by simp [hg, hd], fun i h1 h2 h3 => ?_⟩
  constructor
  · rw [List.getElem?_eq_getElem (by simp; omega)]
    simp [sgdRule]
  · rw [List.getElem?_eq_getElem (by simp; omega)]
    simp [sgdRule]

theorem inPlaceBin_same {f : F → F → F} {u v : List F} (h : u.length = v.length) : inPlaceBin f u v = List.zipWith f u v := by
  rw [inPlaceBin, ← h, List.drop_length, List.append_nil]

theorem ada_follows (alpha tau : F) (len : ℕ) : Follows (adaUpdate alpha tau) (adaRule alpha tau) len := by
  refine follows_of_coord fun w d g hw hd hg => ?_
  unfold adaUpdate
  rw [inPlaceBin_same (u := d) (v := g) (by omega)]
  simp only
  rw [inPlaceBin_same (by simp [hg, hd]), vecZip_same (by simp [hg, hd, hw]), ok_bind]
  refine ⟨_, _, rfl, by simp [hg, hd, hw], by simp [hg, hd], fun i h1 h2 h3 => ?_⟩
  constructor
  · rw [List.getElem?_eq_getElem (by simp; omega)]
    simp [adaRule]
  · rw [List.getElem?_eq_getElem (by simp; omega)]
    simp [adaRule]

theorem rms_follows (lr decay eps : F) (len : ℕ) : Follows (rmsUpdate lr decay eps) (rmsRule lr decay eps) len := by
  refine follows_of_coord fun w d g hw hd hg => ?_
  unfold rmsUpdate vecScale
  simp only
  rw [vecZip_same (by simp [hg, hd]), ok_bind, inPlaceBin_same (by simp [hg, hd]), vecZip_same (by simp [hg, hd, hw]), ok_bind]
  refine ⟨_, _, rfl, by simp [hg, hd, hw], by simp [hg, hd], fun i h1 h2 h3 => ?_⟩
  constructor
  · rw [List.getElem?_eq_getElem (by simp; omega)]
    simp [rmsRule]
  · rw [List.getElem?_eq_getElem (by simp; omega)]
    simp [rmsRule]

theorem selectRows_one (m : Mat F) (i : ℕ) (h : i < m.rows.length) : m.selectRows [i] = ok ⟨m.cols, [m.rows.getD i []]⟩ := by
  simp [Mat.selectRows, getAt, List.getElem?_eq_getElem h]

theorem stateAfter_length {u : CoordRule F} {df : List F → Sample F → List F} {len : ℕ}
    (hdf : ∀ (w : List F) (x : Sample F), w.length = len → (df w x).length = len) (xs : List (Sample F)) :
    ∀ s : List F × List F, s.1.length = len → s.2.length = len →
      (stateAfter u df xs s).1.length = len ∧ (stateAfter u df xs s).2.length = len := by
  induction xs with
  | nil => intro s h1 h2; exact ⟨h1, h2⟩
  | cons x xs ih =>
    intro s h1 h2
    have := step_length u h1 h2 (hdf s.1 x h1)
    exact ih _ this.1 this.2

theorem statesBefore_length (u : CoordRule F) (df : List F → Sample F → List F) (xs : List (Sample F)) :
    ∀ s, (statesBefore u df xs s).length = xs.length := by
  induction xs with
  | nil => intro s; rfl
  | cons x xs ih => intro s; simp [statesBefore, ih]

theorem stochPass_spec {upd : List F → List F → List F → Outcome (List F × List F)} {u : CoordRule F} {len : ℕ}
    (hu : Follows upd u len) {g : ComputeGrad F} {f : List F → Sample F → F} {df : List F → Sample F → List F}
    (inputs targets : Mat F) (hg : Computes g f df inputs targets len) :
    ∀ (is : List ℕ) (s : List F × List F) (c : F), (∀ i ∈ is, i < inputs.rows.length ∧ i < targets.rows.length) →
      s.1.length = len → s.2.length = len →
      stochPass upd g inputs targets is (s.1, s.2, c) =
        let xs := is.map (sampleAt inputs targets)
        ⟨List.zipWith (callOf inputs.cols targets.cols) (statesBefore u df xs s) xs,
          ok ((stateAfter u df xs s).1, (stateAfter u df xs s).2,
            (List.zipWith (fun t x => f t.1 x) (statesBefore u df xs s) xs).foldl Scalar.add c)⟩ := by
  intro is
  induction is with
  | nil => intro s c _ _ _; simp [stochPass, statesBefore, stateAfter]
  | cons i is ih =>
    intro s c hi h1 h2
    have hb := hi i List.mem_cons_self
    have hgi : _ ∧ (df s.1 (sampleAt inputs targets i)).length = len := ⟨(hg s.1 h1).2 i hb.1 hb.2, (hg s.1 h1).1 _⟩
    have hl := step_length u h1 h2 hgi.2
    rw [stochPass, selectRows_one _ _ hb.1, Logged.lift_ok_bind, selectRows_one _ _ hb.2, Logged.lift_ok_bind]
    simp only
    have e : g s.1 ⟨inputs.cols, [inputs.rows.getD i []]⟩ ⟨targets.cols, [targets.rows.getD i []]⟩ =
      ok (f s.1 (sampleAt inputs targets i), df s.1 (sampleAt inputs targets i)) := hgi.1
    rw [e, Logged.call_ok_bind, hu s.1 s.2 _ h1 h2 hgi.2, Logged.lift_ok_bind]
    have := ih (u.step (s.1, s.2) (df s.1 (sampleAt inputs targets i))) (c +. f s.1 (sampleAt inputs targets i))
      (fun k hk => hi k (List.mem_cons_of_mem _ hk)) hl.1 hl.2
    simp only at this ⊢
    rw [this]
    simp [statesBefore, stateAfter, callOf, sampleAt]

/-- The shuffled orders exist and are permutations. -/
theorem exists_orders (r : ℕ → ℕ → ℕ) (N : ℕ) : ∃ order : ℕ → List ℕ,
    (∀ e, inPlaceFisherYates (r e) (prevOrder order N e) = ok (order e)) ∧ ∀ e, (order e).Perm (List.range N) := by
  let order : ℕ → List ℕ := fun e => Nat.rec (fyRec (r 0) 0 (List.range N)) (fun k l => fyRec (r (k + 1)) 0 l) e
  have h1 : ∀ e, inPlaceFisherYates (r e) (prevOrder order N e) = ok (order e) := by
    intro e
    rw [inPlaceFisherYates_eq]
    cases e <;> rfl
  refine ⟨order, h1, fun e => ?_⟩
  induction e with
  | zero => exact fyRec_perm _ _ _ _ rfl
  | succ e ih => exact (fyRec_perm _ _ _ _ rfl).trans ih

theorem stochLoop_spec {upd : List F → List F → List F → Outcome (List F × List F)} {u : CoordRule F} {len : ℕ}
    (hu : Follows upd u len) {g : ComputeGrad F} {f : List F → Sample F → F} {df : List F → Sample F → List F}
    (inputs targets : Mat F) (hrows : inputs.rows.length ≤ targets.rows.length)
    (hg : Computes g f df inputs targets len) (r : ℕ → ℕ → ℕ)
    (order : ℕ → List ℕ) (ho : ∀ e, inPlaceFisherYates (r e) (prevOrder order inputs.rows.length e) = ok (order e))
    (hp : ∀ e, (order e).Perm (List.range inputs.rows.length))
    (s0 : List F × List F) (h1 : s0.1.length = len) (h2 : s0.2.length = len) (S : ℕ → List F × List F)
    (hS : S = epochState u df (fun e => (order e).map (sampleAt inputs targets)) s0) (cost : ℕ → F)
    (hcost : cost = fun e => epochCost u f df ((order e).map (sampleAt inputs targets)) (S e)) :
    ∀ n e, ∃ E, E ≤ n ∧ stochLoop upd g inputs targets r n e (prevOrder order inputs.rows.length e) (S e).1 (S e).2 (costBefore cost e) =
        ⟨(List.range E).flatMap fun i => epochCalls u df inputs.cols targets.cols ((order (e + i)).map (sampleAt inputs targets)) (S (e + i)),
          ok (S (e + E)).1⟩ ∧
      (∀ i, i + 1 < E → ¬ SameCost (costBefore cost (e + i)) (cost (e + i))) ∧
      (E < n → ∃ i, E = i + 1 ∧ SameCost (costBefore cost (e + i)) (cost (e + i))) := by
  have hdf : ∀ (w : List F) (x : Sample F), w.length = len → (df w x).length = len := fun w x h => (hg w h).1 x
  have hl : ∀ e, (S e).1.length = len ∧ (S e).2.length = len := by
    intro e
    subst hS
    induction e with
    | zero => exact ⟨h1, h2⟩
    | succ e ih => exact stateAfter_length hdf _ _ ih.1 ih.2
  have hSs : ∀ e, S (e + 1) = stateAfter u df ((order e).map (sampleAt inputs targets)) (S e) := by
    intro e; subst hS; rfl
  intro n
  induction n with
  | zero => intro e; exact ⟨0, le_rfl, by simp [stochLoop], by simp, by simp⟩
  | succ n ih =>
    intro e
    have hb : ∀ i ∈ order e, i < inputs.rows.length ∧ i < targets.rows.length := fun i hi => by
      have := List.mem_range.1 ((hp e).mem_iff.1 hi)
      omega
    have hlenx : (order e).length = inputs.rows.length := by simpa using (hp e).length_eq
    have hce : (List.zipWith (fun t x => f t.1 x) (statesBefore u df ((order e).map (sampleAt inputs targets)) (S e)) ((order e).map (sampleAt inputs targets))).foldl Scalar.add Scalar.zero /. Scalar.ofNat inputs.rows.length = cost e := by
      rw [hcost]; simp [epochCost, hlenx, fsum]
    rw [stochLoop, ho e, Logged.lift_ok_bind, stochPass_spec hu inputs targets hg (order e) (S e) Scalar.zero hb (hl e).1 (hl e).2]
    simp only [Logged.mk_ok_bind, hce, ← hSs]
    by_cases hs : SameCost (costBefore cost e) (cost e)
    · have hs' : (Scalar.abs (costBefore cost e -. cost e) <. learningEps) = true := hs
      refine ⟨1, by omega, ?_, by omega, fun _ => ⟨0, rfl, by simpa using hs⟩⟩
      simp [hs', epochCalls]
    · have hs' : (Scalar.abs (costBefore cost e -. cost e) <. learningEps) = false := by
        rw [← Bool.not_eq_true]; exact hs
      obtain ⟨E, hE, he, a, b⟩ := ih (e + 1)
      refine ⟨E + 1, by omega, ?_, ?_, ?_⟩
      · simp only [hs', Bool.false_eq_true, if_false]
        rw [show stochLoop upd g inputs targets r n (e + 1) (order e) (S (e + 1)).1 (S (e + 1)).2 (cost e) = _ from he]
        simp only [List.range_succ_eq_map, List.flatMap_cons, List.flatMap_map, Nat.add_zero]
        have : e + 1 + E = e + (E + 1) := by omega
        rw [this]
        congr 2
        refine List.flatMap_congr fun i _ => ?_
        rw [show e + 1 + i = e + i.succ by omega]
      · intro i hi
        cases i with
        | zero => simpa using hs
        | succ i =>
          have := a i (by omega)
          rwa [show e + 1 + i = e + (i + 1) by omega] at this
      · intro h
        obtain ⟨i, hi, hc⟩ := b (by omega)
        refine ⟨i + 1, by omega, ?_⟩
        rwa [show e + 1 + i = e + (i + 1) by omega] at hc

end RM
