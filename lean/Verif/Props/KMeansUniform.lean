import Mathlib.GroupTheory.GroupAction.MultipleTransitivity
import Mathlib.Analysis.SpecificLimits.Basic
import Verif.Props.KMeansInit

/-! C80: the Forgy and random partition initialisers treat all choices alike. -/

namespace RM
open Outcome Scalar Spec

theorem genRange_lt {raw n : ℕ} (h : raw < n) : genRange raw 0 n = ok raw := by
  simp only [genRange]
  rw [if_pos (by omega), Nat.sub_zero, Nat.mod_eq_of_lt h, Nat.zero_add]

/-- Renaming the positions renames the choices. -/
theorem forgyLoop_rename (k n : ℕ) (s : ℕ → ℕ) (hs : ∀ i, i < n → s i < n) (hinj : ∀ i j, i < n → j < n → s i = s j → i = j) :
    ∀ (raws choices : List ℕ), (∀ r ∈ raws, r < n) → (∀ c ∈ choices, c < n) → ∀ c,
      (forgyLoop k n raws choices = some (ok c) → forgyLoop k n (raws.map s) (choices.map s) = some (ok (c.map s)))
  | [], choices, hr, hc, c => by
    rw [List.map_nil, forgyLoop, forgyLoop, List.length_map]
    split
    · intro h; cases h
    · intro h; cases h; rfl
  | raw :: raws, choices, hr, hc, c => by
    rw [List.map_cons, forgyLoop, forgyLoop, List.length_map]
    split
    · have hr0 := hr raw (by simp)
      rw [genRange_lt hr0, genRange_lt (hs raw hr0)]
      simp only
      have hcont : (choices.map s).contains (s raw) = choices.contains raw := by
        rw [Bool.eq_iff_iff]
        simp only [List.contains_iff_mem, List.mem_map]
        constructor
        · rintro ⟨a, ha, he⟩
          rw [← hinj a raw (hc a ha) hr0 he]; exact ha
        · intro h; exact ⟨raw, h, rfl⟩
      rw [hcont]
      have hm : (if choices.contains raw = true then choices.map s else choices.map s ++ [s raw]) =
          (if choices.contains raw = true then choices else choices ++ [raw]).map s := by
        split <;> simp
      rw [hm]
      refine forgyLoop_rename k n s hs hinj raws _ (fun r h => hr r (List.mem_cons_of_mem _ h)) ?_ c
      intro d hd
      split at hd
      · exact hc d hd
      · rcases List.mem_append.1 hd with h | h
        · exact hc d h
        · simp only [List.mem_singleton] at h; rw [h]; exact hr0
    · intro h; cases h; rfl

/-- The positions that the draws lead to. -/
def forgyChoice (n k : ℕ) (raws : List ℕ) : Option (List ℕ) :=
  match forgyLoop k n raws [] with
  | some (ok c) => some c
  | _ => none

/-- The draws `d` as the initialiser reads them. -/
def drawList {N n : ℕ} (d : Fin N → Fin n) : List ℕ := List.ofFn fun i => (d i : ℕ)

theorem drawList_lt {N n : ℕ} (d : Fin N → Fin n) : ∀ r ∈ drawList d, r < n := by
  intro r h
  obtain ⟨i, rfl⟩ := List.mem_ofFn.1 h
  exact (d i).2

theorem exists_rename {n k : ℕ} {c c' : List ℕ} (h1 : c.Nodup) (h2 : c.length = k) (h3 : ∀ i ∈ c, i < n) (h1' : c'.Nodup) (h2' : c'.length = k)
    (h3' : ∀ i ∈ c', i < n) : ∃ σ : Equiv.Perm (Fin n), c.map (fun i => if h : i < n then (σ ⟨i, h⟩ : ℕ) else i) = c' := by
  let x : Fin k ↪ Fin n := ⟨fun t => ⟨c[t]'(by rw [h2]; exact t.2), h3 _ (List.getElem_mem _)⟩, fun a b h => by
    have : c[a]'(by rw [h2]; exact a.2) = c[b]'(by rw [h2]; exact b.2) := congrArg Fin.val h
    exact Fin.ext (by simpa using (List.Nodup.getElem_inj_iff h1).1 this)⟩
  let y : Fin k ↪ Fin n := ⟨fun t => ⟨c'[t]'(by rw [h2']; exact t.2), h3' _ (List.getElem_mem _)⟩, fun a b h => by
    have : c'[a]'(by rw [h2']; exact a.2) = c'[b]'(by rw [h2']; exact b.2) := congrArg Fin.val h
    exact Fin.ext (by simpa using (List.Nodup.getElem_inj_iff h1').1 this)⟩
  obtain ⟨σ, hσ⟩ := (Equiv.Perm.isMultiplyPretransitive (Fin n) k).exists_smul_eq x y
  refine ⟨σ, List.ext_getElem (by simp [h2, h2']) fun t ht ht' => ?_⟩
  have htk : t < k := by simpa [h2] using ht
  have := congrArg (fun e : Fin k ↪ Fin n => (e ⟨t, htk⟩ : ℕ)) hσ
  simp only [List.getElem_map]
  rw [dif_pos (h3 _ (List.getElem_mem _))]
  exact this

theorem forgy_count_le {n k N : ℕ} {c c' : List ℕ} (h1 : c.Nodup) (h2 : c.length = k) (h3 : ∀ i ∈ c, i < n) (h1' : c'.Nodup) (h2' : c'.length = k)
    (h3' : ∀ i ∈ c', i < n) :
    Fintype.card {d : Fin N → Fin n // forgyChoice n k (drawList d) = some c} ≤ Fintype.card {d : Fin N → Fin n // forgyChoice n k (drawList d) = some c'} := by
  obtain ⟨σ, hσ⟩ := exists_rename h1 h2 h3 h1' h2' h3'
  refine Fintype.card_le_of_injective (fun d => ⟨fun t => σ (d.1 t), ?_⟩) ?_
  · have hd := d.2
    unfold forgyChoice at hd ⊢
    cases hf : forgyLoop k n (drawList d.1) [] with
    | none => rw [hf] at hd; cases hd
    | some o =>
      rw [hf] at hd
      cases o with
      | ok r =>
        cases hd
        have := forgyLoop_rename k n (fun i => if h : i < n then (σ ⟨i, h⟩ : ℕ) else i) (fun i hi => by simp [hi]) (fun i j hi hj h => by
          simp only [hi, hj, dif_pos] at h
          have := σ.injective (Fin.ext h)
          exact congrArg Fin.val this) (drawList d.1) [] (drawList_lt _) (by simp) c hf
        rw [hσ] at this
        have he : (drawList d.1).map (fun i => if h : i < n then (σ ⟨i, h⟩ : ℕ) else i) = drawList fun t => σ (d.1 t) := by
          unfold drawList
          rw [List.map_ofFn]
          congr 1
          funext t
          simp
        rw [he, List.map_nil] at this
        rw [this]
      | err e => cases hd
      | panic => cases hd
      | ub => cases hd
  · intro d d' h
    apply Subtype.ext
    funext t
    have := congrFun (congrArg Subtype.val h) t
    exact σ.injective this

theorem forgy_waiting {n k N : ℕ} (hk : k ≤ n) (hn : 0 < n) :
    Fintype.card {d : Fin N → Fin n // forgyChoice n k (drawList d) = none} ≤ n * (n - 1) ^ N := by
  classical
  have hmiss : ∀ d : {d : Fin N → Fin n // forgyChoice n k (drawList d) = none}, ∃ v : Fin n, ∀ t, d.1 t ≠ v := by
    rintro ⟨d, hd⟩
    by_contra hcon
    push Not at hcon
    have hends := forgyLoop_ends k n hn (drawList d) [] (by simp) (by simp) (by simp) ⟨Finset.range n, by simpa using hk, by
      intro s hs
      right
      obtain ⟨t, ht⟩ := hcon ⟨s, by simpa using hs⟩
      rw [List.mem_map]
      exact ⟨s, List.mem_ofFn.2 ⟨t, congrArg Fin.val ht⟩, Nat.mod_eq_of_lt (by simpa using hs)⟩⟩
    unfold forgyChoice at hd
    rcases forgyLoop_inv k n (.inl hn) (drawList d) [] (by simp) (by simp) (by simp) with h | ⟨r, h, _⟩
    · exact hends h
    · rw [h] at hd; cases hd
  choose v hv using hmiss
  let f : {d : Fin N → Fin n // forgyChoice n k (drawList d) = none} → Σ v : Fin n, Fin N → {w : Fin n // w ≠ v} := fun d => ⟨v d, fun t => ⟨d.1 t, hv d t⟩⟩
  have hf : Function.Injective f := by
    intro d d' h
    apply Subtype.ext
    funext t
    have key : ∀ (a b : Σ v : Fin n, Fin N → {w : Fin n // w ≠ v}), a = b → ((a.2 t : Fin n)) = b.2 t := by rintro a _ rfl; rfl
    exact key _ _ h
  refine (Fintype.card_le_of_injective f hf).trans (le_of_eq ?_)
  rw [Fintype.card_sigma]
  simp [Fintype.card_subtype_compl]

/-- **C80 (Forgy).** The positions that Forgy's initialiser chooses are a function of the draws such that, with `N` draws uniform among
the `n` positions, every ordered choice of `k` different positions is equally likely, and the share of the sequences of draws after
which it still waits for more goes to 0 as `N` grows. -/
theorem C80_forgy {F : Type} [Scalar F] (k : ℕ) (X : Mat F) (hk : k ≤ X.rows.length) (hX : X.rows ≠ []) :
    ∃ choice : List ℕ → Option (List ℕ),
      (∀ raws, forgyInit raws k X = (choice raws).map fun c => ok ⟨X.cols, c.map fun i => X.rows.getD i []⟩) ∧
      (∀ (N : ℕ) (c c' : List ℕ), c.Nodup → c.length = k → (∀ i ∈ c, i < X.rows.length) → c'.Nodup → c'.length = k → (∀ i ∈ c', i < X.rows.length) →
        Fintype.card {d : Fin N → Fin X.rows.length // choice (drawList d) = some c} =
          Fintype.card {d : Fin N → Fin X.rows.length // choice (drawList d) = some c'}) ∧
      Filter.Tendsto (fun N => (Fintype.card {d : Fin N → Fin X.rows.length // choice (drawList d) = none} : ℝ) / (X.rows.length : ℝ) ^ N)
        Filter.atTop (nhds 0) := by
  have hn : 0 < X.rows.length := List.length_pos_of_ne_nil hX
  refine ⟨forgyChoice X.rows.length k, ?_, ?_, ?_⟩
  · intro raws
    unfold forgyInit forgyChoice
    rcases forgyLoop_inv k X.rows.length (.inl hn) raws [] (by simp) (by simp) (by simp) with h | ⟨r, h, h1, h2, h3⟩
    · rw [h]; rfl
    · rw [h]
      simp only [Option.map_some]
      unfold Mat.selectRows
      rw [mapM_getAt_getD X.rows [] r h3]
      rfl
  · intro N c c' h1 h2 h3 h1' h2' h3'
    exact le_antisymm (forgy_count_le h1 h2 h3 h1' h2' h3') (forgy_count_le h1' h2' h3' h1 h2 h3)
  · set n := X.rows.length
    have hn' : (0 : ℝ) < n := by exact_mod_cast hn
    have hlim : Filter.Tendsto (fun N : ℕ => (n : ℝ) * (((n - 1 : ℕ) : ℝ) / n) ^ N) Filter.atTop (nhds 0) := by
      have : Filter.Tendsto (fun N : ℕ => (((n - 1 : ℕ) : ℝ) / n) ^ N) Filter.atTop (nhds 0) := by
        apply tendsto_pow_atTop_nhds_zero_of_lt_one (by positivity)
        rw [div_lt_one hn']
        exact_mod_cast Nat.sub_lt hn Nat.one_pos
      simpa using this.const_mul (n : ℝ)
    refine squeeze_zero (fun N => by positivity) (fun N => ?_) hlim
    rw [div_pow, ← mul_div_assoc]
    apply div_le_div_of_nonneg_right _ (by positivity)
    exact_mod_cast forgy_waiting hk hn

/-- Some draws do lead to every choice, so the equal shares are not 0. -/
example : Fintype.card {d : Fin 2 → Fin 3 // forgyChoice 3 2 (drawList d) = some [2, 0]} ≠ 0 := by
  have : Nonempty {d : Fin 2 → Fin 3 // forgyChoice 3 2 (drawList d) = some [2, 0]} := ⟨⟨![2, 0], by decide⟩⟩
  exact Fintype.card_ne_zero

theorem partitionLoop_exact (k : ℕ) (hk : 0 < k) : ∀ (raws : List ℕ) (i : ℕ) (g : List (List ℕ)), g.length = k →
    partitionLoop k i raws g = ok ((List.range k).map fun j => g.getD j [] ++ ((List.range raws.length).filter fun t => raws.getD t 0 % k = j).map (i + ·))
  | [], i, g, hg => by
    rw [partitionLoop]
    congr 1
    apply List.ext_getElem (by simp [hg])
    intro j h1 h2
    simp [h1]
  | raw :: raws, i, g, hg => by
    have hgr : genRange raw 0 k = ok (raw % k) := by simp [genRange, hk]
    have hlt : raw % k < g.length := by rw [hg]; exact Nat.mod_lt _ hk
    rw [partitionLoop, hgr, ok_bind, if_pos hlt, partitionLoop_exact k hk raws (i + 1) _ (by simpa using hg)]
    congr 1
    apply List.map_congr_left
    intro j hj
    have hjk : j < k := by simpa using hj
    have hjg : j < g.length := by omega
    rw [List.length_cons, List.range_succ_eq_map, List.filter_cons, List.filter_map, List.getD_eq_getElem?_getD, List.getElem?_modify,
      List.getD_eq_getElem?_getD, List.getElem?_eq_getElem hjg]
    have hcomp : ((fun t => decide ((raw :: raws).getD t 0 % k = j)) ∘ Nat.succ) = fun t => decide (raws.getD t 0 % k = j) := by
      funext t; simp
    rw [hcomp]
    by_cases h : raw % k = j
    · simp only [List.getD_cons_zero, h, decide_true, if_true, Option.map_eq_map, Option.map_some, Option.getD_some, List.append_assoc, List.map_cons,
        List.map_map, List.singleton_append, Nat.add_zero]
      congr 2
      apply List.map_congr_left
      intro t _
      simp only [Function.comp_apply]; omega
    · simp only [List.getD_cons_zero, h, decide_false, if_false, Option.map_eq_map, Option.map_some, Option.getD_some, List.map_map, Bool.false_eq_true, id]
      congr 1
      apply List.map_congr_left
      intro t _
      simp only [Function.comp_apply]; omega

/-- **C80 (random partition).** Row `j < k` starts cluster `j`, and row `k + t` joins the cluster its own draw names: the assignments
of these rows correspond one to one to the values of the draws, so uniform draws make all of them equally likely. -/
theorem C80_random_partition (k : ℕ) (X : Mat ℝ) (hX : X.WF) (hk : k ≤ X.rows.length) (hk0 : 0 < k) (d : Fin (X.rows.length - k) → Fin k) :
    partitionInit (drawList d) k (finMat X) = ok (finMat ⟨X.cols, (List.finRange k).map fun j : Fin k =>
      centroidOf X.cols (X.rows.getD j [] :: ((List.finRange (X.rows.length - k)).filter fun t => d t = j).map fun t : Fin _ => X.rows.getD (k + t) [])⟩) := by
  have hdl : (drawList d).length = X.rows.length - k := List.length_ofFn
  have hloop := partitionLoop_exact k hk0 (drawList d) k ((List.range k).map fun i => [i]) (by simp)
  let grp : ℕ → List ℕ := fun j => j :: ((List.range (X.rows.length - k)).filter fun t => (drawList d).getD t 0 % k = j).map (k + ·)
  have hloop' : partitionLoop k k (drawList d) ((List.range k).map fun i => [i]) = ok ((List.range k).map grp) := by
    rw [hloop, hdl]
    congr 1
    apply List.map_congr_left
    intro j hj
    have hjk : j < k := by simpa using hj
    simp [grp, hjk]
  have hlt : ∀ j < k, ∀ i ∈ grp j, i < X.rows.length := by
    intro j hj i hi
    rcases List.mem_cons.1 hi with rfl | hi
    · omega
    · obtain ⟨t, ht, rfl⟩ := List.mem_map.1 hi
      have := (List.mem_filter.1 ht).1
      simp only [List.mem_range] at this
      omega
  have hcent : ∀ j : Fin k, (grp j).map (fun i => X.rows.getD i []) =
      X.rows.getD j [] :: ((List.finRange (X.rows.length - k)).filter fun t => d t = j).map fun t : Fin _ => X.rows.getD (k + t) [] := by
    intro j
    simp only [grp, List.map_cons, List.map_map]
    congr 1
    rw [← List.map_coe_finRange_eq_range, List.filter_map, List.map_map]
    congr 1
    apply List.filter_congr
    intro t _
    have : (drawList d).getD t 0 = d t := by
      unfold drawList
      rw [getD_lt _ (by simp)]
      simp
    simp only [Function.comp_apply, this, Nat.mod_eq_of_lt (d t).2, Fin.ext_iff]
  unfold partitionInit
  rw [show (finMat X).rows.length = X.rows.length by simp [finMat], List.take_of_length_le hdl.le, hloop', ok_bind,
    mapM_ok_map _ (fun v => (centroidOf X.cols (v.map fun i => X.rows.getD i [])).map XR.fin)]
  · rw [ok_bind, show (finMat X).cols = X.cols from rfl, Mat.new_flatten (by simp)]
    · simp only [finMat, List.map_map]
      rw [← List.map_coe_finRange_eq_range, List.map_map]
      congr 2
      apply List.map_congr_left
      intro j _
      simp only [Function.comp_apply, hcent]
    · intro r hr
      obtain ⟨v, _, rfl⟩ := List.mem_map.1 hr
      rw [List.length_map, centroidOf_length]
  · intro v hv
    obtain ⟨j, hj, rfl⟩ := List.mem_map.1 hv
    have hjk : j < k := by simpa using hj
    have : (finMat X).selectRows (grp j) = ok ⟨X.cols, ((grp j).map fun i => X.rows.getD i []).map (List.map XR.fin)⟩ := by
      unfold Mat.selectRows
      rw [mapM_getAt_getD (finMat X).rows [] (grp j) (by simpa [finMat] using hlt j hjk), ok_bind, List.map_map]
      simp only [finMat]
      congr 2
      apply List.map_congr_left
      intro i hi
      have := hlt j hjk i hi
      simp [show i < X.rows.length from this]
    simp only [this, ok_bind]
    rw [meanRow_fin X.cols _ _ (by simp [grp])]
    intro r hr
    obtain ⟨i, hi, rfl⟩ := List.mem_map.1 hr
    have := hlt j hjk i hi
    rw [getD_lt _ this]
    exact hX _ (List.getElem_mem _)

example := C80_random_partition 2 ⟨1, [[0], [1], [10], [11]]⟩ (by intro r hr; simp at hr; rcases hr with rfl | rfl | rfl | rfl <;> rfl)
  (by simp) (by simp) ![1, 1]

end RM
