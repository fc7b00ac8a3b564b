import Mathlib.Data.Finset.Powerset
import Mathlib.Data.Nat.Choose.Basic
import Mathlib.Combinatorics.Enumerative.DoubleCounting
import Verif.Props.RandUtils

/-! C05 and C06: the shuffles and samples look at positions only, and how often a position is sampled. -/

namespace RM
open Outcome Spec

variable {α : Type}

/-- **C05.** The copying shuffle looks at positions only: renaming the elements renames the result. -/
theorem C05_copy_shuffle_natural {β : Type} (f : α → β) (r : ℕ → ℕ) (arr : List α) :
    fisherYates r (arr.map f) = (List.map f) <$> fisherYates r arr := by
  have key : ∀ (as L : List α), fyIn r (as.map f) (L.map f) = (fyIn r as L).map f := by
    intro as
    induction as with
    | nil => intro L; rfl
    | cons a as ih =>
      intro L
      have e : ∀ j, insOut (L.map f) (f a) j = (insOut L a j).map f := by
        intro j
        unfold insOut
        by_cases h : j < L.length
        · simp [h, List.map_set]
        · simp [h]
      rw [List.map_cons, fyIn, fyIn, e, List.length_map, ih]
  rw [fisherYates_eq, fisherYates_eq, ok_map]
  exact congrArg ok (key arr [])

/-- **C06.** Sampling looks at positions only: renaming the elements of the pool renames the sample. -/
theorem C06_sample_natural {β : Type} (f : α → β) (r : ℕ → ℕ) (pool : List α) (k : ℕ) :
    reservoirSample r (pool.map f) k = (List.map f) <$> reservoirSample r pool k := by
  by_cases hk : k ≤ pool.length
  · rw [reservoirSample_eq r _ k (by simpa using hk), reservoirSample_eq r _ k hk, ok_map, List.length_map]
    congr 1
    rw [← List.map_drop, ← List.map_take]
    generalize resDraws r k 0 (pool.length - k) = ds
    generalize pool.take k = acc
    generalize pool.drop k = l
    induction l generalizing ds acc with
    | nil => simp
    | cons a l ih =>
      cases ds with
      | nil => simp
      | cons d ds =>
        rw [List.map_cons, List.zip_cons_cons, List.zip_cons_cons, List.foldl_cons, List.foldl_cons, ← ih]
        congr 1
        unfold resStep
        dsimp only
        split
        · rw [List.map_set]
        · rfl
  · simp [reservoirSample, hk]
    rfl

/-- **C06 (inclusion).** Among the equally likely draw sequences, those whose sample contains a given element of the pool are the fraction `k / |pool|`. -/
theorem C06_inclusion [DecidableEq α] (pool : List α) (hnd : pool.Nodup) (k : ℕ) (hk : k ≤ pool.length) (x : α) (hx : x ∈ pool) :
    (allDraws (fun t => k + t + 1) (pool.length - k)).countP
      (fun ds => match reservoirSample (streamOf ds) pool k with
        | ok res => decide (x ∈ res)
        | _ => false) * pool.length = k * (allDraws (fun t => k + t + 1) (pool.length - k)).length := by
  classical
  set n := pool.length with hn
  set D := allDraws (fun t => k + t + 1) (n - k) with hD
  have hDn : D.Nodup := nodup_allDraws _ _
  -- the sample of a draw sequence, as a set
  let smp : List ℕ → Finset α := fun ds => match reservoirSample (streamOf ds) pool k with
    | ok res => res.toFinset
    | _ => ∅
  have hs : ∀ ds, ∃ res, reservoirSample (streamOf ds) pool k = ok res ∧ smp ds = res.toFinset ∧ (smp ds).card = k ∧ smp ds ⊆ pool.toFinset := by
    intro ds
    obtain ⟨res, h1, h2, h3⟩ := C06_sample_without_replacement (streamOf ds) pool k hk
    have hrn : res.Nodup := by
      obtain ⟨l, hl1, hl2⟩ := h3
      exact (hl1.nodup_iff).1 (hl2.nodup hnd)
    have e : smp ds = res.toFinset := by simp only [smp, h1]
    refine ⟨res, h1, e, ?_, ?_⟩
    · rw [e, List.toFinset_card_of_nodup hrn, h2]
    · rw [e]
      intro a ha
      exact List.mem_toFinset.2 (h3.subset (List.mem_toFinset.1 ha))
  have hcount : ∀ (p : List ℕ → Bool), D.countP p = (D.toFinset.filter fun ds => p ds = true).card := by
    intro p
    rw [List.countP_eq_length_filter, ← List.toFinset_card_of_nodup (hDn.filter _), List.toFinset_filter]
  have huni : ∀ S ∈ pool.toFinset.powersetCard k, (D.toFinset.filter fun ds => smp ds = S).card = Nat.factorial (n - k) := by
    intro S hS
    obtain ⟨hS1, hS2⟩ := Finset.mem_powersetCard.1 hS
    have := C06_sample_uniform pool hnd k hk S hS1 hS2
    rw [← hn, ← hD, hcount] at this
    rw [← this]
    congr 1
    apply Finset.filter_congr
    intro ds _
    obtain ⟨res, h1, h2, -⟩ := hs ds
    rw [h1, h2]
    simp
  have hmaps : ∀ ds ∈ D.toFinset, smp ds ∈ pool.toFinset.powersetCard k := by
    intro ds _
    obtain ⟨res, -, -, h3, h4⟩ := hs ds
    exact Finset.mem_powersetCard.2 ⟨h4, h3⟩
  have hcardn : pool.toFinset.card = n := List.toFinset_card_of_nodup hnd
  -- the sequences whose sample contains x
  have hin : (D.countP fun ds => match reservoirSample (streamOf ds) pool k with
        | ok res => decide (x ∈ res)
        | _ => false) = ((pool.toFinset.powersetCard k).filter fun S => x ∈ S).card * Nat.factorial (n - k) := by
    rw [hcount, Finset.card_eq_sum_card_fiberwise (f := smp) (t := (pool.toFinset.powersetCard k).filter fun S => x ∈ S)]
    · rw [Finset.sum_const_nat]
      intro S hS
      obtain ⟨hS1, hS2⟩ := Finset.mem_filter.1 hS
      rw [← huni S hS1]
      congr 1
      rw [Finset.filter_filter]
      apply Finset.filter_congr
      intro ds _
      obtain ⟨res, h1, h2, -⟩ := hs ds
      rw [h1]
      constructor
      · exact fun h => h.2
      · intro h
        refine ⟨?_, h⟩
        rw [← h, h2] at hS2
        simpa using hS2
    · intro ds hds
      obtain ⟨h1, h2⟩ := Finset.mem_filter.1 hds
      obtain ⟨res, h3, h4, -⟩ := hs ds
      rw [h3] at h2
      refine Finset.mem_filter.2 ⟨hmaps ds h1, ?_⟩
      rw [h4]
      simpa using h2
  have htot : D.length = (pool.toFinset.powersetCard k).card * Nat.factorial (n - k) := by
    rw [← List.toFinset_card_of_nodup hDn, Finset.card_eq_sum_card_fiberwise hmaps, Finset.sum_const_nat huni]
  -- k-subsets containing x
  have hsub : ((pool.toFinset.powersetCard k).filter fun S => x ∈ S).card * n = k * (pool.toFinset.powersetCard k).card := by
    have hxF : x ∈ pool.toFinset := List.mem_toFinset.2 hx
    have hnot : ((pool.toFinset.powersetCard k).filter fun S => ¬ x ∈ S) = (pool.toFinset.erase x).powersetCard k := by
      ext S
      simp only [Finset.mem_filter, Finset.mem_powersetCard, Finset.subset_erase]
      tauto
    have hadd := Finset.card_filter_add_card_filter_not (s := pool.toFinset.powersetCard k) fun S => x ∈ S
    rw [hnot, Finset.card_powersetCard, Finset.card_powersetCard, Finset.card_erase_of_mem hxF, hcardn] at hadd
    rw [Finset.card_powersetCard, hcardn]
    have hpos : 0 < n := by rw [hn]; exact List.length_pos_of_mem hx
    obtain ⟨m, hm⟩ : ∃ m, n = m + 1 := ⟨n - 1, by omega⟩
    rw [hm] at hadd ⊢
    rw [Nat.add_sub_cancel] at hadd
    cases k with
    | zero =>
      have : ((pool.toFinset.powersetCard 0).filter fun S => x ∈ S).card = 0 := by
        simp only [Nat.choose_zero_right] at hadd; omega
      rw [this]; simp
    | succ k =>
      rw [Nat.choose_succ_succ'] at hadd
      have hA : ((pool.toFinset.powersetCard (k + 1)).filter fun S => x ∈ S).card = m.choose k := by omega
      rw [hA]
      have := Nat.add_one_mul_choose_eq m k
      rw [mul_comm, this, mul_comm]
  rw [hin, htot, mul_right_comm, hsub, mul_assoc]

/-- Samples of 2 out of 4: half of the 12 draw sequences pick a given element. -/
example : (allDraws (fun t => 2 + t + 1) 2).countP (fun ds => match reservoirSample (streamOf ds) ["a", "b", "c", "d"] 2 with
    | ok res => decide ("d" ∈ res) | _ => false) = 6 := by
  have h1 : (allDraws (fun t => 2 + t + 1) 2).countP (fun ds => match reservoirSample (streamOf ds) ["a", "b", "c", "d"] 2 with
    | ok res => decide ("d" ∈ res) | _ => false) * 4 = 2 * (allDraws (fun t => 2 + t + 1) 2).length :=
    C06_inclusion ["a", "b", "c", "d"] (by simp) 2 (by simp) "d" (by simp)
  have h2 : (allDraws (fun t => 2 + t + 1) 2).length * 2 = 24 := C06_number_of_draws 2 2
  omega

end RM
