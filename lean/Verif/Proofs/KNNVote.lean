import Verif.Model.KNN
import Verif.Proofs.Argmax

/-! The majority vote. -/

namespace RM
open Outcome

/-- Sorted by key, keys distinct, and counting the labels `ls`. -/
structure FreqOf (ls : List ℕ) (m : List (ℕ × ℕ)) : Prop where
  sorted : m.Pairwise (fun a b => a.1 < b.1)
  counts : ∀ p ∈ m, p.2 = ls.count p.1 ∧ p.1 ∈ ls
  all : ∀ l ∈ ls, ∃ c, (l, c) ∈ m

theorem bumpKey_keys (l : ℕ) : ∀ (m : List (ℕ × ℕ)) (p : ℕ × ℕ), p ∈ bumpKey l m → p.1 = l ∨ p ∈ m
  | [], p, h => by simp [bumpKey] at h; left; rw [h]
  | (k, c) :: m, p, h => by
    rw [bumpKey] at h
    split at h
    · rcases List.mem_cons.1 h with rfl | h
      · left; rfl
      · right; exact h
    · split at h
      · rename_i e
        rcases List.mem_cons.1 h with rfl | h
        · left; exact e.symm
        · right; simp [h]
      · rcases List.mem_cons.1 h with rfl | h
        · right; simp
        · rcases bumpKey_keys l m p h with h | h
          · left; exact h
          · right; simp [h]

theorem bumpKey_sorted (l : ℕ) : ∀ (m : List (ℕ × ℕ)), m.Pairwise (fun a b => a.1 < b.1) →
    (bumpKey l m).Pairwise (fun a b => a.1 < b.1)
  | [], _ => by simp [bumpKey]
  | (k, c) :: m, h => by
    rw [List.pairwise_cons] at h
    rw [bumpKey]
    split
    · rename_i hlt
      rw [List.pairwise_cons]
      refine ⟨?_, List.pairwise_cons.2 h⟩
      intro p hp
      rcases List.mem_cons.1 hp with rfl | hp
      · exact hlt
      · exact lt_trans hlt (h.1 p hp)
    · split
      · exact List.pairwise_cons.2 h
      · rw [List.pairwise_cons]
        refine ⟨?_, bumpKey_sorted l m h.2⟩
        intro p hp
        rcases bumpKey_keys l m p hp with e | hp
        · simp only; omega
        · exact h.1 p hp

theorem bumpKey_mem (l : ℕ) : ∀ (m : List (ℕ × ℕ)), m.Pairwise (fun a b => a.1 < b.1) → ∀ p : ℕ × ℕ,
    p ∈ bumpKey l m ↔ (p.1 ≠ l ∧ p ∈ m) ∨ (p.1 = l ∧ ((∃ c, (l, c) ∈ m ∧ p.2 = c + 1) ∨ ((∀ q ∈ m, q.1 ≠ l) ∧ p.2 = 1)))
  | [], _, p => by
    rcases p with ⟨a, b⟩
    simp [bumpKey]
  | (k, c) :: m, h, p => by
    rcases p with ⟨a, b⟩
    have hc := List.pairwise_cons.1 h
    rw [bumpKey]
    split
    · rename_i hlt
      have hno : ∀ q ∈ (k, c) :: m, q.1 ≠ l := by
        intro q hq
        rcases List.mem_cons.1 hq with rfl | hq
        · simp only; omega
        · have := hc.1 q hq; simp only at this; omega
      constructor
      · intro hm
        rcases List.mem_cons.1 hm with he | hm
        · simp at he; right; exact ⟨he.1, Or.inr ⟨hno, he.2⟩⟩
        · left; exact ⟨hno _ hm, hm⟩
      · rintro (⟨_, hm⟩ | ⟨he, hx⟩)
        · exact List.mem_cons_of_mem _ hm
        · rcases hx with ⟨c', hm, _⟩ | ⟨_, h1⟩
          · exact absurd rfl (hno _ hm)
          · simp only at he h1; subst he; subst h1; simp
    · split
      · rename_i e
        subst e
        constructor
        · intro hm
          rcases List.mem_cons.1 hm with he | hm
          · simp at he; right; exact ⟨he.1, Or.inl ⟨c, by simp, he.2⟩⟩
          · left
            have h1 := hc.1 _ hm
            simp only at h1
            exact ⟨by simp only; omega, by simp [hm]⟩
        · rintro (⟨hne, hm⟩ | ⟨he, hx⟩)
          · rcases List.mem_cons.1 hm with he | hm
            · simp at he; exact absurd he.1 hne
            · exact List.mem_cons_of_mem _ hm
          · simp only at he; subst he
            rcases hx with ⟨c', hm, hb⟩ | ⟨hno, _⟩
            · rcases List.mem_cons.1 hm with he | hm
              · simp at he; subst he; simp only at hb; subst hb; simp
              · have h1 := hc.1 _ hm; simp at h1
            · exact absurd rfl (hno (a, c) (by simp))
      · rename_i hlt hne
        rw [List.mem_cons, bumpKey_mem l m hc.2]
        constructor
        · rintro (he | ⟨h1, h2⟩ | ⟨h1, h2⟩)
          · simp at he; left; refine ⟨by simp only; omega, by simp [he]⟩
          · left; exact ⟨h1, by simp [h2]⟩
          · right; refine ⟨h1, ?_⟩
            rcases h2 with ⟨c', hm, hb⟩ | ⟨hno, hb⟩
            · left; exact ⟨c', by simp [hm], hb⟩
            · right; refine ⟨?_, hb⟩
              intro q hq
              rcases List.mem_cons.1 hq with rfl | hq
              · simp only; omega
              · exact hno q hq
        · rintro (⟨h1, h2⟩ | ⟨h1, h2⟩)
          · rcases List.mem_cons.1 h2 with he | h2
            · left; exact he
            · right; left; exact ⟨h1, h2⟩
          · right; right; refine ⟨h1, ?_⟩
            rcases h2 with ⟨c', hm, hb⟩ | ⟨hno, hb⟩
            · rcases List.mem_cons.1 hm with he | hm
              · simp at he; omega
              · left; exact ⟨c', hm, hb⟩
            · right; exact ⟨fun q hq => hno q (by simp [hq]), hb⟩

theorem bumpKey_freq {ls : List ℕ} {m : List (ℕ × ℕ)} (h : FreqOf ls m) (l : ℕ) : FreqOf (ls ++ [l]) (bumpKey l m) where
  sorted := bumpKey_sorted l m h.sorted
  counts := by
    intro p hp
    rw [bumpKey_mem l m h.sorted] at hp
    rcases hp with ⟨hne, hm⟩ | ⟨he, ⟨c, hm, hb⟩ | ⟨hno, hb⟩⟩
    · obtain ⟨h1, h2⟩ := h.counts p hm
      refine ⟨?_, by simp [h2]⟩
      rw [List.count_append, List.count_singleton, if_neg (by simpa using Ne.symm hne), h1]; simp
    · obtain ⟨h1, h2⟩ := h.counts _ hm
      refine ⟨?_, by simp [he]⟩
      rw [he, List.count_append, List.count_singleton_self, hb]
      simp only at h1
      rw [h1]
    · refine ⟨?_, by simp [he]⟩
      have : l ∉ ls := fun hl => by
        obtain ⟨c, hc⟩ := h.all l hl
        exact hno _ hc rfl
      rw [he, List.count_append, List.count_singleton_self, hb, List.count_eq_zero_of_not_mem this]
  all := by
    intro x hx
    by_cases hxl : x = l
    · subst hxl
      by_cases hm : ∃ c, (x, c) ∈ m
      · obtain ⟨c, hc⟩ := hm
        exact ⟨c + 1, (bumpKey_mem x m h.sorted _).2 (Or.inr ⟨rfl, Or.inl ⟨c, hc, rfl⟩⟩)⟩
      · refine ⟨1, (bumpKey_mem x m h.sorted _).2 (Or.inr ⟨rfl, Or.inr ⟨?_, rfl⟩⟩)⟩
        intro q hq he
        exact hm ⟨q.2, by rw [← he]; exact hq⟩
    · obtain ⟨c, hc⟩ := h.all x (by simpa [hxl] using hx)
      exact ⟨c, (bumpKey_mem l m h.sorted _).2 (Or.inl ⟨hxl, hc⟩)⟩

theorem freq_aux : ∀ (rest ls : List ℕ) (m : List (ℕ × ℕ)), FreqOf ls m →
    FreqOf (ls ++ rest) (rest.foldl (fun m l => bumpKey l m) m)
  | [], ls, m, h => by simpa using h
  | l :: rest, ls, m, h => by
    rw [List.foldl_cons]
    have := freq_aux rest (ls ++ [l]) _ (bumpKey_freq h l)
    simpa using this

theorem freq_spec (labels : List ℕ) : FreqOf labels (freq labels) := by
  have := freq_aux labels [] [] ⟨List.Pairwise.nil, by simp, by simp⟩
  simpa [freq] using this

theorem mapM_getAt {α : Type} (target : List α) : ∀ (idx : List ℕ), (∀ i ∈ idx, i < target.length) →
    ∃ res, idx.mapM (getAt target) = ok res ∧ idx.map (fun i => target[i]?) = res.map some
  | [], _ => ⟨[], rfl, rfl⟩
  | i :: idx, h => by
    obtain ⟨res, h1, h2⟩ := mapM_getAt target idx (fun x hx => h x (by simp [hx]))
    have hi : i < target.length := h i (by simp)
    refine ⟨target[i] :: res, ?_, ?_⟩
    · simp [List.mapM_cons, getAt, List.getElem?_eq_getElem hi] at h1 ⊢
      simp [h1]
    · simp [h2, List.getElem?_eq_getElem hi]

/-- The vote: most frequent label, smallest among the most frequent. -/
theorem knnVote_spec (target idx res : List ℕ) (hne : idx ≠ []) (hres : idx.map (fun i => target[i]?) = res.map some) :
    ∃ l, knnVote target idx = ok l ∧ l ∈ res ∧ (∀ l', res.count l' ≤ res.count l) ∧
      (∀ l', res.count l' = res.count l → l ≤ l') := by
  have hidx : ∀ i ∈ idx, i < target.length := by
    intro i hi
    have : target[i]? ∈ res.map some := by rw [← hres]; exact List.mem_map.2 ⟨i, hi, rfl⟩
    obtain ⟨x, _, hx⟩ := List.mem_map.1 this
    by_contra hc
    rw [List.getElem?_eq_none (by omega)] at hx; simp at hx
  obtain ⟨res', h1, h2⟩ := mapM_getAt target idx hidx
  have hrr : res' = res := by
    have := h2.symm.trans hres
    exact List.map_injective_iff.2 (Option.some_injective _) this
  subst hrr
  have hf := freq_spec res'
  have hresne : res' ≠ [] := by
    intro hc; rw [hc] at hres; simp at hres; exact hne hres
  have hfne : (freq res').map Prod.snd ≠ [] := by
    intro hc
    obtain ⟨x, hx⟩ := List.exists_mem_of_ne_nil _ hresne
    obtain ⟨c, hc'⟩ := hf.all x hx
    have h0 : freq res' = [] := by simpa using hc
    rw [h0] at hc'; simp at hc'
  obtain ⟨i, v, ha, hget, hmax, hfirst⟩ := argmaxBy_spec (fun a b : ℕ => decide (a < b)) (by simp) _ hfne
  rw [List.getElem?_map] at hget
  obtain ⟨p, hp, hpv⟩ := Option.map_eq_some_iff.1 hget
  have hpm : p ∈ freq res' := List.mem_of_getElem? hp
  obtain ⟨hc1, hc2⟩ := hf.counts p hpm
  have hvpos : 0 < v := by rw [← hpv, hc1]; exact List.count_pos_iff.2 hc2
  refine ⟨p.1, ?_, hc2, ?_, ?_⟩
  · unfold knnVote
    rw [h1]
    simp only [ok_bind, ha]
    unfold getAt
    rw [List.getElem?_map, hp]
    rfl
  · intro l'
    rw [← hc1, hpv]
    by_cases hl : l' ∈ res'
    · obtain ⟨c, hc⟩ := hf.all l' hl
      have h3 := (hf.counts _ hc).1
      simp only at h3
      rw [← h3]
      exact hmax c (List.mem_map.2 ⟨_, hc, rfl⟩)
    · rw [List.count_eq_zero_of_not_mem hl]; omega
  · intro l' hl'
    rw [← hc1, hpv] at hl'
    have hl : l' ∈ res' := List.count_pos_iff.1 (by omega)
    obtain ⟨c, hc⟩ := hf.all l' hl
    have h3 := (hf.counts _ hc).1
    simp only at h3
    by_contra hcon
    push Not at hcon
    -- l' < p.1, so l' comes earlier in the sorted list with the same count
    obtain ⟨t, ht, hte⟩ := List.mem_iff_getElem.1 hc
    have hi : i < (freq res').length := by
      by_contra h; rw [List.getElem?_eq_none (by omega)] at hp; simp at hp
    have hpe : (freq res')[i] = p := by rw [List.getElem?_eq_getElem hi] at hp; simpa using hp
    have hti : t < i := by
      by_contra h
      rcases Nat.lt_or_ge i t with h4 | h4
      · have := List.pairwise_iff_getElem.1 hf.sorted i t hi ht h4
        rw [hte, hpe] at this; simp only at this; omega
      · have : t = i := by omega
        subst this
        rw [hte] at hpe; rw [← hpe] at hcon; simp at hcon
    have := hfirst t c hti (by rw [List.getElem?_map, List.getElem?_eq_getElem ht, hte]; rfl)
    omega

end RM
