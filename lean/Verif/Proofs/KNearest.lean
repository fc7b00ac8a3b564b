import Mathlib.Data.Set.Insert
import Verif.Base.MonoScalar
import Verif.Model.KNN
import Verif.Spec.KNN

/-! The k-nearest container and its invariant. -/

namespace RM
open Outcome Scalar Spec

variable {F : Type} [Scalar F] [LinearOrder F] [OrdScalar F]

theorem slt_true {a b : F} : (a <. b) = true ↔ a < b := OrdScalar.lt_iff a b
theorem slt_false {a b : F} : (a <. b) = false ↔ b ≤ a := by
  rw [← not_lt, ← slt_true, Bool.not_eq_true]
theorem slt_eq (a b : F) : (a <. b) = decide (a < b) := by
  rw [Bool.eq_iff_iff, slt_true, decide_eq_true_eq]
theorem sle_eq (a b : F) : (a <=. b) = decide (a ≤ b) := by
  rw [Bool.eq_iff_iff, OrdScalar.le_iff, decide_eq_true_eq]
theorem pairLe_iff (x y : ℕ × F) : pairLe x y ↔ x.2 ≤ y.2 := OrdScalar.le_iff _ _

instance : Std.Total (pairLe (F := F)) := ⟨fun a b => by rw [pairLe_iff, pairLe_iff]; exact le_total _ _⟩
instance : IsTrans (ℕ × F) pairLe := ⟨fun a b c => by simp only [pairLe_iff]; exact le_trans⟩

/-- Sorted by distance. -/
def SortedD (l : List (ℕ × F)) : Prop := l.Pairwise pairLe

theorem orderedInsert_append (x : ℕ × F) (a b : List (ℕ × F)) (ha : ∀ p ∈ a, p.2 < x.2) (hb : ∀ p ∈ b, x.2 ≤ p.2) :
    (a ++ b).orderedInsert pairLe x = a ++ x :: b := by
  induction a with
  | nil =>
    cases b with
    | nil => rfl
    | cons c b =>
      rw [List.nil_append, List.orderedInsert_cons, if_pos ((pairLe_iff _ _).2 (hb c (by simp)))]; rfl
  | cons c a ih =>
    rw [List.cons_append, List.orderedInsert_cons, if_neg, ih (fun p hp => ha p (by simp [hp]))]
    · rfl
    · rw [pairLe_iff]; exact not_le.2 (ha c (by simp))

theorem orderedInsert_snoc (x l : ℕ × F) (a : List (ℕ × F)) (h : x.2 ≤ l.2) :
    (a ++ [l]).orderedInsert pairLe x = a.orderedInsert pairLe x ++ [l] := by
  induction a with
  | nil => simp [List.orderedInsert_cons, (pairLe_iff x l).2 h]
  | cons c a ih =>
    rw [List.cons_append, List.orderedInsert_cons, List.orderedInsert_cons, ih]
    split <;> rfl

theorem orderedInsert_last (x : ℕ × F) (a : List (ℕ × F)) (h : ∀ p ∈ a, p.2 < x.2) :
    a.orderedInsert pairLe x = a ++ [x] := by
  have := orderedInsert_append x a [] h (by simp)
  simpa using this

omit [Scalar F] [LinearOrder F] [OrdScalar F] in
theorem insertIdx_split (x : ℕ × F) : ∀ (l : List (ℕ × F)) (n : ℕ), n ≤ l.length → l.insertIdx n x = l.take n ++ x :: l.drop n
  | l, 0, _ => by simp
  | [], n + 1, h => by simp at h
  | a :: l, n + 1, h => by
    rw [List.insertIdx_succ_cons, insertIdx_split x l n (by simpa using h)]
    simp

theorem addLoop_spec (ps : List (ℕ × F)) (hs : SortedD ps) (x : ℕ × F) :
    ∀ j, j ≤ ps.length → (∀ p ∈ ps.drop j, x.2 ≤ p.2) → addLoop ps x j = ok (ps.orderedInsert pairLe x)
  | 0, _, h => by
    rw [addLoop]
    have := orderedInsert_append x [] ps (by simp) (by simpa using h)
    rw [List.nil_append] at this; rw [this]; rfl
  | j + 1, hj, h => by
    have hj' : j < ps.length := by omega
    rw [addLoop, List.getElem?_eq_getElem hj']
    simp only
    by_cases hlt : ps[j].2 < x.2
    · rw [if_pos (slt_true.2 hlt)]
      have e : ps = ps.take (j + 1) ++ ps.drop (j + 1) := (List.take_append_drop _ _).symm
      have hta : ∀ p ∈ ps.take (j + 1), p.2 < x.2 := by
        intro p hp
        obtain ⟨i, hi, rfl⟩ := List.getElem_of_mem hp
        rw [List.getElem_take]
        have hi' : i < j + 1 := by simp at hi; omega
        rcases Nat.lt_succ_iff_lt_or_eq.1 hi' with h1 | h1
        · have := (List.pairwise_iff_getElem.1 hs) i j (by omega) hj' h1
          exact lt_of_le_of_lt ((pairLe_iff _ _).1 this) hlt
        · subst h1; exact hlt
      congr 1
      conv_rhs => rw [e]
      rw [orderedInsert_append x _ _ hta h, insertIdx_split x ps _ hj]
    · rw [if_neg (by rw [slt_true]; exact hlt)]
      apply addLoop_spec ps hs x j (by omega)
      intro p hp
      rw [List.drop_eq_getElem_cons hj'] at hp
      rcases List.mem_cons.1 hp with rfl | hp
      · exact not_lt.1 hlt
      · exact h p hp

/-- What `add` does: a sorted insertion cut off at `k`, returning the last distance held. -/
theorem knearestAdd_spec (k : ℕ) (ps : List (ℕ × F)) (hs : SortedD ps) (hne : ps ≠ []) (hk : ps.length ≤ k)
    (i : ℕ) (d : F) :
    ∃ last, ((ps.orderedInsert pairLe (i, d)).take k).getLast? = some last ∧
      knearestAdd k ps i d = ok ((ps.orderedInsert pairLe (i, d)).take k, last.2) := by
  obtain ⟨init, l, rfl⟩ : ∃ init l, ps = init ++ [l] := ⟨ps.dropLast, ps.getLast hne, (List.dropLast_append_getLast hne).symm⟩
  have hall : ∀ p ∈ init ++ [l], p.2 ≤ l.2 := by
    intro p hp
    rcases List.mem_append.1 hp with h | h
    · have := (List.pairwise_append.1 hs).2.2 p h l (by simp)
      exact (pairLe_iff _ _).1 this
    · simp at h; rw [h]
  have hlen : (init ++ [l]).length = init.length + 1 := by simp
  by_cases hlt : l.2 < d
  · have hins : (init ++ [l]).orderedInsert pairLe (i, d) = (init ++ [l]) ++ [(i, d)] :=
      orderedInsert_last _ _ (fun p hp => lt_of_le_of_lt (hall p hp) hlt)
    rw [hins]
    by_cases hlk : (init ++ [l]).length < k
    · refine ⟨(i, d), ?_, ?_⟩
      · rw [List.take_of_length_le (by rw [List.length_append]; simp only [List.length_singleton]; omega)]; simp
      · rw [List.take_of_length_le (by rw [List.length_append]; simp only [List.length_singleton]; omega)]
        unfold knearestAdd
        simp only [List.getLast?_concat, slt_true.2 hlt, if_true, hlk]
        rw [List.getElem?_append_right (by omega)]
        simp
    · have hkk : k = (init ++ [l]).length := by omega
      refine ⟨l, ?_, ?_⟩
      · rw [hkk, List.take_left]; simp
      · rw [hkk, List.take_left]
        unfold knearestAdd
        simp only [List.getLast?_concat, slt_true.2 hlt, if_true, lt_irrefl, if_false]
        rw [hlen, Nat.add_sub_cancel, List.getElem?_append_right (by omega)]
        simp
  · have hins := orderedInsert_snoc (i, d) l init (not_lt.1 hlt)
    rw [hins]
    have hil : (init.orderedInsert pairLe (i, d)).length = init.length + 1 := List.orderedInsert_length _ _ _
    have hsinit : SortedD init := (List.pairwise_append.1 hs).1
    by_cases hlk : (init ++ [l]).length < k
    · refine ⟨l, ?_, ?_⟩
      · rw [List.take_of_length_le (by rw [List.length_append, hil]; simp only [List.length_singleton]; omega)]; simp
      · rw [List.take_of_length_le (by rw [List.length_append, hil]; simp only [List.length_singleton]; omega)]
        unfold knearestAdd
        simp only [List.getLast?_concat, hlt, slt_true, if_false, hlk, if_true, not_le.2 hlk]
        rw [addLoop_spec _ hs _ _ (by omega) (by
          rw [hlen, Nat.add_sub_cancel, List.drop_left]
          intro p hp; simp at hp; rw [hp]; exact not_lt.1 hlt), hins]
        simp only [ok_bind]
        rw [List.getElem?_append_right (by rw [hil]; omega)]
        simp [hil]
    · have hkk : k = init.length + 1 := by omega
      have hne' : init.orderedInsert pairLe (i, d) ≠ [] := by
        intro h; rw [h] at hil; simp at hil
      have htk : (init.orderedInsert pairLe (i, d) ++ [l]).take k = init.orderedInsert pairLe (i, d) := by
        rw [hkk, ← hil, List.take_left]
      rw [htk]
      refine ⟨(init.orderedInsert pairLe (i, d)).getLast hne', List.getLast?_eq_getLast_of_ne_nil hne', ?_⟩
      unfold knearestAdd
      simp only [List.getLast?_concat, hlt, slt_true, if_false, hlk, not_lt.1 hlk, if_true, List.dropLast_concat]
      rw [addLoop_spec _ hsinit _ _ (by omega) (by
          rw [hlen, Nat.add_sub_cancel, List.drop_length]; simp)]
      simp only [ok_bind]
      have : (init.orderedInsert pairLe (i, d))[(init ++ [l]).length - 1]? =
          some ((init.orderedInsert pairLe (i, d)).getLast hne') := by
        rw [List.getLast_eq_getElem, hlen, ← hil, List.getElem?_eq_getElem]
      rw [this]

/-! ### The invariant -/

/-- `pairs` holds at most `k` rows among those `seen`, sorted, with true distances `dst`, and every seen row is held or
there are at least `j` held rows that are no farther. -/
structure Good (dst : ℕ → F) (k j : ℕ) (seen : Set ℕ) (pairs : List (ℕ × F)) : Prop where
  sorted : SortedD pairs
  nodup : (pairs.map Prod.fst).Nodup
  held : ∀ p ∈ pairs, p.1 ∈ seen ∧ p.2 = dst p.1
  len : pairs.length ≤ k
  omitted : ∀ e ∈ seen, e ∈ pairs.map Prod.fst ∨ j ≤ pairs.countP fun p => decide (p.2 ≤ dst e)

variable {dst : ℕ → F} {k j : ℕ}

omit [OrdScalar F] in
theorem Good.skip {seen : Set ℕ} {ps : List (ℕ × F)} (h : Good dst k j seen ps) {s : Set ℕ}
    (hle : ∀ e ∈ s, ∀ p ∈ ps, p.2 ≤ dst e) (hj : s.Nonempty → j ≤ ps.length) : Good dst k j (seen ∪ s) ps where
  sorted := h.sorted
  nodup := h.nodup
  held := fun p hp => ⟨Or.inl (h.held p hp).1, (h.held p hp).2⟩
  len := h.len
  omitted := by
    rintro e (he | he)
    · exact h.omitted e he
    · right
      have : ps.countP (fun p => decide (p.2 ≤ dst e)) = ps.length := by
        rw [List.countP_eq_length]
        intro p hp
        simpa using hle e he p hp
      rw [this]; exact hj ⟨e, he⟩

theorem Good.insert (hjk : j ≤ k) {seen : Set ℕ} {ps : List (ℕ × F)} (h : Good dst k j seen ps) {e : ℕ} (he : e ∉ seen) :
    Good dst k j (seen ∪ {e}) ((ps.orderedInsert pairLe (e, dst e)).take k) := by
  have hperm := List.perm_orderedInsert pairLe (e, dst e) ps
  have hs' : SortedD (ps.orderedInsert pairLe (e, dst e)) := List.Pairwise.orderedInsert _ _ h.sorted
  have hen : e ∉ ps.map Prod.fst := by
    intro hc
    obtain ⟨p, hp, hpe⟩ := List.mem_map.1 hc
    exact he (hpe ▸ (h.held p hp).1)
  have hlen' : (ps.orderedInsert pairLe (e, dst e)).length = ps.length + 1 := List.orderedInsert_length _ _ _
  refine ⟨hs'.sublist (List.take_sublist _ _), ?_, ?_, ?_, ?_⟩
  · have : ((ps.orderedInsert pairLe (e, dst e)).map Prod.fst).Nodup := by
      rw [(hperm.map Prod.fst).nodup_iff]
      simpa using ⟨by simpa using hen, h.nodup⟩
    exact this.sublist ((List.take_sublist _ _).map _)
  · intro p hp
    have := hperm.mem_iff.1 (List.mem_of_mem_take hp)
    rcases List.mem_cons.1 this with rfl | hp
    · exact ⟨Or.inr rfl, rfl⟩
    · exact ⟨Or.inl (h.held p hp).1, (h.held p hp).2⟩
  · simp
  · -- the dropped element, if any
    by_cases hk : ps.length < k
    · rw [List.take_of_length_le (by omega)]
      rintro x (hx | hx)
      · rcases h.omitted x hx with hm | hc
        · left
          rw [(hperm.map Prod.fst).mem_iff]
          simp [hm]
        · right
          rw [hperm.countP_eq, List.countP_cons]
          omega
      · left
        rw [(hperm.map Prod.fst).mem_iff]
        simp at hx
        simp [hx]
    · have hk' : ps.length = k := by have := h.len; omega
      obtain ⟨init, l, hl⟩ : ∃ init l, ps.orderedInsert pairLe (e, dst e) = init ++ [l] := by
        have hne : ps.orderedInsert pairLe (e, dst e) ≠ [] := by intro hc; rw [hc] at hlen'; simp at hlen'
        exact ⟨_, _, (List.dropLast_append_getLast hne).symm⟩
      have hil : init.length = k := by
        have := congrArg List.length hl
        rw [hlen'] at this; simp at this; omega
      have htk : (ps.orderedInsert pairLe (e, dst e)).take k = init := by rw [hl, ← hil, List.take_left]
      rw [htk]
      rw [hl] at hs' hperm
      have hle : ∀ p ∈ init, p.2 ≤ l.2 := by
        intro p hp
        have := (List.pairwise_append.1 hs').2.2 p hp l (by simp)
        exact (pairLe_iff _ _).1 this
      have hlval : l.2 = dst l.1 := by
        have : l ∈ (e, dst e) :: ps := hperm.mem_iff.1 (by simp)
        rcases List.mem_cons.1 this with rfl | hp
        · rfl
        · exact (h.held l hp).2
      have full : ∀ x, l.2 ≤ dst x → j ≤ init.countP fun p => decide (p.2 ≤ dst x) := by
        intro x hx
        have : init.countP (fun p => decide (p.2 ≤ dst x)) = init.length := by
          rw [List.countP_eq_length]
          intro p hp
          simpa using le_trans (hle p hp) hx
        rw [this, hil]; exact hjk
      have hmem : ∀ x, x ∈ ((e, dst e) :: ps).map Prod.fst → x ∈ init.map Prod.fst ∨ x = l.1 := by
        intro x hx
        have := (hperm.map Prod.fst).mem_iff.2 hx
        simpa using this
      rintro x (hx | hx)
      · rcases h.omitted x hx with hm | hc
        · rcases hmem x (by simp at hm ⊢; exact Or.inr hm) with h1 | h1
          · exact Or.inl h1
          · right; apply full; rw [h1, hlval]
        · right
          by_cases hlx : l.2 ≤ dst x
          · exact full x hlx
          · have hcount := hperm.countP_eq (fun p => decide (p.2 ≤ dst x))
            have hge := List.countP_cons (p := fun p : ℕ × F => decide (p.2 ≤ dst x)) (a := (e, dst e)) (l := ps)
            have hlast : [l].countP (fun p : ℕ × F => decide (p.2 ≤ dst x)) = 0 := by simp [hlx]
            rw [List.countP_append, hlast] at hcount
            omega
      · simp at hx
        subst hx
        rcases hmem x (by simp) with h1 | h1
        · exact Or.inl h1
        · right; apply full; rw [h1, hlval]

theorem offerAll_good (hjk : j ≤ k) : ∀ (cands : List (ℕ × F)) (seen : Set ℕ) (ps : List (ℕ × F)) (cur : F),
    Good dst k j seen ps → ps ≠ [] → j ≤ ps.length + 1 →
    (∀ c ∈ cands, c.2 = dst c.1 ∧ c.1 ∉ seen) → (cands.map Prod.fst).Nodup →
    ((∀ c ∈ cands, c.2 < cur) ∨ (∃ last, ps.getLast? = some last ∧ last.2 = cur ∧ j ≤ ps.length)) →
    ∃ ps', offerAll k cands ps cur = ok ps' ∧ Good dst k j (seen ∪ {i | i ∈ cands.map Prod.fst}) ps' ∧
      ps.length ≤ ps'.length
  | [], seen, ps, cur, hg, _, _, _, _, _ => by
    refine ⟨ps, rfl, ?_, le_refl _⟩
    simpa using hg
  | (i, d) :: rest, seen, ps, cur, hg, hne, hj1, hc, hnd, hcur => by
    have hci := hc (i, d) (by simp)
    simp only at hci
    obtain ⟨hd, hi⟩ := hci
    subst hd
    rw [List.map_cons, List.nodup_cons] at hnd
    have hrest : ∀ c ∈ rest, c.2 = dst c.1 ∧ c.1 ∉ seen ∪ {i} := by
      intro c hcm
      refine ⟨(hc c (by simp [hcm])).1, ?_⟩
      rintro (h | h)
      · exact (hc c (by simp [hcm])).2 h
      · simp at h
        apply hnd.1
        exact List.mem_map.2 ⟨c, hcm, h⟩
    have hset : seen ∪ {x | x ∈ ((i, dst i) :: rest).map Prod.fst} = (seen ∪ {i}) ∪ {x | x ∈ rest.map Prod.fst} := by
      ext x; simp only [List.map_cons, List.mem_cons, Set.mem_union, Set.mem_setOf_eq, Set.mem_singleton_iff, or_assoc]
    rw [hset, offerAll]
    by_cases hlt : dst i < cur
    · rw [if_pos (slt_true.2 hlt)]
      obtain ⟨last, hl1, hl2⟩ := knearestAdd_spec k ps hg.sorted hne hg.len i (dst i)
      have hg' := hg.insert hjk hi
      have hlen' : ((ps.orderedInsert pairLe (i, dst i)).take k).length = min k (ps.length + 1) := by
        rw [List.length_take, List.orderedInsert_length]
      have hge : ps.length ≤ ((ps.orderedInsert pairLe (i, dst i)).take k).length := by
        rw [hlen']; have := hg.len; omega
      have hpos : 0 < ps.length := List.length_pos_iff.2 hne
      obtain ⟨ps', h1, h2, h3⟩ := offerAll_good hjk rest (seen ∪ {i}) _ last.2 hg'
        (by intro hc; have := congrArg List.length hc; simp only [List.length_nil] at this; omega) (by omega) hrest hnd.2
        (Or.inr ⟨last, hl1, rfl, by rw [hlen']; omega⟩)
      exact ⟨ps', by rw [hl2]; simpa using h1, h2, by omega⟩
    · rw [if_neg (by rw [slt_true]; exact hlt)]
      rcases hcur with h | ⟨last, hl1, hl2, hl3⟩
      · exact absurd (h (i, dst i) (by simp)) hlt
      · have hall : ∀ p ∈ ps, p.2 ≤ dst i := by
          intro p hp
          obtain ⟨init, rfl⟩ : ∃ init, ps = init ++ [last] := by
            have := List.getLast?_eq_some_iff.1 hl1
            exact this
          have hpl : p.2 ≤ last.2 := by
            rcases List.mem_append.1 hp with h | h
            · exact (pairLe_iff _ _).1 ((List.pairwise_append.1 hg.sorted).2.2 p h last (by simp))
            · simp at h; rw [h]
          rw [hl2] at hpl
          exact le_trans hpl (not_lt.1 hlt)
        have hg' := hg.skip (s := {i}) (by simpa using hall) (fun _ => hl3)
        obtain ⟨ps', h1, h2, h3⟩ := offerAll_good hjk rest (seen ∪ {i}) ps cur hg' hne hj1 hrest hnd.2
          (Or.inr ⟨last, hl1, hl2, hl3⟩)
        exact ⟨ps', h1, h2, h3⟩

omit [LinearOrder F] [OrdScalar F] in
theorem getDistances_ok (data : Mat F) (point : List F) (ids : List ℕ) (hne : ids ≠ []) (h : ∀ i ∈ ids, i < data.rows.length) :
    getDistances data point ids = ok (ids.map fun i => knnDist point (data.rows.getD i [])) := by
  unfold getDistances
  have : ids.isEmpty = false := by simpa using hne
  simp only [this, Bool.not_false, assert_true, ok_bind]
  clear hne this
  induction ids with
  | nil => rfl
  | cons a ids ih =>
    rw [List.mapM_cons, ih (fun i hi => h i (by simp [hi]))]
    have ha : a < data.rows.length := h a (by simp)
    simp [getAt, ha]

omit [Scalar F] [LinearOrder F] [OrdScalar F] in
theorem zip_map_self (ids : List ℕ) (f : ℕ → F) : ids.zip (ids.map f) = ids.map fun i => (i, f i) := by
  induction ids with
  | nil => rfl
  | cons a l ih => simp [ih]

theorem knearestNew_good (hjk : j ≤ k) (ids : List ℕ) (hnd : ids.Nodup) :
    ∃ ps, knearestNew k ids (ids.map dst) = ok ps ∧ Good dst k j {i | i ∈ ids} ps ∧ ps.length = min k ids.length := by
  have hz := zip_map_self ids dst
  refine ⟨((ids.zip (ids.map dst)).insertionSort pairLe).take k, ?_, ?_, ?_⟩
  · unfold knearestNew
    rw [if_neg (by
      rintro ⟨_, h⟩
      rw [List.any_eq_true] at h
      obtain ⟨p, _, hp⟩ := h
      rw [OrdScalar.isNaN_false] at hp
      simp at hp)]
  · rw [hz]
    have hperm := List.perm_insertionSort pairLe (ids.map fun i => (i, dst i))
    have hs : SortedD ((ids.map fun i => (i, dst i)).insertionSort pairLe) := List.pairwise_insertionSort _ _
    have hfst : (ids.map fun i => (i, dst i)).map Prod.fst = ids := by
      rw [List.map_map]; exact List.map_id _
    have hval : ∀ p ∈ (ids.map fun i => (i, dst i)).insertionSort pairLe, p.1 ∈ ids ∧ p.2 = dst p.1 := by
      intro p hp
      obtain ⟨i, hi, rfl⟩ := List.mem_map.1 (hperm.mem_iff.1 hp)
      exact ⟨hi, rfl⟩
    refine ⟨hs.sublist (List.take_sublist _ _), ?_, fun p hp => hval p (List.mem_of_mem_take hp), by simp, ?_⟩
    · have : (((ids.map fun i => (i, dst i)).insertionSort pairLe).map Prod.fst).Nodup := by
        rw [(hperm.map Prod.fst).nodup_iff, hfst]; exact hnd
      exact this.sublist ((List.take_sublist _ _).map _)
    · intro e he
      have hmem : (e, dst e) ∈ (ids.map fun i => (i, dst i)).insertionSort pairLe :=
        hperm.mem_iff.2 (List.mem_map.2 ⟨e, he, rfl⟩)
      rw [← List.take_append_drop k (List.insertionSort _ _)] at hmem hs
      rcases List.mem_append.1 hmem with h | h
      · exact Or.inl (List.mem_map.2 ⟨_, h, rfl⟩)
      · right
        have hlen : (((ids.map fun i => (i, dst i)).insertionSort pairLe).take k).length = k := by
          rw [List.length_take]
          have : ((ids.map fun i => (i, dst i)).insertionSort pairLe).drop k ≠ [] := by
            intro hc; rw [hc] at h; simp at h
          rw [Ne, List.drop_eq_nil_iff] at this
          omega
        have : (((ids.map fun i => (i, dst i)).insertionSort pairLe).take k).countP (fun p => decide (p.2 ≤ dst e)) =
            (((ids.map fun i => (i, dst i)).insertionSort pairLe).take k).length := by
          rw [List.countP_eq_length]
          intro p hp
          have := (List.pairwise_append.1 hs).2.2 p hp _ h
          simpa using (pairLe_iff _ _).1 this
        rw [this, hlen]; exact hjk
  · rw [hz]
    simp [List.length_insertionSort]

/-- What the invariant gives when all `n` rows have been seen. -/
theorem Good.final {n : ℕ} {ps : List (ℕ × F)} (h : Good dst k j {i | i < n} ps) (hjn : j ≤ n) :
    PrefixNearestOf n dst j k (knearestResults ps) := by
  have hlen : j ≤ ps.length := by
    by_contra hc
    push Not at hc
    have hall : ∀ e, e < n → e ∈ ps.map Prod.fst := by
      intro e he
      rcases h.omitted e he with h1 | h1
      · exact h1
      · have := List.countP_le_length (p := fun p : ℕ × F => decide (p.2 ≤ dst e)) (l := ps)
        omega
    have hsub : List.range n ⊆ ps.map Prod.fst := fun e he => hall e (List.mem_range.1 he)
    have := (List.nodup_range.subperm hsub).length_le
    simp at this
    omega
  have hsorted : (ps.map Prod.snd).Pairwise (· ≤ ·) := by
    rw [List.pairwise_map]
    exact h.sorted.imp fun {a b} hab => (pairLe_iff a b).1 hab
  refine ⟨by simpa [knearestResults] using hlen, by simpa [knearestResults] using h.len, ?_, h.nodup, ?_, hsorted, ?_⟩
  · intro i hi
    obtain ⟨p, hp, rfl⟩ := List.mem_map.1 hi
    exact (h.held p hp).1
  · simp only [knearestResults, List.map_map]
    apply List.map_congr_left
    intro p hp
    exact (h.held p hp).2
  · intro i hi hni d hd
    simp only [knearestResults] at hni hd
    rcases h.omitted i hi with h1 | h1
    · exact absurd h1 hni
    · -- at least j of the sorted distances are ≤ dst i
      by_contra hc
      have hc : dst i < d := not_le.1 hc
      rw [List.mem_take_iff_getElem] at hd
      obtain ⟨m, hm, hmd⟩ := hd
      have hm1 : m < j := by omega
      have hm2 : m < ps.length := by simp at hm; omega
      -- elements from position m on are > dst i
      have hgt : ∀ p ∈ ps.drop m, ¬ p.2 ≤ dst i := by
        intro p hp
        obtain ⟨q, hq, rfl⟩ := List.getElem_of_mem hp
        rw [List.getElem_drop]
        have hq' : m + q < ps.length := by simp at hq; omega
        have hmd' : ps[m].2 = d := by simpa using hmd
        rcases Nat.eq_zero_or_pos q with rfl | hq0
        · simpa [hmd'] using hc
        · have := (List.pairwise_iff_getElem.1 h.sorted) m (m + q) hm2 hq' (by omega)
          rw [pairLe_iff, hmd'] at this
          exact not_le.2 (lt_of_lt_of_le hc this)
      have hcount : ps.countP (fun p => decide (p.2 ≤ dst i)) ≤ m := by
        conv_lhs => rw [← List.take_append_drop m ps]
        rw [List.countP_append]
        have h0 : (ps.drop m).countP (fun p => decide (p.2 ≤ dst i)) = 0 := by
          rw [List.countP_eq_zero]
          intro p hp
          simpa using hgt p hp
        have h2 := List.countP_le_length (p := fun p : ℕ × F => decide (p.2 ≤ dst i)) (l := ps.take m)
        rw [List.length_take] at h2
        omega
      omega

omit [Scalar F] [OrdScalar F] in
theorem PrefixNearestOf.full {n : ℕ} {r : List ℕ × List F} (h : PrefixNearestOf n dst k k r) : KNearestOf n dst k r := by
  have hl : r.1.length = k := le_antisymm h.atMost h.atLeast
  refine ⟨hl, h.rows, h.distinct, h.distances, h.sorted, ?_⟩
  intro i hi hni d hd
  apply h.nearest i hi hni
  rw [List.take_of_length_le]
  · exact hd
  · rw [h.distances, List.length_map, hl]

end RM
