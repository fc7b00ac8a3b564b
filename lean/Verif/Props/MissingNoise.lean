import Verif.Props.MissingTrain
import Verif.Proofs.Dbscan

/-! C148 for DBSCAN: a sample with a NaN is noise and changes nothing else. -/

namespace RM
open Outcome Scalar Spec

/-- The number of row `i` after a row has been inserted at `n`. -/
def shiftAt (n i : ℕ) : ℕ := if i < n then i else i + 1

theorem shiftAt_ne (n i : ℕ) : shiftAt n i ≠ n := by unfold shiftAt; split <;> omega
theorem shiftAt_lt_iff {n i j : ℕ} : shiftAt n i < shiftAt n j ↔ i < j := by unfold shiftAt; split <;> split <;> omega
theorem shiftAt_inj (n : ℕ) : Function.Injective (shiftAt n) := by
  intro i j h
  have h1 := @shiftAt_lt_iff n i j
  have h2 := @shiftAt_lt_iff n j i
  omega
theorem shiftAt_bound {n N i : ℕ} (hn : n ≤ N) : shiftAt n i < N + 1 ↔ i < N := by unfold shiftAt; split <;> omega
theorem shiftAt_surj {n y : ℕ} (h : y ≠ n) : ∃ i, y = shiftAt n i := by
  by_cases hy : y < n
  · exact ⟨y, by unfold shiftAt; rw [if_pos hy]⟩
  · exact ⟨y - 1, by unfold shiftAt; rw [if_neg (by omega)]; omega⟩

theorem getElem?_insert_shift {α : Type} {n : ℕ} {l : List α} (a : α) (hn : n ≤ l.length) (i : ℕ) : (l.take n ++ a :: l.drop n)[shiftAt n i]? = l[i]? := by
  have hl : (l.take n).length = n := by simp [hn]
  unfold shiftAt
  split
  · rename_i h
    rw [List.getElem?_append_left (by omega), List.getElem?_take_of_lt h]
  · rename_i h
    rw [List.getElem?_append_right (by omega), hl, show i + 1 - n = (i - n) + 1 by omega, List.getElem?_cons_succ, List.getElem?_drop]
    congr 1; omega

theorem density_insert {N mp n : ℕ} (hn : n ≤ N) (hmp : 0 < mp) {near near' : ℕ → ℕ → Prop} (h : ∀ i j, near (shiftAt n i) (shiftAt n j) ↔ near' i j)
    (h1 : ∀ j, j < N + 1 → ¬ near n j) (h2 : ∀ i, i < N + 1 → ¬ near i n) {L : List (Option ℕ)} (hL : IsDensityClustering N mp near' L) :
    IsDensityClustering (N + 1) mp near (L.take n ++ none :: L.drop n) := by
  have hc : ∀ i, i < N → (IsCore (N + 1) mp near (shiftAt n i) ↔ IsCore N mp near' i) := by
    intro i hi
    constructor
    · rintro ⟨s, hs, hj⟩
      refine ⟨s.preimage (shiftAt n) ((shiftAt_inj n).injOn), ?_, ?_⟩
      · have hsub : s ⊆ (s.preimage (shiftAt n) ((shiftAt_inj n).injOn)).image (shiftAt n) := by
          intro y hy
          obtain ⟨k, rfl⟩ := shiftAt_surj (n := n) (y := y) (by rintro rfl; exact h2 _ ((shiftAt_bound hn).2 hi) (hj y hy).2)
          exact Finset.mem_image.2 ⟨k, Finset.mem_preimage.2 hy, rfl⟩
        exact le_trans hs (le_trans (Finset.card_le_card hsub) Finset.card_image_le)
      · intro j hjs
        have := hj _ (Finset.mem_preimage.1 hjs)
        exact ⟨(shiftAt_bound hn).1 this.1, (h i j).1 this.2⟩
    · rintro ⟨s, hs, hj⟩
      refine ⟨s.image (shiftAt n), by rw [Finset.card_image_of_injective _ (shiftAt_inj n)]; exact hs, ?_⟩
      intro y hy
      obtain ⟨j, hjs, rfl⟩ := Finset.mem_image.1 hy
      exact ⟨(shiftAt_bound hn).2 (hj j hjs).1, (h i j).2 (hj j hjs).2⟩
  have hnc : ¬ IsCore (N + 1) mp near n := by
    rintro ⟨s, hs, hj⟩
    obtain ⟨y, hy⟩ := Finset.card_pos.1 (lt_of_lt_of_le hmp hs)
    exact h1 y (hj y hy).1 (hj y hy).2
  have hlk : ∀ i j, Linked (N + 1) mp near (shiftAt n i) (shiftAt n j) ↔ Linked N mp near' i j := by
    intro i j
    unfold Linked
    constructor
    · intro hr
      have key : ∀ y, Relation.ReflTransGen (fun a b => a < N + 1 ∧ b < N + 1 ∧ IsCore (N + 1) mp near a ∧ IsCore (N + 1) mp near b ∧ near a b) (shiftAt n i) y →
          ∃ j, y = shiftAt n j ∧ Relation.ReflTransGen (fun a b => a < N ∧ b < N ∧ IsCore N mp near' a ∧ IsCore N mp near' b ∧ near' a b) i j := by
        intro y hy
        induction hy with
        | refl => exact ⟨i, rfl, .refl⟩
        | tail _ hs ih =>
          obtain ⟨a, rfl, ha⟩ := ih
          rename_i y _
          have hy : y ≠ n := by
            rintro rfl
            exact h2 _ hs.1 hs.2.2.2.2
          obtain ⟨b, rfl⟩ := shiftAt_surj hy
          have ha' := (shiftAt_bound hn).1 hs.1
          have hb' := (shiftAt_bound hn).1 hs.2.1
          exact ⟨b, rfl, ha.tail ⟨ha', hb', (hc a ha').1 hs.2.2.1, (hc b hb').1 hs.2.2.2.1, (h a b).1 hs.2.2.2.2⟩⟩
      obtain ⟨j', e, hj'⟩ := key _ hr
      rw [shiftAt_inj n e]
      exact hj'
    · intro hr
      induction hr with
      | refl => exact .refl
      | tail _ hs ih =>
        exact ih.tail ⟨(shiftAt_bound hn).2 hs.1, (shiftAt_bound hn).2 hs.2.1, (hc _ hs.1).2 hs.2.2.1, (hc _ hs.2.1).2 hs.2.2.2.1, (h _ _).2 hs.2.2.2.2⟩
  have hg := fun i => getElem?_insert_shift (none : Option ℕ) (n := n) (l := L) (by rw [hL.length]; exact hn) i
  have hgn : (L.take n ++ none :: L.drop n)[n]? = some none := by
    have hl : (L.take n).length = n := by simp [hL.length, hn]
    rw [List.getElem?_append_right (by omega), hl]; simp
  have hne : ∀ {i l : ℕ}, (L.take n ++ none :: L.drop n)[i]? = some (some l) → i ≠ n := by
    rintro i l hi rfl
    rw [hgn] at hi; simp at hi
  refine ⟨?_, ?_, ?_, ?_⟩
  · simp only [List.length_append, List.length_take, List.length_cons, List.length_drop, hL.length]; omega
  · intro i hi
    by_cases hin : i = n
    · subst hin
      rw [hgn]
      simp [hnc]
    · obtain ⟨k, rfl⟩ := shiftAt_surj hin
      have hk := (shiftAt_bound hn).1 hi
      rw [hg, hc k hk]
      exact hL.labelled k hk
  · intro i j l l' hi hj
    obtain ⟨a, rfl⟩ := shiftAt_surj (hne hi)
    obtain ⟨b, rfl⟩ := shiftAt_surj (hne hj)
    rw [hg] at hi hj
    rw [hlk]
    exact hL.same a b l l' hi hj
  · intro i l l' hi hl
    obtain ⟨a, rfl⟩ := shiftAt_surj (hne hi)
    rw [hg] at hi
    obtain ⟨b, hb, hb'⟩ := hL.order a l l' hi hl
    exact ⟨shiftAt n b, shiftAt_lt_iff.2 hb, by rw [hg]; exact hb'⟩

theorem dbD_nan {u v : List XR} (hl : u.length = v.length) (h : XR.nan ∈ u ∨ XR.nan ∈ v) : dbD u v = XR.nan := by
  have : XR.nan ∈ List.zipWith Scalar.sub u v := by
    rcases h with h | h
    · exact zipWith_nan_mem xr_nan_sub h hl
    · exact zipWith_nan_mem_right mv_sub_nan h hl
  unfold dbD
  rw [dot_nan_mem this rfl]
  rfl

/-- C148, for DBSCAN: a sample with a NaN is noise, and the clusters of all other samples are as without it. Missing for C148: other learners fail. -/
theorem C148_dbscan_partial (m : Dbscan XR) (hmp : 0 < m.minPoints) (c : ℕ) (pre post : List (List XR)) (s : List XR) (hw : ∀ r ∈ pre ++ s :: post, r.length = c)
    (hn : XR.nan ∈ s) (fuel : ℕ) (hf : (pre.length + post.length + 2) * (pre.length + post.length + 2) ≤ fuel) :
    ∃ a b m1 m2, dbTrain fuel m ⟨c, pre ++ post⟩ = some (ok m1) ∧ dbTrain fuel m ⟨c, pre ++ s :: post⟩ = some (ok m2) ∧ a.length = pre.length ∧
      m1.clusters = some (a ++ b) ∧ m2.clusters = some (a ++ none :: b) := by
  have hw' : (⟨c, pre ++ post⟩ : Mat XR).WF := by
    intro r hr
    refine hw r ?_
    simp only [List.mem_append, List.mem_cons] at hr ⊢
    tauto
  have hlen : (pre ++ post).length = pre.length + post.length := List.length_append
  have hlen' : (pre ++ s :: post).length = pre.length + post.length + 1 := by simp; omega
  obtain ⟨L, v, e1, d1⟩ := dbTrain_spec (dbD_comm_of xr_sub_mul_comm) m ⟨c, pre ++ post⟩ hw' fuel (by
    simp only [hlen]; exact le_trans (Nat.mul_le_mul (by omega) (by omega)) hf)
  obtain ⟨L', v', e2, d2⟩ := dbTrain_spec (dbD_comm_of xr_sub_mul_comm) m ⟨c, pre ++ s :: post⟩ hw fuel (by simp only [hlen']; exact hf)
  simp only [hlen] at d1
  simp only [hlen'] at d2
  have hget : ∀ i, (pre ++ s :: post).getD (shiftAt pre.length i) [] = (pre ++ post).getD i [] := by
    intro i
    rw [List.getD_eq_getElem?_getD, List.getD_eq_getElem?_getD]
    have := getElem?_insert_shift s (n := pre.length) (l := pre ++ post) (by omega) i
    rw [List.take_left, List.drop_left] at this
    rw [this]
  have hs : (pre ++ s :: post).getD pre.length [] = s := by simp
  have hl : ∀ i, i < pre.length + post.length + 1 → ((pre ++ s :: post).getD i []).length = c := by
    intro i hi
    rw [getD_lt _ (by omega)]
    exact hw _ (List.getElem_mem _)
  have hsl : s.length = c := hw s (by simp)
  have hfalse : ¬ ((XR.nan <. m.eps) = true) := by cases m.eps <;> (change ¬ (false = true); simp)
  have key := density_insert (n := pre.length) (by omega) hmp (near := nearF m.eps ⟨c, pre ++ s :: post⟩) (near' := nearF m.eps ⟨c, pre ++ post⟩) (by
      intro i j
      unfold nearF
      simp only
      rw [hget, hget]) (by
      intro j hj
      unfold nearF
      simp only
      rw [hs, dbD_nan (by rw [hl j hj, hsl]) (Or.inr hn)]
      exact hfalse) (by
      intro i hi
      unfold nearF
      simp only
      rw [hs, dbD_nan (by rw [hl i hi, hsl]) (Or.inl hn)]
      exact hfalse) d1
  have hu := IsDensityClustering.unique d2 key
  refine ⟨L.take pre.length, L.drop pre.length, _, _, e1, e2, by rw [List.length_take, d1.length]; omega, ?_, ?_⟩
  · simp
  · simp only [hu]

/-- Two samples next to each other and one with a NaN between them. -/
example : ∃ a b m1 m2, dbTrain 16 ⟨.fin 1, 2, none, false, [], none⟩ ⟨1, [[XR.fin 0], [.fin 0]]⟩ = some (ok m1) ∧
    dbTrain 16 ⟨.fin 1, 2, none, false, [], none⟩ ⟨1, [[XR.fin 0], [.nan], [.fin 0]]⟩ = some (ok m2) ∧ a.length = 1 ∧
    m1.clusters = some (a ++ b) ∧ m2.clusters = some (a ++ none :: b) :=
  C148_dbscan_partial ⟨.fin 1, 2, none, false, [], none⟩ (by norm_num) 1 [[.fin 0]] [[.fin 0]] [.nan]
    (by intro r hr; simp at hr; rcases hr with rfl | rfl | rfl <;> rfl) (by simp) 16 (by norm_num)

end RM
