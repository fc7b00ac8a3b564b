import Verif.Proofs.KNearest
import Verif.Proofs.KNNVote
import Verif.Proofs.TreeKinds
import Verif.Spec.KNN

/-! C19, C24, C25: brute-force search, majority vote, life cycle of the classifier. -/

namespace RM
open Outcome Spec Scalar

variable {F : Type} [Scalar F]

/-! ### C19 -/

theorem indexedDists_eq (point : List F) : ∀ (rs : List (List F)) (i : ℕ),
    indexedDists point i rs = (List.range rs.length).map fun t => (i + t, knnDist point (rs.getD t []))
  | [], i => rfl
  | r :: rs, i => by
    rw [indexedDists, indexedDists_eq point rs (i + 1), List.length_cons, List.range_succ_eq_map, List.map_cons, List.map_map]
    simp only [Nat.add_zero, List.getD_cons_zero, List.cons.injEq, true_and]
    apply List.map_congr_left
    intro t _
    simp only [Function.comp, Nat.succ_eq_add_one, List.getD_cons_succ, Prod.mk.injEq, and_true]
    omega

section ord
variable [LinearOrder F] [OrdScalar F]

/-- C19 (arithmetic with or without rounding, no NaN): brute-force search for `1 ≤ k ≤ rows` succeeds and returns `k`
nearest rows, `knnDist` being the distance as the library computes it. -/
theorem C19_brute_force_k_nearest (data : Mat F) (point : List F) (k : ℕ) (h1 : 1 ≤ k) (hk : k ≤ data.rows.length) :
    ∃ r, bruteSearch (some data) point k = ok r ∧
      KNearestOf data.rows.length (fun i => knnDist point (data.rows.getD i [])) k r := by
  set dst : ℕ → F := fun i => knnDist point (data.rows.getD i []) with hdst
  have hg := getDistances_ok data point (List.range k) (by simp; omega) (by
    intro i hi; simp at hi; omega)
  obtain ⟨ps, hp1, hp2, hp3⟩ := knearestNew_good (dst := dst) (le_refl k) (List.range k) List.nodup_range
  have hlen : ps.length = k := by simpa using hp3
  have hne : ps ≠ [] := by intro hc; rw [hc] at hlen; simp at hlen; omega
  obtain ⟨last, hlast⟩ : ∃ last, ps.getLast? = some last := ⟨ps.getLast hne, List.getLast?_eq_getLast_of_ne_nil hne⟩
  have hcand := indexedDists_eq point (data.rows.drop k) k
  obtain ⟨ps', hq1, hq2, _⟩ := offerAll_good (dst := dst) (le_refl k) (indexedDists point k (data.rows.drop k))
    {i | i ∈ List.range k} ps last.2 hp2 hne (by omega) (by
      intro c hc
      rw [hcand] at hc
      obtain ⟨t, ht, rfl⟩ := List.mem_map.1 hc
      refine ⟨?_, by simp⟩
      simp only [hdst]
      congr 1
      simp [List.getElem?_drop]) (by
      rw [hcand, List.map_map]
      refine List.Nodup.map ?_ List.nodup_range
      intro a b hab
      simpa using hab) (Or.inr ⟨last, hlast, rfl, by omega⟩)
  refine ⟨knearestResults ps', ?_, ?_⟩
  · unfold bruteSearch
    simp only [hg, ok_bind]
    rw [hp1]
    simp only [ok_bind]
    have hd : knearestDist k ps = ok last.2 := by
      unfold knearestDist; rw [if_neg (by omega), hlast]
    rw [hd]
    simp only [ok_bind, hq1]
  · have hset : ({i | i ∈ List.range k} ∪ {i | i ∈ (indexedDists point k (data.rows.drop k)).map Prod.fst} : Set ℕ) =
        {i | i < data.rows.length} := by
      ext x
      rw [hcand]
      simp only [List.map_map, Set.mem_union, Set.mem_setOf_eq, List.mem_range, List.mem_map, Function.comp, List.length_drop]
      constructor
      · rintro (h | ⟨t, ht, rfl⟩) <;> omega
      · intro h
        by_cases hx : x < k
        · exact Or.inl hx
        · exact Or.inr ⟨x - k, by omega, by omega⟩
    rw [hset] at hq2
    exact PrefixNearestOf.full (hq2.final hk)

end ord

/-- The distance is the Euclidean distance in exact arithmetic. -/
theorem C19_C21_C22_distance_is_euclidean (u v : List ℝ) : knnDist u v = eucl u v := by
  rw [knnDist_real, eucl]
  congr 3
  funext x y
  ring

/-- C19 in exact arithmetic, in terms of Euclidean distance only. -/
theorem C19_brute_force_exact (data : Mat ℝ) (point : List ℝ) (k : ℕ) (h1 : 1 ≤ k) (hk : k ≤ data.rows.length) :
    ∃ r, bruteSearch (some data) point k = ok r ∧
      KNearestOf data.rows.length (fun i => eucl point (data.rows.getD i [])) k r := by
  have := C19_brute_force_k_nearest data point k h1 hk
  simpa only [C19_C21_C22_distance_is_euclidean] using this

/-- C19: `k = 0` and `k > rows` panic. -/
theorem C19_brute_force_panics (data : Mat F) (point : List F) (k : ℕ) (h : k = 0 ∨ data.rows.length < k) :
    bruteSearch (some data) point k = panic := by
  unfold bruteSearch
  have hg : getDistances data point (List.range k) = panic := by
    unfold getDistances
    rcases h with rfl | h
    · simp
    · have hne : (List.range k).isEmpty = false := by simp; omega
      simp only [hne, Bool.not_false, assert_true, ok_bind]
      -- the first out-of-range id is `rows`
      have hsplit : ∀ (n : ℕ) (l : List ℕ), (∃ pre post, l = pre ++ n :: post ∧ ∀ i ∈ pre, i < n) → data.rows.length = n →
          (l.mapM fun id => (do let row ← getAt data.rows id; ok (knnDist point row) : Outcome F)) = panic := by
        rintro n l ⟨pre, post, rfl, hpre⟩ hn
        induction pre with
        | nil => simp [List.mapM_cons, getAt, hn]
        | cons a pre ih =>
          have ha : a < data.rows.length := by rw [hn]; exact hpre a (by simp)
          have := ih (fun i hi => hpre i (by simp [hi]))
          simp only [List.cons_append, List.mapM_cons, getAt, List.getElem?_eq_getElem ha, ofOption_some, ok_bind]
          simp only [getAt] at this
          rw [this]; rfl
      refine hsplit data.rows.length _ ⟨List.range data.rows.length,
        (List.range' (data.rows.length + 1) (k - data.rows.length - 1)), ?_, by simp⟩ rfl
      rw [List.range_eq_range', List.range_eq_range', ← List.range'_succ]
      rw [show k - data.rows.length - 1 + 1 = k - data.rows.length by omega]
      have := List.range'_append (s := 0) (m := data.rows.length) (n := k - data.rows.length) (step := 1)
      simp only [Nat.one_mul, Nat.zero_add] at this
      rw [this]; congr 1; omega
  simp only [hg, panic_bind]

/-- C19: searching before `build` is an error. -/
theorem C19_brute_force_untrained (point : List F) (k : ℕ) : bruteSearch none point k = err .UntrainedModel := rfl

/-- The hypotheses are met by a query with ties: three of four rows, two at the same distance. -/
example : ∃ r, bruteSearch (some (⟨2, [[0, 0], [3, 4], [0, 5], [1, 0]]⟩ : Mat ℝ)) [0, 0] 3 = ok r ∧
    KNearestOf 4 (fun i => eucl [0, 0] (([[0, 0], [3, 4], [0, 5], [1, 0]] : List (List ℝ)).getD i [])) 3 r :=
  C19_brute_force_exact _ _ 3 (by decide) (by decide)

/-! ### C24 -/

/-- C24: whatever rows the searcher finds for a query (at least one, all with a label), the prediction for that query is the
majority label of these rows, the smallest one in a tie. -/
theorem C24_vote_is_majority (target idx labels : List ℕ) (hne : idx ≠ [])
    (hl : idx.map (fun i => target[i]?) = labels.map some) :
    ∃ l, knnVote target idx = ok l ∧ MajorityLabel labels l := by
  obtain ⟨l, h1, h2, h3, h4⟩ := knnVote_spec target idx labels hne hl
  exact ⟨l, h1, h2, h3, h4⟩

theorem mapM_forall₂ {α β : Type} (f : α → Outcome β) (P : α → β → Prop) : ∀ (l : List α),
    (∀ a ∈ l, ∃ b, f a = ok b ∧ P a b) → ∃ bs, l.mapM f = ok bs ∧ List.Forall₂ P l bs
  | [], _ => ⟨[], rfl, .nil⟩
  | a :: l, h => by
    obtain ⟨b, h1, h2⟩ := h a (by simp)
    obtain ⟨bs, h3, h4⟩ := mapM_forall₂ f P l (fun x hx => h x (by simp [hx]))
    exact ⟨b :: bs, by simp [List.mapM_cons, h1, h3], .cons h2 h4⟩

/-- C24: predictions, row by row, for any searcher. -/
theorem C24_predict_is_majority {S : Type} (R : Searcher F S) (c : KNNClassifier S) (target : List ℕ) (ht : c.target = some target)
    (inputs : Mat F)
    (hs : ∀ row ∈ inputs.rows, ∃ idx ds, R.search c.searcher row c.k = ok (idx, ds) ∧ idx ≠ [] ∧ ∀ i ∈ idx, i < target.length) :
    ∃ out, knnPredict R c inputs = ok out ∧
      List.Forall₂ (fun row l => ∃ idx ds, R.search c.searcher row c.k = ok (idx, ds) ∧
        MajorityLabel (idx.filterMap (fun i => target[i]?)) l) inputs.rows out := by
  unfold knnPredict
  rw [ht]
  apply mapM_forall₂
  intro row hrow
  obtain ⟨idx, ds, h1, h2, h3⟩ := hs row hrow
  obtain ⟨res, hr1, hr2⟩ := mapM_getAt target idx h3
  obtain ⟨l, h4, h5⟩ := C24_vote_is_majority target idx res h2 hr2
  refine ⟨l, by simp [h1, h4], idx, ds, h1, ?_⟩
  have : idx.filterMap (fun i => target[i]?) = res := by
    have e1 : idx.filterMap (fun i => target[i]?) = (idx.map fun i => target[i]?).filterMap id := by
      rw [List.filterMap_map]; rfl
    rw [e1, hr2, List.filterMap_map]
    simp
  rw [this]; exact h5

/-- A four-way vote with a tie between 2 and 7. -/
example : knnVote [7, 2, 9, 2, 7] [0, 1, 2, 3, 4] = ok 2 := by decide
example : ∃ l, knnVote [7, 2, 9, 2, 7] [0, 1, 2, 3, 4] = ok l ∧ MajorityLabel [7, 2, 9, 2, 7] l :=
  C24_vote_is_majority _ _ _ (by decide) rfl

/-! ### C25 -/

/-- State after a history of calls (`predict` borrows immutably and changes nothing). -/
def knnRun {S : Type} (R : Searcher F S) (c : KNNClassifier S) : List (KnnCall F) → KNNClassifier S
  | [] => c
  | .predict _ :: h => knnRun R c h
  | .train x y :: h => knnRun R (knnTrain R c x y).1 h

/-- C25: `train` reports `InvalidData` exactly for a wrong number of targets or too few rows, whatever the searcher. -/
theorem C25_train_error_iff {S : Type} (R : Searcher F S) (c : KNNClassifier S) (x : Mat F) (y : List ℕ)
    (hb : ∀ s : S, ∃ s', R.build s x = ok s') :
    ((knnTrain R c x y).2 = err .InvalidData ↔ x.rows.length ≠ y.length ∨ x.rows.length < c.k) ∧
    ((knnTrain R c x y).2 = ok () ↔ x.rows.length = y.length ∧ c.k ≤ x.rows.length) := by
  obtain ⟨s', hs'⟩ := hb c.searcher
  unfold knnTrain
  by_cases h1 : x.rows.length ≠ y.length
  · simp [h1]
  · by_cases h2 : x.rows.length < c.k
    · simp [h1, h2]
    · simp only [h1, h2, if_false, hs']
      simp at h1 h2 ⊢
      exact ⟨h1, h2⟩

/-- C25: a `train` that does not succeed leaves the classifier as it was. -/
theorem C25_failed_train_unchanged {S : Type} (R : Searcher F S) (c : KNNClassifier S) (x : Mat F) (y : List ℕ)
    (h : (knnTrain R c x y).2 ≠ ok ()) : (knnTrain R c x y).1 = c := by
  unfold knnTrain at h ⊢
  split
  · rfl
  · split
    · rfl
    · rename_i h1 h2
      simp only [h1, h2, if_false] at h
      split
      · rename_i s hs; rw [hs] at h; simp at h
      · rfl
      · rfl
      · rfl

theorem lastAccepted_snoc_aux (k : ℕ) (x : Mat F) (y : List ℕ) (h : List (KnnCall F)) :
    lastAccepted k (.train x y :: h) = (lastAccepted k h).or (if x.rows.length = y.length ∧ k ≤ x.rows.length then some (x, y) else none) := by
  rw [lastAccepted]
  cases lastAccepted k h <;> rfl

/-- The brute-force classifier after a history of calls. -/
theorem knnRun_brute : ∀ (h : List (KnnCall F)) (c : KNNClassifier (Option (Mat F))),
    knnRun bruteSearcher c h = match lastAccepted c.k h with
      | none => c
      | some (x, y) => ⟨c.k, some x, some y⟩
  | [], c => rfl
  | .predict z :: h, c => by rw [knnRun, knnRun_brute h c, lastAccepted]
  | .train x y :: h, c => by
    rw [knnRun, lastAccepted_snoc_aux, knnRun_brute h]
    by_cases hc : x.rows.length = y.length ∧ c.k ≤ x.rows.length
    · have ht : (knnTrain bruteSearcher c x y).1 = ⟨c.k, some x, some y⟩ := by
        unfold knnTrain
        rw [if_neg (by simpa using hc.1), if_neg (by omega)]
        rfl
      rw [ht, if_pos hc]
      cases hla : lastAccepted c.k h with
      | none => simp [hla]
      | some r => simp [hla]
    · have ht : (knnTrain bruteSearcher c x y).1 = c := by
        unfold knnTrain
        by_cases h1 : x.rows.length = y.length
        · rw [if_neg (by simpa using h1), if_pos (by by_contra h2; exact hc ⟨h1, by omega⟩)]
        · rw [if_pos h1]
      rw [ht, if_neg hc]
      cases hla : lastAccepted c.k h with
      | none => simp
      | some r => simp

/-- C25: for every searcher, as long as no training set has been accepted `predict` reports `UntrainedModel`. -/
theorem C25_untrained_predict {S : Type} (R : Searcher F S) : ∀ (h : List (KnnCall F)) (k : ℕ) (s : S) (z : Mat F),
    lastAccepted k h = none → knnPredict R (knnRun R ⟨k, s, none⟩ h) z = err .UntrainedModel
  | [], k, s, z, _ => rfl
  | .predict _ :: h, k, s, z, hn => by rw [knnRun]; exact C25_untrained_predict R h k s z hn
  | .train x y :: h, k, s, z, hn => by
    rw [knnRun]
    rw [lastAccepted_snoc_aux, Option.or_eq_none_iff] at hn
    have ht : (knnTrain R ⟨k, s, none⟩ x y).1 = ⟨k, s, none⟩ := by
      unfold knnTrain
      by_cases h1 : x.rows.length = y.length
      · rw [if_neg (by simpa using h1), if_pos]
        by_contra h2
        have := hn.2
        rw [if_pos ⟨h1, by simpa using h2⟩] at this
        simp at this
      · rw [if_pos h1]
    rw [ht]
    exact C25_untrained_predict R h k s z hn.1

/-- C25: a brute-force classifier with `k ≥ 1` after any history of calls: every prediction depends only on the last accepted
training set, always succeeds, and is the majority label of `k` nearest rows, one label per input row. -/
theorem C25_brute_history [LinearOrder F] [OrdScalar F] (h : List (KnnCall F)) (k : ℕ) (hk : 1 ≤ k) (x : Mat F) (y : List ℕ)
    (hl : lastAccepted k h = some (x, y)) (z : Mat F) :
    ∃ out, knnPredict bruteSearcher (knnRun bruteSearcher ⟨k, none, none⟩ h) z = ok out ∧
      List.Forall₂ (fun row l => ∃ r, KNearestOf x.rows.length (fun i => knnDist row (x.rows.getD i [])) k r ∧
        MajorityLabel (r.1.filterMap fun i => y[i]?) l) z.rows out := by
  have hacc : x.rows.length = y.length ∧ k ≤ x.rows.length := by
    clear hk z
    induction h with
    | nil => simp [lastAccepted] at hl
    | cons e h ih =>
      cases e with
      | predict _ => exact ih hl
      | train x' y' =>
        rw [lastAccepted_snoc_aux] at hl
        cases hla : lastAccepted k h with
        | some r => rw [hla] at hl; exact ih (by rw [hla]; simpa using hl)
        | none =>
          rw [hla, Option.none_or] at hl
          split at hl
          · rename_i hc; simp at hl; rw [← hl.1, ← hl.2]; exact hc
          · simp at hl
  rw [knnRun_brute]
  simp only [hl]
  obtain ⟨out, h1, h2⟩ := C24_predict_is_majority bruteSearcher ⟨k, some x, some y⟩ y rfl z (by
    intro row _
    obtain ⟨r, hr1, hr2⟩ := C19_brute_force_k_nearest x row k hk hacc.2
    refine ⟨r.1, r.2, hr1, ?_, ?_⟩
    · intro hc; have := hr2.count; rw [hc] at this; simp at this; omega
    · intro i hi; have := hr2.rows i hi; omega)
  refine ⟨out, h1, h2.imp ?_⟩
  rintro row l ⟨idx, ds, hs, hm⟩
  obtain ⟨r, hr1, hr2⟩ := C19_brute_force_k_nearest x row k hk hacc.2
  have : ok r = ok (idx, ds) := hr1.symm.trans hs
  cases this
  exact ⟨_, hr2, hm⟩

/-- A history with a rejected and two accepted trainings: the last accepted one is in force. -/
example : ∃ x y, lastAccepted 2 [KnnCall.train (⟨1, [[0], [1]]⟩ : Mat ℝ) [3, 4], .predict ⟨1, [[5]]⟩,
    .train ⟨1, [[2], [3], [4]]⟩ [1, 1, 0], .train ⟨1, [[9]]⟩ [8]] = some (x, y) ∧ y = [1, 1, 0] :=
  ⟨_, _, rfl, rfl⟩
example (R : Searcher ℝ Unit) : knnPredict R (knnRun R ⟨3, (), none⟩ [.train ⟨1, [[9], [8]]⟩ [8, 8]]) ⟨1, [[5]]⟩ = err .UntrainedModel :=
  C25_untrained_predict R _ _ _ _ rfl

end RM
