import Verif.Props.NextSample
import Verif.Props.Noiseless

/-! C116, nearest neighbour: the rule of Cover and Hart for the classifier with one neighbour, with a bound for every number of samples. Exact arithmetic. -/

namespace RM
open Outcome Scalar Spec MeasureTheory ProbabilityTheory Filter Topology

/-! ### With one neighbour the search returns the first of the nearest rows -/

theorem offer_one (q : List ℝ) (dst : ℕ → ℝ) : ∀ (rows : List (List ℝ)) (m i : ℕ), i < m → (∀ l < rows.length, dst (m + l) = knnDist q (rows.getD l [])) →
    ∃ j, offerAll 1 (indexedDists q m rows) [(i, dst i)] (dst i) = ok [(j, dst j)] ∧ j < m + rows.length ∧
      (∀ l, (l = i ∨ m ≤ l ∧ l < m + rows.length) → dst j ≤ dst l) ∧ ∀ l, (l = i ∨ m ≤ l) → l < j → dst j < dst l
  | [], m, i, hi, _ => ⟨i, rfl, by simpa using hi, fun l hl => by
      rcases hl with rfl | ⟨h1, h2⟩
      · exact le_rfl
      · simp at h2; omega, fun l hl h => by omega⟩
  | r :: rows, m, i, hi, hd => by
    have h0 : dst m = knnDist q r := by simpa using hd 0 (by simp)
    have hd' : ∀ l < rows.length, dst (m + 1 + l) = knnDist q (rows.getD l []) := by
      intro l hl
      have := hd (l + 1) (by simpa using hl)
      rw [List.getD_cons_succ] at this
      rw [← this]
      congr 1
      omega
    unfold indexedDists offerAll
    rw [← h0]
    by_cases hlt : dst m < dst i
    · obtain ⟨j, h1, h2, h3, h4⟩ := offer_one q dst rows (m + 1) m (by omega) hd'
      refine ⟨j, ?_, by simp only [List.length_cons]; omega, ?_, ?_⟩
      · simp only [real_lt, hlt, decide_true, if_true, knearestAdd, List.length_singleton, List.getLast?_singleton, not_lt.2 hlt.le, decide_false,
          Bool.false_eq_true, if_false, le_refl, List.dropLast_singleton, Nat.sub_self, addLoop, ok_bind, lt_irrefl, List.getElem?_cons_zero]
        exact h1
      · intro l hl
        simp only [List.length_cons] at hl
        rcases hl with rfl | ⟨ha, hb⟩
        · exact (h3 m (Or.inl rfl)).trans hlt.le
        · exact h3 l (by omega)
      · intro l hl hlj
        rcases hl with rfl | ha
        · exact lt_of_le_of_lt (h3 m (Or.inl rfl)) hlt
        · exact h4 l (by omega) hlj
    · obtain ⟨j, h1, h2, h3, h4⟩ := offer_one q dst rows (m + 1) i (by omega) hd'
      refine ⟨j, ?_, by simp only [List.length_cons]; omega, ?_, ?_⟩
      · simp only [real_lt, hlt, decide_false, Bool.false_eq_true, if_false]
        exact h1
      · intro l hl
        simp only [List.length_cons] at hl
        rcases hl with rfl | ⟨ha, hb⟩
        · exact h3 l (Or.inl rfl)
        · by_cases hm : l = m
          · rw [hm]
            exact (h3 i (Or.inl rfl)).trans (not_lt.1 hlt)
          · exact h3 l (by omega)
      · intro l hl hlj
        rcases hl with rfl | ha
        · exact h4 l (Or.inl rfl) hlj
        · by_cases hm : l = m
          · rw [hm]
            refine lt_of_lt_of_le (h4 i (Or.inl rfl) (by omega)) (not_lt.1 hlt)
          · exact h4 l (by omega) hlj

/-- **C116 (first nearest row).** With `k = 1` brute force search returns the nearest row and, if several rows are equally near, the first of them. -/
theorem C116_first_nearest (X : Mat ℝ) (hX : 0 < X.rows.length) (q : List ℝ) :
    ∃ j < X.rows.length, bruteSearch (some X) q 1 = ok ([j], [eucl q (X.rows.getD j [])]) ∧
      (∀ l < X.rows.length, eucl q (X.rows.getD j []) ≤ eucl q (X.rows.getD l [])) ∧ ∀ l < j, eucl q (X.rows.getD j []) < eucl q (X.rows.getD l []) := by
  simp only [← C19_C21_C22_distance_is_euclidean]
  obtain ⟨r, rows, hr⟩ : ∃ r rows, X.rows = r :: rows := by
    cases h : X.rows with
    | nil => rw [h] at hX; simp at hX
    | cons r rows => exact ⟨r, rows, rfl⟩
  let dst : ℕ → ℝ := fun i => knnDist q (X.rows.getD i [])
  have hd : ∀ l < rows.length, dst (1 + l) = knnDist q (rows.getD l []) := by
    intro l hl
    change knnDist q (X.rows.getD (1 + l) []) = _
    rw [hr, Nat.add_comm 1 l, List.getD_cons_succ]
  obtain ⟨j, h1, h2, h3, h4⟩ := offer_one q dst rows 1 0 (by omega) hd
  have hl : X.rows.length = rows.length + 1 := by rw [hr]; simp
  refine ⟨j, by omega, ?_, fun l hl => h3 l (by omega), fun l hl => h4 l (by omega) hl⟩
  have hg : getDistances X q (List.range 1) = ok [dst 0] := by
    rw [getDistances_ok X q (List.range 1) (by simp) (by simp [hX])]
    rfl
  unfold bruteSearch
  simp only [hg, ok_bind, knearestNew]
  simp only [List.range_one, List.zip_cons_cons, List.zip_nil_left, List.length_singleton, List.insertionSort_cons, List.insertionSort_nil, List.orderedInsert_nil]
  simp only [knearestDist, hr, List.drop_one, List.tail_cons]
  norm_num
  rw [h1]
  simp only [ok_bind, knearestResults, List.map_cons, List.map_nil]
  rw [← List.getD_eq_getElem?_getD, ← hr]

/-! ### The next sample -/

section
variable {Ω S : Type} [MeasurableSpace Ω] [MeasurableSpace S] {P : Measure Ω} [IsProbabilityMeasure P] {s : ℕ → Ω → S} (hs : IsSample P s)
include hs

omit [IsProbabilityMeasure P] in
theorem sample_mem (i : ℕ) {A : Set S} (hA : MeasurableSet A) : P.real {ω | s i ω ∈ A} = P.real {ω | s 0 ω ∈ A} := by
  have h := (hs.2.2 i).measure_mem_eq hA
  unfold Measure.real
  exact congrArg ENNReal.toReal h

/-- The chance that sample `i` is the first in `A`, and samples `i` and `n` are in `B`. -/
theorem first_match {A B : Set S} (hA : MeasurableSet A) (hB : MeasurableSet B) {i n : ℕ} (hi : i < n) :
    P.real {ω | (∀ j < i, s j ω ∉ A) ∧ s i ω ∈ B ∧ s n ω ∈ B} = (1 - P.real {ω | s 0 ω ∈ A}) ^ i * P.real {ω | s 0 ω ∈ B} ^ 2 := by
  classical
  let C : ℕ → Set S := fun j => if j < i then Aᶜ else B
  have hC : ∀ j, MeasurableSet (C j) := by
    intro j
    by_cases h : j < i
    · simp only [C, if_pos h]; exact hA.compl
    · simp only [C, if_neg h]; exact hB
  have h := hs.2.1.measure_inter_preimage_eq_mul (insert n (Finset.range (i + 1))) (sets := C) fun j _ => hC j
  have hset : (⋂ j ∈ insert n (Finset.range (i + 1)), s j ⁻¹' C j) = {ω | (∀ j < i, s j ω ∉ A) ∧ s i ω ∈ B ∧ s n ω ∈ B} := by
    ext ω
    simp only [Set.mem_iInter, Finset.mem_insert, Finset.mem_range, Set.mem_preimage, Set.mem_ofPred_eq]
    constructor
    · intro h
      refine ⟨fun j hj => ?_, ?_, ?_⟩
      · have := h j (Or.inr (by omega))
        simp only [C, if_pos hj] at this
        exact this
      · have := h i (Or.inr (by omega))
        simpa only [C, lt_irrefl, if_false] using this
      · have := h n (Or.inl rfl)
        simpa only [C, if_neg (by omega : ¬ n < i)] using this
    · rintro ⟨h1, h2, h3⟩ j hj
      by_cases h : j < i
      · simp only [C, if_pos h]
        exact h1 j h
      · simp only [C, if_neg h]
        rcases hj with rfl | hj
        · exact h3
        · rw [show j = i by omega]
          exact h2
  rw [← hset, Measure.real, h, ENNReal.toReal_prod, Finset.prod_insert (by simp; omega), Finset.prod_range_succ]
  have e1 : ∀ j, j < i → (P (s j ⁻¹' C j)).toReal = 1 - P.real {ω | s 0 ω ∈ A} := by
    intro j hj
    simp only [C, if_pos hj]
    have := sample_mem hs j hA
    rw [← this]
    change P.real (s j ⁻¹' A)ᶜ = _
    rw [probReal_compl_eq_one_sub (hs.1 j hA)]
    rfl
  have e2 : ∀ j, ¬ j < i → (P (s j ⁻¹' C j)).toReal = P.real {ω | s 0 ω ∈ B} := by
    intro j hj
    simp only [C, if_neg hj]
    exact sample_mem hs j hB
  rw [e2 n (by omega), e2 i (by omega), Finset.prod_congr rfl fun j hj => e1 j (Finset.mem_range.1 hj), Finset.prod_const, Finset.card_range]
  ring

/-- The chance that sample `n` is the first in `A`. -/
theorem first_in {A : Set S} (hA : MeasurableSet A) (n : ℕ) :
    P.real {ω | (∀ j < n, s j ω ∉ A) ∧ s n ω ∈ A} = (1 - P.real {ω | s 0 ω ∈ A}) ^ n * P.real {ω | s 0 ω ∈ A} := by
  classical
  let C : ℕ → Set S := fun j => if j < n then Aᶜ else A
  have hC : ∀ j, MeasurableSet (C j) := by
    intro j
    by_cases h : j < n
    · simp only [C, if_pos h]; exact hA.compl
    · simp only [C, if_neg h]; exact hA
  have h := hs.2.1.measure_inter_preimage_eq_mul (Finset.range (n + 1)) (sets := C) fun j _ => hC j
  have hset : (⋂ j ∈ Finset.range (n + 1), s j ⁻¹' C j) = {ω | (∀ j < n, s j ω ∉ A) ∧ s n ω ∈ A} := by
    ext ω
    simp only [Set.mem_iInter, Finset.mem_range, Set.mem_preimage, Set.mem_ofPred_eq]
    constructor
    · intro h
      refine ⟨fun j hj => ?_, ?_⟩
      · have := h j (by omega)
        simp only [C, if_pos hj] at this
        exact this
      · have := h n (by omega)
        simpa only [C, lt_irrefl, if_false] using this
    · rintro ⟨h1, h2⟩ j hj
      by_cases h : j < n
      · simp only [C, if_pos h]
        exact h1 j h
      · rw [show j = n by omega]
        simpa only [C, lt_irrefl, if_false] using h2
  rw [← hset, Measure.real, h, ENNReal.toReal_prod, Finset.prod_range_succ]
  have e1 : ∀ j, j < n → (P (s j ⁻¹' C j)).toReal = 1 - P.real {ω | s 0 ω ∈ A} := by
    intro j hj
    simp only [C, if_pos hj]
    have := sample_mem hs j hA
    rw [← this]
    change P.real (s j ⁻¹' A)ᶜ = _
    rw [probReal_compl_eq_one_sub (hs.1 j hA)]
    rfl
  rw [Finset.prod_congr rfl fun j hj => e1 j (Finset.mem_range.1 hj), Finset.prod_const, Finset.card_range]
  congr 1
  simp only [C, lt_irrefl, if_false]
  exact sample_mem hs n hA

end

theorem unseen_bound {p : ℝ} (h0 : 0 ≤ p) (h1 : p ≤ 1) (n : ℕ) : (1 - p) ^ n * p ≤ 1 / ((n : ℝ) + 1) := by
  have hg : (∑ i ∈ Finset.range (n + 1), (1 - p) ^ i) * p = 1 - (1 - p) ^ (n + 1) := by
    have := geom_sum_mul (1 - p) (n + 1)
    linarith [this]
  have hle : ((n : ℝ) + 1) * (1 - p) ^ n ≤ ∑ i ∈ Finset.range (n + 1), (1 - p) ^ i := by
    have : ∑ i ∈ Finset.range (n + 1), (1 - p) ^ n ≤ ∑ i ∈ Finset.range (n + 1), (1 - p) ^ i :=
      Finset.sum_le_sum fun i hi => pow_le_pow_of_le_one (by linarith) (by linarith) (by have := Finset.mem_range.1 hi; omega)
    rw [Finset.sum_const, Finset.card_range, nsmul_eq_mul] at this
    push_cast at this
    exact this
  have h2 : 0 ≤ (1 - p) ^ (n + 1) := pow_nonneg (by linarith) _
  rw [le_div_iff₀ (by positivity)]
  nlinarith

theorem match_bound {p q : ℝ} (hq : q ≤ p) (h1 : p ≤ 1) (n : ℕ) : ∑ i ∈ Finset.range n, (1 - p) ^ i * (p ^ 2 - q ^ 2) ≤ 2 * (p - q) := by
  rw [← Finset.sum_mul]
  have hg : (∑ i ∈ Finset.range n, (1 - p) ^ i) * p = 1 - (1 - p) ^ n := by
    have := geom_sum_mul (1 - p) n
    linarith [this]
  have h2 : 0 ≤ (1 - p) ^ n := pow_nonneg (by linarith) _
  have h3 : 0 ≤ ∑ i ∈ Finset.range n, (1 - p) ^ i := Finset.sum_nonneg fun i _ => pow_nonneg (by linarith) _
  have h4 : (∑ i ∈ Finset.range n, (1 - p) ^ i) * q ≤ 1 := by nlinarith
  have h5 : (∑ i ∈ Finset.range n, (1 - p) ^ i) * (p + q) ≤ 2 := by nlinarith
  nlinarith

section
variable {Ω S : Type} [MeasurableSpace Ω] [MeasurableSpace S] {P : Measure Ω} [IsProbabilityMeasure P] {s : ℕ → Ω → S} (hs : IsSample P s) {d : ℕ}
  {row : S → List ℝ} (hlen : ∀ x, (row x).length = d) {cls : S → ℕ}

include hs hlen in
/-- **C116 (one neighbour).** Let the features take finitely many values. The classifier with one neighbour, trained on `n` independent samples, is wrong about the next sample with a
probability of at most twice that of any other rule `g`, the best one included, plus the number of values divided by `n + 1`. -/
theorem C116_one_neighbour (R : Finset (List ℝ)) (hR : ∀ x, row x ∈ R) (hrm : ∀ r, MeasurableSet {x | row x = r}) (hcm : ∀ c, MeasurableSet {x | cls x = c}) {n : ℕ} (hn : 0 < n) :
    ∃ guess : Ω → ℕ,
      (∀ ω, ∃ m, knnTrain bruteSearcher ⟨1, none, none⟩ ⟨d, onFirst row s n ω⟩ (onFirst cls s n ω) = (m, ok ()) ∧ knnPredict bruteSearcher m ⟨d, [row (s n ω)]⟩ = ok [guess ω]) ∧
      ∀ g : List ℝ → ℕ, P.real {ω | guess ω ≠ cls (s n ω)} ≤ 2 * P.real {ω | g (row (s 0 ω)) ≠ cls (s 0 ω)} + R.card / (n + 1) := by
  classical
  have hlr : ∀ ω, (onFirst row s n ω).length = n := fun ω => onFirst_length _ _ _ _
  have hlc : ∀ ω, (onFirst cls s n ω).length = n := fun ω => onFirst_length _ _ _ _
  have hnear := fun ω => C116_first_nearest ⟨d, onFirst row s n ω⟩ (by rw [hlr]; exact hn) (row (s n ω))
  choose j hj hsearch hmin hfirst using hnear
  have hjn : ∀ ω, j ω < n := fun ω => by simpa [hlr] using hj ω
  have hget : ∀ ω l, l < n → (onFirst row s n ω).getD l [] = row (s l ω) := by
    intro ω l hl
    rw [List.getD_eq_getElem?_getD, onFirst_getElem? row s ω hl]
    rfl
  refine ⟨fun ω => cls (s (j ω) ω), fun ω => ?_, fun g => ?_⟩
  · refine ⟨⟨1, some ⟨d, onFirst row s n ω⟩, some (onFirst cls s n ω)⟩, ?_, ?_⟩
    · unfold knnTrain
      rw [if_neg (by simp [hlr, hlc]), if_neg (by simp [hlr]; omega)]
      rfl
    · unfold knnPredict
      simp only [List.mapM_cons, List.mapM_nil, bruteSearcher, hsearch ω, ok_bind]
      obtain ⟨l, h1, h2⟩ := C24_vote_is_majority (onFirst cls s n ω) [j ω] [cls (s (j ω) ω)] (by simp)
        (by simp [onFirst_getElem? cls s ω (hjn ω)])
      have h3 := h2.occurs
      rw [List.mem_singleton] at h3
      rw [h1, h3]
      rfl
  · -- the row found is equal to the new one as soon as an equal one is there, and then it is the first of these
    have hsame : ∀ ω i, i < n → row (s i ω) = row (s n ω) → row (s (j ω) ω) = row (s n ω) ∧ ∀ l < j ω, row (s l ω) ≠ row (s n ω) := by
      intro ω i hi he
      have hz : ∀ u : List ℝ, eucl u u = 0 := by
        intro u
        unfold eucl
        rw [List.zipWith_self]
        simp
      have h1 := hmin ω i (by simpa [hlr] using hi)
      change eucl (row (s n ω)) ((onFirst row s n ω).getD (j ω) []) ≤ eucl (row (s n ω)) ((onFirst row s n ω).getD i []) at h1
      rw [hget ω _ (hjn ω), hget ω _ hi, he, hz] at h1
      have h2 : eucl (row (s n ω)) (row (s (j ω) ω)) = 0 := le_antisymm h1 (Real.sqrt_nonneg _)
      refine ⟨(eucl_zero_iff (by rw [hlen, hlen]) h2.le).symm, fun l hl hcon => ?_⟩
      have h3 := hfirst ω l hl
      change eucl (row (s n ω)) ((onFirst row s n ω).getD (j ω) []) < eucl (row (s n ω)) ((onFirst row s n ω).getD l []) at h3
      rw [hget ω _ (hjn ω), hget ω _ (by have := hjn ω; omega), hcon, hz, h2] at h3
      exact lt_irrefl _ h3
    let A : List ℝ → Set S := fun r => {x | row x = r}
    let B : List ℝ → Set S := fun r => {x | row x = r ∧ cls x = g r}
    have hA : ∀ r, MeasurableSet (A r) := hrm
    have hB : ∀ r, MeasurableSet (B r) := fun r => (hrm r).inter (hcm (g r))
    let E : List ℝ → ℕ → Set Ω := fun r i => {ω | (∀ l < i, s l ω ∉ A r) ∧ s i ω ∈ A r ∧ s n ω ∈ A r}
    let G : List ℝ → ℕ → Set Ω := fun r i => {ω | (∀ l < i, s l ω ∉ A r) ∧ s i ω ∈ B r ∧ s n ω ∈ B r}
    let U : List ℝ → Set Ω := fun r => {ω | (∀ l < n, s l ω ∉ A r) ∧ s n ω ∈ A r}
    have hGE : ∀ r i, G r i ⊆ E r i := fun r i ω h => ⟨h.1, h.2.1.1, h.2.2.1⟩
    have hGm : ∀ r i, MeasurableSet (G r i) := by
      intro r i
      have e : G r i = (⋂ l ∈ Finset.range i, (s l ⁻¹' A r)ᶜ) ∩ (s i ⁻¹' B r ∩ s n ⁻¹' B r) := by
        ext ω
        simp [G]
      rw [e]
      exact (Finset.measurableSet_biInter _ fun l _ => ((hs.1 l) (hA r)).compl).inter ((hs.1 i (hB r)).inter (hs.1 n (hB r)))
    have hsub : {ω | cls (s (j ω) ω) ≠ cls (s n ω)} ⊆ ⋃ r ∈ R, (U r ∪ ⋃ i ∈ Finset.range n, E r i \ G r i) := by
      intro ω hω
      simp only [Set.mem_iUnion, Set.mem_union, exists_prop, Finset.mem_range]
      refine ⟨row (s n ω), hR _, ?_⟩
      by_cases hseen : ∃ i < n, row (s i ω) = row (s n ω)
      · obtain ⟨i, hi, he⟩ := hseen
        obtain ⟨h1, h2⟩ := hsame ω i hi he
        refine Or.inr ⟨j ω, hjn ω, ⟨fun l hl => h2 l hl, h1, rfl⟩, fun hG => ?_⟩
        exact hω (hG.2.1.2.trans hG.2.2.2.symm)
      · push Not at hseen
        exact Or.inl ⟨fun l hl => hseen l hl, rfl⟩
    let p : List ℝ → ℝ := fun r => P.real {ω | s 0 ω ∈ A r}
    let q : List ℝ → ℝ := fun r => P.real {ω | s 0 ω ∈ B r}
    have hp1 : ∀ r, p r ≤ 1 := fun r => measureReal_le_one
    have hp0 : ∀ r, 0 ≤ p r := fun r => measureReal_nonneg
    have hq0 : ∀ r, 0 ≤ q r := fun r => measureReal_nonneg
    have hqp : ∀ r, q r ≤ p r := fun r => measureReal_mono fun ω h => h.1
    have hdiff : ∀ r, ∀ i < n, P.real (E r i \ G r i) = (1 - p r) ^ i * (p r ^ 2 - q r ^ 2) := by
      intro r i hi
      rw [measureReal_sdiff (hGE r i) (hGm r i), first_match hs (hA r) (hA r) hi, first_match hs (hA r) (hB r) hi]
      ring
    have hpiece : ∀ r, P.real (U r ∪ ⋃ i ∈ Finset.range n, E r i \ G r i) ≤ 1 / ((n : ℝ) + 1) + 2 * (p r - q r) := by
      intro r
      refine (measureReal_union_le _ _).trans (add_le_add ?_ ?_)
      · rw [first_in hs (hA r) n]
        exact unseen_bound (hp0 r) (hp1 r) n
      · refine (measureReal_biUnion_finset_le _ _).trans ?_
        rw [Finset.sum_congr rfl fun i hi => hdiff r i (Finset.mem_range.1 hi)]
        exact match_bound (hqp r) (hp1 r) n
    have hwrong : P.real {ω | g (row (s 0 ω)) ≠ cls (s 0 ω)} = ∑ r ∈ R, (p r - q r) := by
      have e : {ω | g (row (s 0 ω)) ≠ cls (s 0 ω)} = ⋃ r ∈ R, ({ω | s 0 ω ∈ A r} \ {ω | s 0 ω ∈ B r}) := by
        ext ω
        simp only [Set.mem_iUnion, exists_prop, Set.mem_sdiff, Set.mem_ofPred_eq, A, B]
        constructor
        · intro h
          exact ⟨_, hR (s 0 ω), rfl, fun h' => h h'.2.symm⟩
        · rintro ⟨r, -, h1, h2⟩ h3
          exact h2 ⟨h1, by rw [← h1]; exact h3.symm⟩
      rw [e, measureReal_biUnion_finset]
      · refine Finset.sum_congr rfl fun r _ => ?_
        exact measureReal_sdiff (fun ω h => h.1) (hs.1 0 (hB r))
      · intro r _ r' _ hrr
        refine Set.disjoint_left.2 fun ω h1 h2 => hrr ?_
        exact h1.1.symm.trans h2.1
      · intro r _
        exact (hs.1 0 (hA r)).diff (hs.1 0 (hB r))
    refine (measureReal_mono hsub (measure_ne_top _ _)).trans ((measureReal_biUnion_finset_le _ _).trans ((Finset.sum_le_sum fun r _ => hpiece r).trans ?_))
    rw [Finset.sum_add_distrib, Finset.sum_const, nsmul_eq_mul, ← Finset.mul_sum, hwrong]
    exact le_of_eq (by ring)

end

/-- Non-vacuity of C116 (one neighbour): two coins are thrown again and again, the feature is the first and the class says if both are heads. Trained on 19 throws the classifier is wrong about
the next one with a probability of at most 3/5. -/
example : ∃ (Ω : Type) (_ : MeasurableSpace Ω) (P : Measure Ω) (_ : IsProbabilityMeasure P) (s : ℕ → Ω → Bool × Bool), IsSample P s ∧
    let row : Bool × Bool → List ℝ := fun p => [if p.1 then 1 else 0]
    let cls : Bool × Bool → ℕ := fun p => (p.1 && p.2).toNat
    ∃ guess : Ω → ℕ,
      (∀ ω, ∃ m, knnTrain bruteSearcher ⟨1, none, none⟩ ⟨1, onFirst row s 19 ω⟩ (onFirst cls s 19 ω) = (m, ok ()) ∧ knnPredict bruteSearcher m ⟨1, [row (s 19 ω)]⟩ = ok [guess ω]) ∧
      P.real {ω | guess ω ≠ cls (s 19 ω)} ≤ 3 / 5 := by
  obtain ⟨Ω, mΩ, P, hP, s, hs, hlaw⟩ := sample_exists (PMF.uniformOfFintype (Bool × Bool)).toMeasure
  refine ⟨Ω, mΩ, P, hP, s, hs, ?_⟩
  intro row cls
  obtain ⟨guess, h1, h2⟩ := C116_one_neighbour hs (d := 1) (row := row) (fun _ => rfl) (cls := cls) {[0], [1]} (by rintro ⟨a, b⟩; cases a <;> simp [row])
    (fun r => (Set.toFinite _).measurableSet) (fun c => (Set.toFinite _).measurableSet) (n := 19) (by norm_num)
  refine ⟨guess, h1, (h2 fun _ => 0).trans ?_⟩
  have hS : MeasurableSet {ω | 0 ≠ cls (s 0 ω)} := (hs.1 0) (Set.toFinite {p : Bool × Bool | 0 ≠ cls p}).measurableSet
  have h := exCoin_int hs hlaw fun p => if 0 ≠ cls p then 1 else 0
  have e : P.real {ω | 0 ≠ cls (s 0 ω)} = 1 / 4 := by
    rw [← integral_indicator_one hS]
    refine (integral_congr_ae (Eventually.of_forall fun ω => ?_)).trans (h.trans ?_)
    · simp [Set.indicator_apply]
    · simp [cls]
  rw [e]
  have hc : (({[0], [1]} : Finset (List ℝ)).card : ℝ) = 2 := by
    rw [Finset.card_pair (by simp)]
    norm_num
  rw [hc]
  norm_num

end RM
