import Verif.Proofs.KMeansInit
import Mathlib.Tactic.NormNum

/-! C32, C33: the k-means initialisers and discrete sampling. -/

namespace RM
open Outcome Scalar Spec

/-! ### C32 -/

/-- C32 (Forgy): for every sequence of random numbers the initialiser either still waits for more of them or returns `k` rows of
the data taken at `k` pairwise distinct positions (any scalar type). -/
theorem C32_forgy {F : Type} [Scalar F] (raws : List ℕ) (k : ℕ) (X : Mat F) (hk : k ≤ X.rows.length) :
    forgyInit raws k X = none ∨
      ∃ choices : List ℕ, choices.Nodup ∧ choices.length = k ∧ (∀ i ∈ choices, i < X.rows.length) ∧
        forgyInit raws k X = some (ok ⟨X.cols, choices.map fun i => X.rows.getD i []⟩) := by
  rcases forgyLoop_inv k X.rows.length (by omega) raws [] (by simp) (by simp) (by simp) with h | ⟨r, h, h1, h2, h3⟩
  · left; unfold forgyInit; rw [h]
  · right
    refine ⟨r, h1, h2, h3, ?_⟩
    unfold forgyInit Mat.selectRows
    rw [h]
    simp only [mapM_getAt_getD X.rows [] r h3]
    rfl

/-- C32 (Forgy): the loop ends as soon as the random numbers have hit `k` different positions. -/
theorem C32_forgy_ends {F : Type} [Scalar F] (raws : List ℕ) (k : ℕ) (X : Mat F) (hk : k ≤ X.rows.length) (hX : X.rows ≠ [])
    (hit : k ≤ (raws.map (· % X.rows.length)).dedup.length) : forgyInit raws k X ≠ none := by
  have := forgyLoop_ends k X.rows.length (List.length_pos_iff.2 hX) raws [] (by simp) (by simp) (by simp)
    ⟨(raws.map (· % X.rows.length)).toFinset, by rw [List.card_toFinset]; exact hit, fun s hs => .inr (by simpa using hs)⟩
  unfold forgyInit
  cases h : forgyLoop k X.rows.length raws [] with
  | none => exact absurd h this
  | some o => cases o <;> simp

/-- C32 (Forgy): every ordered choice of `k` distinct positions is returned for some random numbers. -/
theorem C32_forgy_all_choices {F : Type} [Scalar F] (X : Mat F) (choices : List ℕ) (hn : choices.Nodup) (hlt : ∀ i ∈ choices, i < X.rows.length) :
    ∃ raws, forgyInit raws choices.length X = some (ok ⟨X.cols, choices.map fun i => X.rows.getD i []⟩) := by
  refine ⟨choices, ?_⟩
  unfold forgyInit Mat.selectRows
  rw [forgyLoop_reach choices.length X.rows.length choices [] (by simpa using hn) hlt (by simp)]
  simp only [List.nil_append]
  rw [mapM_getAt_getD X.rows [] choices hlt]
  rfl

example : forgyInit [7, 4, 2] 2 (⟨1, [[10], [20], [30]]⟩ : Mat ℝ) = some (ok ⟨1, [[20], [30]]⟩) := by rfl

/-- The groups of the random partition depend on the number of rows only. -/
theorem partition_groups (raws : List ℕ) (k N : ℕ) (hk : k ≤ N) (hk0 : 0 < k) (hr : N - k ≤ raws.length) :
    ∃ groups : List (List ℕ), groups.length = k ∧ (∀ g ∈ groups, g ≠ []) ∧ groups.flatten.Perm (List.range N) ∧
      ∀ X : Mat ℝ, X.WF → X.rows.length = N →
        partitionInit raws k (finMat X) = ok (finMat ⟨X.cols, groups.map fun g => centroidOf X.cols (g.map fun i => X.rows.getD i [])⟩) := by
  obtain ⟨g, h1, h2, h3, h4⟩ := partitionLoop_spec k hk0 (raws.take (N - k)) k ((List.range k).map fun i => [i]) (by simp)
    (by intro v hv; obtain ⟨i, _, rfl⟩ := List.mem_map.1 hv; exact List.cons_ne_nil _ _) (by
      have : ∀ n, ((List.range n).map fun i => [i]).flatten = List.range n := by
        intro n
        induction n with
        | zero => rfl
        | succ n ih => rw [List.range_succ, List.map_append, List.flatten_append, ih]; rfl
      rw [this])
  rw [List.length_take, min_eq_left hr, Nat.add_sub_cancel' hk] at h4
  refine ⟨g, h2, h3, h4, ?_⟩
  intro X hX hN
  subst hN
  have hlt : ∀ v ∈ g, ∀ i ∈ v, i < X.rows.length := by
    intro v hv i hi
    have : i ∈ g.flatten := List.mem_flatten.2 ⟨v, hv, hi⟩
    simpa using h4.mem_iff.1 this
  unfold partitionInit
  rw [show (finMat X).rows.length = X.rows.length by simp [finMat], h1, ok_bind]
  rw [mapM_ok_map _ (fun v => (centroidOf X.cols (v.map fun i => X.rows.getD i [])).map XR.fin)]
  · rw [ok_bind, show (finMat X).cols = X.cols from rfl, Mat.new_flatten (by simpa using h2)]
    · simp only [finMat, List.map_map]
      rfl
    · intro r hr
      obtain ⟨v, _, rfl⟩ := List.mem_map.1 hr
      rw [List.length_map, centroidOf_length]
  · intro v hv
    have : (finMat X).selectRows v = ok ⟨X.cols, (v.map fun i => X.rows.getD i []).map (List.map XR.fin)⟩ := by
      unfold Mat.selectRows
      rw [mapM_getAt_getD (finMat X).rows [] v (by simpa [finMat] using hlt v hv), ok_bind, List.map_map]
      simp only [finMat]
      congr 2
      apply List.map_congr_left
      intro i hi
      have := hlt v hv i hi
      simp [this]
    simp only [this, ok_bind]
    rw [meanRow_fin X.cols _ _ (by simpa using h3 v hv)]
    intro r hr
    obtain ⟨i, hi, rfl⟩ := List.mem_map.1 hr
    have := hlt v hv i hi
    rw [getD_lt _ this]
    exact hX _ (List.getElem_mem _)

/-- C32 (random partition): for all random numbers the result is the list of means of `k` non-empty groups of row positions which
together contain every position exactly once. -/
theorem C32_random_partition (raws : List ℕ) (k : ℕ) (X : Mat ℝ) (hX : X.WF) (hk : k ≤ X.rows.length) (hk0 : 0 < k)
    (hr : X.rows.length - k ≤ raws.length) :
    ∃ groups : List (List ℕ), groups.length = k ∧ (∀ g ∈ groups, g ≠ []) ∧ groups.flatten.Perm (List.range X.rows.length) ∧
      partitionInit raws k (finMat X) = ok (finMat ⟨X.cols, groups.map fun g => centroidOf X.cols (g.map fun i => X.rows.getD i [])⟩) := by
  obtain ⟨g, h1, h2, h3, h4⟩ := partition_groups raws k X.rows.length hk hk0 hr
  exact ⟨g, h1, h2, h3, h4 X hX rfl⟩

example := C32_random_partition [5, 1] 2 ⟨1, [[0], [1], [10], [11]]⟩ (by intro r hr; simp at hr; rcases hr with rfl | rfl | rfl | rfl <;> rfl)
  (by simp) (by simp) (by simp)

/-- C32, C33 (k-means++): if the data has at least `k` different rows the initialiser returns, for all draws, `k` pairwise
different rows of the data. -/
theorem C32_C33_kplusplus (raw : ℕ) (us : List ℝ) (k : ℕ) (X : Mat ℝ) (hX : X.WF) (hk0 : 0 < k) (hk : k ≤ X.rows.dedup.length)
    (hu : ∀ u ∈ us, 0 ≤ u ∧ u < 1) (hl : k - 1 ≤ us.length) :
    ∃ cs : List (List ℝ), kppInit raw (us.map XR.fin) k (finMat X) = ok (finMat ⟨X.cols, cs⟩) ∧ cs.length = k ∧ cs.Nodup ∧ ∀ c ∈ cs, c ∈ X.rows := by
  have hle : X.rows.dedup.length ≤ X.rows.length := (List.dedup_sublist _).length_le
  have hpos : 0 < X.rows.length := by omega
  obtain ⟨x, hx⟩ : ∃ x, X.rows[raw % X.rows.length]? = some x := ⟨_, List.getElem?_eq_getElem (Nat.mod_lt _ hpos)⟩
  have hxm := List.mem_of_getElem? hx
  have htl : (us.take (k - 1)).length = k - 1 := by rw [List.length_take]; omega
  obtain ⟨cs, h1, h2, h3, h4⟩ := (kppLoop_spec hX (us.take (k - 1)) [x] (fun u hu' => hu u (List.mem_of_mem_take hu')) (by simp) (by simp)
    (by intro c hc; simp only [List.mem_singleton] at hc; rw [hc]; exact hxm)).1 (by simp only [List.length_singleton, htl]; omega)
  have h2' : cs.length = k := by rw [h2, List.length_singleton, htl]; omega
  refine ⟨cs, ?_, h2', h3, h4⟩
  unfold kppInit
  have hg : genRange raw 0 (finMat X).rows.length = ok (raw % X.rows.length) := by simp [genRange, finMat, hpos]
  rw [hg, ok_bind, rowUnchecked_ok (finMat X) _ (x.map XR.fin) (by simp [finMat, hx]), ok_bind, ← List.map_take]
  simp only [List.map_singleton] at h1
  rw [h1, ok_bind, show (finMat X).cols = X.cols from rfl, Mat.new_flatten (by simpa using h2')]
  · rfl
  · intro r hr
    obtain ⟨c, hc, rfl⟩ := List.mem_map.1 hr
    rw [List.length_map, hX c (h4 c hc)]

/-- The counterpart: with fewer than `k` different rows (and `k` at least 2) k-means++ panics, for all draws. -/
theorem C33_kplusplus_too_few_points (raw : ℕ) (us : List ℝ) (k : ℕ) (X : Mat ℝ) (hX : X.WF) (hk0 : 2 ≤ k) (hk : X.rows.dedup.length < k)
    (hu : ∀ u ∈ us, 0 ≤ u ∧ u < 1) (hl : k - 1 ≤ us.length) : kppInit raw (us.map XR.fin) k (finMat X) = panic := by
  unfold kppInit
  by_cases hpos : 0 < X.rows.length
  · obtain ⟨x, hx⟩ : ∃ x, X.rows[raw % X.rows.length]? = some x := ⟨_, List.getElem?_eq_getElem (Nat.mod_lt _ hpos)⟩
    have hxm := List.mem_of_getElem? hx
    have htl : (us.take (k - 1)).length = k - 1 := by rw [List.length_take]; omega
    have h := (kppLoop_spec hX (us.take (k - 1)) [x] (fun u hu' => hu u (List.mem_of_mem_take hu')) (by simp) (by simp)
      (by intro c hc; simp only [List.mem_singleton] at hc; rw [hc]; exact hxm)).2 (by simp only [List.length_singleton, htl]; omega)
      (by intro hc; rw [hc] at htl; simp at htl; omega)
    have hg : genRange raw 0 (finMat X).rows.length = ok (raw % X.rows.length) := by simp [genRange, finMat, hpos]
    rw [hg, ok_bind, rowUnchecked_ok (finMat X) _ (x.map XR.fin) (by simp [finMat, hx]), ok_bind, ← List.map_take]
    simp only [List.map_singleton] at h
    rw [h, panic_bind]
  · have hg : genRange raw 0 (finMat X).rows.length = panic := by
      unfold genRange
      rw [if_neg (by simpa [finMat] using hpos)]
    rw [hg, panic_bind]

example : ∃ cs : List (List ℝ), kppInit 1 ([1 / 2].map XR.fin) 2 (finMat ⟨1, [[0], [1], [0]]⟩) = ok (finMat ⟨1, cs⟩) ∧ cs.length = 2 ∧ cs.Nodup ∧
    ∀ c ∈ cs, c ∈ [[(0 : ℝ)], [1], [0]] := by
  apply C32_C33_kplusplus 1 [1 / 2] 2 ⟨1, [[0], [1], [0]]⟩
  · intro r hr; simp at hr; rcases hr with rfl | rfl | rfl <;> rfl
  · omega
  · have : ([[(0 : ℝ)], [1], [0]] : List (List ℝ)).dedup = [[1], [0]] := by
      rw [List.dedup_cons_of_mem (by simp), List.dedup_cons_of_notMem (by simp), List.dedup_cons_of_notMem (by simp), List.dedup_nil]
    simp [this]
  · intro u hu; simp at hu; rw [hu]; norm_num
  · simp

/-! ### C33 -/

/-- C33: for non-negative weights with a positive sum and a draw `u` in `[0,1)`, sampling returns index `i` exactly when the scaled
draw `u * sum` lies in the half-open interval from the sum of the weights before `i` to that sum plus the weight of `i` - an
interval whose length is the weight. It never panics. -/
theorem C33_sample_intervals (ws : List ℝ) (u : ℝ) (hw : ∀ w ∈ ws, 0 ≤ w) (hs : 0 < ws.sum) (h0 : 0 ≤ u) (h1 : u < 1) :
    (∃ i, sampleDiscretely u ws = ok i) ∧
    ∀ (i : ℕ) (w : ℝ), ws[i]? = some w → (sampleDiscretely u ws = ok i ↔ (ws.take i).sum ≤ u * ws.sum ∧ u * ws.sum < (ws.take i).sum + w) := by
  obtain ⟨j, v, e, hj, ha, hb⟩ := sampleDiscretely_spec ws u hw hs h0 h1
  refine ⟨⟨j, e⟩, ?_⟩
  intro i w hi
  constructor
  · intro h
    rw [e] at h
    cases h
    rw [hj] at hi; cases hi
    exact ⟨ha, hb⟩
  · rintro ⟨hc, hd⟩
    rw [e]
    congr 1
    rcases lt_trichotomy i j with h | h | h
    · have := take_sum_mono hw (show i + 1 ≤ j by omega)
      rw [take_succ_sum hi] at this
      linarith
    · exact h.symm
    · have := take_sum_mono hw (show j + 1 ≤ i by omega)
      rw [take_succ_sum hj] at this
      linarith

/-- C33: the sampled index has positive weight. -/
theorem C33_positive_weight (ws : List ℝ) (u : ℝ) (hw : ∀ w ∈ ws, 0 ≤ w) (hs : 0 < ws.sum) (h0 : 0 ≤ u) (h1 : u < 1) :
    ∃ (i : ℕ) (w : ℝ), sampleDiscretely u ws = ok i ∧ ws[i]? = some w ∧ 0 < w := by
  obtain ⟨j, v, e, hj, ha, hb⟩ := sampleDiscretely_spec ws u hw hs h0 h1
  exact ⟨j, v, e, hj, by linarith⟩

example : ∃ (i : ℕ) (w : ℝ), sampleDiscretely (1 / 2 : ℝ) [0, 1, 3] = ok i ∧ [(0 : ℝ), 1, 3][i]? = some w ∧ 0 < w :=
  C33_positive_weight [0, 1, 3] (1 / 2) (by intro w hw; simp at hw; rcases hw with rfl | rfl | rfl <;> norm_num) (by norm_num) (by norm_num) (by norm_num)

/-- C33: without positive total weight sampling panics. -/
theorem C33_zero_total (ws : List ℝ) (u : ℝ) (hs : ws.sum ≤ 0) : sampleDiscretely u ws = panic := by
  unfold sampleDiscretely
  by_cases h : 0 < ws.length
  · simp only [h, decide_true, assert_true, ok_bind, fsum_real, real_zero, real_lt, not_lt.2 hs, decide_false, assert_false, panic_bind]
  · simp only [h, decide_false, assert_false, panic_bind]

/-- C32: results of the right shape are accepted by training. -/
theorem C32_accepted {F : Type} [Scalar F] (init : ℕ → Mat F → Outcome (Mat F)) (k : ℕ) (X c : Mat F) (hk : k ≤ X.rows.length)
    (hi : init k X = ok c) (h1 : c.rows.length = k) (h2 : c.cols = X.cols) : kmInit init k X = ok c := by
  unfold kmInit
  rw [if_neg (by omega), hi, ok_bind, if_neg (by simpa using h1), if_neg (by simpa using h2)]

/-- C32: non-finite data are rejected by k-means++ with `InvalidData` (here: a NaN in any row), provided at least two centroids are
wanted. -/
theorem C32_kplusplus_non_finite (raw : ℕ) (us : List XR) (k : ℕ) (X : Mat XR) (hX : X.WF) (hk : 2 ≤ k) (hl : k - 1 ≤ us.length)
    (hbad : ∃ r ∈ X.rows, XR.nan ∈ r) : kppInit raw us k X = err .InvalidData := by
  obtain ⟨r, hr, hn⟩ := hbad
  have hpos : 0 < X.rows.length := List.length_pos_of_mem hr
  obtain ⟨x, hx⟩ : ∃ x, X.rows[raw % X.rows.length]? = some x := ⟨_, List.getElem?_eq_getElem (Nat.mod_lt _ hpos)⟩
  have hxm := List.mem_of_getElem? hx
  unfold kppInit
  have hg : genRange raw 0 X.rows.length = ok (raw % X.rows.length) := by simp [genRange, hpos]
  rw [hg, ok_bind, rowUnchecked_ok X _ x hx, ok_bind]
  obtain ⟨u, us', hus⟩ : ∃ u us', us.take (k - 1) = u :: us' := by
    cases h : us.take (k - 1) with
    | nil =>
      have := congrArg List.length h
      rw [List.length_take, List.length_nil] at this
      omega
    | cons u us' => exact ⟨u, us', rfl⟩
  rw [hus, kppLoop]
  have hf : findClosest ⟨X.cols, [x]⟩ X = ok (X.rows.map fun _ => 0, X.rows.map fun r => kmDist r x) := by
    unfold findClosest
    rw [mapM_ok_map _ (fun r => (0, kmDist r x))]
    · simp [Function.comp_def]
    · intro r _
      have := closestTo_eq ⟨X.cols, [x]⟩ r
      simp only at this
      rw [this]; rfl
  rw [hf, ok_bind]
  have hnot : ((X.rows.map fun r => kmDist r x).all Scalar.isFinite) ≠ true := by
    intro h
    rw [List.all_eq_true] at h
    have h1 := h (kmDist r x) (List.mem_map.2 ⟨r, hr, rfl⟩)
    unfold kmDist at h1
    rw [xr_fsum_not_finite] at h1
    · cases h1
    · obtain ⟨t, ht, hnt⟩ := List.mem_iff_getElem.1 hn
      have hlx : x.length = r.length := by rw [hX x hxm, hX r hr]
      refine ⟨_, List.mem_map.2 ⟨(x[t] -. r[t]), ?_, rfl⟩, ?_⟩
      · rw [List.mem_iff_getElem]
        exact ⟨t, by simp; omega, by rw [List.getElem_zipWith]⟩
      · rw [hnt]
        cases x[t] <;> rfl
  simp only [hnot]
  rfl

end RM
