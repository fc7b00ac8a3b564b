import Mathlib.Logic.Relation
import Verif.Proofs.Lloyd

/-! C30, C31: k-means assignment and Lloyd iterations. Data are finite reals; stored centroids may be NaN rows. -/

namespace RM
open Outcome Scalar Spec

/-! ### C30 -/

/-- A real matrix of centroids, as stored. -/
theorem stored_some (M : Mat ℝ) : stored M.cols (M.rows.map some) = finMat M := by
  simp only [stored, finMat, List.map_map]
  rfl

/-- C30: `predict` returns for every row the smallest index of a nearest centroid. -/
theorem C30_predict_nearest (m : KMeans XR) (c X : Mat ℝ) (hm : m.centroids = some (finMat c)) (hne : c.rows ≠ []) (hX : X.WF)
    (hcols : c.cols = X.cols) :
    ∃ labels, kmPredict m (finMat X) = ok labels ∧ List.Forall₂ (IsNearestIndex c.rows) X.rows labels := by
  obtain ⟨d, rows⟩ := c
  simp only at hne hcols
  cases rows with
  | nil => exact absurd rfl hne
  | cons c0 cs =>
    subst hcols
    obtain ⟨labels, h1, h2⟩ := findClosest_stored hX c0 (cs.map some) (.inr (by simp))
    refine ⟨labels, ?_, h1.imp ?_⟩
    · unfold kmPredict
      rw [hm]
      simp only
      have := stored_some ⟨X.cols, c0 :: cs⟩
      simp only [List.map_cons] at this
      rw [← this, h2]
      rfl
    · rintro x j ⟨c, hc, hmin, hfirst⟩
      have hm : some c0 :: List.map some cs = (c0 :: cs).map some := rfl
      rw [hm] at hc hmin hfirst
      rw [List.getElem?_map] at hc
      refine ⟨c, ?_, ?_, ?_⟩
      · cases h : (c0 :: cs)[j]? with
        | none => rw [h] at hc; cases hc
        | some v => rw [h] at hc; simp at hc; rw [hc]
      · intro c' hc'
        exact hmin c' (List.mem_map.2 ⟨c', hc', rfl⟩)
      · intro t c' ht hc'
        exact hfirst t c' ht (by rw [List.getElem?_map, hc']; rfl)

example : ∃ labels, kmPredict (⟨100, 2, some (finMat ⟨1, [[0], [10]]⟩)⟩ : KMeans XR) (finMat ⟨1, [[4], [5], [6]]⟩) = ok labels ∧
    List.Forall₂ (IsNearestIndex [[0], [10]]) [[4], [5], [6]] labels :=
  C30_predict_nearest _ ⟨1, [[0], [10]]⟩ ⟨1, [[4], [5], [6]]⟩ rfl (by simp) (by intro r hr; simp at hr; rcases hr with rfl | rfl | rfl <;> rfl) rfl

/-- The nearest index is unique, so C30 determines the labels. -/
theorem C30_nearest_unique {cs : List (List ℝ)} {x : List ℝ} {i j : ℕ} (hi : IsNearestIndex cs x i) (hj : IsNearestIndex cs x j) : i = j := by
  obtain ⟨a, ha, ha1, ha2⟩ := hi
  obtain ⟨b, hb, hb1, hb2⟩ := hj
  rcases lt_trichotomy i j with h | h | h
  · exact absurd (hb2 i a h ha) (not_lt.2 (ha1 b (List.mem_of_getElem? hb)))
  · exact h
  · exact absurd (ha2 j b h hb) (not_lt.2 (hb1 a (List.mem_of_getElem? ha)))

/-- C30: whatever the numbers (NaN included, any scalar type), `predict` returns one label per row and all labels are
valid centroid indices. -/
theorem C30_labels_valid {F : Type} [Scalar F] (m : KMeans F) (c X : Mat F) (labels : List ℕ) (hm : m.centroids = some c)
    (h : kmPredict m X = ok labels) : labels.length = X.rows.length ∧ ∀ l ∈ labels, l < c.rows.length := by
  unfold kmPredict at h
  rw [hm] at h
  simp only [bind_eq_ok] at h
  obtain ⟨r, hr, h⟩ := h
  unfold findClosest at hr
  rw [bind_eq_ok] at hr
  obtain ⟨ps, hps, hr⟩ := hr
  simp only [ok.injEq] at hr h
  subst hr; subst h
  have h2 := mapM_forall₂' hps
  refine ⟨by rw [List.length_map]; exact h2.length_eq.symm, ?_⟩
  intro l hl
  obtain ⟨p, hp, rfl⟩ := List.mem_map.1 hl
  obtain ⟨t, ht, rfl⟩ := List.mem_iff_getElem.1 hp
  have := h2.get (i := t) (by rw [h2.length_eq]; exact ht) ht
  exact closestTo_lt this

/-- C30: predicting with an untrained model fails with `UntrainedModel`. -/
theorem C30_untrained {F : Type} [Scalar F] (k iters : ℕ) (X : Mat F) : kmPredict (kmNew k iters) X = err .UntrainedModel := rfl

/-- C30: asking for more clusters than rows fails with `InvalidData` and leaves the model as it was, whatever the
initialiser. -/
theorem C30_too_many_clusters {F : Type} [Scalar F] (init : ℕ → Mat F → Outcome (Mat F)) (m : KMeans F) (X : Mat F)
    (h : X.rows.length < m.k) : kmTrain init m X = (m, err .InvalidData) := by
  unfold kmTrain kmInit
  rw [if_pos h]

/-- C30: centroids returned by a custom initialiser with a wrong row or column count are rejected with `InvalidState`, and the
model stays as it was. -/
theorem C30_bad_initialiser {F : Type} [Scalar F] (init : ℕ → Mat F → Outcome (Mat F)) (m : KMeans F) (X c : Mat F)
    (hk : m.k ≤ X.rows.length) (hi : init m.k X = ok c) (hbad : c.rows.length ≠ m.k ∨ c.cols ≠ X.cols) :
    kmTrain init m X = (m, err .InvalidState) := by
  unfold kmTrain kmInit
  rw [if_neg (by omega), hi, ok_bind]
  by_cases h : c.rows.length ≠ m.k
  · rw [if_pos h]
  · rw [if_neg h, if_pos (hbad.resolve_left h)]

/-- C30: rows of another width than the centroids make `predict` panic. -/
theorem C30_width_mismatch {F : Type} [Scalar F] (m : KMeans F) (c X : Mat F) (hm : m.centroids = some c) (hc : c.cols ≠ X.cols)
    (hX : X.rows ≠ []) : kmPredict m X = panic := by
  unfold kmPredict findClosest
  rw [hm]
  cases h : X.rows with
  | nil => exact absurd h hX
  | cons r rs =>
    simp only [List.mapM_cons]
    rw [closestTo_mismatch _ _ _ hc]
    rfl

/-! ### C31 -/

/-- One training iteration of the program takes the centroids from `c` to `c'`. -/
def KmIteration {F : Type} [Scalar F] (k : ℕ) (X : Mat F) (c c' : Mat F) : Prop :=
  ∃ idx ds, findClosest c X = ok (idx, ds) ∧ updateCentroids k X idx = ok c'

/-- Centroids the training passes through. -/
def Visited {F : Type} [Scalar F] (k : ℕ) (X : Mat F) : Mat F → Mat F → Prop := Relation.ReflTransGen (KmIteration k X)

theorem newCentroids_width (k d : ℕ) (X : List (List ℝ)) (l : List ℕ) : CWidth d (newCentroids k d X l) := by
  intro c hc
  simp only [newCentroids, List.mem_map] at hc
  obtain ⟨j, _, hj⟩ := hc
  split at hj
  · cases hj
  · simp only [Option.some.injEq] at hj
    rw [← hj]; exact centroidOf_length _ _

theorem newCentroids_length (k d : ℕ) (X : List (List ℝ)) (l : List ℕ) : (newCentroids k d X l).length = k := by
  simp [newCentroids]

/-- C31: one iteration. Starting from `k` stored centroids of which the first is proper (the others may be NaN rows), the
iteration succeeds with `k` new centroids, labels every point with its first nearest proper centroid, replaces each centroid
by the mean of its points - by a NaN row if it has none - and the objective over the proper centroids does not increase. -/
theorem C31_iteration (X : Mat ℝ) (hX : X.WF) (hd : 0 < X.cols) (c0 : List ℝ) (C : List (Option (List ℝ))) (hC : CWidth X.cols (some c0 :: C)) :
    ∃ (labels : List ℕ) (ds : List XR) (C' : List (Option (List ℝ))),
      findClosest (stored X.cols (some c0 :: C)) (finMat X) = ok (labels, ds) ∧
      updateCentroids (C.length + 1) (finMat X) labels = ok (stored X.cols C') ∧
      C'.length = C.length + 1 ∧ CWidth X.cols C' ∧
      (∀ (j : ℕ), C'[j]? = some none ↔ j < C.length + 1 ∧ j ∉ labels) ∧
      inertia X.rows (proper C') ≤ inertia X.rows (proper (some c0 :: C)) := by
  obtain ⟨labels, h1, h2⟩ := findClosest_stored hX c0 C (.inl hd)
  refine ⟨labels, _, _, h2, updateCentroids_stored _ X hX labels h1.length_eq, newCentroids_length _ _ _ _, newCentroids_width _ _ _ _, ?_,
    step_inertia X.cols (C.length + 1) (some c0 :: C) rfl hC X.rows hX labels h1⟩
  intro j
  simp only [newCentroids]
  by_cases hj : j < C.length + 1
  · rw [List.getElem?_map, List.getElem?_range hj]
    simp only [Option.map_some, Option.some.injEq]
    have := labelled_ne_nil (j := j) h1.length_eq
    by_cases he : labelled j X.rows labels = []
    · rw [if_pos he]
      simp only [true_iff]
      exact ⟨hj, fun hm => (this.2 hm) he⟩
    · rw [if_neg he]
      simp only [reduceCtorEq, false_iff]
      exact fun h => h.2 (this.1 he)
  · rw [List.getElem?_eq_none (by simpa using hj)]
    simp [hj]

example := C31_iteration ⟨1, [[0], [1], [10], [11]]⟩ (by intro r hr; simp at hr; rcases hr with rfl | rfl | rfl | rfl <;> rfl) (by simp) [0]
  [some [10]] (by intro c hc; simp at hc; rcases hc with rfl | rfl <;> rfl)

/-- The centroids after the training loop were reached by at most `n` iterations. -/
theorem kmLoop_visited {F : Type} [Scalar F] (k : ℕ) (X : Mat F) : ∀ (n : ℕ) (cost : F) (c r : Mat F), kmLoop k X n cost c = ok r →
    ∃ (t : ℕ) (path : ℕ → Mat F), t ≤ n ∧ path 0 = c ∧ path t = r ∧ ∀ i < t, KmIteration k X (path i) (path (i + 1))
  | 0, cost, c, r, h => by
    simp only [kmLoop, ok.injEq] at h
    exact ⟨0, fun _ => c, le_refl _, rfl, h, by omega⟩
  | n + 1, cost, c, r, h => by
    rw [kmLoop, bind_eq_ok] at h
    obtain ⟨⟨idx, ds⟩, h1, h⟩ := h
    simp only [bind_eq_ok] at h
    obtain ⟨c', h2, h⟩ := h
    have hit : KmIteration k X c c' := ⟨idx, ds, h1, h2⟩
    split at h
    · simp only [ok.injEq] at h
      subst h
      refine ⟨1, fun i => if i = 0 then c else c', by omega, by simp, by simp, ?_⟩
      intro i hi
      have : i = 0 := by omega
      subst this; simpa using hit
    · obtain ⟨t, path, ht, hp0, hpt, hp⟩ := kmLoop_visited k X n _ c' r h
      refine ⟨t + 1, fun i => match i with | 0 => c | i + 1 => path i, by omega, rfl, hpt, ?_⟩
      intro i hi
      cases i with
      | zero => simpa [hp0] using hit
      | succ i => exact hp i (by omega)

/-- C31: a successful training makes at most `iters` iterations, starting at what the initialiser returned. -/
theorem C31_at_most_iters {F : Type} [Scalar F] (init : ℕ → Mat F → Outcome (Mat F)) (m m' : KMeans F) (X : Mat F)
    (h : kmTrain init m X = (m', ok ())) :
    ∃ (c0 : Mat F) (t : ℕ) (path : ℕ → Mat F), init m.k X = ok c0 ∧ t ≤ m.iters ∧ path 0 = c0 ∧ m'.centroids = some (path t) ∧
      ∀ i < t, KmIteration m.k X (path i) (path (i + 1)) := by
  unfold kmTrain at h
  cases hi : kmInit init m.k X with
  | ok c0 =>
    rw [hi] at h
    simp only at h
    cases hl : kmLoop m.k X m.iters Scalar.zero c0 with
    | ok c =>
      rw [hl] at h
      simp only [Prod.mk.injEq, and_true] at h
      obtain ⟨t, path, h1, h2, h3, h4⟩ := kmLoop_visited _ _ _ _ _ _ hl
      refine ⟨c0, t, path, ?_, h1, h2, by rw [← h, h3], h4⟩
      unfold kmInit at hi
      split at hi
      · cases hi
      · rw [bind_eq_ok] at hi
        obtain ⟨c1, hc1, hi⟩ := hi
        split at hi
        · cases hi
        · split at hi
          · cases hi
          · cases hi; exact hc1
    | err e => rw [hl] at h; simp at h
    | panic => rw [hl] at h; simp at h
    | ub => rw [hl] at h; simp at h
  | err e => rw [hi] at h; simp at h
  | panic => rw [hi] at h; simp at h
  | ub => rw [hi] at h; simp at h

theorem findClosest_length {F : Type} [Scalar F] {c X : Mat F} {idx : List ℕ} {ds : List F} (h : findClosest c X = ok (idx, ds)) :
    X.rows.length = idx.length := by
  unfold findClosest at h
  rw [bind_eq_ok] at h
  obtain ⟨ps, hps, h⟩ := h
  simp only [ok.injEq, Prod.mk.injEq] at h
  rw [← h.1, List.length_map, mapM_length hps]

/-- C31: a successful training leaves `k` centroids of the width of the data - for every scalar type, initialiser and input. -/
theorem C31_trained_shape {F : Type} [Scalar F] (init : ℕ → Mat F → Outcome (Mat F)) (m m' : KMeans F) (X : Mat F)
    (h : kmTrain init m X = (m', ok ())) :
    ∃ c, m'.centroids = some c ∧ c.rows.length = m.k ∧ c.cols = X.cols ∧ m'.k = m.k ∧ m'.iters = m.iters := by
  have hfin : ∀ (n : ℕ) (cost : F) (c r : Mat F), c.rows.length = m.k → c.cols = X.cols → kmLoop m.k X n cost c = ok r →
      r.rows.length = m.k ∧ r.cols = X.cols := by
    intro n
    induction n with
    | zero => intro cost c r h1 h2 h; simp only [kmLoop, ok.injEq] at h; subst h; exact ⟨h1, h2⟩
    | succ n ih =>
      intro cost c r _ _ h
      rw [kmLoop, bind_eq_ok] at h
      obtain ⟨⟨idx, ds⟩, h1, h⟩ := h
      simp only [bind_eq_ok] at h
      obtain ⟨c', h2, h⟩ := h
      rw [updateCentroids_eq _ _ _ (findClosest_length h1)] at h2
      simp only [ok.injEq] at h2
      have hs : c'.rows.length = m.k ∧ c'.cols = X.cols := by rw [← h2]; simp
      split at h
      · simp only [ok.injEq] at h; rw [← h]; exact hs
      · exact ih _ _ _ hs.1 hs.2 h
  unfold kmTrain at h
  cases hi : kmInit init m.k X with
  | ok c0 =>
    rw [hi] at h
    simp only at h
    have hc0 : c0.rows.length = m.k ∧ c0.cols = X.cols := by
      unfold kmInit at hi
      split at hi
      · cases hi
      · rw [bind_eq_ok] at hi
        obtain ⟨c1, hc1, hi⟩ := hi
        split at hi
        · cases hi
        · split at hi
          · cases hi
          · cases hi; constructor <;> (rename_i h1 h2; push Not at h1 h2; assumption)
    cases hl : kmLoop m.k X m.iters Scalar.zero c0 with
    | ok c =>
      rw [hl] at h
      simp only [Prod.mk.injEq, and_true] at h
      have := hfin _ _ _ _ hc0.1 hc0.2 hl
      exact ⟨c, by rw [← h], this.1, this.2, by rw [← h], by rw [← h]⟩
    | err e => rw [hl] at h; simp at h
    | panic => rw [hl] at h; simp at h
    | ub => rw [hl] at h; simp at h
  | err e => rw [hi] at h; simp at h
  | panic => rw [hi] at h; simp at h
  | ub => rw [hi] at h; simp at h

/-- The training loop on finite data: as long as cluster 0 never becomes empty it succeeds and does not increase the
objective. -/
theorem kmLoop_inertia (X : Mat ℝ) (hX : X.WF) (hd : 0 < X.cols) (k : ℕ) : ∀ (n : ℕ) (cost : XR) (c0 : List ℝ) (C : List (Option (List ℝ))),
    CWidth X.cols (some c0 :: C) → C.length + 1 = k →
    (∀ c idx ds, Visited k (finMat X) (stored X.cols (some c0 :: C)) c → findClosest c (finMat X) = ok (idx, ds) → 0 ∈ idx) →
    ∃ C', kmLoop k (finMat X) n cost (stored X.cols (some c0 :: C)) = ok (stored X.cols C') ∧ C'.length = k ∧
      inertia X.rows (proper C') ≤ inertia X.rows (proper (some c0 :: C))
  | 0, cost, c0, C, hC, hk, _ => ⟨some c0 :: C, rfl, hk, le_refl _⟩
  | n + 1, cost, c0, C, hC, hk, hvis => by
    obtain ⟨labels, ds, C', h1, h2, h3, h4, h5, h6⟩ := C31_iteration X hX hd c0 C hC
    rw [hk] at h2 h3 h5
    have h0 : 0 ∈ labels := hvis _ _ _ .refl h1
    have hit : KmIteration k (finMat X) (stored X.cols (some c0 :: C)) (stored X.cols C') := ⟨labels, ds, h1, h2⟩
    rw [kmLoop, h1, ok_bind]
    simp only [h2, ok_bind]
    split
    · exact ⟨C', rfl, h3, h6⟩
    · cases C' with
      | nil => simp at h3; omega
      | cons o C' =>
        cases o with
        | none => exact absurd h0 ((h5 0).1 (by simp)).2
        | some c1 =>
          obtain ⟨C'', g1, g2, g3⟩ := kmLoop_inertia X hX hd k n (fsum ds) c1 C' h4 (by simpa using h3)
            (fun c idx ds hv => hvis c idx ds (.head hit hv))
          exact ⟨C'', g1, g2, g3.trans h6⟩

/-- C31: if cluster 0 has at least one point in every iteration (in particular if no cluster ever becomes empty), training on
finite data succeeds and the trained centroids are at least as good as the initial ones. -/
theorem C31_training_never_worse (init : ℕ → Mat XR → Outcome (Mat XR)) (m : KMeans XR) (X c : Mat ℝ) (hX : X.WF) (hd : 0 < X.cols)
    (hk : m.k ≤ X.rows.length) (hk0 : 0 < m.k) (hi : init m.k (finMat X) = ok (finMat c)) (hck : c.rows.length = m.k) (hcc : c.cols = X.cols) (hcw : c.WF)
    (hvis : ∀ c' idx ds, Visited m.k (finMat X) (finMat c) c' → findClosest c' (finMat X) = ok (idx, ds) → 0 ∈ idx) :
    ∃ C' : List (Option (List ℝ)), kmTrain init m (finMat X) = ({ m with centroids := some (stored X.cols C') }, ok ()) ∧
      inertia X.rows (proper C') ≤ inertia X.rows c.rows := by
  obtain ⟨d, rows⟩ := c
  simp only at hck hcc hcw
  subst hcc
  cases rows with
  | nil => simp at hck; omega
  | cons c0 cs =>
    have hst : finMat ⟨X.cols, c0 :: cs⟩ = stored X.cols (some c0 :: cs.map some) := (stored_some ⟨X.cols, c0 :: cs⟩).symm
    have hpr : proper (some c0 :: cs.map some) = c0 :: cs := by
      have : (some c0 :: cs.map some) = (c0 :: cs).map some := rfl
      rw [this, proper, List.filterMap_map]
      simp
    rw [hst] at hvis hi
    obtain ⟨C', h1, _, h3⟩ := kmLoop_inertia X hX hd m.k m.iters Scalar.zero c0 (cs.map some) (by
      intro c hc
      have : (some c0 :: cs.map some) = (c0 :: cs).map some := rfl
      rw [this] at hc
      obtain ⟨c', hc', he⟩ := List.mem_map.1 hc
      cases he
      exact hcw c hc') (by simpa using hck) hvis
    refine ⟨C', ?_, by rw [← hpr]; exact h3⟩
    unfold kmTrain kmInit
    rw [if_neg (by simp [finMat]; omega), hi, ok_bind]
    rw [if_neg (by simpa [stored] using hck), if_neg (by simp [finMat, stored])]
    simp only [h1]

/-- Non-vacuity of C31: with `k = 1` every run satisfies the hypothesis. -/
theorem C31_single_cluster (init : ℕ → Mat XR → Outcome (Mat XR)) (m : KMeans XR) (X c : Mat ℝ) (hX : X.WF) (hd : 0 < X.cols)
    (hne : X.rows ≠ []) (hk0 : m.k = 1) (hi : init m.k (finMat X) = ok (finMat c)) (hck : c.rows.length = m.k) (hcc : c.cols = X.cols) (hcw : c.WF) :
    ∃ C' : List (Option (List ℝ)), kmTrain init m (finMat X) = ({ m with centroids := some (stored X.cols C') }, ok ()) ∧
      inertia X.rows (proper C') ≤ inertia X.rows c.rows := by
  have hpos := List.length_pos_iff.2 hne
  apply C31_training_never_worse init m X c hX hd (by omega) (by omega) hi hck hcc hcw
  intro c' idx ds hv hf
  have hlen := findClosest_length hf
  have hlab := C30_labels_valid (⟨0, 1, some c'⟩ : KMeans XR) c' (finMat X) idx rfl (by unfold kmPredict; simp [hf])
  have hrows : c'.rows.length = 1 := by
    have : ∀ c'', Visited m.k (finMat X) (finMat c) c'' → c''.rows.length = 1 := by
      intro c'' h
      induction h with
      | refl => simp [finMat, hck, hk0]
      | tail _ h _ =>
        obtain ⟨idx, ds, h1, h2⟩ := h
        rw [updateCentroids_eq _ _ _ (findClosest_length h1)] at h2
        simp only [ok.injEq] at h2
        rw [← h2]; simp [hk0]
    exact this c' hv
  cases idx with
  | nil => rw [finMat, List.length_map, List.length_nil] at hlen; omega
  | cons a l =>
    have := hlab.2 a (by simp)
    rw [hrows] at this
    have : a = 0 := by omega
    rw [this]; simp

/-! #### A run with two clusters -/

theorem nearestProper_unique {C : List (Option (List ℝ))} {x : List ℝ} {i j : ℕ} (hi : NearestProper C x i) (hj : NearestProper C x j) : i = j := by
  obtain ⟨a, ha, ha1, ha2⟩ := hi
  obtain ⟨b, hb, hb1, hb2⟩ := hj
  rcases lt_trichotomy i j with h | h | h
  · exact absurd (hb2 i a h ha) (not_lt.2 (ha1 b (List.mem_of_getElem? hb)))
  · exact h
  · exact absurd (ha2 j b h hb) (not_lt.2 (hb1 a (List.mem_of_getElem? ha)))

theorem forall₂_unique {α β : Type} {R : α → β → Prop} (hu : ∀ a b c, R a b → R a c → b = c) : ∀ {l : List α} {m m' : List β},
    List.Forall₂ R l m → List.Forall₂ R l m' → m = m'
  | _, _, _, .nil, .nil => rfl
  | _, _, _, .cons h t, .cons h' t' => by rw [hu _ _ _ h h', forall₂_unique hu t t']

/-- Evaluating one step from known labels. -/
theorem findClosest_of_labels {X : Mat ℝ} (hw : X.WF) (hd : 0 < X.cols) (c0 : List ℝ) (C : List (Option (List ℝ))) (labels : List ℕ)
    (h : List.Forall₂ (NearestProper (some c0 :: C)) X.rows labels) :
    findClosest (stored X.cols (some c0 :: C)) (finMat X) = ok (labels, X.rows.map fun x => XR.fin (nearestSq x (proper (some c0 :: C)))) := by
  obtain ⟨l, h1, h2⟩ := findClosest_stored hw c0 C (.inl hd)
  have e : l = labels := forall₂_unique (R := NearestProper (some c0 :: C)) (fun _ _ _ h h' => nearestProper_unique h h') h1 h
  rw [h2, e]

theorem findClosest_nan {X : Mat ℝ} (hw : X.WF) (hd : 0 < X.cols) (C : List (Option (List ℝ))) :
    findClosest (stored X.cols (none :: C)) (finMat X) = ok (List.replicate X.rows.length 0, List.replicate X.rows.length XR.nan) := by
  unfold findClosest
  rw [mapM_ok_map _ (fun _ => (0, XR.nan))]
  · simp [finMat, Function.comp_def, List.map_const']
  · intro r hr
    obtain ⟨x, hx, rfl⟩ := List.mem_map.1 hr
    exact closestTo_nan hd (hw x hx) C

/-- C31: what an empty first cluster does. Its centroid becomes a NaN row, NaN wins every comparison in first position, so
the next assignment puts every point into cluster 0 - whatever the other centroids are. -/
theorem C31_nan_first_centroid_takes_all (m : KMeans XR) (X : Mat ℝ) (hX : X.WF) (hd : 0 < X.cols) (C : List (Option (List ℝ)))
    (hm : m.centroids = some (stored X.cols (none :: C))) : kmPredict m (finMat X) = ok (List.replicate X.rows.length 0) := by
  unfold kmPredict
  rw [hm]
  simp only [findClosest_nan hX hd C, ok_bind]

end RM
