import Verif.Proofs.Dbscan
import Verif.Props.KNN

/-! # C26-C29: DBSCAN -/

namespace RM
open Outcome Scalar Spec

/-- Samples `i` and `j` are at Euclidean distance less than `eps`. -/
def NearR (eps : ℝ) (X : Mat ℝ) (i j : ℕ) : Prop := eucl (X.rows.getD i []) (X.rows.getD j []) < eps

theorem nearF_real (eps : ℝ) (X : Mat ℝ) : nearF eps X = NearR eps X := by
  funext i j
  unfold nearF NearR
  rw [dbD_real, real_lt, decide_eq_true_eq, eucl_comm]

theorem dbD_comm_real (u v : List ℝ) : dbD u v = dbD v u := by rw [dbD_real, dbD_real, eucl_comm]

/-! ### C26 -/

/-- Training terminates and its labels are the density clustering of the data: exactly the core samples are labelled,
labels are the connected components of core samples, numbered in order of their first sample. -/
theorem C26_train (m : Dbscan ℝ) (X : Mat ℝ) (hw : X.WF) :
    ∃ labels, IsDensityClustering X.rows.length m.minPoints (NearR m.eps X) labels ∧
      (∃ fuel₀, ∀ fuel, fuel₀ ≤ fuel → ∃ m', dbTrain fuel m X = some (ok m')) ∧
      ∀ fuel r, dbTrain fuel m X = some r → ∃ m', r = ok m' ∧ m'.clusters = some labels := by
  obtain ⟨labels, visited, h1, h2⟩ := dbTrain_spec dbD_comm_real m X hw _ (le_refl _)
  rw [nearF_real] at h2
  refine ⟨labels, h2, ⟨(X.rows.length + 1) * (X.rows.length + 1), fun fuel hf => ?_⟩, ?_⟩
  · obtain ⟨l, v, h, _⟩ := dbTrain_spec dbD_comm_real m X hw fuel hf
    exact ⟨_, h⟩
  · intro fuel r hr
    obtain ⟨l, v, h, h'⟩ := dbTrain_finished dbD_comm_real hw hr
    rw [nearF_real] at h'
    exact ⟨_, h, by simp only; rw [IsDensityClustering.unique h' h2]⟩

/-- The same over floats with NaN and infinities: a sample with a non-finite distance to another one is simply not near
it. -/
theorem C26_train_xr (m : Dbscan XR) (X : Mat XR) (hw : X.WF) :
    ∃ labels, IsDensityClustering X.rows.length m.minPoints
        (fun i j => (dbD (X.rows.getD i []) (X.rows.getD j []) <. m.eps) = true) labels ∧
      (∃ fuel₀, ∀ fuel, fuel₀ ≤ fuel → ∃ m', dbTrain fuel m X = some (ok m')) ∧
      ∀ fuel r, dbTrain fuel m X = some r → ∃ m', r = ok m' ∧ m'.clusters = some labels := by
  have hsym : ∀ u v : List XR, dbD u v = dbD v u := dbD_comm_of xr_sub_mul_comm
  have hnear : nearF m.eps X = fun i j => (dbD (X.rows.getD i []) (X.rows.getD j []) <. m.eps) = true := by
    funext i j; unfold nearF; rw [hsym]
  obtain ⟨labels, visited, h1, h2⟩ := dbTrain_spec hsym m X hw _ (le_refl _)
  rw [hnear] at h2
  refine ⟨labels, h2, ⟨(X.rows.length + 1) * (X.rows.length + 1), fun fuel hf => ?_⟩, ?_⟩
  · obtain ⟨l, v, h, _⟩ := dbTrain_spec hsym m X hw fuel hf
    exact ⟨_, h⟩
  · intro fuel r hr
    obtain ⟨l, v, h, h'⟩ := dbTrain_finished hsym hw hr
    rw [hnear] at h'
    exact ⟨_, h, by simp only; rw [IsDensityClustering.unique h' h2]⟩

/-- The labels depend on nothing but the data and the two parameters. -/
theorem C26_labels_unique {n mp : ℕ} {near : ℕ → ℕ → Prop} {a b : List (Option ℕ)} (ha : IsDensityClustering n mp near a)
    (hb : IsDensityClustering n mp near b) : a = b := IsDensityClustering.unique ha hb

/-- `new` accepts exactly the positive radii. -/
theorem C26_new (eps : ℝ) (mp : ℕ) : (0 < eps → ∃ m, dbscanNew eps mp = ok m ∧ m.eps = eps ∧ m.minPoints = mp ∧ m.clusters = none) ∧
    (¬ 0 < eps → dbscanNew eps mp = panic) := by
  unfold dbscanNew
  constructor
  · intro h; simp [h]
  · intro h; simp [h]

/-- Three points on a line, radius 1: with `min_points = 3` only the middle one is core. -/
noncomputable def borderData : Mat ℝ := ⟨1, [[0], [9/10], [-9/10]]⟩

theorem borderData_WF : borderData.WF := by intro r hr; fin_cases hr <;> rfl

theorem eucl_one (a b : ℝ) : eucl [a] [b] = |a - b| := by
  unfold eucl
  simp [Real.sqrt_sq_eq_abs]

theorem border_core : IsCore 3 3 (NearR 1 borderData) 0 := by
  refine ⟨{0, 1, 2}, by decide, ?_⟩
  intro j hj
  simp only [Finset.mem_insert, Finset.mem_singleton] at hj
  rcases hj with rfl | rfl | rfl <;> refine ⟨by norm_num, ?_⟩ <;> unfold NearR borderData <;>
    simp only [List.getD_cons_zero, List.getD_cons_succ, eucl_one] <;> rw [abs_lt] <;> constructor <;> norm_num

theorem border_not_core : ¬ IsCore 3 3 (NearR 1 borderData) 1 := by
  rintro ⟨s, hs, hsub⟩
  have h2 : 2 ∉ s := by
    intro h
    have := (hsub 2 h).2
    unfold NearR borderData at this
    simp only [List.getD_cons_zero, List.getD_cons_succ, eucl_one] at this
    rw [abs_lt] at this
    norm_num at this
  have : s ⊆ {0, 1} := by
    intro j hj
    have := (hsub j hj).1
    have : j ≠ 2 := by rintro rfl; exact h2 hj
    simp only [Finset.mem_insert, Finset.mem_singleton]
    omega
  have := Finset.card_le_card this
  have e : ({0, 1} : Finset ℕ).card = 2 := by decide
  omega

/-! ### C27 -/

/-- What holds of the documented noise rule: a sample that is not within `eps` of any core sample is `None`, and (one half
of the other direction) a core sample is never `None`. Missing: a non-core sample within `eps` of a core sample
should have a label; see `C27_border_violation`. -/
theorem C27_far_is_noise_partial (m : Dbscan ℝ) (X : Mat ℝ) (hw : X.WF) (heps : 0 < m.eps) (fuel : ℕ) (m' : Dbscan ℝ)
    (ht : dbTrain fuel m X = some (ok m')) :
    ∃ labels, m'.clusters = some labels ∧ labels.length = X.rows.length ∧
      (∀ i, i < X.rows.length → (∀ j, j < X.rows.length → IsCore X.rows.length m.minPoints (NearR m.eps X) j → ¬ NearR m.eps X i j) →
        labels[i]? = some none) ∧
      (∀ i, i < X.rows.length → labels[i]? = some none → ¬ IsCore X.rows.length m.minPoints (NearR m.eps X) i) := by
  obtain ⟨labels, h1, _, h3⟩ := C26_train m X hw
  obtain ⟨m'', e, hc⟩ := h3 fuel _ ht
  cases e
  refine ⟨labels, hc, h1.length, ?_, ?_⟩
  · intro i hi hfar
    have hil : i < labels.length := by rw [h1.length]; exact hi
    rw [List.getElem?_eq_getElem hil]
    cases h : labels[i] with
    | none => rfl
    | some l =>
      exfalso
      refine hfar i hi ((h1.labelled i hi).1 ⟨l, by simp [hil, h]⟩) ?_
      unfold NearR eucl
      rw [show (List.zipWith (fun x y => (x - y) ^ 2) (X.rows.getD i []) (X.rows.getD i [])).sum = 0 from sqDist_self _, Real.sqrt_zero]
      exact heps
  · intro i hi hn hcore
    obtain ⟨l, hl⟩ := (h1.labelled i hi).2 hcore
    rw [hn] at hl
    simp at hl

/-- The documented rule fails: every non-core sample is reported as noise, however close to a core sample of a cluster it
is. -/
theorem C27_border_violation (m : Dbscan ℝ) (X : Mat ℝ) (hw : X.WF) (fuel : ℕ) (m' : Dbscan ℝ) (ht : dbTrain fuel m X = some (ok m'))
    (i j : ℕ) (hi : i < X.rows.length) (hj : j < X.rows.length) (hci : ¬ IsCore X.rows.length m.minPoints (NearR m.eps X) i)
    (hcj : IsCore X.rows.length m.minPoints (NearR m.eps X) j) (_hnear : NearR m.eps X i j) :
    ∃ labels, m'.clusters = some labels ∧ labels[i]? = some none ∧ ∃ l, labels[j]? = some (some l) := by
  obtain ⟨labels, h1, _, h3⟩ := C26_train m X hw
  obtain ⟨m'', e, hc⟩ := h3 fuel _ ht
  cases e
  refine ⟨labels, hc, ?_, (h1.labelled j hj).2 hcj⟩
  have hil : i < labels.length := by rw [h1.length]; exact hi
  rw [List.getElem?_eq_getElem hil]
  cases h : labels[i] with
  | none => rfl
  | some l => exact absurd ((h1.labelled i hi).1 ⟨l, by simp [hil, h]⟩) hci

/-- The situation of the violation exists. -/
theorem C27_border_violation_witness : ∃ (m : Dbscan ℝ) (X : Mat ℝ) (i j : ℕ), dbscanNew 1 3 = ok m ∧ X.WF ∧ i < X.rows.length ∧
    j < X.rows.length ∧ ¬ IsCore X.rows.length m.minPoints (NearR m.eps X) i ∧ IsCore X.rows.length m.minPoints (NearR m.eps X) j ∧
    NearR m.eps X i j :=
  ⟨⟨1, 3, none, false, [], none⟩, borderData, 1, 0, by simp [dbscanNew], borderData_WF, by decide, by decide, border_not_core, border_core, by
    unfold NearR borderData
    simp only [List.getD_cons_zero, List.getD_cons_succ, eucl_one]
    rw [abs_lt]; constructor <;> norm_num⟩

/-! ### C28 -/

theorem mapM_dbDist (q : List ℝ) (rows : List (List ℝ)) (h : ∀ r ∈ rows, q.length = r.length) :
    rows.mapM (fun c => dbDist q c) = ok (rows.map fun c => eucl q c) := by
  induction rows with
  | nil => rfl
  | cons r rows ih =>
    rw [List.mapM_cons, dbDist_eq (h r (by simp)), ih (fun x hx => h x (by simp [hx])), dbD_real]
    rfl

theorem dbClassify_spec (eps : ℝ) (X : Mat ℝ) (labels : List (Option ℕ)) (hl : labels.length = X.rows.length) (hne : X.rows ≠ [])
    (q : List ℝ) (h : ∀ r ∈ X.rows, q.length = r.length) :
    ∃ cl i row, dbClassify eps X labels q = ok cl ∧ X.rows[i]? = some row ∧
      (∀ (j : ℕ) r, X.rows[j]? = some r → eucl q row ≤ eucl q r ∧ (j < i → eucl q row < eucl q r)) ∧
      (eucl q row < eps → labels[i]? = some cl) ∧ (¬ eucl q row < eps → cl = none) := by
  obtain ⟨i, v, h1, h2, h3, h4⟩ := argminBy_spec (Scalar.lt : ℝ → ℝ → Bool) (by simp) (X.rows.map fun c => eucl q c) (by simpa using hne)
  rw [List.getElem?_map] at h2
  cases hr : X.rows[i]? with
  | none => rw [hr] at h2; simp at h2
  | some row =>
    rw [hr] at h2
    have hv : eucl q row = v := by simpa using h2
    subst hv
    have hil : i < labels.length := by rw [hl]; exact (List.getElem?_eq_some_iff.1 hr).1
    have hmin : ∀ (j : ℕ) r, X.rows[j]? = some r → eucl q row ≤ eucl q r ∧ (j < i → eucl q row < eucl q r) := by
      intro j r hj
      refine ⟨h3 _ (List.mem_map.2 ⟨r, List.mem_of_getElem? hj, rfl⟩), fun hji => h4 j _ hji ?_⟩
      rw [List.getElem?_map, hj]; rfl
    unfold dbClassify
    rw [mapM_dbDist q X.rows h]
    simp only [ok_bind, h1, real_lt, decide_eq_true_eq]
    by_cases hlt : eucl q row < eps
    · rw [if_pos hlt]
      unfold getAt
      rw [List.getElem?_eq_getElem hil]
      exact ⟨labels[i], i, row, rfl, hr, hmin, fun _ => by simp [hil], fun h => absurd hlt h⟩
    · rw [if_neg hlt]
      exact ⟨none, i, row, rfl, hr, hmin, fun h => absurd h hlt, fun _ => rfl⟩

theorem mapM_exists {α β : Type} (f : α → Outcome β) (P : α → β → Prop) : ∀ (l : List α), (∀ a ∈ l, ∃ b, f a = ok b ∧ P a b) →
    ∃ bs, l.mapM f = ok bs ∧ List.Forall₂ P l bs
  | [], _ => ⟨[], rfl, .nil⟩
  | a :: l, h => by
    obtain ⟨b, hb, hp⟩ := h a (by simp)
    obtain ⟨bs, hbs, hps⟩ := mapM_exists f P l (fun x hx => h x (by simp [hx]))
    exact ⟨b :: bs, by rw [List.mapM_cons, hb, hbs]; rfl, .cons hp hps⟩

/-- The run of training that produced a predictive model. -/
theorem dbTrain_predictive {m : Dbscan ℝ} (hp : m.predictive = true) {X : Mat ℝ} (hw : X.WF) {fuel : ℕ} {m' : Dbscan ℝ}
    (ht : dbTrain fuel m X = some (ok m')) :
    ∃ labels, m'.predictive = true ∧ m'.eps = m.eps ∧ m'.clusterData = some X ∧ m'.clusters = some labels ∧
      IsDensityClustering X.rows.length m.minPoints (NearR m.eps X) labels := by
  obtain ⟨l, v, h, h'⟩ := dbTrain_finished dbD_comm_real hw ht
  rw [nearF_real] at h'
  cases h
  exact ⟨l, hp, rfl, by simp [hp], rfl, h'⟩

/-- On a model trained while predictive, every query gets the cluster of its nearest training sample (the first of the
equally near ones) if that is closer than `eps`, and `None` otherwise. -/
theorem C28_predict (m : Dbscan ℝ) (hp : m.predictive = true) (X : Mat ℝ) (hw : X.WF) (hne : X.rows ≠ []) (fuel : ℕ) (m' : Dbscan ℝ)
    (ht : dbTrain fuel m X = some (ok m')) (Q : Mat ℝ) (hQ : Q.WF) (hcols : Q.cols = X.cols) :
    ∃ labels classes, m'.clusters = some labels ∧ dbPredict m' Q = ok classes ∧
      List.Forall₂ (fun q cl => ∃ i row, X.rows[i]? = some row ∧
        (∀ (j : ℕ) r, X.rows[j]? = some r → eucl q row ≤ eucl q r ∧ (j < i → eucl q row < eucl q r)) ∧
        (eucl q row < m.eps → labels[i]? = some cl) ∧ (¬ eucl q row < m.eps → cl = none)) Q.rows classes := by
  obtain ⟨labels, h1, h2, h3, h4, h5⟩ := dbTrain_predictive hp hw ht
  obtain ⟨classes, hc, hf⟩ := mapM_exists (dbClassify m.eps X labels) (fun q cl => ∃ i row, X.rows[i]? = some row ∧
        (∀ (j : ℕ) r, X.rows[j]? = some r → eucl q row ≤ eucl q r ∧ (j < i → eucl q row < eucl q r)) ∧
        (eucl q row < m.eps → labels[i]? = some cl) ∧ (¬ eucl q row < m.eps → cl = none)) Q.rows (by
      intro q hq
      obtain ⟨cl, i, row, ha, hb⟩ := dbClassify_spec m.eps X labels h5.length hne q (fun r hr => by rw [hQ q hq, hw r hr, hcols])
      exact ⟨cl, ha, i, row, hb⟩)
  refine ⟨labels, classes, h4, ?_, hf⟩
  unfold dbPredict
  rw [h1, h3, h4, h2]
  exact hc

/-- Predicting the training data returns the training labels. -/
theorem C28_predict_training (m : Dbscan ℝ) (hp : m.predictive = true) (heps : 0 < m.eps) (X : Mat ℝ) (hw : X.WF) (fuel : ℕ)
    (m' : Dbscan ℝ) (ht : dbTrain fuel m X = some (ok m')) : ∃ labels, m'.clusters = some labels ∧ dbPredict m' X = ok labels := by
  obtain ⟨labels, h1, h2, h3, h4, h5⟩ := dbTrain_predictive hp hw ht
  refine ⟨labels, h4, ?_⟩
  by_cases hne : X.rows = []
  · have hl : labels = [] := List.eq_nil_of_length_eq_zero (by rw [h5.length, hne]; rfl)
    unfold dbPredict
    rw [h1, h3, h4]
    simp only [if_true]
    rw [hne, hl]
    rfl
  · obtain ⟨labels', classes, ha, hb, hc⟩ := C28_predict m hp X hw hne fuel m' ht X hw rfl
    rw [h4] at ha
    cases ha
    rw [hb]
    congr 1
    apply List.ext_getElem?
    intro k
    have hlen := hc.length_eq
    by_cases hk : k < X.rows.length
    · have hk2 : k < classes.length := by omega
      have hk3 : k < labels.length := by rw [h5.length]; exact hk
      obtain ⟨i, row, hi, hmin, hlt, _⟩ := (List.forall₂_iff_get.1 hc).2 k hk hk2
      simp only [List.get_eq_getElem] at hmin hlt
      have hin : i < X.rows.length := (List.getElem?_eq_some_iff.1 hi).1
      have hself : eucl X.rows[k] X.rows[k] = 0 := by
        change Real.sqrt (sqDist _ _) = 0
        rw [sqDist_self, Real.sqrt_zero]
      have h0 : eucl X.rows[k] row = 0 := by
        have := (hmin k X.rows[k] (by simp [hk])).1
        rw [hself] at this
        exact le_antisymm this (Real.sqrt_nonneg _)
      have hrow : X.rows[i] = row := (List.getElem?_eq_some_iff.1 hi).2
      have heq : X.rows[k] = row := by
        apply eq_of_sqDist
        · rw [hw _ (List.getElem_mem hk), ← hrow, hw _ (List.getElem_mem hin)]
        · exact (Real.sqrt_eq_zero (sqDist_nonneg _ _)).1 h0
      have hcl := hlt (by rw [h0]; exact heps)
      rw [List.getElem?_eq_getElem hk2, ← hcl]
      have hrows : X.rows.getD i [] = X.rows.getD k [] := by
        simp only [List.getD_eq_getElem?_getD, List.getElem?_eq_getElem hin, List.getElem?_eq_getElem hk, hrow, heq]
      have hnear : NearR m.eps X i = NearR m.eps X k := by
        funext j; unfold NearR; rw [hrows]
      have hik : IsCore X.rows.length m.minPoints (NearR m.eps X) i ↔ IsCore X.rows.length m.minPoints (NearR m.eps X) k := by
        unfold IsCore; rw [hnear]
      have hnik : NearR m.eps X i k := by
        unfold NearR
        rw [hrows]
        change Real.sqrt (sqDist _ _) < _
        rw [sqDist_self, Real.sqrt_zero]; exact heps
      have hi3 : i < labels.length := by rw [h5.length]; exact hin
      by_cases hcore : IsCore X.rows.length m.minPoints (NearR m.eps X) k
      · obtain ⟨l, hl⟩ := (h5.labelled k hk).2 hcore
        obtain ⟨l', hl'⟩ := (h5.labelled i hin).2 (hik.2 hcore)
        rw [hl, hl']
        have := (h5.same i k l' l hl' hl).2 (Relation.ReflTransGen.single ⟨hin, hk, hik.2 hcore, hcore, hnik⟩)
        rw [this]
      · have hn : ∀ x : ℕ, x < X.rows.length → ¬ IsCore X.rows.length m.minPoints (NearR m.eps X) x → labels[x]? = some none := by
          intro x hx hcx
          have hxl : x < labels.length := by rw [h5.length]; exact hx
          rw [List.getElem?_eq_getElem hxl]
          cases h : labels[x] with
          | none => rfl
          | some l => exact absurd ((h5.labelled x hx).1 ⟨l, by simp [hxl, h]⟩) hcx
        rw [hn k hk hcore, hn i hin (fun h => hcore (hik.1 h))]
    · rw [List.getElem?_eq_none (by omega), List.getElem?_eq_none (by rw [h5.length]; omega)]

/-- A model that is not predictive refuses to predict; a predictive one that recorded nothing is untrained. -/
theorem C28_predict_errors (m : Dbscan ℝ) (Q : Mat ℝ) :
    (m.predictive = false → dbPredict m Q = err .InvalidState) ∧
    (m.predictive = true → m.clusterData = none → dbPredict m Q = err .UntrainedModel) := by
  unfold dbPredict
  constructor
  · intro h; simp [h]
  · intro h h'; simp [h, h']

/-- Queries panic when the training data was empty or the query has another width (the latter by the length assertion of `vec_bin_op`). -/
theorem C28_predict_panics (m : Dbscan ℝ) (hp : m.predictive = true) (X : Mat ℝ) (hw : X.WF) (fuel : ℕ) (m' : Dbscan ℝ)
    (ht : dbTrain fuel m X = some (ok m')) (Q : Mat ℝ) (hQ : Q.WF) (hQne : Q.rows ≠ []) (hbad : X.rows = [] ∨ Q.cols ≠ X.cols) :
    dbPredict m' Q = panic := by
  obtain ⟨labels, h1, h2, h3, h4, h5⟩ := dbTrain_predictive hp hw ht
  unfold dbPredict
  rw [h1, h3, h4, h2]
  simp only [if_true]
  cases hq : Q.rows with
  | nil => exact absurd hq hQne
  | cons q qs =>
    have : dbClassify m.eps X labels q = panic := by
      unfold dbClassify
      cases hx : X.rows with
      | nil => rfl
      | cons r rs =>
        have hne : q.length ≠ r.length := by
          rcases hbad with h | h
          · rw [hx] at h; simp at h
          · rw [hQ q (by rw [hq]; simp), hw r (by rw [hx]; simp)]; exact h
        rw [List.mapM_cons]
        have : dbDist q r = panic := by unfold dbDist vecZip; rw [if_neg hne]; rfl
        rw [this]
        rfl
    rw [List.mapM_cons, this]
    rfl

example : (borderData.rows ≠ []) ∧ borderData.WF ∧ ((Dbscan.setPredictive ⟨(1 : ℝ), 3, none, false, [], none⟩ true).predictive = true) :=
  ⟨by decide, borderData_WF, rfl⟩

/-! ### C29 -/

/-- Calls that change the state. -/
inductive DbOp
  | setPredictive (b : Bool)
  | train (X : Mat ℝ)

/-- Running a history of calls; every training run that finishes is allowed. -/
inductive DbRun : Dbscan ℝ → List DbOp → Dbscan ℝ → Prop
  | nil (m) : DbRun m [] m
  | setPredictive (m m' : Dbscan ℝ) (b ops) : DbRun m ops m' → DbRun m (ops ++ [.setPredictive b]) (m'.setPredictive b)
  | train (m m' m'' : Dbscan ℝ) (X ops fuel) : DbRun m ops m' → X.WF → dbTrain fuel m' X = some (ok m'') →
      DbRun m (ops ++ [.train X]) m''

/-- The flag after a history. -/
def flagAfter (ops : List DbOp) : Bool := ops.foldl (fun b o => match o with | .setPredictive b' => b' | .train _ => b) false

/-- The data of the last training run and whether the model was predictive at that moment. -/
def lastTrain (ops : List DbOp) : Bool × Option (Mat ℝ × Bool) :=
  ops.foldl (fun s o => match o with | .setPredictive b => (b, s.2) | .train X => (s.1, some (X, s.1))) (false, none)

/-- The data of the last training run performed while predictive. -/
def lastRecorded (ops : List DbOp) : Bool × Option (Mat ℝ) :=
  ops.foldl (fun s o => match o with | .setPredictive b => (b, s.2) | .train X => (s.1, if s.1 then some X else s.2)) (false, none)

theorem lastTrain_flag (ops : List DbOp) : (lastTrain ops).1 = flagAfter ops := by
  unfold lastTrain flagAfter
  have : ∀ (b : Bool) (o : Option (Mat ℝ × Bool)),
      (ops.foldl (fun s o => match o with | .setPredictive b => (b, s.2) | .train X => (s.1, some (X, s.1))) (b, o)).1 =
      ops.foldl (fun b o => match o with | .setPredictive b' => b' | .train _ => b) b := by
    induction ops with
    | nil => intro b o; rfl
    | cons x ops ih => intro b o; cases x <;> exact ih _ _
  exact this _ _

theorem lastRecorded_flag (ops : List DbOp) : (lastRecorded ops).1 = flagAfter ops := by
  unfold lastRecorded flagAfter
  have : ∀ (b : Bool) (o : Option (Mat ℝ)),
      (ops.foldl (fun s o => match o with | .setPredictive b => (b, s.2) | .train X => (s.1, if s.1 then some X else s.2)) (b, o)).1 =
      ops.foldl (fun b o => match o with | .setPredictive b' => b' | .train _ => b) b := by
    induction ops with
    | nil => intro b o; rfl
    | cons x ops ih => intro b o; cases x <;> exact ih _ _
  exact this _ _

/-- The state after any history of calls on a fresh model: the flag is the last one set, the clusters belong to the last
training run, the recorded data to the last training run made while predictive. -/
theorem C29_history_state (eps : ℝ) (mp : ℕ) (m0 m : Dbscan ℝ) (h0 : dbscanNew eps mp = ok m0) (ops : List DbOp) (h : DbRun m0 ops m) :
    m.eps = eps ∧ m.minPoints = mp ∧ m.predictive = flagAfter ops ∧ m.clusterData = (lastRecorded ops).2 ∧
    (∀ X b, (lastTrain ops).2 = some (X, b) →
      ∃ labels, m.clusters = some labels ∧ IsDensityClustering X.rows.length mp (NearR eps X) labels) ∧
    ((lastTrain ops).2 = none → m.clusters = none) := by
  have hm0 : m0 = ⟨eps, mp, none, false, [], none⟩ := by
    unfold dbscanNew at h0
    cases hc : (Scalar.zero <. eps : Bool) with
    | true => rw [hc] at h0; simpa using h0.symm
    | false => rw [hc] at h0; simp at h0
  induction h with
  | nil => rw [hm0]; refine ⟨rfl, rfl, rfl, rfl, ?_, fun _ => rfl⟩; intro X b h; simp [lastTrain] at h
  | setPredictive m' b ops hr ih =>
    obtain ⟨h1, h2, h3, h4, h5, h6⟩ := ih
    refine ⟨h1, h2, ?_, ?_, ?_, ?_⟩
    · unfold flagAfter; rw [List.foldl_append]; rfl
    · unfold lastRecorded at h4 ⊢; rw [List.foldl_append]; exact h4
    · unfold lastTrain at h5 ⊢; rw [List.foldl_append]; exact h5
    · unfold lastTrain at h6 ⊢; rw [List.foldl_append]; exact h6
  | train m' m'' X ops fuel hr hw ht ih =>
    obtain ⟨h1, h2, h3, h4, h5, h6⟩ := ih
    obtain ⟨l, v, h, h'⟩ := dbTrain_finished dbD_comm_real hw ht
    rw [nearF_real] at h'
    cases h
    have hf := lastTrain_flag ops
    have hf' := lastRecorded_flag ops
    refine ⟨h1, h2, ?_, ?_, ?_, ?_⟩
    · unfold flagAfter at h3 ⊢; rw [List.foldl_append]; exact h3
    · unfold lastRecorded at h4 hf' ⊢
      rw [List.foldl_append]
      simp only [List.foldl_cons, List.foldl_nil]
      rw [hf', ← h3, ← h4]
    · intro Y b hY
      unfold lastTrain at hY
      rw [List.foldl_append] at hY
      simp only [List.foldl_cons, List.foldl_nil, Option.some.injEq, Prod.mk.injEq] at hY
      obtain ⟨rfl, _⟩ := hY
      exact ⟨l, rfl, by rw [← h1, ← h2]; exact h'⟩
    · intro hn
      unfold lastTrain at hn
      rw [List.foldl_append] at hn
      simp at hn

theorem lastTrain_recorded (ops : List DbOp) (X : Mat ℝ) (h : (lastTrain ops).2 = some (X, true)) : (lastRecorded ops).2 = some X := by
  induction ops using List.reverseRecOn with
  | nil => simp [lastTrain] at h
  | append_singleton ops o ih =>
    have hf := lastTrain_flag ops
    have hf' := lastRecorded_flag ops
    unfold lastTrain at h hf ih
    unfold lastRecorded at hf' ih ⊢
    rw [List.foldl_append] at h ⊢
    cases o with
    | setPredictive b => exact ih h
    | train Y =>
      simp only [List.foldl_cons, List.foldl_nil, Option.some.injEq, Prod.mk.injEq] at h ⊢
      rw [hf', ← hf, h.2, h.1]
      rfl

/-- What holds: when the last training run was made while predictive, prediction uses the data and the clusters of that
run (so it obeys C28 for that run), whatever happened before. Missing: histories whose last training run was not
predictive although an earlier one was; there the claim is false, see `C29_mixing_violation`. -/
theorem C29_same_run_partial (eps : ℝ) (mp : ℕ) (m0 m : Dbscan ℝ) (h0 : dbscanNew eps mp = ok m0) (ops : List DbOp) (h : DbRun m0 ops m)
    (X : Mat ℝ) (hlast : (lastTrain ops).2 = some (X, true)) :
    m.clusterData = some X ∧ ∃ labels, m.clusters = some labels ∧ IsDensityClustering X.rows.length mp (NearR eps X) labels := by
  obtain ⟨h1, h2, h3, h4, h5, h6⟩ := C29_history_state eps mp m0 m h0 ops h
  exact ⟨by rw [h4, lastTrain_recorded ops X hlast], h5 X true hlast⟩

/-- The defect: after training predictively on `X₁`, then non-predictively on `X₂`, and switching prediction on again,
the model holds the data of the first run and the clusters of the second. -/
theorem C29_mixing_violation (eps : ℝ) (mp : ℕ) (m0 m : Dbscan ℝ) (h0 : dbscanNew eps mp = ok m0) (X₁ X₂ : Mat ℝ)
    (h : DbRun m0 [.setPredictive true, .train X₁, .setPredictive false, .train X₂, .setPredictive true] m) :
    m.predictive = true ∧ m.clusterData = some X₁ ∧
      ∃ labels, m.clusters = some labels ∧ IsDensityClustering X₂.rows.length mp (NearR eps X₂) labels := by
  obtain ⟨h1, h2, h3, h4, h5, h6⟩ := C29_history_state eps mp m0 m h0 _ h
  exact ⟨h3, h4, h5 X₂ false rfl⟩

/-- Every history of training runs on well-formed data can be run (so the theorems above are not vacuous). -/
theorem C29_history_runs (m0 : Dbscan ℝ) (ops : List DbOp) (hw : ∀ X, DbOp.train X ∈ ops → X.WF) : ∃ m, DbRun m0 ops m := by
  induction ops using List.reverseRecOn with
  | nil => exact ⟨m0, .nil m0⟩
  | append_singleton ops o ih =>
    obtain ⟨m, hm⟩ := ih (fun X hX => hw X (by simp [hX]))
    cases o with
    | setPredictive b => exact ⟨_, .setPredictive m0 m b ops hm⟩
    | train X =>
      have hX := hw X (by simp)
      obtain ⟨l, v, h1, _⟩ := dbTrain_spec dbD_comm_real m X hX _ (le_refl _)
      exact ⟨_, .train m0 m _ X ops _ hm hX h1⟩

/-- A prediction on a recorded sample then panics: two samples at 0 and 5, retrained on one sample at 0. -/
theorem C29_mixing_panics (m0 m : Dbscan ℝ) (h0 : dbscanNew 1 1 = ok m0)
    (h : DbRun m0 [.setPredictive true, .train ⟨1, [[0], [5]]⟩, .setPredictive false, .train ⟨1, [[0]]⟩, .setPredictive true] m) :
    dbPredict m ⟨1, [[5]]⟩ = panic := by
  obtain ⟨h3, h4, labels, h5, h6⟩ := C29_mixing_violation 1 1 m0 m h0 _ _ h
  have heps := (C29_history_state 1 1 m0 m h0 _ h).1
  have hlen : labels.length = 1 := h6.length
  unfold dbPredict
  rw [h3, h4, h5, heps]
  simp only [if_true]
  have : dbClassify (1 : ℝ) ⟨1, [[0], [5]]⟩ labels [5] = panic := by
    unfold dbClassify
    rw [mapM_dbDist _ _ (by simp)]
    simp only [ok_bind, List.map_cons, List.map_nil, eucl_one]
    rw [argminBy, argAux, if_pos (by norm_num [abs_of_pos]), argAux]
    simp only
    rw [if_pos (by norm_num)]
    unfold getAt
    rw [List.getElem?_eq_none (by omega)]
    rfl
  rw [List.mapM_cons, this]
  rfl

end RM
