import Mathlib.Data.List.GetD
import Verif.Props.KNN
import Verif.Proofs.TreeKinds
import Verif.Props.Dbscan
import Verif.Props.Gp
import Verif.Props.Regression

/-! C106: what more data, more features or a wider radius can and cannot change. -/

namespace RM
open Outcome Scalar Spec Matrix

/-- The data set with the rows `E` added at the end. -/
def Spec.withRows {F : Type} (X : Mat F) (E : List (List F)) : Mat F := ⟨X.cols, X.rows ++ E⟩

/-! ### Nearest neighbours -/

section knn
variable {F : Type} [Scalar F]

omit [Scalar F] in
theorem addLoop_length' [Scalar F] (ps : List (ℕ × F)) (x : ℕ × F) : ∀ (j : ℕ) (q : List (ℕ × F)), addLoop ps x j = ok q → q.length = ps.length + 1
  | 0, q, h => by
    rw [addLoop] at h
    cases h
    rfl
  | j + 1, q, h => by
    rw [addLoop] at h
    cases hp : ps[j]? with
    | none => rw [hp] at h; cases h
    | some p =>
      rw [hp] at h
      simp only at h
      split at h
      · cases h
        have : j < ps.length := (List.getElem?_eq_some_iff.mp hp).1
        rw [List.length_insertIdx]
        simp [Nat.succ_le_of_lt this]
      · exact addLoop_length' ps x j q h

theorem add_full {k : ℕ} (hk : 0 < k) {ps p1 : List (ℕ × F)} {i : ℕ} {d c1 : F} (hl : ps.length = k) (h : knearestAdd k ps i d = ok (p1, c1)) :
    p1.length = k ∧ ∃ l, p1.getLast? = some l ∧ l.2 = c1 := by
  have hlast : ∀ q : List (ℕ × F), q.length = k → ∀ p, q[k - 1]? = some p → q.getLast? = some p := by
    intro q hq p hp
    rw [List.getLast?_eq_getElem?, hq, hp]
  unfold knearestAdd at h
  simp only [hl, lt_irrefl, if_false, le_refl, if_true] at h
  cases hg : ps.getLast? with
  | none => rw [hg] at h; cases h
  | some last =>
    rw [hg] at h
    simp only at h
    split at h
    · cases hp : ps[k - 1]? with
      | none => rw [hp] at h; cases h
      | some p =>
        rw [hp] at h
        cases h
        exact ⟨hl, p, hlast _ hl p hp, rfl⟩
    · obtain ⟨q, hq, h⟩ := bind_eq_ok.1 h
      have hql : q.length = k := by
        rw [addLoop_length' _ _ _ _ hq, List.length_dropLast, hl]
        omega
      cases hp : q[k - 1]? with
      | none => rw [hp] at h; cases h
      | some p =>
        rw [hp] at h
        cases h
        exact ⟨hql, p, hlast _ hql p hp, rfl⟩

theorem offerAll_further {k : ℕ} (hk : 0 < k) : ∀ (rest more : List (ℕ × F)) (ps ps' : List (ℕ × F)) (cur : F), ps.length = k →
    (∃ l, ps.getLast? = some l ∧ l.2 = cur) → offerAll k rest ps cur = ok ps' →
    ps'.length = k ∧ ∃ l, ps'.getLast? = some l ∧ offerAll k (rest ++ more) ps cur = offerAll k more ps' l.2
  | [], more, ps, ps', cur, hl, hc, h => by
    rw [offerAll] at h
    cases h
    obtain ⟨l, h1, h2⟩ := hc
    exact ⟨hl, l, h1, by rw [h2]; rfl⟩
  | (i, d) :: rest, more, ps, ps', cur, hl, hc, h => by
    rw [List.cons_append]
    rw [offerAll] at h ⊢
    split at h
    · rename_i hd
      obtain ⟨q, hq, h⟩ := bind_eq_ok.1 h
      obtain ⟨a1, a2⟩ := add_full hk hl hq
      rw [if_pos hd, hq, ok_bind]
      exact offerAll_further hk rest more q.1 ps' q.2 a1 a2 h
    · rename_i hd
      rw [if_neg hd]
      exact offerAll_further hk rest more ps ps' cur hl hc h

theorem offerAll_far {k : ℕ} : ∀ (more ps : List (ℕ × F)) (cur : F), (∀ p ∈ more, (p.2 <. cur) = false) → offerAll k more ps cur = ok ps
  | [], _, _, _ => rfl
  | (i, d) :: more, ps, cur, h => by
    rw [offerAll, if_neg (by rw [h (i, d) (by simp)]; simp)]
    exact offerAll_far more ps cur fun p hp => h p (List.mem_cons_of_mem _ hp)

theorem indexedDists_append (p : List F) : ∀ (a b : List (List F)) (i : ℕ), indexedDists p i (a ++ b) = indexedDists p i a ++ indexedDists p (i + a.length) b
  | [], b, i => by simp [indexedDists]
  | r :: a, b, i => by
    rw [List.cons_append, indexedDists, indexedDists, indexedDists_append p a b (i + 1), List.cons_append, List.length_cons, Nat.add_assoc, Nat.add_comm 1]

theorem indexedDists_mem (p : List F) : ∀ (b : List (List F)) (i : ℕ), ∀ q ∈ indexedDists p i b, ∃ e ∈ b, q.2 = knnDist p e
  | [], i, q, h => by simp [indexedDists] at h
  | r :: b, i, q, h => by
    rw [indexedDists, List.mem_cons] at h
    rcases h with rfl | h
    · exact ⟨r, by simp, rfl⟩
    · obtain ⟨e, he, hq⟩ := indexedDists_mem p b (i + 1) q h
      exact ⟨e, List.mem_cons_of_mem _ he, hq⟩

theorem mapM_getAt_append {α : Type} (a b : List α) : ∀ (ids : List ℕ) (r : List α), ids.mapM (getAt a) = ok r → ids.mapM (getAt (a ++ b)) = ok r
  | [], r, h => h
  | i :: ids, r, h => by
    rw [List.mapM_cons] at h ⊢
    obtain ⟨x, hx, h⟩ := bind_eq_ok.1 h
    obtain ⟨s, hs, h⟩ := bind_eq_ok.1 h
    have hx' : getAt (a ++ b) i = ok x := by
      unfold getAt at hx ⊢
      cases ha : a[i]? with
      | none => rw [ha] at hx; cases hx
      | some v =>
        rw [ha] at hx
        rw [List.getElem?_append_left (List.getElem?_eq_some_iff.mp ha).1, ha]
        exact hx
    rw [hx', ok_bind, mapM_getAt_append a b ids s hs, ok_bind]
    exact h

theorem mapM_then {α β γ : Type} (f : α → Outcome β) (g : β → γ) : ∀ l : List α,
    (l.mapM fun a => f a >>= fun b => ok (g b)) = (l.mapM f >>= fun bs => ok (bs.map g))
  | [] => rfl
  | a :: l => by
    rw [List.mapM_cons, List.mapM_cons, mapM_then f g l]
    cases f a with
    | ok b => cases l.mapM f <;> rfl
    | err e => rfl
    | panic => rfl
    | ub => rfl

theorem range_getAt_le {α : Type} {l r : List α} {k : ℕ} (h : (List.range k).mapM (getAt l) = ok r) : k ≤ l.length := by
  by_contra hk
  have : ∀ ids : List ℕ, ∀ r, ids.mapM (getAt l) = ok r → ∀ i ∈ ids, i < l.length := by
    intro ids
    induction ids with
    | nil => simp
    | cons j ids ih =>
      intro r h i hi
      rw [List.mapM_cons] at h
      obtain ⟨x, hx, h⟩ := bind_eq_ok.1 h
      obtain ⟨s, hs, h⟩ := bind_eq_ok.1 h
      rcases List.mem_cons.mp hi with rfl | hi
      · unfold getAt at hx
        cases ha : l[i]? with
        | none => rw [ha] at hx; cases hx
        | some v => exact (List.getElem?_eq_some_iff.mp ha).1
      · exact ih s hs i hi
  exact lt_irrefl _ (this _ _ h l.length (List.mem_range.mpr (by omega)))

/-- **C106 (far samples, search).** Samples added to the training data that are not nearer to the query than the `k`-th neighbour found without them
do not change the result of the exhaustive search, in any arithmetic. -/
theorem C106_knn_search {X : Mat F} {p : List F} {k : ℕ} (hk : 1 ≤ k) {idx : List ℕ} {ds : List F} (h : bruteSearch (some X) p k = ok (idx, ds))
    (E : List (List F)) (hfar : ∀ e ∈ E, ∀ d, ds.getLast? = some d → (knnDist p e <. d) = false) :
    bruteSearch (some (withRows X E)) p k = ok (idx, ds) := by
  unfold bruteSearch at h ⊢
  simp only at h ⊢
  obtain ⟨dist, h1, h⟩ := bind_eq_ok.1 h
  obtain ⟨ps, h2, h⟩ := bind_eq_ok.1 h
  obtain ⟨cur, h3, h⟩ := bind_eq_ok.1 h
  obtain ⟨ps', h4, h⟩ := bind_eq_ok.1 h
  have hids : (List.range k).isEmpty = false := by
    rw [List.isEmpty_eq_false_iff]
    intro h0
    have := congrArg List.length h0
    simp at this
    omega
  unfold getDistances at h1 ⊢
  rw [hids] at h1 ⊢
  have h1' : ((List.range k).mapM (getAt X.rows) >>= fun rs => ok (rs.map (knnDist p))) = ok dist := by
    rw [← h1]
    exact (mapM_then _ _ _).symm
  obtain ⟨rs, hrs, h1'⟩ := bind_eq_ok.1 h1'
  have hkn : k ≤ X.rows.length := range_getAt_le hrs
  have hd' : ((List.range k).mapM fun id => getAt (withRows X E).rows id >>= fun row => ok (knnDist p row)) = ok dist := by
    rw [mapM_then, show (withRows X E).rows = X.rows ++ E from rfl, mapM_getAt_append _ _ _ _ hrs, ok_bind]
    exact h1'
  have hdl : dist.length = k := by
    cases h1'
    rw [List.length_map, mapM_length hrs, List.length_range]
  have hps : ps.length = k := by
    unfold knearestNew at h2
    simp only at h2
    split at h2
    · cases h2
    · cases h2
      simp [hdl]
  have hcur : ∃ l, ps.getLast? = some l ∧ l.2 = cur := by
    unfold knearestDist at h3
    rw [if_neg (by omega)] at h3
    cases hg : ps.getLast? with
    | none => rw [hg] at h3; cases h3
    | some l => rw [hg] at h3; cases h3; exact ⟨l, rfl, rfl⟩
  obtain ⟨hl', l, hl1, hl2⟩ := offerAll_further (by omega) _ (indexedDists p (k + (X.rows.drop k).length) E) ps ps' cur hps hcur h4
  have hds : ds.getLast? = some l.2 := by
    cases h
    simp [hl1]
  have hout : offerAll k (indexedDists p k ((withRows X E).rows.drop k)) ps cur = ok ps' := by
    rw [show (withRows X E).rows = X.rows ++ E from rfl, List.drop_append_of_le_length hkn, indexedDists_append, hl2]
    refine offerAll_far _ _ _ fun q hq => ?_
    obtain ⟨e, he, hqe⟩ := indexedDists_mem p E _ q hq
    rw [hqe]
    exact hfar e he _ hds
  rw [show (Outcome.assert (!false)) = ok () from rfl, ok_bind, hd', ok_bind, h2, ok_bind, h3, ok_bind, hout, ok_bind]
  exact h

/-- **C106 (far samples, classification).** Adding such samples, with any labels, does not change the predicted class. -/
theorem C106_knn {X Z : Mat F} {k : ℕ} (hk : 1 ≤ k) {t ls : List ℕ} (h : knnPredict bruteSearcher ⟨k, some X, some t⟩ Z = ok ls)
    (E : List (List F)) (t' : List ℕ)
    (hfar : ∀ z ∈ Z.rows, ∀ idx ds d, bruteSearch (some X) z k = ok (idx, ds) → ds.getLast? = some d → ∀ e ∈ E, (knnDist z e <. d) = false) :
    knnPredict bruteSearcher ⟨k, some (withRows X E), some (t ++ t')⟩ Z = ok ls := by
  unfold knnPredict at h ⊢
  simp only at h ⊢
  rw [← h]
  have key : ∀ (zs : List (List F)) (ls : List ℕ), (∀ z ∈ zs, ∀ idx ds d, bruteSearch (some X) z k = ok (idx, ds) → ds.getLast? = some d → ∀ e ∈ E, (knnDist z e <. d) = false) →
      (zs.mapM fun row => do
        let (idx, _) ← (bruteSearcher (F := F)).search (some X) row k
        knnVote t idx) = ok ls →
      (zs.mapM fun row => do
        let (idx, _) ← (bruteSearcher (F := F)).search (some (withRows X E)) row k
        knnVote (t ++ t') idx) = ok ls := by
    intro zs
    induction zs with
    | nil => exact fun ls _ h => h
    | cons z zs ih =>
      intro ls hf h
      rw [List.mapM_cons] at h ⊢
      obtain ⟨v, hv, h⟩ := bind_eq_ok.1 h
      obtain ⟨vs, hvs, h⟩ := bind_eq_ok.1 h
      obtain ⟨⟨idx, ds⟩, hs, hv⟩ := bind_eq_ok.1 hv
      have hs' := C106_knn_search hk hs E fun e he d hd => hf z (by simp) idx ds d hs hd e he
      have hv' : knnVote (t ++ t') idx = ok v := by
        unfold knnVote at hv ⊢
        obtain ⟨res, hres, hv⟩ := bind_eq_ok.1 hv
        rw [mapM_getAt_append _ _ _ _ hres, ok_bind]
        exact hv
      have e1 : (do
          let (idx, _) ← (bruteSearcher (F := F)).search (some (withRows X E)) z k
          knnVote (t ++ t') idx) = ok v := by
        rw [show (bruteSearcher (F := F)).search (some (withRows X E)) z k = ok (idx, ds) from hs', ok_bind]
        exact hv'
      rw [e1, ok_bind, ih vs (fun z hz => hf z (List.mem_cons_of_mem _ hz)) hvs, ok_bind]
      exact h
  rw [key _ _ hfar h, h]

end knn

/-! ### DBSCAN -/

theorem core_wider {n n' mp mp' : ℕ} {near near' : ℕ → ℕ → Prop} (hn : n ≤ n') (hp : mp' ≤ mp) (hnear : ∀ i j, i < n → j < n → near i j → near' i j)
    {i : ℕ} (hi : i < n) (h : IsCore n mp near i) : IsCore n' mp' near' i := by
  obtain ⟨s, h1, h2⟩ := h
  exact ⟨s, hp.trans h1, fun j hj => ⟨(h2 j hj).1.trans_le hn, hnear i j hi (h2 j hj).1 (h2 j hj).2⟩⟩

theorem linked_wider {n n' mp mp' : ℕ} {near near' : ℕ → ℕ → Prop} (hn : n ≤ n') (hp : mp' ≤ mp) (hnear : ∀ i j, i < n → j < n → near i j → near' i j)
    {i j : ℕ} (h : Linked n mp near i j) : Linked n' mp' near' i j := by
  induction h with
  | refl => exact Relation.ReflTransGen.refl
  | tail _ hbc ih =>
    obtain ⟨h1, h2, h3, h4, h5⟩ := hbc
    exact ih.tail ⟨h1.trans_le hn, h2.trans_le hn, core_wider hn hp hnear h1 h3, core_wider hn hp hnear h2 h4, hnear _ _ h1 h2 h5⟩

theorem nearR_withRows {eps eps' : ℝ} (he : eps ≤ eps') (X : Mat ℝ) (E : List (List ℝ)) (i j : ℕ) (hi : i < X.rows.length) (hj : j < X.rows.length)
    (h : NearR eps X i j) : NearR eps' (withRows X E) i j := by
  unfold NearR withRows at *
  simp only
  rw [List.getD_append _ _ _ _ hi, List.getD_append _ _ _ _ hj]
  exact h.trans_le he

/-- The labels a training of DBSCAN leaves are the density clustering. -/
theorem dbscan_labels {m a : Dbscan ℝ} {X : Mat ℝ} (hw : X.WF) {fuel : ℕ} (h : dbTrain fuel m X = some (ok a)) {l : List (Option ℕ)} (hl : a.clusters = some l) :
    IsDensityClustering X.rows.length m.minPoints (NearR m.eps X) l := by
  obtain ⟨labels, h1, -, h3⟩ := C26_train m X hw
  obtain ⟨m', e, h4⟩ := h3 fuel _ h
  cases e
  rw [hl] at h4
  cases h4
  exact h1

/-- **C106 (wider radius, smaller neighbourhoods, more samples).** Training with a radius that is not smaller, a minimal number of neighbours that is not larger
and possibly further samples, every sample that was in a cluster is still in a cluster, and samples that shared a cluster share one. -/
theorem C106_dbscan_wider {m m' a a' : Dbscan ℝ} (he : m.eps ≤ m'.eps) (hp : m'.minPoints ≤ m.minPoints) {X : Mat ℝ} {E : List (List ℝ)} (hw : (withRows X E).WF)
    {fuel fuel' : ℕ} (h : dbTrain fuel m X = some (ok a)) (h' : dbTrain fuel' m' (withRows X E) = some (ok a')) {l l' : List (Option ℕ)}
    (hl : a.clusters = some l) (hl' : a'.clusters = some l') (i j c : ℕ) (hi : l[i]? = some (some c)) (hj : l[j]? = some (some c)) :
    ∃ c', l'[i]? = some (some c') ∧ l'[j]? = some (some c') := by
  have hX : X.WF := fun r hr => hw r (List.mem_append_left _ hr)
  have d := dbscan_labels hX h hl
  have d' := dbscan_labels hw h' hl'
  have hn : X.rows.length ≤ (withRows X E).rows.length := by simp [withRows]
  have hnear := nearR_withRows he X E
  have hin : i < X.rows.length := by rw [← d.length]; exact (List.getElem?_eq_some_iff.mp hi).1
  have hjn : j < X.rows.length := by rw [← d.length]; exact (List.getElem?_eq_some_iff.mp hj).1
  obtain ⟨c1, h1⟩ := (d'.labelled i (hin.trans_le hn)).mpr (core_wider hn hp hnear hin ((d.labelled i hin).mp ⟨c, hi⟩))
  obtain ⟨c2, h2⟩ := (d'.labelled j (hjn.trans_le hn)).mpr (core_wider hn hp hnear hjn ((d.labelled j hjn).mp ⟨c, hj⟩))
  have hlk := (d'.same i j c1 c2 h1 h2).mpr (linked_wider hn hp hnear ((d.same i j c c hi hj).mp rfl))
  exact ⟨c1, h1, by rw [hlk]; exact h2⟩

/-- Part of a density clustering, the other samples being far. -/
theorem clustering_take {n n' mp : ℕ} {near near' : ℕ → ℕ → Prop} (hn : n ≤ n') (hsame : ∀ i j, i < n → j < n → (near i j ↔ near' i j))
    (hfar : ∀ i j, i < n → j < n' → near' i j → j < n) {l : List (Option ℕ)} (h : IsDensityClustering n' mp near' l) :
    IsDensityClustering n mp near (l.take n) := by
  have hcore : ∀ i, i < n → (IsCore n mp near i ↔ IsCore n' mp near' i) := by
    intro i hi
    constructor
    · exact core_wider hn le_rfl (fun a b ha hb => (hsame a b ha hb).mp) hi
    · rintro ⟨s, h1, h2⟩
      refine ⟨s, h1, fun j hj => ?_⟩
      have hjn := hfar i j hi (h2 j hj).1 (h2 j hj).2
      exact ⟨hjn, (hsame i j hi hjn).mpr (h2 j hj).2⟩
  have hlink : ∀ i j, i < n → Linked n' mp near' i j → j < n ∧ Linked n mp near i j := by
    intro i j hi hl
    induction hl with
    | refl => exact ⟨hi, Relation.ReflTransGen.refl⟩
    | tail _ hbc ih =>
      obtain ⟨h1, h2, h3, h4, h5⟩ := hbc
      obtain ⟨hb, ih⟩ := ih
      have hc := hfar _ _ hb h2 h5
      exact ⟨hc, ih.tail ⟨hb, hc, (hcore _ hb).mpr h3, (hcore _ hc).mpr h4, (hsame _ _ hb hc).mpr h5⟩⟩
  have hget : ∀ i c, (l.take n)[i]? = some (some c) ↔ i < n ∧ l[i]? = some (some c) := by
    intro i c
    rw [List.getElem?_take]
    split
    · simp [*]
    · simp [*]
  constructor
  · rw [List.length_take, h.length]
    omega
  · intro i hi
    rw [hcore i hi, ← h.labelled i (hi.trans_le hn)]
    simp only [hget, hi, true_and]
  · intro i j c c' hi hj
    rw [hget] at hi hj
    rw [h.same i j c c' hi.2 hj.2]
    exact ⟨fun hl => (hlink i j hi.1 hl).2, linked_wider hn le_rfl fun a b ha hb => (hsame a b ha hb).mp⟩
  · intro i c c' hi hc
    rw [hget] at hi
    obtain ⟨j, h1, h2⟩ := h.order i c c' hi.2 hc
    exact ⟨j, h1, (hget j c').mpr ⟨h1.trans hi.1, h2⟩⟩

/-- **C106 (far samples, clusters).** Samples that are added and are not within the radius of any sample that was there leave the labels of those as they were. -/
theorem C106_dbscan_far {m a a' : Dbscan ℝ} {X : Mat ℝ} {E : List (List ℝ)} (hw : (withRows X E).WF) (hfar : ∀ x ∈ X.rows, ∀ e ∈ E, m.eps ≤ eucl x e)
    {fuel fuel' : ℕ} (h : dbTrain fuel m X = some (ok a)) (h' : dbTrain fuel' m (withRows X E) = some (ok a')) {l l' : List (Option ℕ)}
    (hl : a.clusters = some l) (hl' : a'.clusters = some l') : l'.take X.rows.length = l := by
  have hX : X.WF := fun r hr => hw r (List.mem_append_left _ hr)
  have d := dbscan_labels hX h hl
  have d' := dbscan_labels hw h' hl'
  refine C26_labels_unique (clustering_take (by simp [withRows]) ?_ ?_ d') d
  · intro i j hi hj
    unfold NearR withRows
    simp only
    rw [List.getD_append _ _ _ _ hi, List.getD_append _ _ _ _ hj]
  · intro i j hi hj hn
    by_contra hjn
    have hjE : j - X.rows.length < E.length := by
      simp only [withRows, List.length_append] at hj
      omega
    unfold NearR withRows at hn
    simp only at hn
    rw [List.getD_append _ _ _ _ hi, List.getD_append_right _ _ _ _ (by omega), List.getD_eq_getElem _ _ hi, List.getD_eq_getElem _ _ hjE] at hn
    exact absurd hn (not_lt.mpr (hfar _ (List.getElem_mem hi) _ (List.getElem_mem hjE)))

/-! ### Linear regression -/

/-- The sum of the squared differences of targets and predictions. -/
def Spec.squaredError (y p : List ℝ) : ℝ := (List.zipWith (fun t q => (t - q) ^ 2) y p).sum

theorem rss_squaredError (X : Mat ℝ) (β : List ℝ) : ∀ y : List ℝ, rss X y β = squaredError y (X.rows.map (affine β)) := by
  obtain ⟨c, rows⟩ := X
  unfold rss squaredError
  induction rows with
  | nil => intro y; cases y <;> rfl
  | cons x rows ih =>
    intro y
    cases y with
    | nil => rfl
    | cons t y =>
      simp only [List.zipWith_cons_cons, List.map_cons, List.sum_cons]
      rw [← ih y]

theorem rss_withRows (X : Mat ℝ) (E : List (List ℝ)) {y : List ℝ} (hy : y.length = X.rows.length) (t β : List ℝ) :
    rss (withRows X E) (y ++ t) β = rss X y β + rss ⟨X.cols, E⟩ t β := by
  unfold rss withRows
  simp only
  rw [List.zipWith_append hy.symm, List.sum_append]

theorem affine_pad {β x : List ℝ} (hb : β.length = x.length + 1) (e : List ℝ) (n : ℕ) : affine (β ++ List.replicate n 0) (x ++ e) = affine β x := by
  have zero : ∀ (e : List ℝ) (n : ℕ), Spec.inner e (List.replicate n 0) = 0 := by
    intro e
    induction e with
    | nil => intro n; rfl
    | cons a e ih =>
      intro n
      cases n with
      | zero => rfl
      | succ n =>
        have := ih n
        unfold Spec.inner at this ⊢
        rw [List.replicate_succ, List.zipWith_cons_cons, List.sum_cons, this, mul_zero, add_zero]
  cases β with
  | nil => simp at hb
  | cons b β =>
    have hl : x.length = β.length := by simpa using hb.symm
    unfold affine
    simp only [List.cons_append, List.headD_cons, List.tail_cons]
    have : Spec.inner (x ++ e) (β ++ List.replicate n 0) = Spec.inner x β + Spec.inner e (List.replicate n 0) := by
      unfold Spec.inner
      rw [List.zipWith_append hl, List.sum_append]
    rw [this, zero, add_zero]

section lin
variable {solve : Mat ℝ → List ℝ → Outcome (List ℝ)} (hs : SolvesExactly solve)
include hs

/-- **C106 (more features).** If further features are added to every sample, the squared error of the fit on its training data does not increase. -/
theorem C106_lin_features {X X' : Mat ℝ} (hX : X.WF) (hX' : X'.WF) (hc : X.cols ≤ X'.cols) (hext : List.Forall₂ (fun x x' => x <+: x') X.rows X'.rows)
    {y : List ℝ} {m m' : LinReg ℝ} (h : LinReg.train solve X y = ok m) (h' : LinReg.train solve X' y = ok m') :
    ∃ p p', m.predict X = ok p ∧ m'.predict X' = ok p' ∧ squaredError y p' ≤ squaredError y p := by
  obtain ⟨β, hm, hb, hmin⟩ := C48_least_squares hs X hX y m h
  obtain ⟨β', hm', hb', hmin'⟩ := C48_least_squares hs X' hX' y m' h'
  obtain ⟨pm⟩ := m
  obtain ⟨pm'⟩ := m'
  cases hm
  cases hm'
  refine ⟨_, _, C48_predict β X hb, C48_predict β' X' hb', ?_⟩
  rw [← rss_squaredError, ← rss_squaredError]
  have e : rss X' y (β ++ List.replicate (X'.cols - X.cols) 0) = rss X y β := by
    rw [rss_squaredError, rss_squaredError]
    congr 1
    have hw : ∀ x ∈ X.rows, β.length = x.length + 1 := fun x hx => by rw [hb, hX x hx]
    clear hmin hmin' h h' hX hX'
    generalize X'.cols - X.cols = n
    generalize X.rows = rows at hext hw ⊢
    generalize X'.rows = rows' at hext ⊢
    revert hw
    induction hext with
    | nil => intro _; rfl
    | cons hab _ ih =>
      intro hw
      obtain ⟨e, rfl⟩ := hab
      rw [List.map_cons, List.map_cons, affine_pad (hw _ (by simp)), ih fun x hx => hw x (List.mem_cons_of_mem _ hx)]
  rw [← e]
  by_cases hne : β ++ List.replicate (X'.cols - X.cols) 0 = β'
  · rw [hne]
  · refine (hmin' _ ?_ hne).le
    rw [List.length_append, List.length_replicate, hb]
    omega

/-- **C106 (more samples).** After training with further samples, the old samples are fitted no better than before, and the new ones no worse. -/
theorem C106_lin_samples {X : Mat ℝ} {E : List (List ℝ)} (hw : (withRows X E).WF) {y t : List ℝ} {m m' : LinReg ℝ} (h : LinReg.train solve X y = ok m)
    (h' : LinReg.train solve (withRows X E) (y ++ t) = ok m') :
    ∃ p p' q q', m.predict X = ok p ∧ m'.predict X = ok p' ∧ m.predict ⟨X.cols, E⟩ = ok q ∧ m'.predict ⟨X.cols, E⟩ = ok q' ∧
      squaredError y p ≤ squaredError y p' ∧ squaredError t q' ≤ squaredError t q := by
  have hX : X.WF := fun r hr => hw r (List.mem_append_left _ hr)
  obtain ⟨β, hm, hb, hmin⟩ := C48_least_squares hs X hX y m h
  obtain ⟨β', hm', hb', hmin'⟩ := C48_least_squares hs (withRows X E) hw (y ++ t) m' h'
  obtain ⟨_, -, hy, -⟩ := linTrain_normal hs hX h
  obtain ⟨pm⟩ := m
  obtain ⟨pm'⟩ := m'
  cases hm
  cases hm'
  refine ⟨_, _, _, _, C48_predict β X hb, C48_predict β' X hb', C48_predict β ⟨X.cols, E⟩ hb, C48_predict β' ⟨X.cols, E⟩ hb', ?_⟩
  rw [← rss_squaredError, ← rss_squaredError]
  have e1 := rss_squaredError ⟨X.cols, E⟩ β t
  have e2 := rss_squaredError ⟨X.cols, E⟩ β' t
  simp only at e1 e2 ⊢
  rw [← e1, ← e2]
  have a1 : rss X y β ≤ rss X y β' := by
    by_cases hne : β' = β
    · rw [hne]
    · exact (hmin β' hb' hne).le
  have a2 : rss (withRows X E) (y ++ t) β' ≤ rss (withRows X E) (y ++ t) β := by
    by_cases hne : β = β'
    · rw [hne]
    · exact (hmin' β hb hne).le
  rw [rss_withRows X E hy, rss_withRows X E hy] at a2
  exact ⟨a1, by linarith⟩

/-- **C106 (samples on the fitted plane).** If the new targets are what the model predicts for the new samples, training on everything gives the same model.
(With a solver that solves every regular system this training cannot fail.) -/
theorem C106_lin_same (hr : SolvesRegular solve) {X : Mat ℝ} {E : List (List ℝ)} (hw : (withRows X E).WF) {y t : List ℝ} {m : LinReg ℝ}
    (h : LinReg.train solve X y = ok m) (ht : m.predict ⟨X.cols, E⟩ = ok t) : LinReg.train solve (withRows X E) (y ++ t) = ok m := by
  have hX : X.WF := fun r hr => hw r (List.mem_append_left _ hr)
  obtain ⟨β, hm, hb, hmin⟩ := C48_least_squares hs X hX y m h
  obtain ⟨_, -, hy, -⟩ := linTrain_normal hs hX h
  obtain ⟨pm⟩ := m
  cases hm
  rw [C48_predict β ⟨X.cols, E⟩ hb] at ht
  cases ht
  have hai := (C48_succeeds_iff hs hr X hX y hy).mp ⟨_, h⟩
  obtain ⟨m', h'⟩ := (C48_succeeds_iff hs hr (withRows X E) hw (y ++ E.map (affine β)) (by simp [withRows, hy])).mpr
    fun γ hγ h0 => hai γ hγ fun x hx => h0 x (List.mem_append_left _ hx)
  obtain ⟨β', hm', hb', hmin'⟩ := C48_least_squares hs (withRows X E) hw _ m' h'
  rw [h']
  obtain ⟨pm'⟩ := m'
  cases hm'
  by_cases hne : β = β'
  · rw [hne]
  · exfalso
    have a2 := hmin' β hb hne
    rw [rss_withRows X E hy, rss_withRows X E hy] at a2
    have a1 := hmin β' hb' (Ne.symm hne)
    have z : rss ⟨X.cols, E⟩ (E.map (affine β)) β = 0 := by
      unfold rss
      simp only
      rw [List.zipWith_map_right, List.zipWith_self]
      simp
    have nn : 0 ≤ rss ⟨X.cols, E⟩ (E.map (affine β)) β' := by
      unfold rss
      apply List.sum_nonneg
      intro v hv
      simp only [List.zipWith_map_right, List.zipWith_self, List.mem_map] at hv
      obtain ⟨_, _, rfl⟩ := hv
      exact sq_nonneg _
    linarith

end lin

/-! ### Gaussian processes -/

/-- The inverse of a positive matrix, seen through part of the coordinates. -/
theorem inverse_part {n n' : ℕ} {A : Matrix (Fin n) (Fin n) ℝ} {A' : Matrix (Fin n') (Fin n') ℝ} (hA : A.det ≠ 0) (hA' : PosDefinite A')
    (ι : Fin n → Fin n') (hsub : ∀ i j, A i j = A' (ι i) (ι j)) {b : Fin n → ℝ} {b' : Fin n' → ℝ} (hb : ∀ i, b i = b' (ι i)) :
    b ⬝ᵥ A⁻¹.mulVec b ≤ b' ⬝ᵥ A'⁻¹.mulVec b' := by
  have hx : A'.mulVec (A'⁻¹.mulVec b') = b' := by
    rw [mulVec_mulVec, mul_nonsing_inv _ (isUnit_iff_ne_zero.mpr (posDefinite_det hA')), one_mulVec]
  have hu : A.mulVec (A⁻¹.mulVec b) = b := by
    rw [mulVec_mulVec, mul_nonsing_inv _ (isUnit_iff_ne_zero.mpr hA), one_mulVec]
  generalize A'⁻¹.mulVec b' = x at *
  generalize A⁻¹.mulVec b = u at *
  let w : Fin n' → ℝ := fun j => ∑ i, if ι i = j then u i else 0
  have hw : ∀ f : Fin n' → ℝ, w ⬝ᵥ f = ∑ i, u i * f (ι i) := by
    intro f
    simp only [dotProduct, w, Finset.sum_mul, ite_mul, zero_mul]
    rw [Finset.sum_comm]
    simp
  have hAw : ∀ i, A'.mulVec w (ι i) = b i := by
    intro i
    rw [← congrFun hu i]
    simp only [mulVec]
    rw [dotProduct_comm, hw]
    simp only [dotProduct, hsub]
    exact Finset.sum_congr rfl fun j _ => mul_comm _ _
  have ww : w ⬝ᵥ A'.mulVec w = b ⬝ᵥ u := by
    rw [hw, dotProduct]
    exact Finset.sum_congr rfl fun i _ => by rw [hAw, mul_comm]
  have wx : w ⬝ᵥ A'.mulVec x = b ⬝ᵥ u := by
    rw [hw, dotProduct, hx]
    exact Finset.sum_congr rfl fun i _ => by rw [hb, mul_comm]
  have xw : x ⬝ᵥ A'.mulVec w = b ⬝ᵥ u := by
    rw [← wx, dotProduct_mulVec, ← mulVec_transpose, hA'.1, dotProduct_comm]
  have xx : x ⬝ᵥ A'.mulVec x = b' ⬝ᵥ x := by rw [hx, dotProduct_comm]
  have hpos : 0 ≤ (x - w) ⬝ᵥ A'.mulVec (x - w) := by
    by_cases h0 : x - w = 0
    · rw [h0, zero_dotProduct]
    · exact (hA'.2 _ h0).le
  rw [mulVec_sub, sub_dotProduct, dotProduct_sub, dotProduct_sub, ww, wx, xw, xx] at hpos
  linarith

/-- The positions in a data set of the rows of a part of it. -/
theorem part_positions {X X' : Mat ℝ} (hs : X.rows.Sublist X'.rows) :
    ∃ ι : Fin X.rows.length → Fin X'.rows.length, Function.Injective ι ∧ ∀ i : Fin X.rows.length, X.rows.getD i [] = X'.rows.getD (ι i) [] := by
  obtain ⟨f, hf⟩ := List.sublist_iff_exists_fin_orderEmbedding_get_eq.mp hs
  refine ⟨f, f.injective, fun i => ?_⟩
  rw [List.getD_eq_getElem _ _ i.2, List.getD_eq_getElem _ _ (f i).2]
  exact hf i

theorem noisyGram_part {X X' : Mat ℝ} {ι : Fin X.rows.length → Fin X'.rows.length} (hi : Function.Injective ι)
    (hr : ∀ i : Fin X.rows.length, X.rows.getD i [] = X'.rows.getD (ι i) []) (k : List ℝ → List ℝ → ℝ) (s : ℝ) (i j : Fin X.rows.length) :
    noisyGram k s X i j = noisyGram k s X' (ι i) (ι j) := by
  unfold noisyGram gram
  simp only [Matrix.add_apply, of_apply, Matrix.smul_apply, hr, Matrix.one_apply, hi.eq_iff]

section gp
variable {lib : TriLib ℝ} (hl : TriLibOk lib) {g g1 g2 : Gp ℝ} {k : List ℝ → List ℝ → ℝ} (hk : IsKernel g.ker k) (hm : MeanSized g.mean)
  {X X' : Mat ℝ} (hX : X.WF) (hX' : X'.WF) (hs : X.rows.Sublist X'.rows) {y y' : List ℝ}
include hl hk hm hX hX' hs

/-- **C106 (part of the data).** A Gaussian process that can be trained on a data set can be trained on every part of it, whatever the targets. -/
theorem C106_gp_part (h : g.train lib X' y' = ok g2) (hy : y.length = X.rows.length) : ∃ g1, g.train lib X y = ok g1 := by
  obtain ⟨l, alpha, e, -, -, -, -, -, hpd, -⟩ := gp_alpha hl hk hm hX' h
  obtain ⟨ι, hi, hr⟩ := part_positions hs
  rw [(C59_train_iff hl hk hm hX hy).1]
  refine ⟨noisyGram_symm hk hX _, fun v hv => ?_⟩
  let w : Fin X'.rows.length → ℝ := fun j => ∑ i, if ι i = j then v i else 0
  have hw : ∀ f : Fin X'.rows.length → ℝ, w ⬝ᵥ f = ∑ i, v i * f (ι i) := by
    intro f
    simp only [dotProduct, w, Finset.sum_mul, ite_mul, zero_mul]
    rw [Finset.sum_comm]
    simp
  have hwi : ∀ i, w (ι i) = v i := by
    intro i
    simp only [w, hi.eq_iff]
    simp
  have hw0 : w ≠ 0 := by
    intro h0
    apply hv
    funext i
    rw [← hwi, h0]
    rfl
  have := hpd.2 w hw0
  rw [hw] at this
  have e : ∀ i, (noisyGram k g.noise X').mulVec w (ι i) = (noisyGram k g.noise X).mulVec v i := by
    intro i
    simp only [mulVec]
    rw [dotProduct_comm, hw]
    simp only [dotProduct, noisyGram_part hi hr]
    exact Finset.sum_congr rfl fun j _ => mul_comm _ _
  simp only [e] at this
  exact this

/-- **C106 (uncertainty).** More training data never make a Gaussian process less certain: with the data set `X'` that contains `X`, whatever the targets, the
posterior covariance is smaller in the order of positive semidefinite matrices; in particular no variance grows. -/
theorem C106_gp (h : g.train lib X y = ok g1) (h' : g.train lib X' y' = ok g2) {Z : Mat ℝ} (hZ : Z.WF) (hc : Z.cols = X.cols) (hc' : X'.cols = X.cols) :
    ∃ p S p' S', g1.posterior lib Z = ok (p, S) ∧ g2.posterior lib Z = ok (p', S') ∧
      PosSemi (toM Z.rows.length Z.rows.length S - toM Z.rows.length Z.rows.length S') ∧ ∀ i < Z.rows.length, ent S' i i ≤ ent S i i := by
  obtain ⟨p, S, -, h2, -, h4, h5, -, -⟩ := C59_posterior hl hk hm hX h hZ hc
  obtain ⟨p', S', -, h2', -, h4', h5', -, -⟩ := C59_posterior hl hk hm hX' h' hZ (hc.trans hc'.symm)
  obtain ⟨_, _, -, -, -, -, -, -, hpd', -⟩ := gp_alpha hl hk hm hX' h'
  obtain ⟨_, _, -, -, -, -, -, -, hpd, -⟩ := gp_alpha hl hk hm hX h
  obtain ⟨ι, hi, hr⟩ := part_positions hs
  have quad : ∀ (Y : Mat ℝ), Y.WF → Z.cols = Y.cols → ∀ v : Fin Z.rows.length → ℝ,
      v ⬝ᵥ (gram k Z Y * (noisyGram k g.noise Y)⁻¹ * gram k Y Z).mulVec v =
        (gram k Y Z).mulVec v ⬝ᵥ (noisyGram k g.noise Y)⁻¹.mulVec ((gram k Y Z).mulVec v) := by
    intro Y hY hcY v
    rw [← mulVec_mulVec, ← mulVec_mulVec, dotProduct_mulVec, ← mulVec_transpose, gram_symm hk hZ hY hcY]
  have hps : PosSemi (toM Z.rows.length Z.rows.length S - toM Z.rows.length Z.rows.length S') := by
    refine ⟨by rw [transpose_sub, h5, h5'], fun v => ?_⟩
    rw [h4, h4', sub_sub_sub_cancel_left, sub_mulVec, dotProduct_sub, quad X hX hc, quad X' hX' (hc.trans hc'.symm), sub_nonneg]
    refine inverse_part (posDefinite_det hpd) hpd' ι (noisyGram_part hi hr k g.noise) fun i => ?_
    simp only [mulVec, dotProduct, gram, of_apply, hr]
  refine ⟨p, S, p', S', h2, h2', hps, fun i hi => ?_⟩
  have := hps.2 (Pi.single ⟨i, hi⟩ 1)
  rw [mulVec_single_one, single_one_dotProduct] at this
  simpa [toM] using this

end gp

/-! ### The hypotheses can be met -/

/-- Nearest neighbours: the query 0 among 0 and 1, the sample 5 being added. -/
example : bruteSearch (some (withRows (⟨1, [[0], [1]]⟩ : Mat ℝ) [[5]])) [0] 1 = ok ([0], [0]) := by
  have h : bruteSearch (some (⟨1, [[0], [1]]⟩ : Mat ℝ)) [0] 1 = ok ([0], [0]) := by
    simp [bruteSearch, getDistances, List.range_succ, getAt, ofOption, knearestNew, knearestDist, indexedDists, offerAll, knearestResults, knnDist_real, Outcome.assert, ok_bind]
    rw [if_neg (by norm_num), ok_bind]
    simp
  refine C106_knn_search le_rfl h _ ?_
  intro e he d hd
  simp at he hd
  subst he hd
  simp [knnDist_real]

/-- DBSCAN: the three points of `borderData` with radius 1, the point 50 being added; training finishes on both data sets. -/
example : (withRows borderData [[50]]).WF ∧ (∀ x ∈ borderData.rows, ∀ e ∈ [[(50 : ℝ)]], 1 ≤ eucl x e) ∧
    ∃ l l' : List (Option ℕ), ∃ a a' : Dbscan ℝ, ∃ fuel, dbTrain fuel ⟨1, 3, none, false, [], none⟩ borderData = some (ok a) ∧
      dbTrain fuel ⟨1, 3, none, false, [], none⟩ (withRows borderData [[50]]) = some (ok a') ∧ a.clusters = some l ∧ a'.clusters = some l' := by
  have hw : (withRows borderData [[50]]).WF := by
    intro r hr
    simp [withRows, borderData] at hr
    rcases hr with rfl | rfl | rfl | rfl <;> rfl
  refine ⟨hw, ?_, ?_⟩
  · intro x hx e he
    simp only [List.mem_singleton] at he
    subst he
    simp [borderData] at hx
    rcases hx with rfl | rfl | rfl
    all_goals
      simp only [eucl, List.zipWith_cons_cons, List.zipWith_nil_left, List.sum_cons, List.sum_nil]
      rw [Real.one_le_sqrt]
      norm_num
  · obtain ⟨l, -, ⟨f1, h1⟩, h2⟩ := C26_train ⟨1, 3, none, false, [], none⟩ borderData borderData_WF
    obtain ⟨l', -, ⟨f2, h1'⟩, h2'⟩ := C26_train ⟨1, 3, none, false, [], none⟩ (withRows borderData [[50]]) hw
    obtain ⟨a, ha⟩ := h1 (max f1 f2) (le_max_left _ _)
    obtain ⟨a', ha'⟩ := h1' (max f1 f2) (le_max_right _ _)
    obtain ⟨b, e, hb⟩ := h2 _ _ ha
    obtain ⟨b', e', hb'⟩ := h2' _ _ ha'
    cases e
    cases e'
    exact ⟨l, l', a, a', _, ha, ha', hb, hb'⟩

theorem line_independent : AffinelyIndependent ⟨1, [[0], [1], [2]]⟩ := by
  intro β hb h
  obtain ⟨a, b, rfl⟩ := List.length_eq_two.mp hb
  have h0 := h [0] (by simp)
  have h1 := h [1] (by simp)
  simp [affine, Spec.inner] at h0 h1
  subst h0
  simp only [zero_add] at h1
  subst h1
  rfl

/-- Linear regression: three points on a line with any targets, the sample 7 being added with the target predicted for it. -/
example (a b c : ℝ) : ∃ m t, LinReg.train (gaussSolve 0) ⟨1, [[0], [1], [2]]⟩ [a, b, c] = ok m ∧ m.predict ⟨1, [[7]]⟩ = ok t ∧
    LinReg.train (gaussSolve 0) (withRows ⟨1, [[0], [1], [2]]⟩ [[7]]) ([a, b, c] ++ t) = ok m := by
  have hs := gaussSolve_exact 0 le_rfl
  have hX : (⟨1, [[0], [1], [2]]⟩ : Mat ℝ).WF := by intro r hr; simp at hr; rcases hr with rfl | rfl | rfl <;> rfl
  obtain ⟨m, hm⟩ := (C48_succeeds_iff hs gaussSolve_regular ⟨1, [[0], [1], [2]]⟩ hX [a, b, c] rfl).mpr line_independent
  obtain ⟨β, hp, hb, -⟩ := C48_least_squares hs _ hX _ _ hm
  have ht : m.predict ⟨1, [[7]]⟩ = ok ([[7]].map (affine β)) := by
    obtain ⟨pm⟩ := m
    cases hp
    exact C48_predict β ⟨1, [[7]]⟩ hb
  refine ⟨m, _, hm, ht, C106_lin_same hs gaussSolve_regular ?_ hm ht⟩
  intro r hr
  simp [withRows] at hr
  rcases hr with rfl | rfl | rfl | rfl <;> rfl

/-- Gaussian processes: the squared exponential kernel on the points 0 and 2, and on 0, 1 and 2. -/
example (a b c d e : ℝ) : ∃ g1 g2 p S p' S', Gp.train exactLib ⟨sqExpKernel 1 1, constMean 0, 1 / 10, none, none, none⟩ ⟨1, [[0], [2]]⟩ [a, b] = ok g1 ∧
    Gp.train exactLib ⟨sqExpKernel 1 1, constMean 0, 1 / 10, none, none, none⟩ ⟨1, [[0], [1], [2]]⟩ [c, d, e] = ok g2 ∧
    g1.posterior exactLib ⟨1, [[5]]⟩ = ok (p, S) ∧ g2.posterior exactLib ⟨1, [[5]]⟩ = ok (p', S') ∧ ent S' 0 0 ≤ ent S 0 0 := by
  have hX : (⟨1, [[0], [2]]⟩ : Mat ℝ).WF := by intro r hr; simp at hr; rcases hr with rfl | rfl <;> rfl
  have hX' : (⟨1, [[0], [1], [2]]⟩ : Mat ℝ).WF := by intro r hr; simp at hr; rcases hr with rfl | rfl | rfl <;> rfl
  have hZ : (⟨1, [[5]]⟩ : Mat ℝ).WF := by intro r hr; simp at hr; subst hr; rfl
  have hs : ([[0], [2]] : List (List ℝ)).Sublist [[0], [1], [2]] := by simp
  have hk := C59_kernels (Built.sqExp (1 : ℝ) 1)
  obtain ⟨g2, h2⟩ := C59_train_psd (y := [c, d, e]) (g := ⟨sqExpKernel 1 1, constMean 0, 1 / 10, none, none, none⟩) exactLib_ok hk (C59_mean 0).1 hX'
    (C61_gram (PSDBuilt.sqExp one_ne_zero zero_le_one) 1) (by norm_num) rfl
  obtain ⟨g1, h1⟩ := C106_gp_part (y := [a, b]) exactLib_ok hk (C59_mean 0).1 hX hX' hs h2 rfl
  obtain ⟨p, S, p', S', h3, h4, -, h5⟩ := C106_gp exactLib_ok hk (C59_mean 0).1 hX hX' hs h1 h2 hZ rfl rfl
  exact ⟨g1, g2, p, S, p', S', h1, h2, h3, h4, h5 0 (by simp)⟩

end RM
