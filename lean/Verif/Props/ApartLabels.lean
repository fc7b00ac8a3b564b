import Verif.Props.Apart
import Verif.Props.Dbscan
import Verif.Props.KNN

/-! C135: nearest neighbours and density clustering tell apart classes and groups that lie apart. -/

namespace RM
open Outcome Scalar Spec

/-! ### Nearest neighbours -/

/-- Among the `k` nearest, a class that has more than `k / 2` rows nearer than all rows of other classes is the majority. -/
theorem majority_of_near {F : Type} [LinearOrder F] {n k : ℕ} {dst : ℕ → F} {r : List ℕ × List F} {y : List ℕ} (hy : n = y.length) (h : KNearestOf n dst k r) {l l' : ℕ}
    (s : Finset ℕ) (hs : k < 2 * s.card) (hsl : ∀ i ∈ s, y[i]? = some l)
    (hnear : ∀ i ∈ s, ∀ j c, y[j]? = some c → c ≠ l → dst i < dst j) (hm : MajorityLabel (r.1.filterMap fun i => y[i]?) l') : l' = l := by
  classical
  have hlen : (r.1.filterMap fun i => y[i]?).length = k := by
    rw [← h.count]
    have : ∀ is : List ℕ, (∀ i ∈ is, i < y.length) → (is.filterMap fun i => y[i]?).length = is.length := by
      intro is
      induction is with
      | nil => simp
      | cons i is ih =>
        intro hi
        rw [List.filterMap_cons, List.getElem?_eq_getElem (hi i List.mem_cons_self)]
        simp [ih fun j hj => hi j (List.mem_cons_of_mem _ hj)]
    exact this _ fun i hi => hy ▸ h.rows i hi
  by_cases hall : ∀ i ∈ r.1, y[i]? = some l
  · obtain ⟨i, hi, he⟩ := List.mem_filterMap.1 hm.occurs
    rw [hall i hi] at he
    cases he
    rfl
  · push Not at hall
    obtain ⟨j, hj, hjl⟩ := hall
    have hjn : j < y.length := hy ▸ h.rows j hj
    have hsub : ∀ i ∈ s, i ∈ r.1 := by
      intro i hi
      by_contra hni
      have hin : i < n := by
        rw [hy]
        exact (List.getElem?_eq_some_iff.1 (hsl i hi)).1
      have h1 := h.nearest i hin hni (dst j) (by rw [h.distances]; exact List.mem_map.2 ⟨j, hj, rfl⟩)
      have h2 := hnear i hi j y[j] (List.getElem?_eq_getElem hjn) (by intro hc; exact hjl (by rw [List.getElem?_eq_getElem hjn, hc]))
      exact absurd h1 (not_le.2 h2)
    have hcount : s.card ≤ (r.1.filterMap fun i => y[i]?).count l := by
      have h1 : (r.1.filter fun i => y[i]? = some l).length = (r.1.filterMap fun i => y[i]?).count l := by
        clear * -
        induction r.1 with
        | nil => rfl
        | cons i is ih =>
          rw [List.filter_cons, List.filterMap_cons]
          cases hyi : y[i]? with
          | none => simp [ih]
          | some c =>
            by_cases hc : c = l
            · simp [hc, ih]
            · simp [hc, ih]
      rw [← h1]
      have h2 : s.toList ⊆ r.1.filter fun i => y[i]? = some l := by
        intro i hi
        have hi := Finset.mem_toList.1 hi
        exact List.mem_filter.2 ⟨hsub i hi, by simpa using hsl i hi⟩
      have := (List.subperm_of_subset s.nodup_toList h2).length_le
      simpa using this
    by_contra hne
    have h3 := hm.most l
    have h4 : (r.1.filterMap fun i => y[i]?).count l + (r.1.filterMap fun i => y[i]?).count l' ≤ k := by
      rw [← hlen]
      generalize (r.1.filterMap fun i => y[i]?) = L
      clear * - hne
      induction L with
      | nil => simp
      | cons a L ih =>
        rw [List.count_cons, List.count_cons, List.length_cons]
        simp only [beq_iff_eq]
        split_ifs <;> omega
    omega

/-- The same for any ordered number type, in terms of the computed distances. -/
theorem knn_of_near {F : Type} [Scalar F] [LinearOrder F] [OrdScalar F] (k : ℕ) (hk : 1 ≤ k) (X : Mat F) (y : List ℕ) (hy : X.rows.length = y.length)
    (hkn : k ≤ X.rows.length) (Z : Mat F) (want : List ℕ)
    (hw : List.Forall₂ (fun z l => ∃ s : Finset ℕ, k < 2 * s.card ∧ (∀ i ∈ s, y[i]? = some l) ∧
      ∀ i ∈ s, ∀ (j : ℕ) c, y[j]? = some c → c ≠ l → knnDist z (X.rows.getD i []) < knnDist z (X.rows.getD j [])) Z.rows want) :
    ∃ c, knnTrain bruteSearcher ⟨k, none, none⟩ X y = (c, ok ()) ∧ knnPredict bruteSearcher c Z = ok want := by
  have hl : lastAccepted k [KnnCall.train X y] = some (X, y) := by simp [lastAccepted, hy, hy ▸ hkn]
  obtain ⟨out, h1, h2⟩ := C25_brute_history [KnnCall.train X y] k hk X y hl Z
  have ht : knnTrain (bruteSearcher (F := F)) ⟨k, none, none⟩ X y = ((knnTrain bruteSearcher ⟨k, none, none⟩ X y).1, ok ()) := by
    unfold knnTrain
    rw [if_neg (by simpa using hy), if_neg (by simp only; omega)]
    rfl
  refine ⟨_, ht, ?_⟩
  have h3 : knnRun (bruteSearcher (F := F)) ⟨k, none, none⟩ [KnnCall.train X y] = (knnTrain bruteSearcher ⟨k, none, none⟩ X y).1 := rfl
  rw [← h3, h1]
  congr 1
  clear h1 h3 ht hl
  generalize Z.rows = zs at h2 hw
  induction hw generalizing out with
  | nil => cases h2; rfl
  | @cons z l zs want hz _ ih =>
    cases h2 with
    | @cons _ a _ out h h2 =>
      obtain ⟨r, hr, hm⟩ := h
      obtain ⟨s, hs, hsl, hnear⟩ := hz
      rw [majority_of_near hy hr s hs hsl hnear hm, ih out h2]

/-- **C135 (nearest neighbours).** The brute-force classifier gives a sample the class `l` if more than `k / 2` training rows of this class are nearer to it than
every row of another class. -/
theorem C135_knn (k : ℕ) (hk : 1 ≤ k) (X : Mat ℝ) (y : List ℕ) (hy : X.rows.length = y.length) (hkn : k ≤ X.rows.length) (Z : Mat ℝ) (want : List ℕ)
    (hw : List.Forall₂ (fun z l => ∃ s : Finset ℕ, k < 2 * s.card ∧ (∀ i ∈ s, y[i]? = some l) ∧
      ∀ i ∈ s, ∀ (j : ℕ) c, y[j]? = some c → c ≠ l → eucl z (X.rows.getD i []) < eucl z (X.rows.getD j [])) Z.rows want) :
    ∃ c, knnTrain bruteSearcher ⟨k, none, none⟩ X y = (c, ok ()) ∧ knnPredict bruteSearcher c Z = ok want := by
  refine knn_of_near k hk X y hy hkn Z want ?_
  simpa only [C19_C21_C22_distance_is_euclidean] using hw

theorem eucl_sqDist (u v : List ℝ) : eucl u v = Real.sqrt (sqDist u v) := rfl

theorem group_indices (rows : List (List ℝ)) (grp : List ℝ → ℕ) (x : List ℝ) :
    ((Finset.range rows.length).filter fun i => grp (rows.getD i []) = grp x).card = (groupOf rows grp x).length := by
  unfold groupOf
  induction rows using List.reverseRecOn with
  | nil => simp
  | append_singleton l a ih =>
    rw [List.length_append, List.length_singleton, Finset.range_add_one, Finset.filter_insert, List.filter_append, List.length_append, ← ih]
    have h1 : (Finset.range l.length).filter (fun i => grp ((l ++ [a]).getD i []) = grp x) = (Finset.range l.length).filter fun i => grp (l.getD i []) = grp x := by
      apply Finset.filter_congr
      intro i hi
      rw [List.getD_eq_getElem?_getD, List.getD_eq_getElem?_getD, List.getElem?_append_left (Finset.mem_range.1 hi)]
    have h2 : (l ++ [a]).getD l.length [] = a := by simp
    rw [h1, h2]
    by_cases h : grp a = grp x
    · rw [if_pos h, Finset.card_insert_of_notMem (by simp)]
      simp [h]
    · rw [if_neg h]
      simp [h]

/-- **C135 (nearest neighbours, groups).** Let the rows of a class lie nearer to each other than to the rows of other classes, and every class have more than
`k / 2` rows. Then the training rows, and new rows that lie with a class, get their class. -/
theorem C135_knn_groups (k : ℕ) (hk : 1 ≤ k) (X : Mat ℝ) (grp : List ℝ → ℕ) (D S : ℝ) (hDS : D < S) (hkn : k ≤ X.rows.length) (Z : Mat ℝ)
    (hsz : ∀ x ∈ X.rows, k < 2 * (groupOf X.rows grp x).length) (hall : ∀ z ∈ Z.rows, ∃ x ∈ X.rows, grp z = grp x)
    (hnear : ∀ z ∈ Z.rows, ∀ x ∈ X.rows, grp z = grp x → sqDist z x ≤ D) (hfar : ∀ z ∈ Z.rows, ∀ x ∈ X.rows, grp z ≠ grp x → S ≤ sqDist z x) :
    ∃ c, knnTrain bruteSearcher ⟨k, none, none⟩ X (X.rows.map grp) = (c, ok ()) ∧ knnPredict bruteSearcher c Z = ok (Z.rows.map grp) := by
  refine C135_knn k hk X _ (by simp) hkn Z _ ?_
  rw [List.forall₂_map_right_iff, List.forall₂_same]
  intro z hz
  obtain ⟨x, hx, hzx⟩ := hall z hz
  have hget : ∀ i, i < X.rows.length → X.rows.getD i [] ∈ X.rows := by
    intro i hi
    rw [getD_lt [] hi]
    exact List.getElem_mem _
  refine ⟨(Finset.range X.rows.length).filter fun i => grp (X.rows.getD i []) = grp x, ?_, ?_, ?_⟩
  · rw [group_indices]
    exact hsz x hx
  · intro i hi
    obtain ⟨h1, h2⟩ := Finset.mem_filter.1 hi
    have h1 := Finset.mem_range.1 h1
    rw [List.getElem?_map, List.getElem?_eq_getElem h1, Option.map_some, hzx, ← h2, getD_lt [] h1]
  · intro i hi j c hc hne
    obtain ⟨h1, h2⟩ := Finset.mem_filter.1 hi
    have h1 := Finset.mem_range.1 h1
    have hj : j < X.rows.length := by simpa using (List.getElem?_eq_some_iff.1 hc).1
    rw [List.getElem?_map, List.getElem?_eq_getElem hj, Option.map_some, Option.some.injEq] at hc
    have hjr : X.rows.getD j [] = X.rows[j] := getD_lt [] hj
    rw [eucl_sqDist, eucl_sqDist]
    refine Real.sqrt_lt_sqrt (sqDist_nonneg _ _) ?_
    have a := hnear z hz _ (hget i h1) (hzx.trans h2.symm)
    have b := hfar z hz _ (hget j hj) (by rw [hjr, hc]; exact fun h => hne h.symm)
    linarith

/-! ### Density clustering -/

/-- A density clustering in which "near" means "in one group" says which rows are in one group. -/
theorem density_says_groups {rows : List (List ℝ)} {grp : List ℝ → ℕ} {minPts : ℕ} {near : ℕ → ℕ → Prop} {L : List (Option ℕ)}
    (hL : IsDensityClustering rows.length minPts near L)
    (hNear : ∀ i j, i < rows.length → j < rows.length → (near i j ↔ grp (rows.getD i []) = grp (rows.getD j [])))
    (hsz : ∀ x ∈ rows, minPts ≤ (groupOf rows grp x).length) : ∃ labels : List ℕ, SaysGroups rows grp labels ∧ L = labels.map some := by
  set n := rows.length with hn
  have hget : ∀ i, i < n → rows.getD i [] ∈ rows := by
    intro i hi
    rw [getD_lt [] hi]
    exact List.getElem_mem _
  have hcore : ∀ i, i < n → IsCore n minPts near i := by
    intro i hi
    refine ⟨(Finset.range n).filter fun j => grp (rows.getD j []) = grp (rows.getD i []), ?_, ?_⟩
    · rw [group_indices]
      exact hsz _ (hget i hi)
    · intro j hj
      obtain ⟨h1, h2⟩ := Finset.mem_filter.1 hj
      have h1 := Finset.mem_range.1 h1
      exact ⟨h1, (hNear i j hi h1).2 h2.symm⟩
  have hlink : ∀ i j, i < n → j < n → (Linked n minPts near i j ↔ grp (rows.getD i []) = grp (rows.getD j [])) := by
    intro i j hi hj
    constructor
    · intro hl
      clear hj
      induction hl with
      | refl => rfl
      | tail _ hbc ih =>
        obtain ⟨h1, h2, -, -, h5⟩ := hbc
        exact ih.trans ((hNear _ _ h1 h2).1 h5)
    · intro he
      exact Relation.ReflTransGen.single ⟨hi, hj, hcore i hi, hcore j hj, (hNear i j hi hj).2 he⟩
  have hsome : L = (L.map fun o => o.getD 0).map some := by
    rw [List.map_map]
    conv_lhs => rw [← List.map_id L]
    refine List.map_congr_left fun o ho => ?_
    obtain ⟨i, hi, rfl⟩ := List.mem_iff_getElem.1 ho
    obtain ⟨l, hl⟩ := (hL.labelled i (by rw [← hL.length]; exact hi)).2 (hcore i (by rw [← hL.length]; exact hi))
    rw [List.getElem?_eq_getElem hi, Option.some.injEq] at hl
    rw [hl]
    rfl
  refine ⟨L.map fun o => o.getD 0, ⟨by rw [List.length_map, hL.length], ?_⟩, hsome⟩
  intro i j x y a b hx hy ha hb
  have hi := (List.getElem?_eq_some_iff.1 hx).1
  have hj := (List.getElem?_eq_some_iff.1 hy).1
  have ha' : L[i]? = some (some a) := by rw [hsome, List.getElem?_map, ha]; rfl
  have hb' : L[j]? = some (some b) := by rw [hsome, List.getElem?_map, hb]; rfl
  rw [hL.same i j a b ha' hb', hlink i j hi hj, List.getD_eq_getElem?_getD, List.getD_eq_getElem?_getD, hx, hy]
  rfl

/-- **C135 (DBSCAN).** Let the rows fall into groups of `min_points` rows or more, with distances less than the radius within a group and at least the radius
between groups. Then no sample is noise and two samples get the same label exactly if they are in one group. -/
theorem C135_dbscan (m : Dbscan ℝ) (heps : 0 < m.eps) (X : Mat ℝ) (hX : X.WF) (grp : List ℝ → ℕ) (D S : ℝ) (h : Grouped X.rows grp D S) (hD : D < m.eps ^ 2)
    (hS : m.eps ^ 2 ≤ S) (hsz : ∀ x ∈ X.rows, m.minPoints ≤ (groupOf X.rows grp x).length) :
    ∃ labels : List ℕ, SaysGroups X.rows grp labels ∧ (∃ fuel₀, ∀ fuel, fuel₀ ≤ fuel → ∃ m', dbTrain fuel m X = some (ok m')) ∧
      ∀ fuel r, dbTrain fuel m X = some r → ∃ m', r = ok m' ∧ m'.clusters = some (labels.map some) := by
  obtain ⟨L, hL, hrun, hres⟩ := C26_train m X hX
  have hget : ∀ i, i < X.rows.length → X.rows.getD i [] ∈ X.rows := by
    intro i hi
    rw [getD_lt [] hi]
    exact List.getElem_mem _
  obtain ⟨labels, h1, h2⟩ := density_says_groups (grp := grp) hL (by
    intro i j hi hj
    unfold NearR
    rw [eucl_sqDist, Real.sqrt_lt' heps]
    constructor
    · intro hlt
      by_contra hne
      have := h.far _ (hget i hi) _ (hget j hj) hne
      linarith
    · intro he
      have := h.near _ (hget i hi) _ (hget j hj) he
      linarith) hsz
  exact ⟨labels, h1, hrun, h2 ▸ hres⟩

theorem saysGroups_iff {rows : List (List ℝ)} {grp : List ℝ → ℕ} {labels : List ℕ} (h : SaysGroups rows grp labels) :
    ∃ f : ℕ → ℕ, labels = rows.map (fun x => f (grp x)) ∧ ∀ x ∈ rows, ∀ y ∈ rows, f (grp x) = f (grp y) → grp x = grp y := by
  classical
  obtain ⟨hl, h⟩ := h
  let f : ℕ → ℕ := fun g => if hg : ∃ i : ℕ, ∃ x, rows[i]? = some x ∧ grp x = g then labels.getD hg.choose 0 else 0
  have hf : ∀ (i : ℕ) x, rows[i]? = some x → labels[i]? = some (f (grp x)) := by
    intro i x hx
    have hg : ∃ i : ℕ, ∃ y, rows[i]? = some y ∧ grp y = grp x := ⟨i, x, hx, rfl⟩
    obtain ⟨y, hy, he⟩ := hg.choose_spec
    have h1 : f (grp x) = labels.getD hg.choose 0 := dif_pos hg
    have hj : hg.choose < labels.length := hl ▸ (List.getElem?_eq_some_iff.1 hy).1
    have hi : i < labels.length := hl ▸ (List.getElem?_eq_some_iff.1 hx).1
    rw [h1, List.getElem?_eq_getElem hi, getD_lt 0 hj, Option.some.injEq]
    exact (h i hg.choose x y _ _ hx hy (List.getElem?_eq_getElem hi) (List.getElem?_eq_getElem hj)).2 he.symm
  refine ⟨f, ?_, ?_⟩
  · apply List.ext_getElem?
    intro i
    rw [List.getElem?_map]
    cases hx : rows[i]? with
    | none =>
      rw [Option.map_none, List.getElem?_eq_none_iff, hl]
      exact List.getElem?_eq_none_iff.1 hx
    | some x => exact hf i x hx
  · intro x hx y hy he
    obtain ⟨i, hi⟩ := List.mem_iff_getElem?.1 hx
    obtain ⟨j, hj⟩ := List.mem_iff_getElem?.1 hy
    exact (h i j x y _ _ hi hj (hf i x hi) (hf j y hj)).1 he

theorem saysGroups_map {rows : List (List ℝ)} {grp : List ℝ → ℕ} {f : ℕ → ℕ} (hf : ∀ x ∈ rows, ∀ y ∈ rows, f (grp x) = f (grp y) → grp x = grp y) :
    SaysGroups rows grp (rows.map fun x => f (grp x)) := by
  refine ⟨by simp, ?_⟩
  intro i j x y a b hi hj ha hb
  rw [List.getElem?_map, hi] at ha
  rw [List.getElem?_map, hj] at hb
  cases ha
  cases hb
  exact ⟨fun h => hf x (List.mem_of_getElem? hi) y (List.mem_of_getElem? hj) h, fun h => by simp only [h]⟩

/-- **C135 (DBSCAN, new rows).** With prediction switched on, a new row that lies with a group gets the label of the group. -/
theorem C135_dbscan_predict (m : Dbscan ℝ) (heps : 0 < m.eps) (hp : m.predictive = true) (X : Mat ℝ) (hX : X.WF) (hne : X.rows ≠ []) (grp : List ℝ → ℕ) (D S : ℝ)
    (h : Grouped X.rows grp D S) (hD : D < m.eps ^ 2) (hS : m.eps ^ 2 ≤ S) (hsz : ∀ x ∈ X.rows, m.minPoints ≤ (groupOf X.rows grp x).length)
    (fuel : ℕ) (m' : Dbscan ℝ) (ht : dbTrain fuel m X = some (ok m')) (Z : Mat ℝ) (hZ : Z.WF) (hcols : Z.cols = X.cols)
    (hnear : ∀ z ∈ Z.rows, ∃ x ∈ X.rows, grp z = grp x ∧ sqDist z x ≤ D) (hfar : ∀ z ∈ Z.rows, ∀ x ∈ X.rows, grp z ≠ grp x → S ≤ sqDist z x) :
    ∃ labels new : List ℕ, m'.clusters = some (labels.map some) ∧ dbPredict m' Z = ok (new.map some) ∧ SaysGroups (X.rows ++ Z.rows) grp (labels ++ new) := by
  obtain ⟨labels, hsays, -, hres⟩ := C135_dbscan m heps X hX grp D S h hD hS hsz
  obtain ⟨m'', e1, hcl⟩ := hres fuel _ ht
  cases e1
  obtain ⟨L, classes, h1, h2, h3⟩ := C28_predict m hp X hX hne fuel m' ht Z hZ hcols
  rw [hcl, Option.some.injEq] at h1
  obtain ⟨f, hf1, hf2⟩ := saysGroups_iff hsays
  have hclass : classes = (Z.rows.map fun z => f (grp z)).map some := by
    clear h2
    have key : List.Forall₂ (fun z (cl : Option ℕ) => z ∈ Z.rows → cl = some (f (grp z))) Z.rows classes := by
      refine h3.imp ?_
      rintro z cl ⟨i, row, hi, hmin, hin, -⟩ hz
      obtain ⟨x, hx, hgx, hdx⟩ := hnear z hz
      obtain ⟨j, hj⟩ := List.mem_iff_getElem?.1 hx
      have hle := (hmin j x hj).1
      have hlt : sqDist z row < m.eps ^ 2 := by
        rw [eucl_sqDist, eucl_sqDist] at hle
        have := (Real.sqrt_le_sqrt_iff (sqDist_nonneg _ _)).1 hle
        linarith
      have hg : grp z = grp row := by
        by_contra hne
        have := hfar z hz row (List.mem_of_getElem? hi) hne
        linarith
      have hli := hin (by rw [eucl_sqDist, Real.sqrt_lt' heps]; exact hlt)
      rw [← h1, hf1, List.getElem?_map, List.getElem?_map, hi] at hli
      simp only [Option.map_some, Option.some.injEq] at hli
      rw [← hli, hg]
    rw [List.map_map]
    revert key
    have : ∀ (zs : List (List ℝ)) (cs : List (Option ℕ)), (∀ z ∈ zs, z ∈ Z.rows) →
        List.Forall₂ (fun z (cl : Option ℕ) => z ∈ Z.rows → cl = some (f (grp z))) zs cs → cs = zs.map (some ∘ fun z => f (grp z)) := by
      intro zs cs hzs hk
      induction hk with
      | nil => rfl
      | @cons z cl zs cs h0 _ ih =>
        rw [List.map_cons, ← ih fun w hw => hzs w (List.mem_cons_of_mem _ hw), h0 (hzs z List.mem_cons_self)]
        rfl
    exact this _ _ fun z hz => hz
  refine ⟨labels, Z.rows.map fun z => f (grp z), hcl, by rw [h2, hclass], ?_⟩
  rw [hf1, ← List.map_append]
  refine saysGroups_map ?_
  have hin : ∀ x ∈ X.rows ++ Z.rows, ∃ y ∈ X.rows, grp x = grp y := by
    intro x hx
    rcases List.mem_append.1 hx with hx | hx
    · exact ⟨x, hx, rfl⟩
    · obtain ⟨y, hy, he, -⟩ := hnear x hx
      exact ⟨y, hy, he⟩
  intro x hx y hy he
  obtain ⟨x', hx', ex⟩ := hin x hx
  obtain ⟨y', hy', ey⟩ := hin y hy
  rw [ex, ey] at he ⊢
  exact hf2 x' hx' y' hy' he

/-- Two pairs: both learners tell them apart. -/
example (g : ℝ) (hg : 2 < g) : ∃ c, knnTrain bruteSearcher ⟨3, none, none⟩ (twoPairs g) ((twoPairs g).rows.map pairOf) = (c, ok ()) ∧
    knnPredict bruteSearcher c (twoPairs g) = ok ((twoPairs g).rows.map pairOf) := by
  obtain ⟨h1, h2⟩ := twoPairs_grouped g hg
  have h0 : g ≠ 0 := by linarith
  refine C135_knn_groups 3 (by norm_num) (twoPairs g) pairOf 1 (g ^ 2) (by linarith) (by simp [twoPairs]) (twoPairs g) ?_ (fun z hz => ⟨z, hz, rfl⟩) h1.near h1.far
  intro x hx
  simp only [twoPairs, List.mem_cons, List.not_mem_nil, or_false] at hx
  rcases hx with rfl | rfl | rfl | rfl <;> simp [groupOf, twoPairs, pairOf, h0]

example (g : ℝ) (hg : 2 < g) := C135_dbscan (⟨2, 2, none, false, [], none⟩ : Dbscan ℝ) (by norm_num) (twoPairs g) (twoPairs_wf g) pairOf 1 (g ^ 2) (twoPairs_grouped g hg).1
  (by norm_num) (by simp only; nlinarith) (by
    have h0 : g ≠ 0 := by linarith
    intro x hx
    simp only [twoPairs, List.mem_cons, List.not_mem_nil, or_false] at hx
    rcases hx with rfl | rfl | rfl | rfl <;> simp [groupOf, twoPairs, pairOf, h0])

example (fuel : ℕ) (m' : Dbscan ℝ) (ht : dbTrain fuel ⟨2, 2, none, true, [], none⟩ (twoPairs 9) = some (ok m')) :=
  C135_dbscan_predict (⟨2, 2, none, true, [], none⟩ : Dbscan ℝ) (by norm_num) rfl (twoPairs 9) (twoPairs_wf 9) (by simp [twoPairs]) pairOf 1 (9 ^ 2)
    (twoPairs_grouped 9 (by norm_num)).1 (by norm_num) (by norm_num) (by
      intro x hx
      simp only [twoPairs, List.mem_cons, List.not_mem_nil, or_false] at hx
      rcases hx with rfl | rfl | rfl | rfl <;> simp [groupOf, twoPairs, pairOf]) fuel m' ht ⟨2, [[9, 1 / 2]]⟩
    (by intro r hr; simp at hr; rw [hr]; rfl) rfl (by
      intro z hz
      simp only [List.mem_singleton] at hz
      subst hz
      exact ⟨[9, 1], by simp [twoPairs], by simp [pairOf], by simp [sqDist]; norm_num⟩) (by simp [twoPairs, pairOf, sqDist]; positivity)

end RM
