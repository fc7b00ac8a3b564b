import Verif.Proofs.Overflow
import Verif.Model.BinaryTree
import Verif.Model.Transforms
import Verif.Model.Score

/-! C124: numbers whose squares, sums or differences are beyond the range of the number type. -/

namespace RM
open Outcome Scalar Spec

/-! ### Nearest neighbours -/

theorem br_indexedDists {R : ℝ} {c : ℕ} (hR : SquaresFit R c) {p : List ℝ} (hp : Within R p) :
    ∀ (rs : List (List ℝ)) (i : ℕ), (∀ r ∈ rs, Within R r ∧ r.length ≤ c) →
      indexedDists (bfins p) i (rs.map bfins) = homDist BR.fin (indexedDists p i rs)
  | [], i, _ => rfl
  | r :: rs, i, h => by
    have hr := h r (by simp)
    rw [List.map_cons, indexedDists, indexedDists, br_indexedDists hR hp rs (i + 1) fun r' h' => h r' (by simp [h']),
      br_knnDist hR hp hr.1 hr.2]
    rfl

theorem br_getDistances {R : ℝ} {c : ℕ} (hR : SquaresFit R c) {p : List ℝ} (hp : Within R p) {X : Mat ℝ}
    (hX : ∀ r ∈ X.rows, Within R r ∧ r.length ≤ c) (ids : List ℕ) :
    getDistances (bfinMat X) (bfins p) ids = (List.map BR.fin) <$> getDistances X p ids := by
  unfold getDistances
  cases ids.isEmpty with
  | true => rfl
  | false =>
    simp only [Bool.not_false, assert_true, ok_bind]
    induction ids with
    | nil => rfl
    | cons i ids ih =>
      rw [List.mapM_cons, List.mapM_cons, ih]
      have e : getAt (bfinMat X).rows i = bfins <$> getAt X.rows i := by
        simp only [getAt, bfinMat, List.getElem?_map]
        cases X.rows[i]? <;> rfl
      rw [e]
      cases hr : getAt X.rows i with
      | ok r =>
        have hm : r ∈ X.rows := by
          unfold getAt at hr
          cases hq : X.rows[i]? with
          | none => rw [hq] at hr; cases hr
          | some q =>
            rw [hq] at hr
            cases hr
            exact List.mem_of_getElem? hq
        simp only [ok_map, ok_bind]
        rw [br_knnDist hR hp (hX r hm).1 (hX r hm).2]
        cases List.mapM (fun id => do
            let row ← getAt X.rows id
            ok (knnDist p row)) ids <;> rfl
      | err _ => rfl
      | panic => rfl
      | ub => rfl

/-- C124, nearest neighbours: when the squares of the differences fit in the number type, the search finds what it finds in exact
arithmetic. -/
theorem C124_knn_search {R : ℝ} {X : Mat ℝ} (hw : X.WF) (hR : SquaresFit R X.cols) (hX : ∀ r ∈ X.rows, Within R r) {p : List ℝ}
    (hp : Within R p) (k : ℕ) :
    bruteSearch (some (bfinMat X)) (bfins p) k = (fun r => (r.1, bfins r.2)) <$> bruteSearch (some X) p k := by
  have hX' : ∀ r ∈ X.rows, Within R r ∧ r.length ≤ X.cols := fun r hr => ⟨hX r hr, (hw r hr).le⟩
  unfold bruteSearch
  simp only
  rw [br_getDistances hR hp hX']
  cases getDistances X p (List.range k) with
  | ok ds =>
    simp only [ok_map, ok_bind]
    rw [knearestNew_homDist fin_cmpHom]
    cases knearestNew k (List.range k) ds with
    | ok ps =>
      simp only [ok_map, ok_bind]
      rw [knearestDist_homDist fin_cmpHom fin_maxVal]
      cases knearestDist k ps with
      | ok cur =>
        simp only [ok_map, ok_bind]
        have e : (bfinMat X).rows.drop k = (X.rows.drop k).map bfins := by simp [bfinMat, List.map_drop]
        rw [e, br_indexedDists hR hp _ _ fun r hr => hX' r (List.mem_of_mem_drop hr), offerAll_homDist fin_cmpHom]
        cases offerAll k (indexedDists p k (X.rows.drop k)) ps cur with
        | ok r => simp [knearestResults, homDist, bfins, List.map_map, Function.comp_def]
        | err _ => rfl
        | panic => rfl
        | ub => rfl
      | err _ => rfl
      | panic => rfl
      | ub => rfl
    | err _ => rfl
    | panic => rfl
    | ub => rfl
  | err _ => rfl
  | panic => rfl
  | ub => rfl

/-- C124, classification by nearest neighbours: the labels are those of exact arithmetic. -/
theorem C124_knn_predict {R : ℝ} {X Z : Mat ℝ} (hw : X.WF) (hR : SquaresFit R X.cols) (hX : ∀ r ∈ X.rows, Within R r)
    (hZ : ∀ r ∈ Z.rows, Within R r) (k : ℕ) (t : List ℕ) :
    knnPredict bruteSearcher ⟨k, some (bfinMat X), some t⟩ (bfinMat Z) = knnPredict bruteSearcher ⟨k, some X, some t⟩ Z := by
  unfold knnPredict
  simp only [bfinMat]
  have : ∀ l : List (List ℝ), (∀ r ∈ l, Within R r) →
      (l.map bfins).mapM (fun row => do
        let (idx, _) ← (bruteSearcher (F := BR)).search (some (bfinMat X)) row k
        knnVote t idx) =
      l.mapM (fun row => do
        let (idx, _) ← (bruteSearcher (F := ℝ)).search (some X) row k
        knnVote t idx) := by
    intro l
    induction l with
    | nil => intro _; rfl
    | cons r l ih =>
      intro h
      rw [List.map_cons, List.mapM_cons, List.mapM_cons, ih fun r' h' => h r' (by simp [h'])]
      have e := C124_knn_search hw hR hX (h r (by simp)) k
      simp only [bruteSearcher] at e ⊢
      rw [e]
      cases bruteSearch (some X) r k <;> rfl
  exact this Z.rows hZ

theorem homDist_const_sort (idx : List ℕ) (a : BR) (ha : (a <=. a) = true) :
    (idx.map fun i => (i, a)).insertionSort pairLe = idx.map fun i => (i, a) := by
  induction idx with
  | nil => rfl
  | cons i idx ih =>
    rw [List.map_cons, List.insertionSort_cons, ih]
    cases idx with
    | nil => rfl
    | cons j idx =>
      rw [List.map_cons, List.orderedInsert_cons_of_le]
      exact ha

/-- C124, violated: when every sample is so far from the query that a square is not a finite number, the search returns the first `k`
samples, whichever are the nearest. -/
theorem C124_knn_far {X : Mat ℝ} {p : List ℝ} (h : ∀ r ∈ X.rows, FarApart p r) {k : ℕ} (hk : 1 ≤ k) (hn : k ≤ X.rows.length) :
    bruteSearch (some (bfinMat X)) (bfins p) k = ok (List.range k, List.replicate k BR.pinf) := by
  have hlen : (bfinMat X).rows.length = X.rows.length := by simp [bfinMat]
  unfold bruteSearch
  simp only
  rw [getDistances_ok (bfinMat X) (bfins p) (List.range k) (by simp; omega) (by intro i hi; simp at hi; omega)]
  simp only [ok_bind]
  have e : ((List.range k).map fun i => knnDist (bfins p) ((bfinMat X).rows.getD i [])) = (List.range k).map fun _ => BR.pinf := by
    apply List.map_congr_left
    intro i hi
    rw [List.mem_range] at hi
    have hi' : i < X.rows.length := by omega
    have : (bfinMat X).rows.getD i [] = bfins (X.rows[i]) := by simp [bfinMat, hi']
    rw [this]
    exact br_knnDist_far (h _ (List.getElem_mem _))
  rw [e]
  unfold knearestNew
  have hz : (List.range k).zip ((List.range k).map fun _ => BR.pinf) = (List.range k).map fun i => (i, BR.pinf) := by
    rw [← List.map_prod_left_eq_zip]
  simp only [hz]
  have hnan : (((List.range k).map fun i => (i, BR.pinf)).any fun p => Scalar.isNaN p.2) = false := by simp
  rw [if_neg (by rw [hnan]; simp), homDist_const_sort _ _ br_pinf_le_pinf]
  simp only [ok_bind]
  rw [List.take_of_length_le (by simp)]
  unfold knearestDist
  rw [if_neg (by simp)]
  have hl : ((List.range k).map fun i => (i, BR.pinf)).getLast? = some (k - 1, BR.pinf) := by
    obtain ⟨m, rfl⟩ : ∃ m, k = m + 1 := ⟨k - 1, by omega⟩
    simp [List.range_succ]
  rw [hl]
  simp only [ok_bind]
  have hoff : ∀ (cands ps : List (ℕ × BR)), (∀ c ∈ cands, c.2 = BR.pinf) → offerAll k cands ps BR.pinf = ok ps := by
    intro cands
    induction cands with
    | nil => intro ps _; rfl
    | cons c cands ih =>
      obtain ⟨i, d⟩ := c
      intro ps hc
      have hd : d = BR.pinf := hc (i, d) (by simp)
      subst hd
      rw [offerAll, br_pinf_lt, if_neg (by simp)]
      exact ih ps fun c' hc' => hc c' (by simp [hc'])
  have hidx : ∀ (rs : List (List ℝ)) (i : ℕ), (∀ r ∈ rs, FarApart p r) → ∀ c ∈ indexedDists (bfins p) i (rs.map bfins), c.2 = BR.pinf := by
    intro rs
    induction rs with
    | nil => intro i _ c hc; simp [indexedDists] at hc
    | cons r rs ih =>
      intro i hr c hc
      rw [List.map_cons, indexedDists] at hc
      rcases List.mem_cons.1 hc with rfl | hc
      · exact br_knnDist_far (hr r (by simp))
      · exact ih (i + 1) (fun r' h' => hr r' (by simp [h'])) c hc
  have e2 : (bfinMat X).rows.drop k = (X.rows.drop k).map bfins := by simp [bfinMat, List.map_drop]
  rw [e2, hoff _ _ (hidx _ _ fun r hr => h r (List.mem_of_mem_drop hr))]
  simp [knearestResults, List.map_map, Function.comp_def, List.map_const']

/-- A number that is finite and whose square is not: half the largest number. -/
theorem half_top : BR.top / 2 ≤ BR.top ∧ BR.top < (BR.top / 2) ^ 2 := by
  have := BR.sixteen_le_top
  constructor <;> nlinarith

/-- C124, violated: there are finite samples and a finite query where the search in the bounded number type returns the further of the two
samples. -/
theorem C124_knn_violation : ∃ (X : Mat ℝ) (p : List ℝ), X.WF ∧ (∀ r ∈ X.rows, Within BR.top r) ∧ Within BR.top p ∧
    bruteSearch (some X) p 1 = ok ([1], [knnDist p (X.rows.getD 1 [])]) ∧
    bruteSearch (some (bfinMat X)) (bfins p) 1 = ok ([0], [BR.pinf]) := by
  obtain ⟨h1, h2⟩ := half_top
  have hp := BR.top_pos
  refine ⟨⟨1, [[-(BR.top / 2)], [0]]⟩, [BR.top / 2], ?_, ?_, ?_, ?_, ?_⟩
  · intro r hr
    simp only [List.mem_cons, List.not_mem_nil, or_false] at hr
    rcases hr with rfl | rfl <;> rfl
  · intro r hr x hx
    simp only [List.mem_cons, List.not_mem_nil, or_false] at hr
    rcases hr with rfl | rfl
    · rw [List.mem_singleton.1 hx, abs_neg, abs_of_nonneg (by linarith)]
      exact h1
    · rw [List.mem_singleton.1 hx, abs_zero]
      exact hp.le
  · intro x hx
    rw [List.mem_singleton.1 hx, abs_of_nonneg (by linarith)]
    exact h1
  · have d0 : knnDist [BR.top / 2] [-(BR.top / 2)] = BR.top := by
      simp only [knnDist, List.zipWith_cons_cons, List.zipWith_nil_right, List.foldl_cons, List.foldl_nil, real_sub, real_mul, real_add,
        real_zero, zero_add, real_sqrt]
      rw [Real.sqrt_mul_self (by linarith)]
      ring
    have d1 : knnDist [BR.top / 2] [(0 : ℝ)] = BR.top / 2 := by
      simp only [knnDist, List.zipWith_cons_cons, List.zipWith_nil_right, List.foldl_cons, List.foldl_nil, real_sub, real_mul, real_add,
        real_zero, zero_add, real_sqrt]
      rw [Real.sqrt_mul_self (by linarith)]
      ring
    have hlt : BR.top / 2 < BR.top := by linarith
    simp [bruteSearch, getDistances, getAt, ofOption, knearestNew, knearestDist, indexedDists, offerAll, knearestAdd, addLoop,
      knearestResults, d0, d1, hlt, hlt.le, List.range_succ, not_lt.2 hlt.le]
  · refine (C124_knn_far (k := 1) ?_ (le_refl _) (by simp)).trans ?_
    · intro r hr
      simp only [List.mem_cons, List.not_mem_nil, or_false] at hr
      rcases hr with rfl | rfl
      · refine ⟨0, by simp, by simp, ?_⟩
        simp only [List.getElem_cons_zero]
        nlinarith
      · refine ⟨0, by simp, by simp, ?_⟩
        simp only [List.getElem_cons_zero, sub_zero]
        exact h2
    · rfl

/-! ### Trees -/

/-- C124, violated: a search for two neighbours in a tree of two finite samples returns one: a distance that is not finite is not below
the largest number, with which the search starts. -/
theorem C124_tree_violation : ∃ (X : Mat ℝ) (p : List ℝ) (t : BinaryTree BR (List BR × List BR)), X.WF ∧ X.rows.length = 2 ∧
    (∀ r ∈ X.rows, Within BR.top r) ∧ (∃ fuel, treeBuild kdKind fuel ⟨2, none, none⟩ (bfinMat X) = some (ok t)) ∧
    treeSearch kdKind t (bfins p) 2 = ok ([0], [BR.fin 0]) ∧
    bruteSearch (some (bfinMat X)) (bfins p) 2 = ok ([0, 1], [BR.fin 0, BR.pinf]) := by
  obtain ⟨h1, h2⟩ := half_top
  have hp := BR.top_pos
  set h : ℝ := BR.top / 2 with hh
  have hh0 : 0 < h := by rw [hh]; linarith
  have s1 : Scalar.sub (BR.fin h) (BR.fin 0) = BR.fin h := by rw [br_sub (by rw [sub_zero, abs_of_pos hh0]; exact h1), sub_zero]
  have s2 : Scalar.div (BR.fin h) (BR.fin 2) = BR.fin (h / 2) := br_div (by norm_num) (by rw [abs_of_nonneg (by linarith)]; linarith)
  have s3 : Scalar.add (BR.fin 0) (BR.fin (h / 2)) = BR.fin (h / 2) := by
    rw [br_add (by rw [zero_add, abs_of_nonneg (by linarith)]; linarith), zero_add]
  have d0 : knnDist [BR.fin 0] [BR.fin 0] = BR.fin 0 := by
    have := br_knnDist (R := 0) (c := 1) (u := [0]) (v := [0]) (by unfold SquaresFit; simpa using hp.le)
      (by intro x hx; rw [List.mem_singleton.1 hx]; simp) (by intro x hx; rw [List.mem_singleton.1 hx]; simp) (by simp)
    simp only [bfins, List.map_cons, List.map_nil] at this
    rw [this]
    simp [knnDist]
  have d1 : knnDist [BR.fin 0] [BR.fin h] = BR.pinf := by
    refine br_knnDist_far (u := [0]) (v := [h]) ⟨0, by simp, by simp, ?_⟩
    simp only [List.getElem_cons_zero, zero_sub, neg_sq]
    exact h2
  have c1 : ¬ h < 0 := by linarith
  have c2 : (0 : ℝ) < h / 2 := by linarith
  have c3 : ¬ h < h / 2 := by linarith
  refine ⟨⟨1, [[0], [h]]⟩, [0], ⟨2, some (bfinMat ⟨1, [[0], [h]]⟩), some (.branch 0 (BR.fin (h / 2)) ([BR.fin 0], [BR.fin h]) (.leaf [0]) (.leaf [1]))⟩, ?_, rfl, ?_,
    ⟨3, ?_⟩, ?_, ?_⟩
  · intro r hr
    simp only [List.mem_cons, List.not_mem_nil, or_false] at hr
    rcases hr with rfl | rfl <;> rfl
  · intro r hr x hx
    simp only [List.mem_cons, List.not_mem_nil, or_false] at hr
    rcases hr with rfl | rfl
    · rw [List.mem_singleton.1 hx, abs_zero]
      exact hp.le
    · rw [List.mem_singleton.1 hx, abs_of_pos hh0]
      exact h1
  · simp [treeBuild, minRows, maxRows, extremeRows, bfinMat, bfins, splitNode, selectSplit, argmaxBy, argAux, partitionRows, s1, s2, s3, c1, c2, c3,
      hh0, kdKind, List.range_succ]
  · simp [treeSearch, searchLeaf, searchQueue, bfinMat, bfins, c2, getDistances, getAt, ofOption, knearestNew, knearestDist, offerAll, d0, d1,
      knearestResults]
  · have l1 : (BR.fin 0 <=. BR.pinf) = true := rfl
    simp [bruteSearch, bfinMat, bfins, getDistances, getAt, ofOption, knearestNew, knearestDist, indexedDists, offerAll, d0, d1,
      knearestResults, List.range_succ, pairLe, l1]

/-! ### k-means -/

/-- C124, k-means: when the squares of the differences fit, samples get the labels of exact arithmetic. -/
theorem C124_kmeans_predict {R : ℝ} {C X : Mat ℝ} (hw : X.WF) (hR : SquaresFit R X.cols) (hC : ∀ r ∈ C.rows, Within R r)
    (hX : ∀ r ∈ X.rows, Within R r) (iters k : ℕ) :
    kmPredict ⟨iters, k, some (bfinMat C)⟩ (bfinMat X) = kmPredict ⟨iters, k, some C⟩ X := by
  have hrow : ∀ r ∈ X.rows, closestTo (bfinMat C) X.cols (bfins r) = (fun q => (q.1, BR.fin q.2)) <$> closestTo C X.cols r := by
    intro r hr
    by_cases hc : C.cols = X.cols
    · rw [← hc, closestTo_eq C r]
      have e := closestTo_eq (bfinMat C) (bfins r)
      have hcc : (bfinMat C).cols = C.cols := rfl
      rw [hcc] at e
      rw [e, ← argminBy_hom fin_cmpHom]
      congr 1
      simp only [bfinMat, List.map_map]
      apply List.map_congr_left
      intro c hc'
      exact br_kmDist hR (hX r hr) (hC c hc') (hw r hr).le
    · rw [closestTo_mismatch _ _ _ hc, closestTo_mismatch _ _ _ (by simpa [bfinMat] using hc)]
      rfl
  have hm : ∀ l : List (List ℝ), (∀ r ∈ l, r ∈ X.rows) → (l.map bfins).mapM (closestTo (bfinMat C) X.cols) =
      (List.map fun q : ℕ × ℝ => (q.1, BR.fin q.2)) <$> l.mapM (closestTo C X.cols) := by
    intro l
    induction l with
    | nil => intro _; rfl
    | cons r l ih =>
      intro h
      rw [List.map_cons, List.mapM_cons, List.mapM_cons, hrow r (h r (by simp)), ih fun r' h' => h r' (by simp [h'])]
      cases closestTo C X.cols r with
      | ok q => cases l.mapM (closestTo C X.cols) <;> rfl
      | err _ => rfl
      | panic => rfl
      | ub => rfl
  unfold kmPredict
  simp only [findClosest]
  have e : (bfinMat X).rows.mapM (closestTo (bfinMat C) (bfinMat X).cols) = _ := hm X.rows fun r hr => hr
  rw [e]
  cases X.rows.mapM (closestTo C X.cols) with
  | ok l => simp [List.map_map, Function.comp_def]
  | err _ => rfl
  | panic => rfl
  | ub => rfl

/-- C124, violated: samples that are so far from every centroid that a square is not a finite number all get the label 0, whichever
centroid is the nearest. -/
theorem C124_kmeans_far {C X : Mat ℝ} (hcols : C.cols = X.cols) (hne : C.rows ≠ []) (h : ∀ c ∈ C.rows, ∀ r ∈ X.rows, FarApart c r)
    (iters k : ℕ) :
    kmPredict ⟨iters, k, some (bfinMat C)⟩ (bfinMat X) = ok (List.replicate X.rows.length 0) := by
  have harg : ∀ (l : List BR) (i : ℕ), (∀ x ∈ l, x = BR.pinf) → argAux (fun best x : BR => x <. best) BR.pinf 0 i l = (0, BR.pinf) := by
    intro l
    induction l with
    | nil => intro i _; rfl
    | cons x l ih =>
      intro i hx
      rw [hx x (by simp), argAux, br_pinf_lt, if_neg (by simp)]
      exact ih (i + 1) fun y hy => hx y (by simp [hy])
  have hrow : ∀ r ∈ X.rows, closestTo (bfinMat C) X.cols (bfins r) = ok (0, BR.pinf) := by
    intro r hr
    have e := closestTo_eq (bfinMat C) (bfins r)
    have hcc : (bfinMat C).cols = X.cols := hcols
    rw [hcc] at e
    rw [e]
    have hd : ∀ c ∈ C.rows, kmDist (bfins r) (bfins c) = BR.pinf := by
      intro c hc
      rw [kmDist_eq]
      exact br_sqsum_far (h c hc r hr)
    cases hCr : C.rows with
    | nil => exact absurd hCr hne
    | cons c cs =>
      rw [hCr] at hd
      simp only [bfinMat, hCr, List.map_cons, argminBy, hd c (by simp), List.map_map]
      rw [harg _ 1]
      intro x hx
      obtain ⟨c', hc', rfl⟩ := List.mem_map.1 hx
      exact hd c' (by simp [hc'])
  have hm : ∀ l : List (List ℝ), (∀ r ∈ l, r ∈ X.rows) → (l.map bfins).mapM (closestTo (bfinMat C) X.cols) =
      ok (List.replicate l.length (0, BR.pinf)) := by
    intro l
    induction l with
    | nil => intro _; rfl
    | cons r l ih =>
      intro h
      rw [List.map_cons, List.mapM_cons, hrow r (h r (by simp)), ih fun r' h' => h r' (by simp [h'])]
      rfl
  unfold kmPredict
  simp only [findClosest]
  have e : (bfinMat X).rows.mapM (closestTo (bfinMat C) (bfinMat X).cols) = _ := hm X.rows fun r hr => hr
  rw [e]
  simp

/-- C124, violated: two equal finite samples whose sum is not finite give a cluster whose centre is not finite, not their common value. -/
theorem C124_kmeans_mean_violation : ∃ (X C : Mat ℝ), X.WF ∧ (∀ r ∈ X.rows, Within BR.top r) ∧
    kmTrain (fun _ _ => ok C) ⟨1, 1, none⟩ X = (⟨1, 1, some C⟩, ok ()) ∧
    kmTrain (fun _ _ => ok (bfinMat C)) ⟨1, 1, none⟩ (bfinMat X) = (⟨1, 1, some ⟨1, [[BR.pinf]]⟩⟩, ok ()) := by
  have hp := BR.top_pos
  have s1 : Scalar.sub (BR.fin BR.top) (BR.fin BR.top) = BR.fin 0 := by rw [br_sub (by simpa using hp.le), sub_self]
  have s2 : Scalar.mul (BR.fin 0) (BR.fin 0) = BR.fin 0 := by rw [br_mul (by simpa using hp.le), mul_zero]
  have s3 : Scalar.add (BR.fin 0) (BR.fin 0) = BR.fin 0 := by rw [br_add (by simpa using hp.le), add_zero]
  have s4 : Scalar.add (BR.fin 0) (BR.fin BR.top) = BR.fin BR.top := by rw [br_add (by rw [zero_add, abs_of_pos hp]), zero_add]
  have s5 : Scalar.add (BR.fin BR.top) (BR.fin BR.top) = BR.pinf := br_add_over (by linarith)
  have s6 : Scalar.div BR.pinf (BR.fin 2) = BR.pinf := br_pinf_div (by norm_num)
  refine ⟨⟨1, [[BR.top], [BR.top]]⟩, ⟨1, [[BR.top]]⟩, ?_, ?_, ?_, ?_⟩
  · intro r hr
    simp only [List.mem_cons, List.not_mem_nil, or_false] at hr
    rcases hr with rfl | rfl <;> rfl
  · intro r hr x hx
    simp only [List.mem_cons, List.not_mem_nil, or_false] at hr
    rcases hr with rfl | rfl <;> rw [List.mem_singleton.1 hx, abs_of_pos hp]
  · simp [kmTrain, kmInit, kmLoop, findClosest, closestTo, Mat.zip, Mat.sumCols, fsum, argminBy, argAux, updateCentroids, groupRows, Mat.selectRows,
      getAt, ofOption, Mat.meanRow, Mat.sumRows, colOf, Mat.new, chunk, List.range_succ]
  · simp [kmTrain, kmInit, kmLoop, findClosest, closestTo, Mat.zip, Mat.sumCols, fsum, argminBy, argAux, updateCentroids, groupRows, Mat.selectRows,
      getAt, ofOption, Mat.meanRow, Mat.sumRows, colOf, Mat.new, chunk, List.range_succ, bfinMat, bfins, s1, s2, s3, s4, s5, s6]

/-! ### Scaling -/

/-- C124, violated: when the difference of the largest and the smallest value is not finite, fitting the scaler to `[0, 1]` succeeds and
every value becomes 1. The data are `-MAX`, `MAX` and any other finite values. -/
theorem C124_minmax_violation (xs : List ℝ) (hx : Within BR.top xs) :
    ∃ t, minmaxFit ⟨BR.fin 0, BR.fin 1⟩ (bfinMat ⟨1, ([-BR.top, BR.top] ++ xs).map fun x => [x]⟩) = ok t ∧
      minmaxTransform t (bfinMat ⟨1, ([-BR.top, BR.top] ++ xs).map fun x => [x]⟩) =
        ok ⟨1, List.replicate (2 + xs.length) [BR.fin 1]⟩ := by
  have hp := BR.top_pos
  have h1 := BR.one_le_top
  have c1 : -BR.top < BR.top := by linarith
  have c2 : ¬ BR.top < -BR.top := by linarith
  have s1 : Scalar.sub (BR.fin BR.top) (BR.fin (-BR.top)) = BR.pinf := br_sub_over (by linarith)
  have s2 : Scalar.sub (BR.fin 1) (BR.fin 0) = BR.fin 1 := by rw [br_sub (by simpa using h1), sub_zero]
  have s3 : Scalar.div (BR.fin 1) BR.pinf = BR.fin 0 := br_div_pinf
  have s4 : ∀ x : ℝ, Scalar.mul (BR.fin x) (BR.fin 0) = BR.fin 0 := fun x => by rw [br_mul (by simpa using hp.le), mul_zero]
  have s5 : Scalar.add (BR.fin 0) (BR.fin 1) = BR.fin 1 := by rw [br_add (by simpa using h1), zero_add]
  have hrest : ∀ xs : List ℝ, Within BR.top xs →
      minmaxRows (xs.map fun x => [BR.fin x]) [(BR.fin (-BR.top), BR.fin BR.top)] = ok [(BR.fin (-BR.top), BR.fin BR.top)] := by
    intro xs
    induction xs with
    | nil => intro _; rfl
    | cons x xs ih =>
      intro h
      have hb := abs_le.1 (h x (by simp))
      rw [List.map_cons, minmaxRows]
      simp only [minmaxRow, br_isFinite_fin, Bool.not_true, Bool.false_eq_true, if_false, minmaxUpd, br_lt, decide_eq_true_eq,
        if_neg (not_lt.2 hb.1), if_neg (not_lt.2 hb.2), ok_bind]
      exact ih fun y hy => h y (by simp [hy])
  refine ⟨⟨[BR.fin 0], [BR.fin 1]⟩, ?_, ?_⟩
  · have hr := hrest xs hx
    simp only [minmaxFit, bfinMat, bfins, List.map_cons, List.map_nil, List.map_map, Function.comp_def, List.replicate_one,
      List.cons_append, List.nil_append, minmaxRows, minmaxRow, br_isFinite_fin, Bool.not_true, Bool.false_eq_true, if_false, minmaxUpd, br_maxVal,
      br_neg, br_lt, decide_eq_true_eq, c1, c2, if_true, lt_irrefl, ok_bind]
    rw [hr]
    simp [minmaxScale, s1, s2, s3, s4]
  · unfold minmaxTransform
    rw [if_neg (by simp [bfinMat])]
    simp only [bfinMat]
    congr 2
    have : ∀ l : List ℝ, List.map (fun row : List BR => List.zipWith Scalar.add (List.zipWith Scalar.mul row [BR.fin 0]) [BR.fin 1])
        (List.map bfins (l.map fun x => [x])) = List.replicate l.length [BR.fin 1] := by
      intro l
      induction l with
      | nil => rfl
      | cons x l ih =>
        simp only [List.map_cons, bfins, List.map_nil, List.zipWith_cons_cons, List.zipWith_nil_right, s4, s5, List.length_cons,
          List.replicate_succ] at ih ⊢
        rw [ih]
    rw [this]
    congr 1
    simp
    omega

/-- C124, violated: when the variance is not finite, fitting the scaler succeeds and different samples become equal. -/
theorem C124_standardizer_violation : ∃ (X : Mat ℝ) (t : Standardizer BR), X.WF ∧ (∀ r ∈ X.rows, Within BR.top r) ∧
    X.rows.Nodup ∧ X.rows.length = 2 ∧ standardizerFit ⟨BR.fin 0, BR.fin 1⟩ (bfinMat X) = ok t ∧
    standardizerTransform t (bfinMat X) = ok ⟨1, [[BR.fin 0], [BR.fin 0]]⟩ := by
  obtain ⟨h1, h2⟩ := half_top
  have hp := BR.top_pos
  have h1' := BR.one_le_top
  set h : ℝ := BR.top / 2 with hh
  have hh0 : 0 < h := by rw [hh]; linarith
  have a1 : Scalar.add (BR.fin 0) (BR.fin (-h)) = BR.fin (-h) := by
    rw [br_add (by rw [zero_add, abs_neg, abs_of_pos hh0]; exact h1), zero_add]
  have a2 : Scalar.add (BR.fin (-h)) (BR.fin h) = BR.fin 0 := by rw [br_add (by simpa using hp.le), neg_add_cancel]
  have a3 : Scalar.div (BR.fin 0) (BR.fin 2) = BR.fin 0 := by rw [br_div (by norm_num) (by simpa using hp.le), zero_div]
  have m1 : Scalar.sub (BR.fin (-h)) (BR.fin 0) = BR.fin (-h) := by
    rw [br_sub (by rw [sub_zero, abs_neg, abs_of_pos hh0]; exact h1), sub_zero]
  have m2 : Scalar.sub (BR.fin h) (BR.fin 0) = BR.fin h := by rw [br_sub (by rw [sub_zero, abs_of_pos hh0]; exact h1), sub_zero]
  have q1 : Scalar.mul (BR.fin (-h)) (BR.fin (-h)) = BR.pinf := br_mul_over (by nlinarith)
  have q2 : Scalar.mul (BR.fin h) (BR.fin h) = BR.pinf := br_mul_over (by nlinarith)
  have d1 : Scalar.div BR.pinf (BR.fin 1) = BR.pinf := br_pinf_div (by norm_num)
  have t1 : Scalar.mul (BR.fin (-h)) (BR.fin 1) = BR.fin (-h) := by
    rw [br_mul (by rw [mul_one, abs_neg, abs_of_pos hh0]; exact h1), mul_one]
  have t2 : Scalar.mul (BR.fin h) (BR.fin 1) = BR.fin h := by rw [br_mul (by rw [mul_one, abs_of_pos hh0]; exact h1), mul_one]
  have t3 : ∀ x, Scalar.div (BR.fin x) BR.pinf = BR.fin 0 := fun x => br_div_pinf
  have t4 : Scalar.add (BR.fin 0) (BR.fin 0) = BR.fin 0 := by rw [br_add (by simpa using hp.le), add_zero]
  refine ⟨⟨1, [[-h], [h]]⟩, ⟨[BR.fin 0], [BR.pinf], BR.fin 0, BR.fin 1⟩, ?_, ?_, ?_, rfl, ?_, ?_⟩
  · intro r hr
    simp only [List.mem_cons, List.not_mem_nil, or_false] at hr
    rcases hr with rfl | rfl <;> rfl
  · intro r hr x hx
    simp only [List.mem_cons, List.not_mem_nil, or_false] at hr
    rcases hr with rfl | rfl <;> rw [List.mem_singleton.1 hx]
    · rw [abs_neg, abs_of_pos hh0]; exact h1
    · rw [abs_of_pos hh0]; exact h1
  · simp only [List.nodup_cons, List.mem_singleton, List.cons.injEq, and_true, List.not_mem_nil, not_false_iff, List.nodup_nil]
    linarith
  · simp [standardizerFit, Mat.meanRow, Mat.sumRows, Mat.varianceRow, colOf, fsum, bfinMat, bfins, List.range_succ, a1, a2, a3, m1, m2, q1, q2, d1]
  · simp [standardizerTransform, bfinMat, bfins, m1, m2, t1, t2, t3, t4]

/-- C124: a row whose squares do not fit is reported by the scaler to unit length: an error, not wrong numbers. -/
theorem C124_normalizer {X : Mat ℝ} {r : List ℝ} (hr : r ∈ X.rows) {x : ℝ} (hx : x ∈ r) (hbig : BR.top < x ^ 2) :
    normalizerTransform eucNorm (bfinMat X) = err .InvalidData := by
  have hnorm : eucNorm (bfins r) = BR.pinf := by
    have hd : dot (bfins r) (bfins r) = BR.pinf := by
      unfold dot fsum
      have hsq : ∀ y : ℝ, ((BR.fin y) *. (BR.fin y)).NonNeg := by
        intro y
        by_cases h : BR.top < y * y
        · exact Or.inl (br_mul_over h)
        · exact Or.inr ⟨y * y, mul_self_nonneg _, br_mul (by rw [abs_of_nonneg (mul_self_nonneg _)]; linarith)⟩
      refine br_foldl_pinf _ (Or.inr ⟨0, le_refl _, rfl⟩) ?_ (Or.inr ?_)
      · intro z hz
        obtain ⟨i, hi, rfl⟩ := List.mem_iff_getElem.1 hz
        simp only [List.getElem_zipWith, bfins, List.getElem_map]
        exact hsq _
      · obtain ⟨i, hi, rfl⟩ := List.mem_iff_getElem.1 hx
        rw [List.mem_iff_getElem]
        refine ⟨i, by simpa using hi, ?_⟩
        simp only [List.getElem_zipWith, bfins, List.getElem_map]
        exact br_mul_over (by rw [← pow_two]; exact hbig)
    unfold eucNorm
    rw [hd]
    rfl
  unfold normalizerTransform
  have : ∀ l : List (List ℝ), r ∈ l → normalizeLoop ((l.map bfins).zip ((l.map bfins).map eucNorm)) = err .InvalidData := by
    intro l
    induction l with
    | nil => intro h; simp at h
    | cons a l ih =>
      intro h
      rw [List.map_cons, List.map_cons, List.zip_cons_cons, normalizeLoop]
      split
      · rfl
      · rename_i hf
        rcases List.mem_cons.1 h with rfl | h
        · rw [hnorm] at hf; simp at hf
        · rw [ih h]; rfl
  simp only [bfinMat]
  rw [this X.rows hr]
  rfl

/-- A case for the positive statements: two samples and a query of one feature, up to 1. -/
example : SquaresFit 1 1 ∧ Within 1 [(1 : ℝ)] ∧
    bruteSearch (some (bfinMat ⟨1, [[0], [1]]⟩)) (bfins [1]) 1 = (fun r => (r.1, bfins r.2)) <$> bruteSearch (some ⟨1, [[0], [1]]⟩) [1] 1 := by
  have hf : SquaresFit 1 1 := by
    unfold SquaresFit
    have := BR.sixteen_le_top
    norm_num
    linarith
  have h1 : Within 1 [(1 : ℝ)] := by intro x hx; rw [List.mem_singleton.1 hx]; simp
  refine ⟨hf, h1, C124_knn_search (X := ⟨1, [[0], [1]]⟩) ?_ hf ?_ h1 1⟩
  · intro r hr
    simp only [List.mem_cons, List.not_mem_nil, or_false] at hr
    rcases hr with rfl | rfl <;> rfl
  · intro r hr x hx
    simp only [List.mem_cons, List.not_mem_nil, or_false] at hr
    rcases hr with rfl | rfl <;> rw [List.mem_singleton.1 hx] <;> simp

end RM
