import Verif.Spec.Moves
import Verif.Props.KNN
import Verif.Props.Dbscan
import Verif.Props.Gp
import Verif.Props.KMeans
import Verif.Props.KMeansInit
import Verif.Props.Svm
import Verif.Props.Units

/-! C85: where the data lie in space. Learners that only look at distances do the same on data that are rotated, reflected,
shifted or (where lengths are parameters too) scaled. -/

namespace RM
open Outcome Scalar Spec

/-! ### Rigid motions -/

theorem eucl_eq_sqrt (x y : List ℝ) : eucl x y = Real.sqrt (sqDist x y) := rfl

theorem scalesBy_sqDist {n n' : ℕ} {c : ℝ} {T : List ℝ → List ℝ} (h : ScalesBy n n' c T) {x y : List ℝ} (hx : x.length = n) (hy : y.length = n) :
    sqDist (T x) (T y) = c ^ 2 * sqDist x y := by
  have := congrArg (· ^ 2) (h.2 x y hx hy)
  simp only [eucl_eq_sqrt, mul_pow] at this
  rwa [Real.sq_sqrt (sqDist_nonneg _ _), Real.sq_sqrt (sqDist_nonneg _ _)] at this

theorem moved_WF {n n' : ℕ} {c : ℝ} {T : List ℝ → List ℝ} (h : ScalesBy n n' c T) {X : Mat ℝ} (hX : X.WF) (hn : X.cols = n) : (moved n' T X).WF := by
  intro r hr
  obtain ⟨x, hx, rfl⟩ := List.mem_map.1 hr
  exact h.1 x (by rw [hX x hx, hn])

theorem affineMap_length {n n' : ℕ} {A : List (List ℝ)} (hA : OrthonormalColumns n n' A) {b : List ℝ} (hb : b.length = n') (x : List ℝ) :
    (affineMap A b x).length = n' := by simp [affineMap, hA.1, hb]

theorem affineMap_getD {n n' : ℕ} {A : List (List ℝ)} (hA : OrthonormalColumns n n' A) {b : List ℝ} (hb : b.length = n') {x : List ℝ} (hx : x.length = n)
    (i : ℕ) (hi : i < n') : (affineMap A b x).getD i 0 = ∑ j ∈ Finset.range n, (A.getD i []).getD j 0 * x.getD j 0 + b.getD i 0 := by
  have h1 := hA.1
  have e : (affineMap A b x).getD i 0 = (List.zipWith (· * ·) (A.getD i []) x).sum + b.getD i 0 := by
    rw [getD_lt _ (by rw [affineMap_length hA hb]; exact hi), getD_lt _ (by omega), getD_lt _ (by omega)]
    simp [affineMap]
  rw [e, zipWith_sum_range (n := n) (hA.2.1 _ (by rw [getD_lt _ (by omega)]; exact List.getElem_mem _)) hx]

/-- `x ↦ A x + b` is a rigid motion if the columns of `A` are orthonormal. -/
theorem affineMap_rigid {n n' : ℕ} {A : List (List ℝ)} (hA : OrthonormalColumns n n' A) {b : List ℝ} (hb : b.length = n') :
    ScalesBy n n' 1 (affineMap A b) := by
  refine ⟨fun x _ => affineMap_length hA hb x, fun x y hx hy => ?_⟩
  rw [one_mul, eucl_eq_sqrt, eucl_eq_sqrt]
  congr 1
  unfold sqDist
  rw [zipWith_sum_range (affineMap_length hA hb x) (affineMap_length hA hb y), zipWith_sum_range hx hy]
  have e : ∀ i ∈ Finset.range n', ((affineMap A b x).getD i 0 - (affineMap A b y).getD i 0) ^ 2 =
      ∑ j ∈ Finset.range n, ∑ k ∈ Finset.range n, ((A.getD i []).getD j 0 * (A.getD i []).getD k 0) * ((x.getD j 0 - y.getD j 0) * (x.getD k 0 - y.getD k 0)) := by
    intro i hi
    rw [affineMap_getD hA hb hx i (Finset.mem_range.1 hi), affineMap_getD hA hb hy i (Finset.mem_range.1 hi)]
    rw [show ∀ p q s : ℝ, (p + s) - (q + s) = p - q by intros; ring, ← Finset.sum_sub_distrib, sq, Finset.sum_mul_sum]
    refine Finset.sum_congr rfl fun j _ => Finset.sum_congr rfl fun k _ => by ring
  rw [Finset.sum_congr rfl e, Finset.sum_comm]
  refine Finset.sum_congr rfl fun j hj => ?_
  rw [Finset.sum_comm]
  have horth : ∀ k ∈ Finset.range n, ∑ i ∈ Finset.range n', ((A.getD i []).getD j 0 * (A.getD i []).getD k 0) * ((x.getD j 0 - y.getD j 0) * (x.getD k 0 - y.getD k 0)) =
      if j = k then (x.getD j 0 - y.getD j 0) ^ 2 else 0 := by
    intro k hk
    rw [← Finset.sum_mul]
    have h2 := hA.2.2 j (Finset.mem_range.1 hj) k (Finset.mem_range.1 hk)
    have h3 : (A.map fun r => r.getD j 0 * r.getD k 0).sum = ∑ i ∈ Finset.range n', ((A.getD i []).getD j 0 * (A.getD i []).getD k 0) := by
      rw [← lsum_range, ← hA.1]
      congr 1
      apply List.ext_getElem
      · simp
      · intro i h1 h2
        simp at h1
        simp [h1]
    rw [← h3, h2]
    split
    · rename_i h; subst h; ring
    · ring
  rw [Finset.sum_congr rfl horth, Finset.sum_ite_eq, if_pos hj]


/-! ### Nearest neighbours -/

/-- The same rows at other distances. -/
def mapDist (g : ℝ → ℝ) (ps : List (ℕ × ℝ)) : List (ℕ × ℝ) := ps.map fun p => (p.1, g p.2)

section
variable {g : ℝ → ℝ} (hg : StrictMono g)
include hg

theorem addLoop_mapDist (ps : List (ℕ × ℝ)) (x : ℕ × ℝ) : ∀ j, addLoop (mapDist g ps) (x.1, g x.2) j = mapDist g <$> addLoop ps x j
  | 0 => rfl
  | j + 1 => by
    simp only [addLoop, mapDist, List.getElem?_map]
    cases h : ps[j]? with
    | none => rfl
    | some p =>
      simp only [Option.map_some, real_lt, hg.lt_iff_lt]
      split
      · simp [List.map_insertIdx, mapDist]
      · exact addLoop_mapDist ps x j

theorem knearestAdd_mapDist (k : ℕ) (ps : List (ℕ × ℝ)) (i : ℕ) (d : ℝ) :
    knearestAdd k (mapDist g ps) i (g d) = (fun r => (mapDist g r.1, g r.2)) <$> knearestAdd k ps i d := by
  have hl : (mapDist g ps).length = ps.length := by simp [mapDist]
  have hlast : (mapDist g ps).getLast? = ps.getLast?.map fun p => (p.1, g p.2) := by simp [mapDist, List.getLast?_map]
  unfold knearestAdd
  simp only [hl, hlast]
  cases ps.getLast? with
  | none => rfl
  | some last =>
    simp only [Option.map_some, real_lt, hg.lt_iff_lt]
    split
    · have e : (if ps.length < k then mapDist g ps ++ [(i, g d)] else mapDist g ps) = mapDist g (if ps.length < k then ps ++ [(i, d)] else ps) := by
        split <;> simp [mapDist]
      rw [e]
      generalize (if ps.length < k then ps ++ [(i, d)] else ps) = qs
      generalize (if ps.length < k then ps.length else ps.length - 1) = t
      have ht : (mapDist g qs)[t]? = qs[t]?.map fun p => (p.1, g p.2) := by simp [mapDist]
      rw [ht]
      cases qs[t]? <;> rfl
    · have e : (if k ≤ ps.length then (mapDist g ps).dropLast else mapDist g ps) = mapDist g (if k ≤ ps.length then ps.dropLast else ps) := by
        split <;> simp [mapDist, List.map_dropLast]
      rw [e, addLoop_mapDist hg _ (i, d)]
      generalize (if ps.length < k then ps.length else ps.length - 1) = t
      cases addLoop (if k ≤ ps.length then ps.dropLast else ps) (i, d) (ps.length - 1) with
      | ok qs =>
        simp only [ok_map, ok_bind]
        have ht : (mapDist g qs)[t]? = qs[t]?.map fun p => (p.1, g p.2) := by simp [mapDist]
        rw [ht]
        cases qs[t]? <;> rfl
      | err _ => rfl
      | panic => rfl
      | ub => rfl

theorem offerAll_mapDist (k : ℕ) : ∀ (cands ps : List (ℕ × ℝ)) (cur : ℝ),
    offerAll k (mapDist g cands) (mapDist g ps) (g cur) = mapDist g <$> offerAll k cands ps cur
  | [], ps, cur => rfl
  | (i, d) :: rest, ps, cur => by
    simp only [mapDist, List.map_cons, offerAll, real_lt, hg.lt_iff_lt]
    split
    · rw [show (ps.map fun p => (p.1, g p.2)) = mapDist g ps from rfl, knearestAdd_mapDist hg]
      cases knearestAdd k ps i d with
      | ok r => exact offerAll_mapDist k rest r.1 r.2
      | err _ => rfl
      | panic => rfl
      | ub => rfl
    · exact offerAll_mapDist k rest ps cur

theorem knearestNew_mapDist (k : ℕ) (ids : List ℕ) (ds : List ℝ) : knearestNew k ids (ds.map g) = mapDist g <$> knearestNew k ids ds := by
  unfold knearestNew
  have e : ids.zip (ds.map g) = mapDist g (ids.zip ds) := by
    rw [List.zip_map_right]
    rfl
  simp only [e]
  have hnan : ∀ l : List (ℕ × ℝ), (l.any fun p => Scalar.isNaN p.2) = false := by
    intro l
    induction l with
    | nil => rfl
    | cons a l ih => simp [List.any_cons, ih, OrdScalar.isNaN_false]
  rw [if_neg (by rw [hnan]; simp), if_neg (by rw [hnan]; simp), ok_map]
  congr 1
  unfold mapDist
  rw [List.map_take]
  congr 1
  rw [List.map_insertionSort (r := pairLe) (s := pairLe)]
  intro a _ b _
  rw [pairLe_iff, pairLe_iff, hg.le_iff_le]

end

theorem indexedDists_moved {n n' : ℕ} {c : ℝ} {T : List ℝ → List ℝ} (h : ScalesBy n n' c T) {q : List ℝ} (hq : q.length = n) :
    ∀ (rs : List (List ℝ)) (i : ℕ), (∀ r ∈ rs, r.length = n) → indexedDists (T q) i (rs.map T) = mapDist (c * ·) (indexedDists q i rs)
  | [], i, _ => rfl
  | r :: rs, i, hr => by
    rw [List.map_cons, indexedDists, indexedDists, indexedDists_moved h hq rs (i + 1) (fun r' h' => hr r' (by simp [h']))]
    simp only [mapDist, List.map_cons, C19_C21_C22_distance_is_euclidean]
    rw [h.2 q r hq (hr r (by simp))]

/-- **C85 (search).** The brute force search on moved data finds the same rows, at the multiplied distances. -/
theorem C85_search {n n' : ℕ} {c : ℝ} {T : List ℝ → List ℝ} (h : ScalesBy n n' c T) (hc : 0 < c) (X : Mat ℝ) (hX : X.WF) (hn : X.cols = n)
    (q : List ℝ) (hq : q.length = n) (k : ℕ) :
    bruteSearch (some (moved n' T X)) (T q) k = (fun r => (r.1, r.2.map (c * ·))) <$> bruteSearch (some X) q k := by
  have hml : (moved n' T X).rows.length = X.rows.length := by simp [moved]
  have hrow : ∀ r ∈ X.rows, r.length = n := fun r hr => by rw [hX r hr, hn]
  by_cases hk : k = 0 ∨ X.rows.length < k
  · rw [C19_brute_force_panics _ _ _ (by rw [hml]; exact hk), C19_brute_force_panics _ _ _ hk]
    rfl
  push Not at hk
  have hg : StrictMono (c * · : ℝ → ℝ) := fun a b hab => mul_lt_mul_of_pos_left hab hc
  unfold bruteSearch
  simp only
  rw [getDistances_ok X q (List.range k) (by simp; omega) (by intro i hi; simp at hi; omega),
    getDistances_ok (moved n' T X) (T q) (List.range k) (by simp; omega) (by intro i hi; simp at hi; rw [hml]; omega)]
  simp only [ok_bind]
  have e : ((List.range k).map fun i => knnDist (T q) ((moved n' T X).rows.getD i [])) =
      ((List.range k).map fun i => knnDist q (X.rows.getD i [])).map (c * ·) := by
    rw [List.map_map]
    apply List.map_congr_left
    intro i hi
    rw [List.mem_range] at hi
    simp only [Function.comp, moved, C19_C21_C22_distance_is_euclidean]
    rw [getD_lt _ (by simp; omega), getD_lt _ (by omega), List.getElem_map]
    exact h.2 _ _ hq (hrow _ (List.getElem_mem _))
  rw [e, knearestNew_mapDist hg]
  obtain ⟨ps, hp1, hp2, hp3⟩ := knearestNew_good (dst := fun i => knnDist q (X.rows.getD i [])) (le_refl k) (List.range k) List.nodup_range
  have hlen : ps.length = k := by simpa using hp3
  have hne : ps ≠ [] := by intro hc; rw [hc] at hlen; simp at hlen; omega
  rw [hp1]
  simp only [ok_map, ok_bind]
  unfold knearestDist
  have hml' : (mapDist (c * ·) ps).length = ps.length := by simp [mapDist]
  rw [if_neg (by omega), if_neg (by omega)]
  have hlast : (mapDist (c * ·) ps).getLast? = ps.getLast?.map fun p => (p.1, c * p.2) := by simp [mapDist, List.getLast?_map]
  rw [hlast, List.getLast?_eq_getLast_of_ne_nil hne]
  simp only [Option.map_some, ok_bind]
  have e2 : (moved n' T X).rows.drop k = (X.rows.drop k).map T := by simp [moved, List.map_drop]
  rw [e2, indexedDists_moved h hq _ _ (fun r hr => hrow r (List.mem_of_mem_drop hr)), offerAll_mapDist hg]
  cases offerAll k (indexedDists q k (X.rows.drop k)) ps (ps.getLast hne).2 with
  | ok r => simp [knearestResults, mapDist, List.map_map, Function.comp_def]
  | err _ => rfl
  | panic => rfl
  | ub => rfl

theorem mapM_moved {α β γ : Type} {f : α → Outcome β} {f' : γ → Outcome β} (T : α → γ) : ∀ (l : List α), (∀ a ∈ l, f' (T a) = f a) →
    (l.map T).mapM f' = l.mapM f
  | [], _ => rfl
  | a :: l, h => by
    rw [List.map_cons, List.mapM_cons, List.mapM_cons, h a (by simp), mapM_moved T l fun b hb => h b (by simp [hb])]

/-- **C85 (k nearest neighbours).** A classifier trained on moved data accepts or rejects them as it does the original data, and
gives moved points the labels it would give the points. -/
theorem C85_knn {n n' : ℕ} {c : ℝ} {T : List ℝ → List ℝ} (h : ScalesBy n n' c T) (hc : 0 < c) (X : Mat ℝ) (hX : X.WF) (hn : X.cols = n)
    (y : List ℕ) (m : KNNClassifier (Option (Mat ℝ))) :
    (knnTrain bruteSearcher m (moved n' T X) y).2 = (knnTrain bruteSearcher m X y).2 ∧
    ((knnTrain bruteSearcher m X y).2 = ok () → ∀ Q : Mat ℝ, Q.WF → Q.cols = n →
      knnPredict bruteSearcher (knnTrain bruteSearcher m (moved n' T X) y).1 (moved n' T Q) =
        knnPredict bruteSearcher (knnTrain bruteSearcher m X y).1 Q) := by
  have hml : (moved n' T X).rows.length = X.rows.length := by simp [moved]
  unfold knnTrain
  rw [hml]
  split
  · simp
  · split
    · simp
    · simp only [bruteSearcher, bruteBuild, true_and, forall_const]
      intro Q hQ hQn
      simp only [knnPredict, moved]
      apply mapM_moved
      intro q hq
      have := C85_search h hc X hX hn q (by rw [hQ q hq, hQn]) m.k
      simp only [moved] at this
      rw [this]
      cases bruteSearch (some X) q m.k <;> rfl

/-! ### DBSCAN -/

theorem nearR_moved {n n' : ℕ} {c : ℝ} {T : List ℝ → List ℝ} (h : ScalesBy n n' c T) (hc : 0 < c) {X : Mat ℝ} (hX : X.WF) (hn : X.cols = n) (eps : ℝ)
    {i j : ℕ} (hi : i < X.rows.length) (hj : j < X.rows.length) : NearR (c * eps) (moved n' T X) i j ↔ NearR eps X i j := by
  unfold NearR moved
  simp only
  rw [getD_lt _ (by simpa using hi), getD_lt _ (by simpa using hj), getD_lt _ hi, getD_lt _ hj, List.getElem_map, List.getElem_map,
    h.2 _ _ (by rw [hX _ (List.getElem_mem _), hn]) (by rw [hX _ (List.getElem_mem _), hn])]
  exact mul_lt_mul_iff_right₀ hc

theorem isCore_congr {n mp : ℕ} {near near' : ℕ → ℕ → Prop} (h : ∀ i < n, ∀ j < n, near i j ↔ near' i j) {i : ℕ} (hi : i < n) :
    IsCore n mp near i ↔ IsCore n mp near' i := by
  constructor
  · rintro ⟨s, h1, h2⟩
    exact ⟨s, h1, fun j hj => ⟨(h2 j hj).1, (h i hi j (h2 j hj).1).1 (h2 j hj).2⟩⟩
  · rintro ⟨s, h1, h2⟩
    exact ⟨s, h1, fun j hj => ⟨(h2 j hj).1, (h i hi j (h2 j hj).1).2 (h2 j hj).2⟩⟩

theorem linked_congr {n mp : ℕ} {near near' : ℕ → ℕ → Prop} (h : ∀ i < n, ∀ j < n, near i j ↔ near' i j) (i j : ℕ) :
    Linked n mp near i j ↔ Linked n mp near' i j := by
  unfold Linked
  have : (fun a b => a < n ∧ b < n ∧ IsCore n mp near a ∧ IsCore n mp near b ∧ near a b) =
      fun a b => a < n ∧ b < n ∧ IsCore n mp near' a ∧ IsCore n mp near' b ∧ near' a b := by
    funext a b
    apply propext
    constructor
    · rintro ⟨ha, hb, h1, h2, h3⟩
      exact ⟨ha, hb, (isCore_congr h ha).1 h1, (isCore_congr h hb).1 h2, (h a ha b hb).1 h3⟩
    · rintro ⟨ha, hb, h1, h2, h3⟩
      exact ⟨ha, hb, (isCore_congr h ha).2 h1, (isCore_congr h hb).2 h2, (h a ha b hb).2 h3⟩
  rw [this]

theorem clustering_congr {n mp : ℕ} {near near' : ℕ → ℕ → Prop} (h : ∀ i < n, ∀ j < n, near i j ↔ near' i j) {l : List (Option ℕ)}
    (hl : IsDensityClustering n mp near l) : IsDensityClustering n mp near' l where
  length := hl.length
  labelled := fun i hi => (hl.labelled i hi).trans (isCore_congr h hi)
  same := fun i j a b ha hb => (hl.same i j a b ha hb).trans (linked_congr h i j)
  order := hl.order

/-- **C85 (DBSCAN).** On moved data, with the radius multiplied as the distances are, training gives the same clusters and, if it
keeps the data for predictions, the same predictions for moved points. -/
theorem C85_dbscan {n n' : ℕ} {c : ℝ} {T : List ℝ → List ℝ} (h : ScalesBy n n' c T) (hc : 0 < c) (X : Mat ℝ) (hX : X.WF) (hn : X.cols = n)
    (m : Dbscan ℝ) (fuel fuel' : ℕ) (m1 m2 : Dbscan ℝ) (h1 : dbTrain fuel m X = some (ok m1))
    (h2 : dbTrain fuel' { m with eps := c * m.eps } (moved n' T X) = some (ok m2)) :
    m2.clusters = m1.clusters ∧
    (m.predictive = true → ∀ Q : Mat ℝ, Q.WF → Q.cols = n → dbPredict m2 (moved n' T Q) = dbPredict m1 Q) := by
  have hX' := moved_WF h hX hn
  have hml : (moved n' T X).rows.length = X.rows.length := by simp [moved]
  obtain ⟨l1, a1, _, a3⟩ := C26_train m X hX
  obtain ⟨l2, b1, _, b3⟩ := C26_train { m with eps := c * m.eps } (moved n' T X) hX'
  have hl : l2 = l1 := by
    rw [hml] at b1
    exact C26_labels_unique (clustering_congr (fun i hi j hj => nearR_moved h hc hX hn m.eps hi hj) b1) a1
  subst hl
  have c1 : m1.clusters = some l2 := by obtain ⟨m', e, hm⟩ := a3 fuel _ h1; cases e; exact hm
  have c2 : m2.clusters = some l2 := by obtain ⟨m', e, hm⟩ := b3 fuel' _ h2; cases e; exact hm
  refine ⟨by rw [c1, c2], ?_⟩
  intro hp Q hQ hQn
  obtain ⟨l, p1, p2, p3, p4, _⟩ := dbTrain_predictive hp hX h1
  obtain ⟨l', q1, q2, q3, q4, _⟩ := dbTrain_predictive (m := { m with eps := c * m.eps }) hp hX' h2
  unfold dbPredict
  rw [p1, q1, p2, q2, p3, q3, c1, c2]
  simp only [if_true, moved]
  apply mapM_moved
  intro q hq
  have hql : q.length = n := by rw [hQ q hq, hQn]
  have hrow : ∀ r ∈ X.rows, r.length = n := fun r hr => by rw [hX r hr, hn]
  unfold dbClassify
  rw [mapM_dbDist q X.rows (fun r hr => by rw [hql, hrow r hr]), mapM_dbDist (T q) (X.rows.map T) (by
    intro r hr
    obtain ⟨x, hx, rfl⟩ := List.mem_map.1 hr
    rw [h.1 q hql, h.1 x (hrow x hx)])]
  simp only [ok_bind]
  have e : ((X.rows.map T).map fun r => eucl (T q) r) = (X.rows.map fun r => eucl q r).map (c * ·) := by
    simp only [List.map_map]
    exact List.map_congr_left fun r hr => h.2 q r hql (hrow r hr)
  rw [e]
  cases hr : X.rows with
  | nil => rfl
  | cons r rs =>
    simp only [List.map_cons, argminBy]
    have hmono : ∀ (l : List ℝ) (best : ℝ) (bi i : ℕ), argAux (fun best x => x <. best) (c * best) bi i (l.map (c * ·)) =
        ((argAux (fun best x => x <. best) best bi i l).1, c * (argAux (fun best x => x <. best) best bi i l).2) := by
      intro l
      induction l with
      | nil => intros; rfl
      | cons v vs ih =>
        intro best bi i
        simp only [List.map_cons, argAux, real_lt, mul_lt_mul_iff_right₀ hc]
        split
        · exact ih _ _ _
        · exact ih _ _ _
    rw [hmono]
    simp only [real_lt, mul_lt_mul_iff_right₀ hc]

/-! ### Kernel methods -/

/-- **C85 (kernels).** The kernels that are functions of the distance take the same values on moved points, if their lengths are
multiplied as the distances are. -/
theorem C85_kernels {n n' : ℕ} {c : ℝ} {T : List ℝ → List ℝ} (h : ScalesBy n n' c T) (hc : 0 < c) {x y : List ℝ} (hx : x.length = n) (hy : y.length = n)
    (ls ampl alpha : ℝ) :
    sqExpKernel (c * ls) ampl (T x) (T y) = sqExpKernel ls ampl x y ∧
    expKernel (Real.sqrt c * ls) ampl (T x) (T y) = expKernel ls ampl x y ∧
    rationalQuadraticKernel alpha (c * ls) (T x) (T y) = rationalQuadraticKernel alpha ls x y ∧
    (c = 1 → multiquadricKernel alpha (T x) (T y) = multiquadricKernel alpha x y) := by
  have hxy : x.length = y.length := by omega
  have hT : (T x).length = (T y).length := by rw [h.1 x hx, h.1 y hy]
  have hc2 : c ^ 2 ≠ 0 := by positivity
  refine ⟨?_, ?_, ?_, ?_⟩
  · rw [(C60_values x y hxy 0 0 0 ls ampl).2.2.2.1, (C60_values _ _ hT 0 0 0 (c * ls) ampl).2.2.2.1, scalesBy_sqDist h hx hy]
    congr 3
    rw [show -(c ^ 2 * sqDist x y) = c ^ 2 * -sqDist x y by ring, show 2 * (c * ls) ^ 2 = c ^ 2 * (2 * ls ^ 2) by ring, mul_div_mul_left _ _ hc2]
  · rw [(C60_values x y hxy 0 0 0 ls ampl).2.2.2.2.1, (C60_values _ _ hT 0 0 0 (Real.sqrt c * ls) ampl).2.2.2.2.1, ← eucl_eq_sqrt, ← eucl_eq_sqrt,
      h.2 x y hx hy]
    congr 3
    rw [show -(c * eucl x y) = c * -eucl x y by ring, mul_pow, Real.sq_sqrt hc.le, show 2 * (c * ls ^ 2) = c * (2 * ls ^ 2) by ring, mul_div_mul_left _ _ hc.ne']
  · rw [(C60_values x y hxy alpha 0 0 ls 0).2.2.2.2.2.2, (C60_values _ _ hT alpha 0 0 (c * ls) 0).2.2.2.2.2.2, scalesBy_sqDist h hx hy]
    congr 3
    rw [show 2 * alpha * (c * ls) ^ 2 = c ^ 2 * (2 * alpha * ls ^ 2) by ring, mul_div_mul_left _ _ hc2]
  · intro h1
    subst h1
    rw [(C60_values x y hxy 0 alpha 0 0 0).2.2.2.2.2.1, (C60_values _ _ hT 0 alpha 0 0 0).2.2.2.2.2.1, scalesBy_sqDist h hx hy]
    norm_num

theorem foldlM_congr_mem {α β : Type} {f f' : β → α → Outcome β} : ∀ (l : List α) (b : β), (∀ b, ∀ a ∈ l, f b a = f' b a) → l.foldlM f b = l.foldlM f' b
  | [], _, _ => rfl
  | a :: l, b, h => by
    rw [List.foldlM_cons, List.foldlM_cons, h b a (by simp)]
    congr 1
    funext b'
    exact foldlM_congr_mem l b' fun b a ha => h b a (by simp [ha])

theorem kerMat_moved {F : Type} [Scalar F] {K K' : Kernel F} {n n' : ℕ} {T : List F → List F} (hK : ∀ x y, x.length = n → y.length = n → K' (T x) (T y) = K x y)
    {X Y : Mat F} (hX : X.WF) (hY : Y.WF) (hn : X.cols = n) (hn' : Y.cols = n) :
    kerMat K' ⟨n', X.rows.map T⟩ ⟨n', Y.rows.map T⟩ = kerMat K X Y := by
  unfold kerMat
  rw [if_neg (by simp), if_neg (by rw [hn, hn']; simp)]
  simp only [List.length_map]
  rw [mapM_moved (f := fun r1 => Y.rows.mapM fun r2 => K r1 r2) T X.rows]
  intro x hx
  apply mapM_moved
  intro y hy
  exact hK x y (by rw [hX x hx, hn]) (by rw [hY y hy, hn'])

/-- **C85 (Gaussian processes).** A Gaussian process whose kernel and mean do not change under the motion trains on moved data
exactly if it does on the original data, and then predicts the same values, and the same covariances, at moved points. -/
theorem C85_gp (lib : TriLib ℝ) {n n' : ℕ} {c : ℝ} {T : List ℝ → List ℝ} (hT : ScalesBy n n' c T) (g g' : Gp ℝ)
    (hK : ∀ x y, x.length = n → y.length = n → g'.ker (T x) (T y) = g.ker x y) (hM : ∀ X, g'.mean (moved n' T X) = g.mean X) (hN : g'.noise = g.noise)
    (X : Mat ℝ) (hX : X.WF) (hn : X.cols = n) (y : List ℝ) :
    ((∃ t, g.train lib X y = ok t) ↔ ∃ t', g'.train lib (moved n' T X) y = ok t') ∧
    ∀ t t', g.train lib X y = ok t → g'.train lib (moved n' T X) y = ok t' → ∀ Q : Mat ℝ, Q.WF → Q.cols = n →
      t'.predict (moved n' T Q) = t.predict Q ∧ t'.posterior lib (moved n' T Q) = t.posterior lib Q := by
  have e : ∀ A B : Mat ℝ, A.WF → B.WF → A.cols = n → B.cols = n → kerMat g'.ker (moved n' T A) (moved n' T B) = kerMat g.ker A B :=
    fun A B hA hB ha hb => kerMat_moved hK hA hB ha hb
  have key : g'.train lib (moved n' T X) y =
      (fun t => { g' with trainMat := t.trainMat, trainData := some (moved n' T X), alpha := t.alpha }) <$> g.train lib X y := by
    unfold Gp.train
    rw [e X X hX hX hn hn, hM, hN, show (moved n' T X).rows.length = X.rows.length by simp [moved]]
    simp only [map_bind, ok_map]
  constructor
  · rw [key]
    cases g.train lib X y with
    | ok t => simp
    | err _ => simp [Functor.map]
    | panic => simp [Functor.map]
    | ub => simp [Functor.map]
  · intro t t' ht ht' Q hQ hQn
    rw [key, ht, ok_map] at ht'
    injection ht' with ht'
    subst ht'
    have hd : t.trainData = some X ∧ t.ker = g.ker ∧ t.mean = g.mean := by
      unfold Gp.train at ht
      simp only [bind_eq_ok] at ht
      obtain ⟨_, _, _, _, _, _, _, _, _, _, _, _, ht⟩ := ht
      injection ht with ht
      subst ht
      exact ⟨rfl, rfl, rfl⟩
    unfold Gp.predict Gp.posterior
    simp only [hd.1, hd.2.1, hd.2.2, hM, e Q X hQ hX hQn hn, e Q Q hQ hQ hQn hQn]
    constructor
    · cases t.alpha with
      | none => rfl
      | some a => simp only [e Q X hQ hX hQn hn]
    · cases t.trainMat with
      | none => rfl
      | some l =>
        cases t.alpha with
        | none => rfl
        | some a => simp only [e Q X hQ hX hQn hn]

/-- **C85 (support vector machines).** A support vector machine whose kernel does not change under the motion (it sees every point
with a 1 in front) trained with the same random draws on moved data makes the same predictions at moved points. -/
theorem C85_svm {n n' : ℕ} {c : ℝ} {T : List ℝ → List ℝ} (hT : ScalesBy n n' c T) (m m' : Svm ℝ)
    (hK : ∀ x y, x.length = n → y.length = n → m'.ker (1 :: T x) (1 :: T y) = m.ker (1 :: x) (1 :: y)) (hl : m'.lambda = m.lambda)
    (hi : m'.optimIters = m.optimIters) (draws : ℕ → ℕ) (X : Mat ℝ) (hX : X.WF) (hn : X.cols = n) (y : List ℝ) :
    ((∃ t, m.train draws X y = ok t) ↔ ∃ t', m'.train draws (moved n' T X) y = ok t') ∧
    ∀ t t', m.train draws X y = ok t → m'.train draws (moved n' T X) y = ok t' → ∀ Q : Mat ℝ, Q.WF → Q.cols = n →
      t'.predict (moved n' T Q) = t.predict Q := by
  set T1 : List ℝ → List ℝ := fun x => match x with | [] => [] | a :: x => a :: T x with hT1
  have hones : ∀ A : Mat ℝ, withOnes (moved n' T A) = ok ⟨n' + 1, (A.rows.map ((1 : ℝ) :: ·)).map T1⟩ := by
    intro A
    rw [withOnes_ok]
    simp [moved, hT1, Function.comp_def]
  have hstep : ∀ a t raw, svmStep m'.ker m'.lambda ⟨n' + 1, (X.rows.map ((1 : ℝ) :: ·)).map T1⟩ y a t raw =
      svmStep m.ker m.lambda ⟨X.cols + 1, X.rows.map ((1 : ℝ) :: ·)⟩ y a t raw := by
    intro a t raw
    unfold svmStep
    simp only [List.length_map, hl]
    congr 1
    funext i
    unfold getAt
    simp only [List.getElem?_map]
    cases hxi : X.rows[i]? with
    | none => rfl
    | some x =>
      simp only [Option.map_some, ofOption_some, ok_bind]
      have hs : kernelRowSum m'.ker (T1 (1 :: x)) ⟨n' + 1, (X.rows.map ((1 : ℝ) :: ·)).map T1⟩ =
          kernelRowSum m.ker (1 :: x) ⟨X.cols + 1, X.rows.map ((1 : ℝ) :: ·)⟩ := by
        unfold kernelRowSum
        simp only [List.foldlM_map]
        apply foldlM_congr_mem
        intro s r hr
        simp only [hT1]
        rw [hK x r (by rw [hX x (List.mem_of_getElem? hxi), hn]) (by rw [hX r hr, hn])]
      rw [hs]
  have key : m'.train draws (moved n' T X) y =
      (fun t => { m' with alpha := t.alpha, trainInputs := some ⟨n' + 1, (X.rows.map ((1 : ℝ) :: ·)).map T1⟩, trainTargets := some y }) <$> m.train draws X y := by
    unfold Svm.train
    rw [hones, withOnes_ok, hi]
    simp only [ok_bind, map_bind, ok_map, show (moved n' T X).rows.length = X.rows.length by simp [moved]]
    congr 1
    · congr 1
      funext a t
      exact hstep a t _
  constructor
  · rw [key]
    cases m.train draws X y with
    | ok t => simp
    | err _ => simp [Functor.map]
    | panic => simp [Functor.map]
    | ub => simp [Functor.map]
  · intro t t' ht ht' Q hQ hQn
    rw [key, ht, ok_map] at ht'
    injection ht' with ht'
    subst ht'
    have hd : t.trainInputs = some ⟨X.cols + 1, X.rows.map ((1 : ℝ) :: ·)⟩ ∧ t.trainTargets = some y ∧ t.ker = m.ker ∧ t.lambda = m.lambda := by
      unfold Svm.train at ht
      rw [withOnes_ok] at ht
      simp only [ok_bind, bind_eq_ok] at ht
      obtain ⟨_, _, ht⟩ := ht
      injection ht with ht
      subst ht
      exact ⟨rfl, rfl, rfl, rfl⟩
    unfold Svm.predict
    rw [hones, withOnes_ok]
    simp only [ok_bind, hd.1, hd.2.1, hd.2.2.1, hd.2.2.2, hl]
    have hk : kerMat m'.ker ⟨n' + 1, (Q.rows.map ((1 : ℝ) :: ·)).map T1⟩ ⟨n' + 1, (X.rows.map ((1 : ℝ) :: ·)).map T1⟩ =
        kerMat m.ker ⟨Q.cols + 1, Q.rows.map ((1 : ℝ) :: ·)⟩ ⟨X.cols + 1, X.rows.map ((1 : ℝ) :: ·)⟩ := by
      unfold kerMat
      rw [if_neg (by simp), if_neg (by simp [hn, hQn])]
      simp only [List.length_map]
      congr 1
      apply mapM_moved
      intro q' hq'
      apply mapM_moved
      intro x' hx'
      obtain ⟨q, hq, rfl⟩ := List.mem_map.1 hq'
      obtain ⟨x, hx, rfl⟩ := List.mem_map.1 hx'
      simp only [hT1]
      exact hK q x (by rw [hQ q hq, hQn]) (by rw [hX x hx, hn])
    cases t.alpha with
    | none => rfl
    | some a => simp only [hk]

theorem constMean_moved (n' : ℕ) (T : List ℝ → List ℝ) (a : ℝ) (X : Mat ℝ) : constMean a (moved n' T X) = constMean a X := by
  simp [constMean, moved]

/-- A kernel that is not changed by any rigid motion. -/
def RigidKernel (K : Kernel ℝ) : Prop :=
  ∀ (n n' : ℕ) (T : List ℝ → List ℝ), ScalesBy n n' 1 T → ∀ x y, x.length = n → y.length = n → K (T x) (T y) = K x y

/-- The kernels that are functions of the distance, and sums and products of such kernels, are not changed by rigid motions. -/
theorem C85_rigid_kernels (ls ampl alpha : ℝ) : RigidKernel (sqExpKernel ls ampl) ∧ RigidKernel (expKernel ls ampl) ∧
    RigidKernel (rationalQuadraticKernel alpha ls) ∧ RigidKernel (multiquadricKernel alpha) ∧
    ∀ K L : Kernel ℝ, RigidKernel K → RigidKernel L → RigidKernel (kernelSum K L) ∧ RigidKernel (kernelProd K L) := by
  refine ⟨?_, ?_, ?_, ?_, ?_⟩
  · intro n n' T h x y hx hy
    simpa using (C85_kernels h one_pos hx hy ls ampl alpha).1
  · intro n n' T h x y hx hy
    simpa using (C85_kernels h one_pos hx hy ls ampl alpha).2.1
  · intro n n' T h x y hx hy
    simpa using (C85_kernels h one_pos hx hy ls ampl alpha).2.2.1
  · intro n n' T h x y hx hy
    exact (C85_kernels h one_pos hx hy ls ampl alpha).2.2.2 rfl
  · intro K L hK hL
    constructor
    · intro n n' T h x y hx hy
      simp only [kernelSum, hK n n' T h x y hx hy, hL n n' T h x y hx hy]
    · intro n n' T h x y hx hy
      simp only [kernelProd, hK n n' T h x y hx hy, hL n n' T h x y hx hy]

/-- Rigid motions are rigid for points with a 1 in front. -/
theorem rigid_ones {n n' : ℕ} {T : List ℝ → List ℝ} (h : ScalesBy n n' 1 T) {K : Kernel ℝ} (hK : RigidKernel K) {x y : List ℝ} (hx : x.length = n)
    (hy : y.length = n) : K (1 :: T x) (1 :: T y) = K (1 :: x) (1 :: y) := by
  refine hK (n + 1) (n' + 1) (fun z => z.headD 0 :: T z.tail) ⟨?_, ?_⟩ (1 :: x) (1 :: y) (by simp [hx]) (by simp [hy])
  · intro z hz
    simp [h.1 z.tail (by simp [hz])]
  · intro u v hu hv
    obtain ⟨a, u, rfl⟩ := List.exists_cons_of_ne_nil (l := u) (by rintro rfl; simp at hu)
    obtain ⟨b, v, rfl⟩ := List.exists_cons_of_ne_nil (l := v) (by rintro rfl; simp at hv)
    have := scalesBy_sqDist h (x := u) (y := v) (by simpa using hu) (by simpa using hv)
    rw [one_mul, eucl_eq_sqrt, eucl_eq_sqrt]
    congr 1
    unfold sqDist at this ⊢
    simp only [List.headD_cons, List.tail_cons, List.zipWith_cons_cons, List.sum_cons, this]
    ring

/-- **C85 (support vector machines, rigid motions).** With a kernel that is a function of the distance. -/
theorem C85_svm_rigid {n n' : ℕ} {T : List ℝ → List ℝ} (hT : ScalesBy n n' 1 T) (m : Svm ℝ) (hK : RigidKernel m.ker) (draws : ℕ → ℕ)
    (X : Mat ℝ) (hX : X.WF) (hn : X.cols = n) (y : List ℝ) (t t' : Svm ℝ) (h : m.train draws X y = ok t) (h' : m.train draws (moved n' T X) y = ok t')
    (Q : Mat ℝ) (hQ : Q.WF) (hQn : Q.cols = n) : t'.predict (moved n' T Q) = t.predict Q :=
  (C85_svm hT m m (fun _ _ hx hy => rigid_ones hT hK hx hy) rfl rfl draws X hX hn y).2 t t' h h' Q hQ hQn

/-- **C85 (Gaussian processes, rigid motions).** With a kernel that is a function of the distance and a constant mean. -/
theorem C85_gp_rigid (lib : TriLib ℝ) {n n' : ℕ} {T : List ℝ → List ℝ} (hT : ScalesBy n n' 1 T) (K : Kernel ℝ) (hK : RigidKernel K) (a noise : ℝ)
    (X : Mat ℝ) (hX : X.WF) (hn : X.cols = n) (y : List ℝ) (t t' : Gp ℝ)
    (h : ({ ker := K, mean := constMean a, noise := noise } : Gp ℝ).train lib X y = ok t)
    (h' : ({ ker := K, mean := constMean a, noise := noise } : Gp ℝ).train lib (moved n' T X) y = ok t')
    (Q : Mat ℝ) (hQ : Q.WF) (hQn : Q.cols = n) : t'.predict (moved n' T Q) = t.predict Q ∧ t'.posterior lib (moved n' T Q) = t.posterior lib Q :=
  (C85_gp lib hT { ker := K, mean := constMean a, noise := noise } { ker := K, mean := constMean a, noise := noise }
    (fun x y hx hy => hK n n' T hT x y hx hy) (constMean_moved n' T a) rfl X hX hn y).2 t t' h h' Q hQ hQn

/-! ### k-means -/

theorem affineMap_centroid {n n' : ℕ} {A : List (List ℝ)} (hA : OrthonormalColumns n n' A) {b : List ℝ} (hb : b.length = n') {pts : List (List ℝ)}
    (hp : ∀ x ∈ pts, x.length = n) (hne : pts ≠ []) : affineMap A b (centroidOf n pts) = centroidOf n' (pts.map (affineMap A b)) := by
  have hlen : ((pts.length : ℕ) : ℝ) ≠ 0 := by
    have := List.length_pos_of_ne_nil hne
    positivity
  apply row_ext (n := n') (affineMap_length hA hb _) (by simp [centroidOf])
  intro i hi
  rw [affineMap_getD hA hb (by simp [centroidOf]) i hi]
  have e : ∀ (d : ℕ) (l : List (List ℝ)) (j : ℕ), j < d → (centroidOf d l).getD j 0 = mean (l.map fun r => r.getD j 0) := by
    intro d l j hj
    rw [getD_lt _ (by simpa [centroidOf] using hj)]
    simp [centroidOf]
  rw [e n' _ i hi]
  have e2 : ((pts.map (affineMap A b)).map fun r => r.getD i 0) =
      pts.map fun x => ∑ j ∈ Finset.range n, (A.getD i []).getD j 0 * x.getD j 0 + b.getD i 0 := by
    rw [List.map_map]
    exact List.map_congr_left fun x hx => affineMap_getD hA hb (hp x hx) i hi
  rw [e2, Finset.sum_congr rfl fun j hj => by rw [e n pts j (Finset.mem_range.1 hj)]]
  unfold mean
  simp only [List.length_map]
  clear e e2 hp hne
  rw [eq_div_iff hlen, add_mul, Finset.sum_mul]
  have h1 : (pts.map fun x => ∑ j ∈ Finset.range n, (A.getD i []).getD j 0 * x.getD j 0 + b.getD i 0).sum =
      ∑ j ∈ Finset.range n, (A.getD i []).getD j 0 * (pts.map fun r => r.getD j 0).sum + b.getD i 0 * pts.length := by
    clear hlen
    induction pts with
    | nil => simp
    | cons x pts ih =>
      simp only [List.map_cons, List.sum_cons, ih, mul_add, Finset.sum_add_distrib, List.length_cons]
      push_cast
      ring
  rw [h1]
  congr 1
  refine Finset.sum_congr rfl fun j _ => ?_
  field_simp

theorem labelled_moved {α β : Type} (T : α → β) (j : ℕ) : ∀ (X : List α) (cs : List ℕ), labelled j (X.map T) cs = (labelled j X cs).map T
  | [], cs => by simp [labelled]
  | x :: X, [] => by simp [labelled]
  | x :: X, c :: cs => by
    have := labelled_moved T j X cs
    unfold labelled at this ⊢
    simp only [List.map_cons, List.zip_cons_cons, List.filter_cons]
    split
    · simp [this]
    · exact this

section
variable {n n' : ℕ} {A : List (List ℝ)} (hA : OrthonormalColumns n n' A) {b : List ℝ} (hb : b.length = n')
include hA hb

theorem newCentroids_moved (k : ℕ) {X : List (List ℝ)} (hX : ∀ x ∈ X, x.length = n) (cs : List ℕ) :
    newCentroids k n' (X.map (affineMap A b)) cs = (newCentroids k n X cs).map (Option.map (affineMap A b)) := by
  unfold newCentroids
  rw [List.map_map]
  apply List.map_congr_left
  intro j _
  simp only [Function.comp, labelled_moved]
  by_cases h : labelled j X cs = []
  · simp [h]
  · rw [if_neg (by simpa using h), if_neg h, Option.map_some, ← affineMap_centroid hA hb (fun x hx => hX x ?_) h]
    unfold labelled at hx
    obtain ⟨p, hp, rfl⟩ := List.mem_map.1 hx
    exact (List.of_mem_zip (List.mem_of_mem_filter hp)).1

theorem closestTo_moved (hn : 0 < n) (hn' : 0 < n') {x : List ℝ} (hx : x.length = n) {C : List (Option (List ℝ))} (hC : CWidth n C) :
    closestTo (stored n' (C.map (Option.map (affineMap A b)))) n' ((affineMap A b x).map XR.fin) = closestTo (stored n C) n (x.map XR.fin) := by
  have h1 := closestTo_eq (stored n' (C.map (Option.map (affineMap A b)))) ((affineMap A b x).map XR.fin)
  have h2 := closestTo_eq (stored n C) (x.map XR.fin)
  rw [show (stored n' (C.map (Option.map (affineMap A b)))).cols = n' from rfl, kmDist_stored (affineMap_length hA hb x) (.inl hn')] at h1
  rw [show (stored n C).cols = n from rfl, kmDist_stored hx (.inl hn)] at h2
  rw [h1, h2]
  congr 2
  rw [List.map_map]
  apply List.map_congr_left
  intro o ho
  cases o with
  | none => rfl
  | some c =>
    simp only [Function.comp, Option.map_some, Option.some.injEq]
    rw [scalesBy_sqDist (affineMap_rigid hA hb) hx (hC c ho)]
    ring

theorem findClosest_moved (hn : 0 < n) (hn' : 0 < n') {X : Mat ℝ} (hX : X.WF) (hXn : X.cols = n) {C : List (Option (List ℝ))} (hC : CWidth n C) :
    findClosest (stored n' (C.map (Option.map (affineMap A b)))) (finMat (moved n' (affineMap A b) X)) = findClosest (stored n C) (finMat X) := by
  unfold findClosest
  congr 1
  simp only [finMat, moved, hXn]
  rw [List.map_map, List.mapM_map, List.mapM_map]
  have : ∀ l : List (List ℝ), (∀ x ∈ l, x.length = n) →
      l.mapM (closestTo (stored n' (C.map (Option.map (affineMap A b)))) n' ∘ (List.map XR.fin ∘ affineMap A b)) =
      l.mapM (closestTo (stored n C) n ∘ List.map XR.fin) := by
    intro l hl
    have := mapM_moved (f := closestTo (stored n C) n ∘ List.map XR.fin)
      (f' := closestTo (stored n' (C.map (Option.map (affineMap A b)))) n' ∘ (List.map XR.fin ∘ affineMap A b)) id l
      (fun x hx => closestTo_moved hA hb hn hn' (hl x hx) hC)
    simpa using this
  exact this X.rows fun x hx => by rw [hX x hx, hXn]

theorem kmLoop_moved (hn : 0 < n) (hn' : 0 < n') {X : Mat ℝ} (hX : X.WF) (hXn : X.cols = n) {k : ℕ} (hk : 0 < k) : ∀ (it : ℕ) (cost : XR) (C : List (Option (List ℝ))),
    CWidth n C → C ≠ [] →
    ∃ C', CWidth n C' ∧ kmLoop k (finMat X) it cost (stored n C) = ok (stored n C') ∧
      kmLoop k (finMat (moved n' (affineMap A b) X)) it cost (stored n' (C.map (Option.map (affineMap A b)))) =
        ok (stored n' (C'.map (Option.map (affineMap A b))))
  | 0, cost, C, hC, hne => ⟨C, hC, rfl, rfl⟩
  | it + 1, cost, C, hC, hne => by
    obtain ⟨r, hr⟩ : ∃ r, (finMat X).rows.mapM (closestTo (stored n C) (finMat X).cols) = ok r := by
      obtain ⟨bs, hbs, _⟩ := mapM_exists (closestTo (stored n C) (finMat X).cols) (fun _ _ => True) (finMat X).rows (by
        intro row _
        rw [show (finMat X).cols = (stored n C).cols from hXn, closestTo_eq]
        obtain ⟨c, C1, rfl⟩ := List.exists_cons_of_ne_nil hne
        simp only [stored, List.map_cons, argminBy]
        exact ⟨_, rfl, trivial⟩)
      exact ⟨bs, hbs⟩
    have hf : findClosest (stored n C) (finMat X) = ok (r.map Prod.fst, r.map Prod.snd) := by
      unfold findClosest
      rw [hr]
      rfl
    have hlen : X.rows.length = (r.map Prod.fst).length := by
      have := mapM_length hr
      simp [finMat] at this
      simp [this]
    have hX' := moved_WF (affineMap_rigid hA hb) hX hXn
    have u1 := updateCentroids_stored k X hX (r.map Prod.fst) hlen
    have u2 := updateCentroids_stored k (moved n' (affineMap A b) X) hX' (r.map Prod.fst) (by simpa [moved] using hlen)
    rw [show (moved n' (affineMap A b) X).cols = n' from rfl, show (moved n' (affineMap A b) X).rows = X.rows.map (affineMap A b) from rfl,
      newCentroids_moved hA hb k (fun x hx => by rw [hX x hx, hXn])] at u2
    rw [hXn] at u1
    rw [kmLoop, kmLoop, findClosest_moved hA hb hn hn' hX hXn hC, hf]
    simp only [ok_bind]
    rw [u1, u2]
    simp only [ok_bind]
    have hw := newCentroids_width k n X.rows (r.map Prod.fst)
    split
    · exact ⟨_, hw, rfl, rfl⟩
    · exact kmLoop_moved hn hn' hX hXn hk it _ _ hw (by
        intro h0
        have := newCentroids_length k n X.rows (r.map Prod.fst)
        rw [h0] at this
        simp at this
        omega)

/-- **C85 (k-means).** Started from moved centroids, k-means on rotated, reflected and shifted data ends with the moved centroids
(`none` stands for the row of NaNs of an empty cluster) and assigns moved points to the same clusters. -/
theorem C85_kmeans (hn : 0 < n) (hn' : 0 < n') (X : Mat ℝ) (hX : X.WF) (hXn : X.cols = n) (m : KMeans XR) (hk : 0 < m.k)
    (init init' : ℕ → Mat XR → Outcome (Mat XR)) (C0 : Mat ℝ) (hC0 : C0.WF) (hC0n : C0.cols = n)
    (hi : init m.k (finMat X) = ok (finMat C0)) (hi' : init' m.k (finMat (moved n' (affineMap A b) X)) = ok (finMat (moved n' (affineMap A b) C0))) :
    (kmTrain init' m (finMat (moved n' (affineMap A b) X))).2 = (kmTrain init m (finMat X)).2 ∧
    ((kmTrain init m (finMat X)).2 = ok () →
      ∃ C, (kmTrain init m (finMat X)).1.centroids = some (stored n C) ∧ (∀ c, some c ∈ C → c.length = n) ∧
        (kmTrain init' m (finMat (moved n' (affineMap A b) X))).1.centroids = some (stored n' (C.map (Option.map (affineMap A b)))) ∧
        ∀ Q : Mat ℝ, Q.WF → Q.cols = n →
          kmPredict (kmTrain init' m (finMat (moved n' (affineMap A b) X))).1 (finMat (moved n' (affineMap A b) Q)) =
            kmPredict (kmTrain init m (finMat X)).1 (finMat Q)) := by
  have e1 : kmInit init m.k (finMat X) = if m.k > X.rows.length then err .InvalidData else if C0.rows.length ≠ m.k then err .InvalidState else ok (finMat C0) := by
    unfold kmInit
    rw [hi]
    simp only [ok_bind, finMat, List.length_map, hC0n, hXn, ne_eq, not_true_eq_false, if_false]
  have e2 : kmInit init' m.k (finMat (moved n' (affineMap A b) X)) =
      if m.k > X.rows.length then err .InvalidData else if C0.rows.length ≠ m.k then err .InvalidState else ok (finMat (moved n' (affineMap A b) C0)) := by
    unfold kmInit
    rw [hi']
    simp only [ok_bind, finMat, moved, List.length_map, ne_eq, not_true_eq_false, if_false]
  unfold kmTrain
  rw [e1, e2]
  by_cases h1 : m.k > X.rows.length
  · simp [h1]
  rw [if_neg h1, if_neg h1]
  by_cases h2 : C0.rows.length ≠ m.k
  · simp [h2]
  rw [if_neg h2, if_neg h2]
  push Not at h2
  have hne : C0.rows.map some ≠ [] := by
    intro h0
    simp at h0
    rw [h0] at h2
    simp at h2
    omega
  have hw : CWidth n (C0.rows.map some) := by
    intro c hc
    simp at hc
    rw [hC0 c hc, hC0n]
  obtain ⟨C, hC, l1, l2⟩ := kmLoop_moved hA hb hn hn' hX hXn hk m.iters Scalar.zero (C0.rows.map some) hw hne
  have s1 : stored n (C0.rows.map some) = finMat C0 := by rw [← hC0n]; exact stored_some C0
  have s2 : stored n' ((C0.rows.map some).map (Option.map (affineMap A b))) = finMat (moved n' (affineMap A b) C0) := by
    rw [← stored_some]
    simp [moved, Function.comp_def]
  rw [s1] at l1
  rw [s2] at l2
  simp only [l1, l2, true_and, forall_const]
  refine ⟨C, rfl, hC, rfl, ?_⟩
  intro Q hQ hQn
  simp only [kmPredict]
  rw [findClosest_moved hA hb hn hn' hQ hQn hC]

end

/-! The library's starts of k-means satisfy the assumption of `C85_kmeans`. -/

theorem mapM_getAt_map {α β : Type} (f : α → β) (l : List α) : ∀ idx : List ℕ, idx.mapM (getAt (l.map f)) = List.map f <$> idx.mapM (getAt l)
  | [] => rfl
  | i :: idx => by
    rw [List.mapM_cons, List.mapM_cons, mapM_getAt_map f l idx]
    unfold getAt
    rw [List.getElem?_map]
    cases l[i]? with
    | none => rfl
    | some x => cases idx.mapM (fun i => ofOption l[i]?) <;> rfl

theorem xr_rows_inj {a b : List (List ℝ)} (h : a.map (List.map XR.fin) = b.map (List.map XR.fin)) : a = b := by
  have h1 : Function.Injective (List.map XR.fin) := List.map_injective_iff.2 fun x y hxy => by cases hxy; rfl
  exact List.map_injective_iff.2 h1 h

/-- **C85 (Forgy start).** The same draws choose the moved centroids. -/
theorem C85_forgy_start (n' : ℕ) (T : List ℝ → List ℝ) (raws : List ℕ) (k : ℕ) (X C0 : Mat ℝ)
    (h : forgyInit raws k (finMat X) = some (ok (finMat C0))) : forgyInit raws k (finMat (moved n' T X)) = some (ok (finMat (moved n' T C0))) := by
  unfold forgyInit at h ⊢
  rw [show (finMat (moved n' T X)).rows.length = (finMat X).rows.length by simp [finMat, moved]]
  cases hf : forgyLoop k (finMat X).rows.length raws [] with
  | none => rw [hf] at h; simp at h
  | some o =>
    rw [hf] at h
    cases o with
    | ok ch =>
      simp only [Option.some.injEq] at h ⊢
      unfold Mat.selectRows at h ⊢
      simp only [finMat, mapM_getAt_map, moved] at h ⊢
      cases hm : ch.mapM (getAt X.rows) with
      | ok r =>
        rw [hm] at h
        simp only [ok_map, ok_bind, ok.injEq, Mat.mk.injEq] at h ⊢
        rw [xr_rows_inj h.2]
        exact ⟨trivial, rfl⟩
      | err _ => rw [hm] at h; simp [Functor.map] at h
      | panic => rw [hm] at h; simp [Functor.map] at h
      | ub => rw [hm] at h; simp [Functor.map] at h
    | err _ => simp at h
    | panic => simp at h
    | ub => simp at h

section
variable {n n' : ℕ} {A : List (List ℝ)} (hA : OrthonormalColumns n n' A) {b : List ℝ} (hb : b.length = n')
include hA hb

/-- **C85 (random partition start).** The same draws give the moved centroids. -/
theorem C85_partition_start (raws : List ℕ) (k : ℕ) (X : Mat ℝ) (hX : X.WF) (hXn : X.cols = n) (hk : k ≤ X.rows.length) (hk0 : 0 < k)
    (hr : X.rows.length - k ≤ raws.length) :
    ∃ C0 : Mat ℝ, C0.WF ∧ C0.cols = n ∧ partitionInit raws k (finMat X) = ok (finMat C0) ∧
      partitionInit raws k (finMat (moved n' (affineMap A b) X)) = ok (finMat (moved n' (affineMap A b) C0)) := by
  obtain ⟨g, h1, h2, h3, h4⟩ := partition_groups raws k X.rows.length hk hk0 hr
  refine ⟨_, ?_, ?_, h4 X hX rfl, ?_⟩
  · intro r hr
    obtain ⟨v, _, rfl⟩ := List.mem_map.1 hr
    exact centroidOf_length _ _
  · exact hXn
  · rw [h4 _ (moved_WF (affineMap_rigid hA hb) hX hXn) (by simp [moved])]
    congr 2
    simp only [moved, Mat.mk.injEq, true_and, List.map_map]
    apply List.map_congr_left
    intro v hv
    have hlt : ∀ i ∈ v, i < X.rows.length := fun i hi => by
      simpa using h3.mem_iff.1 (List.mem_flatten.2 ⟨v, hv, hi⟩)
    have hrow : ∀ i ∈ v, (X.rows.getD i []).length = n := fun i hi => by
      rw [getD_lt _ (hlt i hi), hX _ (List.getElem_mem _), hXn]
    simp only [Function.comp]
    rw [hXn, affineMap_centroid hA hb (by
      intro x hx
      obtain ⟨i, hi, rfl⟩ := List.mem_map.1 hx
      exact hrow i hi) (by simpa using h2 v hv), List.map_map]
    congr 1
    apply List.map_congr_left
    intro i hi
    simp [hlt i hi]

theorem kppLoop_moved (hn : 0 < n) (hn' : 0 < n') {X : Mat ℝ} (hX : X.WF) (hXn : X.cols = n) : ∀ (us : List XR) (cs : List (List ℝ)) (R : List (List ℝ)),
    (∀ c ∈ cs, c.length = n) → kppLoop (finMat X) us (cs.map (List.map XR.fin)) = ok (R.map (List.map XR.fin)) →
    (∀ c ∈ R, c.length = n) ∧
    kppLoop (finMat (moved n' (affineMap A b) X)) us ((cs.map (affineMap A b)).map (List.map XR.fin)) = ok ((R.map (affineMap A b)).map (List.map XR.fin))
  | [], cs, R, hc, h => by
    simp only [kppLoop, ok.injEq] at h ⊢
    rw [← xr_rows_inj h]
    exact ⟨hc, rfl⟩
  | u :: us, cs, R, hc, h => by
    have s1 : (⟨(finMat X).cols, cs.map (List.map XR.fin)⟩ : Mat XR) = stored n (cs.map some) := by
      simp only [stored, finMat, hXn, List.map_map]; rfl
    have s2 : (⟨(finMat (moved n' (affineMap A b) X)).cols, (cs.map (affineMap A b)).map (List.map XR.fin)⟩ : Mat XR) =
        stored n' ((cs.map some).map (Option.map (affineMap A b))) := by
      simp only [stored, finMat, moved, List.map_map]; rfl
    have hw : CWidth n (cs.map some) := by
      intro c hcm
      simp at hcm
      exact hc c hcm
    rw [kppLoop, s1] at h
    rw [kppLoop, s2, findClosest_moved hA hb hn hn' hX hXn hw]
    cases hf : findClosest (stored n (cs.map some)) (finMat X) with
    | ok p =>
      rw [hf] at h
      simp only [ok_bind] at h ⊢
      split at h
      · rename_i hfin
        rw [if_pos hfin]
        cases hs : sampleDiscretely u p.2 with
        | ok next =>
          rw [hs] at h
          simp only [ok_bind] at h ⊢
          unfold rowUnchecked at h ⊢
          simp only [finMat, moved, List.getElem?_map, List.map_map] at h ⊢
          cases hx : X.rows[next]? with
          | none => rw [hx] at h; simp at h
          | some x =>
            rw [hx] at h
            simp only [Option.map_some, ok_bind, Function.comp] at h ⊢
            have := kppLoop_moved hn hn' hX hXn us (cs ++ [x]) R (by
              intro c hcm
              rcases List.mem_append.1 hcm with h1 | h1
              · exact hc c h1
              · simp only [List.mem_singleton] at h1
                rw [h1, hX x (List.mem_of_getElem? hx), hXn]) (by
              rw [← h]; simp [finMat])
            refine ⟨this.1, ?_⟩
            have t := this.2
            simp only [finMat, moved, List.map_append, List.map_map, List.map_cons, List.map_nil] at t
            exact t
        | err _ => rw [hs] at h; simp at h
        | panic => rw [hs] at h; simp at h
        | ub => rw [hs] at h; simp at h
      · simp at h
    | err _ => rw [hf] at h; simp at h
    | panic => rw [hf] at h; simp at h
    | ub => rw [hf] at h; simp at h

/-- **C85 (k-means++ start).** The same draws choose the moved centroids. -/
theorem C85_kplusplus_start (hn : 0 < n) (hn' : 0 < n') (raw : ℕ) (us : List ℝ) (k : ℕ) (X : Mat ℝ) (hX : X.WF) (hXn : X.cols = n) (hk0 : 0 < k)
    (hk : k ≤ X.rows.dedup.length) (hu : ∀ u ∈ us, 0 ≤ u ∧ u < 1) (hl : k - 1 ≤ us.length) :
    ∃ C0 : Mat ℝ, C0.WF ∧ C0.cols = n ∧ kppInit raw (us.map XR.fin) k (finMat X) = ok (finMat C0) ∧
      kppInit raw (us.map XR.fin) k (finMat (moved n' (affineMap A b) X)) = ok (finMat (moved n' (affineMap A b) C0)) := by
  have hle : X.rows.dedup.length ≤ X.rows.length := (List.dedup_sublist _).length_le
  have hpos : 0 < X.rows.length := by omega
  obtain ⟨x, hx⟩ : ∃ x, X.rows[raw % X.rows.length]? = some x := ⟨_, List.getElem?_eq_getElem (Nat.mod_lt _ hpos)⟩
  have hxm := List.mem_of_getElem? hx
  have htl : (us.take (k - 1)).length = k - 1 := by rw [List.length_take]; omega
  obtain ⟨cs, h1, h2, h3, h4⟩ := (kppLoop_spec hX (us.take (k - 1)) [x] (fun u hu' => hu u (List.mem_of_mem_take hu')) (by simp) (by simp)
    (by intro c hc; simp only [List.mem_singleton] at hc; rw [hc]; exact hxm)).1 (by simp only [List.length_singleton, htl]; omega)
  have h2' : cs.length = k := by rw [h2, List.length_singleton, htl]; omega
  have hcw : ∀ c ∈ cs, c.length = n := fun c hc => by rw [hX c (h4 c hc), hXn]
  have hg : ∀ M : Mat XR, M.rows.length = X.rows.length → genRange raw 0 M.rows.length = ok (raw % X.rows.length) := by
    intro M hM
    rw [hM]
    simp [genRange, hpos]
  refine ⟨⟨n, cs⟩, hcw, rfl, ?_, ?_⟩
  · unfold kppInit
    rw [hg _ (by simp [finMat]), ok_bind, rowUnchecked_ok (finMat X) _ (x.map XR.fin) (by simp [finMat, hx]), ok_bind, ← List.map_take]
    simp only [List.map_cons, List.map_nil] at h1
    rw [h1, ok_bind, Mat.new_flatten (by simpa using h2')]
    · simp [finMat, hXn]
    · intro r hr
      obtain ⟨c, hc, rfl⟩ := List.mem_map.1 hr
      simp [finMat, hXn, hcw c hc]
  · unfold kppInit
    have := (kppLoop_moved hA hb hn hn' hX hXn _ [x] cs (by
      intro c hc
      simp only [List.mem_singleton] at hc
      rw [hc, hX x hxm, hXn]) h1).2
    rw [hg _ (by simp [finMat, moved]), ok_bind, rowUnchecked_ok (finMat (moved n' (affineMap A b) X)) _ ((affineMap A b x).map XR.fin) (by simp [finMat, moved, hx]),
      ok_bind, ← List.map_take]
    simp only [List.map_cons, List.map_nil] at this
    rw [this, ok_bind, Mat.new_flatten (by simpa using h2')]
    · simp [finMat, moved]
    · intro r hr
      obtain ⟨c, hc, rfl⟩ := List.mem_map.1 hr
      obtain ⟨c', hc', rfl⟩ := List.mem_map.1 hc
      simp [finMat, moved, affineMap_length hA hb]

end

/-- A quarter turn of the plane followed by a shift. -/
theorem quarterTurn : OrthonormalColumns 2 2 [[0, -1], [1, 0]] := by
  refine ⟨rfl, by simp, ?_⟩
  intro i hi j hj
  interval_cases i <;> interval_cases j <;> norm_num

example : affineMap [[0, -1], [1, 0]] [5, 7] [3, 4] = [1, 10] := by norm_num [affineMap]

/-- Four points, and the same points turned and shifted. -/
example : moved 2 (affineMap [[0, -1], [1, 0]] [5, 7]) ⟨2, [[0, 0], [1, 0], [0, 3], [4, 4]]⟩ = ⟨2, [[5, 7], [5, 8], [2, 7], [1, 11]]⟩ := by
  norm_num [moved, affineMap]

example (q : List ℝ) (hq : q.length = 2) :
    bruteSearch (some (moved 2 (affineMap [[0, -1], [1, 0]] [5, 7]) ⟨2, [[0, 0], [1, 0], [0, 3], [4, 4]]⟩)) (affineMap [[0, -1], [1, 0]] [5, 7] q) 2 =
      (fun r => (r.1, r.2.map (1 * ·))) <$> bruteSearch (some ⟨2, [[0, 0], [1, 0], [0, 3], [4, 4]]⟩) q 2 :=
  C85_search (affineMap_rigid quarterTurn rfl) one_pos _ (by intro r hr; simp at hr; rcases hr with rfl | rfl | rfl | rfl <;> rfl) rfl q hq 2

example (raws : List ℕ) (hr : 2 ≤ raws.length) :=
  C85_partition_start quarterTurn (b := [5, 7]) rfl raws 2 ⟨2, [[0, 0], [1, 0], [0, 3], [4, 4]]⟩
    (by intro r hr; simp at hr; rcases hr with rfl | rfl | rfl | rfl <;> rfl) rfl (by simp) (by simp) (by simpa using hr)

example (m : Svm ℝ) (hm : m = Svm.default) : RigidKernel m.ker := by
  subst hm
  exact (C85_rigid_kernels 1 1 0).1

/-- A line placed in the plane. -/
example : OrthonormalColumns 1 2 [[3 / 5], [4 / 5]] := by
  refine ⟨rfl, by simp, ?_⟩
  intro i hi j hj
  interval_cases i <;> interval_cases j <;> norm_num

/-- Magnification. -/
example : ScalesBy 1 1 3 (List.map (3 * ·)) := by
  refine ⟨fun x hx => by simpa using hx, ?_⟩
  intro x y hx hy
  obtain ⟨a, rfl⟩ := List.length_eq_one_iff.1 hx
  obtain ⟨b, rfl⟩ := List.length_eq_one_iff.1 hy
  simp only [List.map_cons, List.map_nil, eucl_one]
  rw [← mul_sub, abs_mul]
  norm_num

end RM
