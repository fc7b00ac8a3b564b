import Verif.Props.MissingValue
import Verif.Props.ConstantFeature
import Verif.Props.KMeansTwo
import Verif.Props.MoreData

/-! C148: a missing number (NaN) in the training data. -/

namespace RM
open Outcome Scalar Spec

theorem mv_sub_nan (a : XR) : Scalar.sub a XR.nan = XR.nan := by cases a <;> rfl

theorem zipWith_nan_mem_right {f : XR → XR → XR} (hf : ∀ a, f a XR.nan = XR.nan) {x y : List XR} (h : XR.nan ∈ y) (hl : x.length = y.length) :
    XR.nan ∈ List.zipWith f x y := by
  rw [List.zipWith_comm]
  exact zipWith_nan_mem (f := fun b a => f a b) hf h hl.symm

/-- The mean of rows of which one has a NaN has a NaN. -/
theorem meanRow_nan {M : Mat XR} {s : List XR} (hs : s ∈ M.rows) (hl : s.length = M.cols) (hn : XR.nan ∈ s) : XR.nan ∈ M.meanRow := by
  obtain ⟨j, hj, e⟩ := List.mem_iff_getElem.1 hn
  unfold Mat.meanRow Mat.sumRows
  rw [List.map_map]
  refine List.mem_map.2 ⟨j, List.mem_range.2 (by omega), ?_⟩
  simp only [Function.comp]
  rw [mv_fsum_nan (l := colOf M.rows j) (List.mem_filterMap.2 ⟨s, hs, by rw [List.getElem?_eq_getElem hj, e]⟩), xr_nan_div]

/-! ### k-means -/

theorem closestTo_first {n : ℕ} {c0 row : List XR} {rest : List (List XR)} (hl : c0.length = row.length) (h : XR.nan ∈ c0 ∨ XR.nan ∈ row) :
    closestTo ⟨n, c0 :: rest⟩ n row = ok (0, XR.nan) := by
  unfold closestTo Mat.zip
  rw [if_pos (by simp)]
  simp only [ok_bind]
  rw [if_pos (by simp)]
  simp only [ok_bind, Mat.sumCols, List.length_cons, List.replicate_succ, List.zipWith_cons_cons, List.map_cons]
  have hd : XR.nan ∈ List.zipWith Scalar.sub c0 row := by
    rcases h with h | h
    · exact zipWith_nan_mem xr_nan_sub h hl
    · exact zipWith_nan_mem_right mv_sub_nan h hl
  rw [mv_fsum_nan (zipWith_nan_mem mv_nan_mul hd rfl)]
  simp only [argminBy, argAux_nan]

theorem closestTo_total (C : Mat XR) (hne : C.rows ≠ []) (row : List XR) : ∃ p, closestTo C C.cols row = ok p := by
  unfold closestTo Mat.zip
  rw [if_pos (by simp)]
  simp only [ok_bind]
  rw [if_pos (by simp)]
  simp only [ok_bind, Mat.sumCols]
  obtain ⟨n, rows⟩ := C
  cases rows with
  | nil => exact absurd rfl hne
  | cons a l =>
    simp only [List.length_cons, List.replicate_succ, List.zipWith_cons_cons, List.map_cons, argminBy]
    exact ⟨_, rfl⟩

/-- The centroids of a run on data with a NaN. -/
theorem kmLoop_nan {k : ℕ} (hk : 0 < k) {X : Mat XR} (hX : X.WF) {s : List XR} (hs : s ∈ X.rows) (hn : XR.nan ∈ s) :
    ∀ (n : ℕ) (cost : XR) (C : Mat XR), C.WF → C.rows ≠ [] → C.cols = X.cols → (n = 0 → ∃ c0 rest, C.rows = c0 :: rest ∧ XR.nan ∈ c0) →
    ∃ R, kmLoop k X n cost C = ok R ∧ R.WF ∧ R.cols = X.cols ∧ ∃ c0 rest, R.rows = c0 :: rest ∧ XR.nan ∈ c0 := by
  intro n
  induction n with
  | zero => intro cost C hC _ hc h; exact ⟨C, rfl, hC, hc, h rfl⟩
  | succ n ih =>
    intro cost C hC hne hc _
    obtain ⟨ps, hps, hF⟩ := mapM_forall₂ (closestTo C X.cols) (fun row p => closestTo C X.cols row = ok p) X.rows (by
      intro row _
      obtain ⟨p, hp⟩ := closestTo_total C hne row
      rw [hc] at hp
      exact ⟨p, hp, hp⟩)
    have hlen : X.rows.length = ps.length := hF.length_eq
    obtain ⟨i, hi, rfl⟩ := List.mem_iff_getElem.1 hs
    have hi' : i < ps.length := by omega
    have hpi : ps[i] = (0, XR.nan) := by
      have := (List.forall₂_iff_get.1 hF).2 i hi hi'
      simp only [List.get_eq_getElem] at this
      obtain ⟨m, rows⟩ := C
      cases rows with
      | nil => exact absurd rfl hne
      | cons c0 rest =>
        simp only at hc
        subst hc
        rw [closestTo_first (by rw [hC c0 (by simp), hX _ (List.getElem_mem hi)]) (Or.inr hn)] at this
        injection this with this
        exact this.symm
    have hup := updateCentroids_eq k X (ps.map Prod.fst) (by simpa using hlen)
    have hmem : X.rows[i] ∈ labelled 0 X.rows (ps.map Prod.fst) := by
      rw [mem_labelled_iff, List.mem_iff_getElem]
      exact ⟨i, by simp; omega, by simp [hpi]⟩
    have hcost : fsum (ps.map Prod.snd) = XR.nan := mv_fsum_nan (List.mem_map.2 ⟨_, List.getElem_mem hi', by rw [hpi]⟩)
    set C' : Mat XR := ⟨X.cols, (List.range k).map fun j => (⟨X.cols, labelled j X.rows (ps.map Prod.fst)⟩ : Mat XR).meanRow⟩ with hC'
    have hwf : C'.WF := by
      intro r hr
      obtain ⟨j, _, rfl⟩ := List.mem_map.1 hr
      rw [meanRow_length]
    have hhead : ∃ c0 rest, C'.rows = c0 :: rest ∧ XR.nan ∈ c0 := by
      obtain ⟨k', rfl⟩ : ∃ k', k = k' + 1 := ⟨k - 1, by omega⟩
      refine ⟨_, _, by rw [hC']; simp only [List.range_succ_eq_map, List.map_cons]; rfl, ?_⟩
      exact meanRow_nan (M := ⟨X.cols, _⟩) hmem (hX _ (List.getElem_mem hi)) hn
    obtain ⟨R, h1, h2⟩ := ih XR.nan C' hwf (by obtain ⟨c0, rest, e, _⟩ := hhead; rw [e]; simp) rfl (fun _ => hhead)
    refine ⟨R, ?_, h2⟩
    rw [kmLoop, findClosest, hps]
    simp only [ok_bind, hup, hcost]
    rw [if_neg]
    · exact h1
    · rw [mv_sub_nan]
      change ¬ (false = true)
      simp

/-- C148 fails for k-means: one NaN anywhere in the training data, and after training every query is put into cluster 0. -/
theorem C148_kmeans_violation (init : ℕ → Mat XR → Outcome (Mat XR)) (m : KMeans XR) (X C : Mat XR) (hX : X.WF) (hk : 0 < m.k) (hkn : m.k ≤ X.rows.length)
    (hit : 0 < m.iters) (hi : init m.k X = ok C) (hC : C.WF) (hCk : C.rows.length = m.k) (hCc : C.cols = X.cols) (s : List XR) (hs : s ∈ X.rows)
    (hn : XR.nan ∈ s) : ∃ m', kmTrain init m X = (m', ok ()) ∧
      ∀ Y : Mat XR, Y.WF → Y.cols = X.cols → kmPredict m' Y = ok (List.replicate Y.rows.length 0) := by
  obtain ⟨R, h1, h2, h3, c0, rest, h4, h5⟩ := kmLoop_nan hk hX hs hn m.iters Scalar.zero C hC (by rintro h; rw [h] at hCk; simp at hCk; omega) hCc (by omega)
  refine ⟨{ m with centroids := some R }, ?_, ?_⟩
  · unfold kmTrain kmInit
    rw [if_neg (by omega), hi]
    simp only [ok_bind]
    rw [if_neg (by simpa using hCk), if_neg (by simpa using hCc)]
    simp only [h1]
  · intro Y hY hYc
    unfold kmPredict findClosest
    simp only
    obtain ⟨n, rows⟩ := R
    simp only at h3 h4
    subst h3 h4
    rw [mapM_ok_map _ (fun _ => (0, XR.nan)) Y.rows (by
      intro y hy
      rw [hYc]
      exact closestTo_first (by rw [h2 c0 (by simp), hY y hy, hYc]) (Or.inl h5))]
    simp [List.map_const']

/-! ### Nearest neighbours -/

theorem knnDist_nan {q s : List XR} (hl : q.length = s.length) (hn : XR.nan ∈ s) : knnDist q s = XR.nan := by
  unfold knnDist
  rw [foldl_nan_mem _ _ (zipWith_nan_mem_right (f := fun x y => (x -. y) *. (x -. y)) (fun a => by simp only [mv_sub_nan, mv_nan_mul]) hn hl)]
  rfl

theorem offerAll_nan (q : List XR) : ∀ (l : List (List XR)) (i : ℕ) (ps : List (ℕ × XR)), offerAll 1 (indexedDists q i l) ps XR.nan = ok ps := by
  intro l
  induction l with
  | nil => intro i ps; rfl
  | cons a l ih =>
    intro i ps
    rw [indexedDists, offerAll]
    have : (Scalar.lt (knnDist q a) XR.nan : Bool) = false := by cases knnDist q a <;> rfl
    rw [this]
    simp only [Bool.false_eq_true, if_false]
    exact ih _ _

/-- C148 fails for one nearest neighbour: a NaN in the first sample, and every query gets the label of that sample. -/
theorem C148_nearest_violation (s : List XR) (rest : List (List XR)) (a : ℕ) (y : List ℕ) (hn : XR.nan ∈ s) (Y : Mat XR)
    (hY : ∀ q ∈ Y.rows, q.length = s.length) :
    knnPredict bruteSearcher ⟨1, some ⟨s.length, s :: rest⟩, some (a :: y)⟩ Y = ok (List.replicate Y.rows.length a) := by
  unfold knnPredict bruteSearcher
  simp only
  rw [mapM_ok_map _ (fun _ => a) Y.rows]
  · simp [List.map_const']
  · intro q hq
    have e1 : getDistances ⟨s.length, s :: rest⟩ q (List.range 1) = ok [XR.nan] := by
      simp [getDistances, assert, getAt, ofOption, List.range_succ, knnDist_nan (hY q hq) hn]
    have e3 : knearestNew 1 (List.range 1) [XR.nan] = ok [(0, XR.nan)] := by
      simp [knearestNew, List.range_succ]
    unfold bruteSearch
    simp only [e1, ok_bind, e3, knearestDist, List.length_singleton, Nat.lt_irrefl, if_false, List.getLast?_singleton, offerAll_nan, knearestResults]
    simp [knnVote, getAt, ofOption, freq, bumpKey, argmaxBy, argAux]

/-- C148 fails for several nearest neighbours: a NaN in one of the first `k` samples, and every call of predict panics. -/
theorem C148_neighbours_violation (X : Mat XR) (hX : X.WF) (y : List ℕ) (k : ℕ) (hk : 2 ≤ k) (hkn : k ≤ X.rows.length) (i : ℕ) (hi : i < k) (s : List XR)
    (hs : X.rows[i]? = some s) (hn : XR.nan ∈ s) (Y : Mat XR) (hY : Y.WF) (hYc : Y.cols = X.cols) (hne : Y.rows ≠ []) :
    knnPredict bruteSearcher ⟨k, some X, some y⟩ Y = panic := by
  unfold knnPredict bruteSearcher
  simp only
  cases hq : Y.rows with
  | nil => exact absurd hq hne
  | cons q rows =>
    have hql : q.length = s.length := by rw [hY q (by rw [hq]; simp), hYc, hX s (List.mem_of_getElem? hs)]
    rw [List.mapM_cons]
    have e1 : getDistances X q (List.range k) = ok ((List.range k).map fun j => knnDist q (X.rows.getD j [])) := by
      unfold getDistances
      have : (!(List.range k).isEmpty) = true := by simp; omega
      rw [this]
      simp only [assert, if_true, ok_bind]
      apply mapM_ok_map
      intro j hj
      have hj' : j < X.rows.length := by have := List.mem_range.1 hj; omega
      simp only [getAt, List.getElem?_eq_getElem hj', ofOption, ok_bind, getD_lt _ hj']
    have e3 : knearestNew k (List.range k) ((List.range k).map fun j => knnDist q (X.rows.getD j [])) = panic := by
      unfold knearestNew
      simp only
      rw [if_pos]
      refine ⟨by simp; omega, ?_⟩
      rw [List.any_eq_true]
      refine ⟨(i, XR.nan), ?_, rfl⟩
      rw [List.mem_iff_getElem]
      refine ⟨i, by simp; omega, ?_⟩
      have : X.rows.getD i [] = s := by rw [List.getD_eq_getElem?_getD, hs]; rfl
      simp only [List.getElem_zip, List.getElem_range, List.getElem_map, this, knnDist_nan hql hn]
    unfold bruteSearch
    simp only [e1, ok_bind, e3]
    rfl

/-- The same distances with other row numbers. -/
def renumber (f : ℕ → ℕ) (ps : List (ℕ × XR)) : List (ℕ × XR) := ps.map fun p => (f p.1, p.2)

theorem addLoop_renumber (f : ℕ → ℕ) (ps : List (ℕ × XR)) (x : ℕ × XR) : ∀ j, addLoop (renumber f ps) (f x.1, x.2) j = renumber f <$> addLoop ps x j
  | 0 => rfl
  | j + 1 => by
    simp only [addLoop, renumber, List.getElem?_map]
    cases h : ps[j]? with
    | none => rfl
    | some p =>
      simp only [Option.map_some]
      split
      · simp [List.map_insertIdx, renumber]
      · exact addLoop_renumber f ps x j

theorem knearestAdd_renumber (f : ℕ → ℕ) (k : ℕ) (ps : List (ℕ × XR)) (i : ℕ) (d : XR) :
    knearestAdd k (renumber f ps) (f i) d = (fun r => (renumber f r.1, r.2)) <$> knearestAdd k ps i d := by
  have hl : (renumber f ps).length = ps.length := by simp [renumber]
  have hlast : (renumber f ps).getLast? = ps.getLast?.map fun p => (f p.1, p.2) := by simp [renumber, List.getLast?_map]
  unfold knearestAdd
  simp only [hl, hlast]
  cases ps.getLast? with
  | none => rfl
  | some last =>
    simp only [Option.map_some]
    split
    · have e : (if ps.length < k then renumber f ps ++ [(f i, d)] else renumber f ps) = renumber f (if ps.length < k then ps ++ [(i, d)] else ps) := by
        split <;> simp [renumber]
      rw [e]
      generalize (if ps.length < k then ps ++ [(i, d)] else ps) = qs
      generalize (if ps.length < k then ps.length else ps.length - 1) = t
      have ht : (renumber f qs)[t]? = qs[t]?.map fun p => (f p.1, p.2) := by simp [renumber]
      rw [ht]
      cases qs[t]? <;> rfl
    · have e : (if k ≤ ps.length then (renumber f ps).dropLast else renumber f ps) = renumber f (if k ≤ ps.length then ps.dropLast else ps) := by
        split <;> simp [renumber, List.map_dropLast]
      rw [e, addLoop_renumber f _ (i, d)]
      generalize (if ps.length < k then ps.length else ps.length - 1) = t
      cases addLoop (if k ≤ ps.length then ps.dropLast else ps) (i, d) (ps.length - 1) with
      | ok qs =>
        simp only [ok_map, ok_bind]
        have ht : (renumber f qs)[t]? = qs[t]?.map fun p => (f p.1, p.2) := by simp [renumber]
        rw [ht]
        cases qs[t]? <;> rfl
      | err _ => rfl
      | panic => rfl
      | ub => rfl

theorem offerAll_renumber (f : ℕ → ℕ) (k : ℕ) : ∀ (cands ps : List (ℕ × XR)) (cur : XR),
    offerAll k (renumber f cands) (renumber f ps) cur = renumber f <$> offerAll k cands ps cur
  | [], ps, cur => rfl
  | (i, d) :: rest, ps, cur => by
    simp only [renumber, List.map_cons, offerAll]
    split
    · rw [show (ps.map fun p => (f p.1, p.2)) = renumber f ps from rfl, knearestAdd_renumber f]
      cases knearestAdd k ps i d with
      | ok r => exact offerAll_renumber f k rest r.1 r.2
      | err _ => rfl
      | panic => rfl
      | ub => rfl
    · exact offerAll_renumber f k rest ps cur

theorem offerAll_skip {k i : ℕ} : ∀ (a b ps : List (ℕ × XR)) (cur : XR), offerAll k (a ++ (i, XR.nan) :: b) ps cur = offerAll k (a ++ b) ps cur
  | [], b, ps, cur => by
    rw [List.nil_append, List.nil_append, offerAll, if_neg]
    cases cur <;> (change ¬ (false = true); simp)
  | (j, d) :: a, b, ps, cur => by
    rw [List.cons_append, List.cons_append, offerAll, offerAll]
    split
    · cases knearestAdd k ps j d with
      | ok r => exact offerAll_skip a b r.1 r.2
      | err _ => rfl
      | panic => rfl
      | ub => rfl
    · exact offerAll_skip a b ps cur

theorem indexedDists_renumber (f : ℕ → ℕ) (q : List XR) : ∀ (l : List (List XR)) (i j : ℕ), (∀ t < l.length, f (i + t) = j + t) →
    renumber f (indexedDists q i l) = indexedDists q j l
  | [], _, _, _ => rfl
  | a :: l, i, j, h => by
    rw [indexedDists, indexedDists, renumber, List.map_cons]
    congr 1
    · rw [show f i = j from h 0 (by simp)]
    · exact indexedDists_renumber f q l (i + 1) (j + 1) fun t ht => by
        have := h (t + 1) (by simpa using ht)
        rw [show i + 1 + t = i + (t + 1) by omega, this]; omega

theorem mt_mapM_congr {α β : Type} {f g : α → Outcome β} : ∀ {l : List α}, (∀ a ∈ l, f a = g a) → l.mapM f = l.mapM g
  | [], _ => rfl
  | a :: l, h => by rw [List.mapM_cons, List.mapM_cons, h a (by simp), mt_mapM_congr fun b hb => h b (by simp [hb])]

/-- C148, for nearest neighbours: a sample with a NaN after the first `k` samples is ignored. Missing for C148: samples among the first `k`, and other
learners. -/
theorem C148_neighbours_partial (k : ℕ) (pre post : List (List XR)) (s : List XR) (ypre ypost : List ℕ) (a c : ℕ) (hk : k ≤ pre.length)
    (hl : ypre.length = pre.length) (hn : XR.nan ∈ s) (Y : Mat XR) (hY : ∀ q ∈ Y.rows, q.length = s.length) :
    knnPredict bruteSearcher ⟨k, some ⟨c, pre ++ s :: post⟩, some (ypre ++ a :: ypost)⟩ Y =
      knnPredict bruteSearcher ⟨k, some ⟨c, pre ++ post⟩, some (ypre ++ ypost)⟩ Y := by
  unfold knnPredict bruteSearcher
  simp only
  refine mt_mapM_congr ?_
  intro q hq
  set f : ℕ → ℕ := fun i => if i < pre.length then i else i + 1 with hf
  have hget : ∀ i, getAt (ypre ++ a :: ypost) (f i) = getAt (ypre ++ ypost) i := by
    intro i
    unfold getAt
    congr 1
    simp only [hf]
    split
    · rw [List.getElem?_append_left (by omega), List.getElem?_append_left (by omega)]
    · rw [List.getElem?_append_right (by omega), List.getElem?_append_right (by omega), show i + 1 - ypre.length = (i - ypre.length) + 1 by omega,
        List.getElem?_cons_succ]
  have hd : getDistances ⟨c, pre ++ s :: post⟩ q (List.range k) = getDistances ⟨c, pre ++ post⟩ q (List.range k) := by
    unfold getDistances
    congr 1
    funext _
    refine mt_mapM_congr ?_
    intro i hi
    have := List.mem_range.1 hi
    unfold getAt
    simp only
    rw [List.getElem?_append_left (by omega), List.getElem?_append_left (by omega)]
  unfold bruteSearch
  simp only
  rw [hd]
  cases getDistances ⟨c, pre ++ post⟩ q (List.range k) with
  | ok ds =>
    simp only [ok_bind]
    cases hkn : knearestNew k (List.range k) ds with
    | ok ps =>
      simp only [ok_bind]
      cases knearestDist k ps with
      | ok cur =>
        simp only [ok_bind]
        have hps : renumber f ps = ps := by
          unfold renumber
          conv_rhs => rw [← List.map_id ps]
          apply List.map_congr_left
          intro p hp
          unfold knearestNew at hkn
          simp only at hkn
          split at hkn
          · cases hkn
          · injection hkn with hkn
            rw [← hkn] at hp
            have h1 := (List.mem_insertionSort pairLe).1 (List.mem_of_mem_take hp)
            have h2 := List.mem_range.1 (List.of_mem_zip h1).1
            simp only [hf, id]
            rw [if_pos (by omega)]
        have e1 : indexedDists q k ((pre ++ s :: post).drop k) =
            indexedDists q k (pre.drop k) ++ (k + (pre.drop k).length, XR.nan) :: indexedDists q (pre.length + 1) post := by
          rw [List.drop_append_of_le_length hk, indexedDists_append, indexedDists, knnDist_nan (hY q hq) hn]
          congr 3
          rw [List.length_drop]; omega
        have e2 : renumber f (indexedDists q k ((pre ++ post).drop k)) = indexedDists q k (pre.drop k) ++ indexedDists q (pre.length + 1) post := by
          rw [List.drop_append_of_le_length hk, indexedDists_append]
          unfold renumber
          rw [List.map_append]
          congr 1
          · refine indexedDists_renumber f q _ k k ?_
            intro t ht
            rw [List.length_drop] at ht
            simp only [hf]
            rw [if_pos (by omega)]
          · refine indexedDists_renumber f q _ _ _ ?_
            intro t ht
            simp only [hf, List.length_drop]
            rw [if_neg (by omega)]
            omega
        rw [e1, offerAll_skip, ← e2]
        conv_lhs => rw [← hps]
        rw [offerAll_renumber]
        cases offerAll k (indexedDists q k ((pre ++ post).drop k)) ps cur with
        | ok r =>
          simp only [ok_map, ok_bind, knearestResults, renumber, List.map_map]
          unfold knnVote
          congr 1
          rw [List.mapM_map, List.mapM_map]
          exact mt_mapM_congr fun p _ => hget p.1
        | err _ => rfl
        | panic => rfl
        | ub => rfl
      | err _ => rfl
      | panic => rfl
      | ub => rfl
    | err _ => rfl
    | panic => rfl
    | ub => rfl
  | err _ => rfl
  | panic => rfl
  | ub => rfl

/-! ### Gaussian naive Bayes -/

theorem mt_nbTrain_ok {D : Type} {B : NBDistr D XR} {m m' : NaiveBayes D XR} {X : Mat XR} {T : Mat ℝ} (hT : T.WF)
    (h : nbTrain B m X (finMat T) = (m', ok ())) : (∀ t ∈ T.rows, classOf t ≠ none) ∧ ∃ d prior,
      nbFit B X 0 ((List.range T.cols).map fun j => members j 0 (classesOf T.rows)) (B.fromParams T.cols X.cols) = (d, ok ()) ∧
      m'.distr = some d ∧ m'.clusterCount = some T.cols ∧ m'.classPrior = some prior ∧ prior.length = T.cols := by
  unfold nbTrain at h
  simp only at h
  rw [show (finMat T).rows = T.rows.map (List.map XR.fin) from rfl, xr_nbScan, show (finMat T).cols = T.cols from rfl] at h
  by_cases hc : ∀ t ∈ T.rows, classOf t ≠ none
  · rw [nbScan_ok T.rows 0 T.cols _ _ (by simp) hT hc, classData_eq, foldl_modify_replicate] at h
    refine ⟨hc, ?_⟩
    simp only at h
    split at h
    · rename_i d _ hd
      simp only [Prod.mk.injEq, and_true] at h
      subst h
      exact ⟨d, _, hd, rfl, rfl, rfl, by simp⟩
    · simp at h
    · simp at h
    · simp at h
  · exfalso
    push Not at hc
    obtain ⟨counts', hs⟩ := nbScan_err T.rows 0 T.cols (List.replicate T.cols 0) (List.replicate T.cols []) (by simp) hT hc
    rw [hs] at h
    simp at h

theorem zip_classesOf {α : Type} {c : ℕ} : ∀ {X : List α} {T : List (List ℝ)} {x : α} {t : List ℝ}, (∀ t ∈ T, classOf t ≠ none) → (x, t) ∈ X.zip T →
    classOf t = some c → (x, c) ∈ X.zip (classesOf T)
  | [], _, _, _, _, h, _ => by simp at h
  | _ :: _, [], _, _, _, h, _ => by simp at h
  | a :: X, u :: T, x, t, hc, h, ht => by
    obtain ⟨b, hb⟩ := Option.ne_none_iff_exists'.1 (hc u (by simp))
    rw [classesOf_cons hb, List.zip_cons_cons]
    rw [List.zip_cons_cons] at h
    rcases List.mem_cons.1 h with h | h
    · cases h
      rw [ht] at hb
      cases hb
      simp
    · exact List.mem_cons_of_mem _ (zip_classesOf (fun v hv => hc v (by simp [hv])) h ht)

theorem gaussClassLik_nan_theta {k c : ℕ} (d : GaussD XR) (Y : Mat XR) (hY : Y.WF) (h1 : IsTable k Y.cols d.theta) (h2 : IsTable k Y.cols d.sigma) (hc : c < k)
    {th : List XR} (e1 : d.theta.rows[c]? = some th) (hn : XR.nan ∈ th) (p : XR) : gaussClassLik d Y c p = ok (List.replicate Y.rows.length .nan) := by
  obtain ⟨sg, e2⟩ : ∃ v, d.sigma.rows[c]? = some v := ⟨_, List.getElem?_eq_getElem (by rw [h2.2.1]; exact hc)⟩
  have l1 : th.length = Y.cols := by rw [h1.2.2 th (List.mem_of_getElem? e1), h1.1]
  have l2 : sg.length = Y.cols := by rw [h2.2.2 sg (List.mem_of_getElem? e2), h2.1]
  unfold gaussClassLik
  have e3 := selectRows_replicate d.sigma e2 1
  simp only [List.replicate_one] at e3
  rw [e3]
  simp only [ok_bind]
  rw [selectRows_replicate d.theta e1, selectRows_replicate d.sigma e2]
  simp only [ok_bind]
  have e := Mat.zip_replicate Scalar.sub Y th
  rw [h1.1, h2.1, e]
  simp only [ok_bind]
  have e4 := Mat.zip_replicate Scalar.div (Mat.map (fun x : XR => x *. x) ⟨Y.cols, Y.rows.map fun r => List.zipWith Scalar.sub r th⟩) sg
  simp only [Mat.map, List.length_map] at e4 ⊢
  rw [e4]
  simp only [ok_bind, Mat.sumCols, List.map_map]
  congr 1
  rw [List.eq_replicate_iff]
  refine ⟨by simp, ?_⟩
  intro v hv
  obtain ⟨r, hr, rfl⟩ := List.mem_map.1 hv
  have hl := hY r hr
  simp only [Function.comp]
  have hm : XR.nan ∈ List.zipWith Scalar.div (List.map (fun x : XR => x *. x) (List.zipWith Scalar.sub r th)) sg := by
    refine zipWith_nan_mem xr_nan_div (List.mem_map.2 ⟨XR.nan, zipWith_nan_mem_right mv_sub_nan hn (by omega), rfl⟩) ?_
    simp [l1, l2, hl]
  rw [mv_fsum_nan hm]
  rfl

/-- With a NaN in a sample of class `c` the joint log likelihoods of the class are all NaN. -/
theorem gauss_nan_logProbs {m m' : NaiveBayes (GaussD XR) XR} {X Y : Mat XR} {T : Mat ℝ} (hX : X.WF) (hT : T.WF) (hY : Y.WF) (hf : Y.cols = X.cols)
    (hn : X.rows.length = T.rows.length) {c : ℕ} {x : List XR} {t : List ℝ} (hx : (x, t) ∈ X.rows.zip T.rows) (ht : classOf t = some c) (hnan : XR.nan ∈ x)
    (h : nbTrain gaussDistr m X (finMat T) = (m', ok ())) :
    m'.clusterCount = some T.cols ∧ ∃ L, nbLogProbs gaussDistr m' Y = ok L ∧ L.rows.length = Y.rows.length ∧
      ∀ r ∈ L.rows, r.length = T.cols ∧ r[c]? = some XR.nan := by
  obtain ⟨hc, d, prior, hd, h1, h2, h3, hpl⟩ := mt_nbTrain_ok hT h
  have hlt : c < T.cols := by
    have := classOf_lt ht
    rwa [hT t (List.of_mem_zip hx).2] at this
  have hxm : x ∈ labelled c X.rows (classesOf T.rows) := mem_labelled_iff.2 (zip_classesOf hc hx ht)
  have htab : IsTable T.cols X.cols d.theta ∧ IsTable T.cols X.cols d.sigma := by
    refine nbFit_inv (Inv := fun d : GaussD XR => IsTable T.cols X.cols d.theta ∧ IsTable T.cols X.cols d.sigma) _ 0 _ d ?_ ⟨zeros_table _ _, zeros_table _ _⟩ hd
    intro d v M c d' hc hs hd hu
    obtain ⟨w, hw, _, _, rfl⟩ := xr_gaussUpdate_ok hu
    have hM : M.cols = X.cols := selectRows_cols hs
    exact ⟨set_table hd.1 (by rw [meanRow_length, hM]), set_table hd.2 (by rw [hw, hM])⟩
  obtain ⟨th, z1, hth⟩ : ∃ th, d.theta.rows[c]? = some th ∧ XR.nan ∈ th := by
    have g1 := (nbFit_get (fun d : GaussD XR => d.theta.rows) (fun M => ok M.meanRow) (by
      intro d M c d' hu
      obtain ⟨v, hv, h1, h2, rfl⟩ := gaussUpdate_ok hu
      exact ⟨_, rfl, h1, rfl⟩) _ 0 _ d hd).2.2 c _ (getElem?_members T.cols T.rows c hlt)
    have hl : X.rows.length = (classesOf T.rows).length := by rw [classesOf_length hc]; exact hn
    have hne : members c 0 (classesOf T.rows) ≠ [] := by
      rw [Ne, members_eq_nil, not_not, ← labelled_ne_nil hl]
      exact List.ne_nil_of_mem hxm
    rw [if_neg hne] at g1
    obtain ⟨M, r, hM, hr, hg⟩ := g1
    unfold Mat.selectRows at hM
    rw [select_labelled c X.rows (classesOf T.rows) hl] at hM
    cases hM; cases hr
    rw [Nat.zero_add] at hg
    exact ⟨_, hg, meanRow_nan (M := ⟨X.cols, _⟩) hxm (hX x (List.of_mem_zip hx).1) hnan⟩
  obtain ⟨t1, t2⟩ := htab
  rw [← hf] at t1 t2
  refine ⟨h2, ?_⟩
  have hz : ∀ p ∈ prior.zipIdx, p.2 < T.cols := by
    intro p hp
    have := List.snd_lt_add_of_mem_zipIdx hp
    omega
  obtain ⟨liks, hr, hF⟩ := mapM_forall₂ (fun p : XR × ℕ => gaussClassLik d Y p.2 p.1)
    (fun p l => l.length = Y.rows.length ∧ (p.2 = c → l = List.replicate Y.rows.length .nan)) prior.zipIdx (by
      intro p hp
      by_cases hpc : p.2 = c
      · refine ⟨_, by rw [hpc]; exact gaussClassLik_nan_theta d Y hY t1 t2 hlt z1 hth p.1, by simp, fun _ => rfl⟩
      · obtain ⟨l, h1, h2⟩ := gaussClassLik_shape d Y (k := T.cols) t1 t2 (hz p hp) p.1
        exact ⟨l, h1, h2, fun h => absurd h hpc⟩)
  have hll : liks.length = T.cols := by rw [← hF.length_eq]; simp [hpl]
  have hlen : ∀ l ∈ liks, l.length = Y.rows.length := by
    intro l hl
    obtain ⟨i, hi, rfl⟩ := List.mem_iff_getElem.1 hl
    have := List.forall₂_iff_get.1 hF
    exact (this.2 i (by rw [this.1]; exact hi) hi).1
  have hcl : liks[c]? = some (List.replicate Y.rows.length .nan) := by
    have := List.forall₂_iff_get.1 hF
    have hi : c < liks.length := by rw [hll]; exact hlt
    rw [List.getElem?_eq_getElem hi]
    have := (this.2 c (by rw [this.1]; exact hi) hi).2
    simp only [List.get_eq_getElem, List.getElem_zipIdx] at this
    rw [this (by omega)]
  refine ⟨(⟨Y.rows.length, liks⟩ : Mat XR).transpose, ?_, by simp [Mat.transpose, transposeRows], ?_⟩
  · unfold nbLogProbs
    rw [h1, h3]
    show (do
      let liks ← prior.zipIdx.mapM fun (p : XR × ℕ) => gaussClassLik d Y p.2 p.1
      let m ← Mat.new prior.length Y.rows.length liks.flatten
      ok m.transpose) = _
    rw [hr]
    simp only [ok_bind]
    rw [Mat.new_flatten (rows := liks) (c := Y.rows.length) (by rw [hpl, hll]) hlen]
    rfl
  · intro r hr
    simp only [Mat.transpose, transposeRows, List.mem_map, List.mem_range] at hr
    obtain ⟨i, hi, rfl⟩ := hr
    have e : (liks.filterMap fun r => r[i]?) = liks.map fun r => r.getD i .nan := by
      rw [← List.filterMap_eq_map]
      apply List.filterMap_congr
      intro l hl
      have := hlen l hl
      simp only [Function.comp]
      rw [List.getElem?_eq_getElem (by omega), getD_lt]
    rw [e]
    refine ⟨by rw [List.length_map, hll], ?_⟩
    rw [List.getElem?_map, hcl, Option.map_some, getD_lt _ (by simpa using hi)]
    simp

/-- C148 fails for Gaussian naive Bayes: a NaN in a sample of class 0, and class 0 is predicted for every query. -/
theorem C148_gaussian_violation (m m' : NaiveBayes (GaussD XR) XR) (X Y : Mat XR) (T : Mat ℝ) (hX : X.WF) (hT : T.WF) (hY : Y.WF) (hf : Y.cols = X.cols)
    (hn : X.rows.length = T.rows.length) (x : List XR) (t : List ℝ) (hx : (x, t) ∈ X.rows.zip T.rows) (ht : classOf t = some 0) (hnan : XR.nan ∈ x)
    (h : nbTrain gaussDistr m X (finMat T) = (m', ok ())) :
    nbPredict gaussDistr m' Y = ok ⟨T.cols, List.replicate Y.rows.length ((List.replicate T.cols (.fin 0)).set 0 (.fin 1))⟩ := by
  obtain ⟨h2, L, hL, hLn, hLr⟩ := gauss_nan_logProbs hX hT hY hf hn hx ht hnan h
  have hk : 0 < T.cols := by
    have := classOf_lt ht
    rwa [hT t (List.of_mem_zip hx).2] at this
  exact nbPredict_nan hk h2 hL hLn (by
    intro r hr
    have := (hLr r hr).2
    cases r with
    | nil => simp at this
    | cons a l => simp only [List.getElem?_cons_zero, Option.some.injEq] at this; exact ⟨l, by rw [this]⟩)

/-- C148 fails for Gaussian naive Bayes: a NaN in a sample of a class other than class 0, and that class is never predicted. -/
theorem C148_gaussian_never_violation (m m' : NaiveBayes (GaussD XR) XR) (X Y : Mat XR) (T : Mat ℝ) (hX : X.WF) (hT : T.WF) (hY : Y.WF) (hf : Y.cols = X.cols)
    (hn : X.rows.length = T.rows.length) (c : ℕ) (hc0 : 0 < c) (x : List XR) (t : List ℝ) (hx : (x, t) ∈ X.rows.zip T.rows) (ht : classOf t = some c)
    (hnan : XR.nan ∈ x) (h : nbTrain gaussDistr m X (finMat T) = (m', ok ())) :
    ∃ P, nbPredict gaussDistr m' Y = ok P ∧ P.rows.length = Y.rows.length ∧ ∀ r ∈ P.rows, r[c]? = some (.fin 0) := by
  obtain ⟨h2, L, hL, hLn, hLr⟩ := gauss_nan_logProbs hX hT hY hf hn hx ht hnan h
  have hk : c < T.cols := by
    have := classOf_lt ht
    rwa [hT t (List.of_mem_zip hx).2] at this
  obtain ⟨cs, hcs, hF⟩ := mapM_shape (f := fun row : List XR => (do
      let r ← argmaxBy Scalar.lt row
      ok r.1 : Outcome ℕ)) (P := fun b => b ≠ c ∧ b < T.cols) (l := L.rows) (by
    intro r hr
    obtain ⟨hl, hnan⟩ := hLr r hr
    cases r with
    | nil => simp at hnan
    | cons a l =>
      refine ⟨_, rfl, ?_, ?_⟩
      · refine argAux_skips l a 0 1 (by omega) ?_
        intro t w ht hc b
        have : (a :: l)[c]? = some w := by rw [← hc, Nat.add_comm]; simpa using ht
        rw [hnan, Option.some.injEq] at this
        rw [← this]
        cases b <;> rfl
      · have := argAux_lt (fun best x : XR => Scalar.lt best x) a 0 1 l (by omega)
        simp only [List.length_cons] at hl
        omega)
  obtain ⟨rows, hrows, hP⟩ := mapM_shape (f := fun b => setAt (List.replicate T.cols (Scalar.zero : XR)) b Scalar.one)
      (P := fun r : List XR => r.length = T.cols ∧ r[c]? = some (.fin 0)) (l := cs) (by
    intro b hb
    obtain ⟨hbc, hbk⟩ := hF.2 b hb
    refine ⟨_, setAt_of_lt _ (by simpa using hbk), by simp, ?_⟩
    rw [List.getElem?_set_ne hbc]
    simp [hk])
  have hrl : rows.length = Y.rows.length := by rw [hP.1, hF.1, hLn]
  refine ⟨⟨T.cols, rows⟩, ?_, hrl, fun r hr => (hP.2 r hr).2⟩
  unfold nbPredict
  rw [hL]
  simp only [ok_bind]
  rw [hcs]
  simp only [ok_bind, h2]
  rw [hrows]
  simp only [ok_bind]
  exact Mat.new_flatten hrl fun r hr => (hP.2 r hr).1

/-! ### Models trained by gradient descent -/

theorem dot_nan_mem_right {x y : List XR} (h : XR.nan ∈ y) (hl : x.length = y.length) : dot x y = XR.nan :=
  mv_fsum_nan (zipWith_nan_mem_right mv_mul_nan h hl)

theorem gdLoop_nan (alpha : XR) {n : ℕ} {g : List XR → Outcome (XR × List XR)} (hg : ∀ w, w.length = n → g w = ok (XR.nan, List.replicate n XR.nan)) :
    ∀ (k : ℕ) (w : List XR) (prev : XR), w.length = n → (k = 0 → w = List.replicate n XR.nan) → (gdLoop alpha g k w prev).out = ok (List.replicate n XR.nan)
  | 0, w, _, _, h => by rw [gdLoop, h rfl]; rfl
  | k + 1, w, prev, hw, _ => by
    have e : vecZip Scalar.sub w (vecScale (List.replicate n XR.nan) alpha) = ok (List.replicate n XR.nan) := by
      unfold vecZip vecScale
      rw [if_pos (by simp [hw])]
      congr 1
      rw [List.eq_replicate_iff]
      refine ⟨by simp [hw], ?_⟩
      intro b hb
      obtain ⟨i, hi, rfl⟩ := List.mem_iff_getElem.1 hb
      simp [mv_nan_mul, mv_sub_nan]
    have ih := gdLoop_nan alpha hg k (List.replicate n XR.nan) XR.nan (by simp) (fun _ => rfl)
    rw [gdLoop, hg w hw]
    have hb : ¬ ((Scalar.abs (prev -. XR.nan) <. learningEps) = true) := by
      rw [mv_sub_nan]
      change ¬ (false = true)
      simp
    show (Logged.bind (Logged.call w (ok (XR.nan, List.replicate n XR.nan))) fun r => if (Scalar.abs (prev -. r.1) <. learningEps) = true then pure w else do
      let w' ← Logged.lift (vecZip Scalar.sub w (vecScale r.2 alpha))
      gdLoop alpha g k w' r.1).out = _
    simp only [Logged.call, Logged.bind]
    rw [if_neg hb, e]
    exact ih

/-- The gradient of a sum over samples of which one is NaN. -/
theorem grad_nan {A : Mat XR} (hA : A.WF) {diff : List XR} (hl : diff.length = A.rows.length) (hn : XR.nan ∈ diff) :
    A.transpose.mulVec diff = ok (List.replicate A.cols XR.nan) := by
  unfold Mat.mulVec
  rw [if_pos (by simp [Mat.transpose, hl])]
  congr 1
  rw [List.eq_replicate_iff]
  refine ⟨by simp [Mat.transpose, transposeRows], ?_⟩
  intro b hb
  obtain ⟨r, hr, rfl⟩ := List.mem_map.1 hb
  simp only [Mat.transpose, transposeRows] at hr
  obtain ⟨j, hj, rfl⟩ := List.mem_map.1 hr
  have hj := List.mem_range.1 hj
  refine dot_nan_mem_right hn ?_
  have e : (A.rows.filterMap fun r => r[j]?) = A.rows.map fun r => r.getD j .nan := by
    rw [← List.filterMap_eq_map]
    apply List.filterMap_congr
    intro l hl
    have := hA l hl
    simp only [Function.comp]
    rw [List.getElem?_eq_getElem (by omega), getD_lt]
  rw [e, List.length_map, hl]

theorem linComputeGrad_nan {A : Mat XR} (hA : A.WF) {t : List XR} (ht : t.length = A.rows.length) {s : List XR} (hs : s ∈ A.rows) (hn : XR.nan ∈ s) (w : List XR)
    (hw : w.length = A.cols) : linComputeGrad w A t = ok (XR.nan, List.replicate A.cols XR.nan) := by
  have ho : XR.nan ∈ A.rows.map fun r => dot r w := List.mem_map.2 ⟨s, hs, dot_nan_mem hn (by rw [hA s hs, hw])⟩
  have hd : XR.nan ∈ List.zipWith Scalar.sub (A.rows.map fun r => dot r w) t := zipWith_nan_mem xr_nan_sub ho (by simp [ht])
  unfold linComputeGrad
  rw [show A.mulVec w = ok (A.rows.map fun r => dot r w) by unfold Mat.mulVec; rw [if_pos hw.symm]]
  simp only [ok_bind, mseCostVec, vecZip]
  rw [if_pos (by simp [ht])]
  simp only [ok_bind, if_true]
  rw [mv_fsum_nan (zipWith_nan_mem mv_nan_mul hd rfl), grad_nan hA (by simp [ht]) hd]
  simp only [ok_bind, xr_nan_div, List.map_replicate]

theorem logComputeGrad_nan {A : Mat XR} (hA : A.WF) {t : List XR} (ht : t.length = A.rows.length) {s : List XR} (hs : s ∈ A.rows) (hn : XR.nan ∈ s) (w : List XR)
    (hw : w.length = A.cols) : logComputeGrad w A t = ok (XR.nan, List.replicate A.cols XR.nan) := by
  have ho : XR.nan ∈ (A.rows.map fun r => dot r w).map sigmoid.func :=
    List.mem_map.2 ⟨XR.nan, List.mem_map.2 ⟨s, hs, dot_nan_mem hn (by rw [hA s hs, hw])⟩, rfl⟩
  generalize ho' : (A.rows.map fun r => dot r w).map sigmoid.func = o at ho
  have hol : o.length = t.length := by rw [← ho']; simp [ht]
  have hd : XR.nan ∈ List.zipWith Scalar.sub o t := zipWith_nan_mem xr_nan_sub ho hol
  unfold logComputeGrad
  rw [show A.mulVec w = ok (A.rows.map fun r => dot r w) by unfold Mat.mulVec; rw [if_pos hw.symm]]
  simp only [ok_bind, ho', ceCostVec, vecZip]
  rw [if_pos (by simp [hol])]
  simp only [ok_bind]
  rw [if_pos (by simp [hol])]
  simp only [ok_bind]
  rw [if_pos (by simp [hol])]
  simp only [ok_bind]
  rw [if_pos hol]
  simp only [ok_bind]
  have hm : XR.nan ∈ List.zipWith Scalar.mul t (o.map Scalar.ln) :=
    zipWith_nan_mem_right mv_mul_nan (List.mem_map.2 ⟨XR.nan, ho, rfl⟩) (by simp [hol])
  rw [mv_fsum_nan (zipWith_nan_mem xr_nan_add hm (by simp [hol])), grad_nan hA (by simp [hol, ht]) hd]
  simp only [ok_bind, List.map_replicate, xr_nan_div]
  rfl

/-- C148 fails for linear regression by gradient descent, visibly: one NaN in the samples, and every prediction is NaN. -/
theorem C148_linear_violation (X : Mat XR) (hX : X.WF) (t : List XR) (ht : t.length = X.rows.length) (s : List XR) (hs : s ∈ X.rows) (hn : XR.nan ∈ s) :
    ∃ m, LinReg.trainWithOptimization X t = ok m ∧ ∀ Y : Mat XR, Y.WF → Y.cols = X.cols → m.predict Y = ok (List.replicate Y.rows.length XR.nan) := by
  refine ⟨⟨some (List.replicate (X.cols + 1) XR.nan)⟩, ?_, ?_⟩
  · unfold LinReg.trainWithOptimization
    rw [withOnes_eq]
    simp only [ok_bind, GradientDesc.optimize]
    rw [gdLoop_nan (n := X.cols + 1) _ (fun w hw => linComputeGrad_nan (A := ⟨X.cols + 1, X.rows.map (Scalar.one :: ·)⟩) (by
      intro r hr
      obtain ⟨q, hq, rfl⟩ := List.mem_map.1 hr
      simp [hX q hq]) (by simpa using ht) (List.mem_map.2 ⟨s, hs, rfl⟩) (List.mem_cons_of_mem _ hn) w hw) _ _ _ (by simp)
      (by intro h; simp [GradientDesc.default] at h)]
    rfl
  · intro Y hY hYc
    unfold LinReg.predict
    simp only [withOnes_eq, ok_bind, Mat.mulVec]
    rw [if_pos (by simp [hYc])]
    congr 1
    rw [List.eq_replicate_iff]
    refine ⟨by simp, ?_⟩
    intro b hb
    simp only [List.map_map] at hb
    obtain ⟨q, hq, rfl⟩ := List.mem_map.1 hb
    exact dot_nan_mem_right (by simp) (by simp [hY q hq, hYc])

/-- C148 fails for logistic regression by gradient descent, visibly: one NaN in the samples, and every prediction is NaN. -/
theorem C148_logistic_violation (o : GradientDesc XR) (hit : 0 < o.iters) (X : Mat XR) (hX : X.WF) (t : List XR) (ht : t.length = X.rows.length) (s : List XR)
    (hs : s ∈ X.rows) (hn : XR.nan ∈ s) :
    ∃ m, LogReg.train (fun g w => (o.optimize g w).out) X t = ok m ∧ ∀ Y : Mat XR, Y.WF → Y.cols = X.cols → m.predict Y = ok (List.replicate Y.rows.length XR.nan) := by
  refine ⟨⟨some (List.replicate (X.cols + 1) XR.nan)⟩, ?_, ?_⟩
  · unfold LogReg.train
    rw [withOnes_eq]
    simp only [ok_bind, GradientDesc.optimize]
    rw [gdLoop_nan (n := X.cols + 1) _ (fun w hw => logComputeGrad_nan (A := ⟨X.cols + 1, X.rows.map (Scalar.one :: ·)⟩) (by
      intro r hr
      obtain ⟨q, hq, rfl⟩ := List.mem_map.1 hr
      simp [hX q hq]) (by simpa using ht) (List.mem_map.2 ⟨s, hs, rfl⟩) (List.mem_cons_of_mem _ hn) w hw) _ _ _ (by simp)
      (by omega)]
    rfl
  · intro Y hY hYc
    unfold LogReg.predict
    simp only [withOnes_eq, ok_bind, Mat.mulVec]
    rw [if_pos (by simp [hYc])]
    simp only [ok_bind]
    congr 1
    rw [List.eq_replicate_iff]
    refine ⟨by simp, ?_⟩
    intro b hb
    simp only [List.map_map] at hb
    obtain ⟨q, hq, rfl⟩ := List.mem_map.1 hb
    simp only [Function.comp]
    rw [dot_nan_mem_right (by simp) (by simp [hY q hq, hYc])]
    rfl

/-! ### Concrete cases -/

/-- Linear and logistic regression on two samples of which one is NaN. -/
example : (∃ m, LinReg.trainWithOptimization ⟨1, [[.nan], [.fin 1]]⟩ [.fin 0, .fin 1] = ok m ∧ m.predict ⟨1, [[.fin 1]]⟩ = ok [XR.nan]) ∧
    ∃ m, LogReg.train (fun g w => (GradientDesc.default.optimize g w).out) ⟨1, [[.nan], [.fin 1]]⟩ [.fin 0, .fin 1] = ok m ∧
      m.predict ⟨1, [[.fin 1]]⟩ = ok [XR.nan] := by
  have hX : (⟨1, [[.nan], [.fin 1]]⟩ : Mat XR).WF := by intro r hr; simp at hr; rcases hr with rfl | rfl <;> rfl
  have hY : (⟨1, [[.fin 1]]⟩ : Mat XR).WF := by intro r hr; simp at hr; rw [hr]; rfl
  obtain ⟨m1, h1, h2⟩ := C148_linear_violation _ hX [.fin 0, .fin 1] rfl [.nan] (by simp) (by simp)
  obtain ⟨m3, h3, h4⟩ := C148_logistic_violation GradientDesc.default (by simp [GradientDesc.default]) _ hX [.fin 0, .fin 1] rfl [.nan] (by simp) (by simp)
  exact ⟨⟨m1, h1, h2 _ hY rfl⟩, m3, h3, h4 _ hY rfl⟩

/-- k-means: two clusters, three samples of which the second has a NaN. -/
example : ∃ m', kmTrain (fun _ _ => ok ⟨1, [[.fin 0], [.fin 8]]⟩) ⟨100, 2, none⟩ ⟨1, [[XR.fin 0], [.nan], [.fin 8]]⟩ = (m', ok ()) ∧
    kmPredict m' ⟨1, [[.fin 0], [.fin 8]]⟩ = ok [0, 0] := by
  obtain ⟨m', h1, h2⟩ := C148_kmeans_violation (fun _ _ => ok ⟨1, [[.fin 0], [.fin 8]]⟩) ⟨100, 2, none⟩ ⟨1, [[XR.fin 0], [.nan], [.fin 8]]⟩
    ⟨1, [[.fin 0], [.fin 8]]⟩ (by intro r hr; simp at hr; rcases hr with rfl | rfl | rfl <;> rfl) (by norm_num) (by norm_num) (by norm_num) rfl
    (by intro r hr; simp at hr; rcases hr with rfl | rfl <;> rfl) rfl rfl [.nan] (by simp) (by simp)
  exact ⟨m', h1, h2 _ (by intro r hr; simp at hr; rcases hr with rfl | rfl <;> rfl) rfl⟩

/-- Nearest neighbours. -/
example : knnPredict bruteSearcher ⟨1, some ⟨1, [[.nan], [.fin 5]]⟩, some [3, 4]⟩ ⟨1, [[XR.fin 5]]⟩ = ok [3] ∧
    knnPredict bruteSearcher ⟨2, some ⟨1, [[.fin 5], [.nan]]⟩, some [3, 4]⟩ ⟨1, [[XR.fin 5]]⟩ = panic :=
  ⟨C148_nearest_violation [.nan] [[.fin 5]] 3 [4] (by simp) ⟨1, [[.fin 5]]⟩ (by simp),
    C148_neighbours_violation _ (by intro r hr; simp at hr; rcases hr with rfl | rfl <;> rfl) [3, 4] 2 (by norm_num) (by norm_num) 1 (by norm_num) [.nan] rfl
      (by simp) ⟨1, [[.fin 5]]⟩ (by intro r hr; simp at hr; rw [hr]; rfl) rfl (by simp)⟩

/-- Nearest neighbours with a NaN in the last of three samples, two neighbours. -/
example : knnPredict bruteSearcher ⟨2, some ⟨1, [[.fin 5], [.fin 6], [.nan]]⟩, some [3, 3, 4]⟩ ⟨1, [[XR.fin 5]]⟩ =
    knnPredict bruteSearcher ⟨2, some ⟨1, [[.fin 5], [.fin 6]]⟩, some [3, 3]⟩ ⟨1, [[XR.fin 5]]⟩ :=
  C148_neighbours_partial 2 [[.fin 5], [.fin 6]] [] [.nan] [3, 3] [] 4 1 (by norm_num) rfl (by simp) ⟨1, [[.fin 5]]⟩ (by simp)

/-- Gaussian naive Bayes: two samples of each class, a NaN in class 0. -/
example : ∃ m', nbTrain gaussDistr (nbNew _ XR) ⟨1, [[.fin 1], [.fin 3], [.nan], [.fin 2]]⟩ (finMat ⟨2, [[0, 1], [0, 1], [1, 0], [1, 0]]⟩) = (m', ok ()) ∧
    nbPredict gaussDistr m' ⟨1, [[.fin 1], [.fin 3]]⟩ = ok ⟨2, [[.fin 1, .fin 0], [.fin 1, .fin 0]]⟩ := by
  obtain ⟨m', h⟩ : ∃ m', nbTrain gaussDistr (nbNew _ XR) ⟨1, [[.fin 1], [.fin 3], [.nan], [.fin 2]]⟩ (finMat ⟨2, [[0, 1], [0, 1], [1, 0], [1, 0]]⟩) = (m', ok ()) := by
    simp [nbTrain, finMat, nbScan, findClass, nbFit, Mat.selectRows, getAt, ofOption, gaussDistr, gaussUpdate, Mat.varianceRow, setAt, Mat.zeros, List.replicate, List.modify]
  exact ⟨m', h, C148_gaussian_violation _ m' ⟨1, [[.fin 1], [.fin 3], [.nan], [.fin 2]]⟩ ⟨1, [[.fin 1], [.fin 3]]⟩ ⟨2, [[0, 1], [0, 1], [1, 0], [1, 0]]⟩
    (by intro r hr; simp at hr; rcases hr with rfl | rfl | rfl | rfl <;> rfl) (by intro r hr; simp at hr; rcases hr with rfl | rfl <;> rfl)
    (by intro r hr; simp at hr; rcases hr with rfl | rfl <;> rfl) rfl rfl [.nan] [1, 0] (by simp) flat_class.1 (by simp) h⟩

/-- Gaussian naive Bayes: a NaN in class 1. -/
example : ∃ m', nbTrain gaussDistr (nbNew _ XR) ⟨1, [[.fin 1], [.nan], [.fin 0], [.fin 2]]⟩ (finMat ⟨2, [[0, 1], [0, 1], [1, 0], [1, 0]]⟩) = (m', ok ()) ∧
    ∃ P, nbPredict gaussDistr m' ⟨1, [[.fin 1]]⟩ = ok P ∧ P.rows.length = 1 ∧ ∀ r ∈ P.rows, r[1]? = some (.fin 0) := by
  obtain ⟨m', h⟩ : ∃ m', nbTrain gaussDistr (nbNew _ XR) ⟨1, [[.fin 1], [.nan], [.fin 0], [.fin 2]]⟩ (finMat ⟨2, [[0, 1], [0, 1], [1, 0], [1, 0]]⟩) = (m', ok ()) := by
    simp [nbTrain, finMat, nbScan, findClass, nbFit, Mat.selectRows, getAt, ofOption, gaussDistr, gaussUpdate, Mat.varianceRow, setAt, Mat.zeros, List.replicate, List.modify]
  exact ⟨m', h, C148_gaussian_never_violation _ m' ⟨1, [[.fin 1], [.nan], [.fin 0], [.fin 2]]⟩ ⟨1, [[.fin 1]]⟩ ⟨2, [[0, 1], [0, 1], [1, 0], [1, 0]]⟩
    (by intro r hr; simp at hr; rcases hr with rfl | rfl | rfl | rfl <;> rfl) (by intro r hr; simp at hr; rcases hr with rfl | rfl <;> rfl)
    (by intro r hr; simp at hr; rw [hr]; rfl) rfl rfl 1 (by norm_num) [.nan] [0, 1] (by simp) flat_class.2 (by simp) h⟩

end RM
