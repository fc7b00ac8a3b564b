import Verif.Props.KMeans
import Mathlib.Tactic.NormNum
import Mathlib.Tactic.FieldSimp

/-! C31: two concrete training runs: a good one (the hypotheses of C31 are met) and one in which the first cluster becomes
empty and the result is much worse than the start. -/

namespace RM
open Outcome Scalar Spec

theorem nearestProper_intro {C : List (Option (List ℝ))} {x : List ℝ} {j : ℕ} (c : List ℝ) (h : C[j]? = some (some c))
    (hmin : ∀ c', some c' ∈ C → sqDist x c ≤ sqDist x c') (hfirst : ∀ (t : ℕ) c', t < j → C[t]? = some (some c') → sqDist x c < sqDist x c') :
    NearestProper C x j := ⟨c, h, hmin, hfirst⟩

/-- Two centroids in one dimension: index 0. -/
theorem near2_0 {a b x : ℝ} (h : (x - a) ^ 2 ≤ (x - b) ^ 2) : NearestProper [some [a], some [b]] [x] 0 := by
  refine ⟨[a], by simp, ?_, by omega⟩
  intro c' hc'
  simp only [List.mem_cons, Option.some.injEq, List.not_mem_nil, or_false] at hc'
  rcases hc' with rfl | rfl
  · exact le_refl _
  · simpa [sqDist] using h

/-- Two centroids in one dimension: index 1. -/
theorem near2_1 {a b x : ℝ} (h : (x - b) ^ 2 < (x - a) ^ 2) : NearestProper [some [a], some [b]] [x] 1 := by
  refine ⟨[b], by simp, ?_, ?_⟩
  · intro c' hc'
    simp only [List.mem_cons, Option.some.injEq, List.not_mem_nil, or_false] at hc'
    rcases hc' with rfl | rfl
    · simp [sqDist]; linarith
    · exact le_refl _
  · intro t c' ht hc'
    have : t = 0 := by omega
    subst this
    simp only [List.getElem?_cons_zero, Option.some.injEq] at hc'
    subst hc'
    simpa [sqDist] using h

/-- The data of the good run. -/
def goodData : Mat ℝ := ⟨1, [[0], [1], [10], [11]]⟩

theorem goodData_WF : goodData.WF := by
  intro r hr; simp [goodData] at hr; rcases hr with rfl | rfl | rfl | rfl <;> rfl

theorem good_labels {a b : ℝ} (ha : 0 ≤ a) (ha1 : a ≤ 1) (hb : 10 ≤ b) (hb1 : b ≤ 11) :
    findClosest (stored 1 [some [a], some [b]]) (finMat goodData) =
      ok ([0, 0, 1, 1], goodData.rows.map fun x => XR.fin (nearestSq x (proper [some [a], some [b]]))) := by
  have := findClosest_of_labels goodData_WF (by simp [goodData]) [a] [some [b]] [0, 0, 1, 1]
  apply this
  refine .cons (near2_0 ?_) (.cons (near2_0 ?_) (.cons (near2_1 ?_) (.cons (near2_1 ?_) .nil))) <;> nlinarith

theorem good_step {a b : ℝ} (ha : 0 ≤ a) (ha1 : a ≤ 1) (hb : 10 ≤ b) (hb1 : b ≤ 11) {c' : Mat XR}
    (h : KmIteration 2 (finMat goodData) (stored 1 [some [a], some [b]]) c') : c' = stored 1 [some [1 / 2], some [21 / 2]] := by
  obtain ⟨idx, ds, h1, h2⟩ := h
  rw [good_labels ha ha1 hb hb1] at h1
  simp only [ok.injEq, Prod.mk.injEq] at h1
  rw [← h1.1, updateCentroids_stored 2 goodData goodData_WF [0, 0, 1, 1] rfl] at h2
  simp only [ok.injEq] at h2
  rw [← h2]
  have e : newCentroids 2 goodData.cols goodData.rows [0, 0, 1, 1] = [some [1 / 2], some [21 / 2]] := by
    simp only [newCentroids, goodData, labelled, List.range, List.range.loop, List.zip_cons_cons, List.zip_nil_left, List.filter, List.map, centroidOf, mean,
      decide_true, List.getD_cons_zero, List.sum_cons, List.sum_nil, List.length]
    norm_num [List.cons_ne_nil]
  rw [e]
  rfl

theorem good_visited {c : Mat XR} (h : Visited 2 (finMat goodData) (stored 1 [some [0], some [10]]) c) :
    c = stored 1 [some [0], some [10]] ∨ c = stored 1 [some [1 / 2], some [21 / 2]] := by
  induction h with
  | refl => exact .inl rfl
  | tail _ h ih =>
    right
    rcases ih with rfl | rfl
    · exact good_step (by norm_num) (by norm_num) (by norm_num) (by norm_num) h
    · exact good_step (by norm_num) (by norm_num) (by norm_num) (by norm_num) h

/-- The hypotheses of C31 hold for a genuine two-cluster training run with any number of iterations. -/
example (iters : ℕ) : ∃ C' : List (Option (List ℝ)),
    kmTrain (fun _ _ => ok (finMat ⟨1, [[0], [10]]⟩)) (⟨iters, 2, none⟩ : KMeans XR) (finMat goodData) =
      (⟨iters, 2, some (stored 1 C')⟩, ok ()) ∧ inertia goodData.rows (proper C') ≤ inertia goodData.rows [[0], [10]] := by
  apply C31_training_never_worse (fun _ _ => ok (finMat ⟨1, [[0], [10]]⟩)) ⟨iters, 2, none⟩ goodData ⟨1, [[0], [10]]⟩ goodData_WF
    (by simp [goodData]) (by simp [goodData]) (by simp) rfl rfl rfl
  · intro r hr; simp at hr; rcases hr with rfl | rfl <;> rfl
  · intro c' idx ds hv hf
    have hst : finMat ⟨1, [[0], [10]]⟩ = stored 1 [some [0], some [10]] := (stored_some ⟨1, [[0], [10]]⟩).symm
    rw [hst] at hv
    rcases good_visited hv with rfl | rfl
    · rw [good_labels (by norm_num) (by norm_num) (by norm_num) (by norm_num)] at hf
      simp only [ok.injEq, Prod.mk.injEq] at hf
      rw [← hf.1]; simp
    · rw [good_labels (by norm_num) (by norm_num) (by norm_num) (by norm_num)] at hf
      simp only [ok.injEq, Prod.mk.injEq] at hf
      rw [← hf.1]; simp

/-! ### The collapse -/

/-- The data of the bad run. -/
def badData : Mat ℝ := ⟨1, [[-10], [-12], [10], [12]]⟩

theorem badData_WF : badData.WF := by
  intro r hr; simp [badData] at hr; rcases hr with rfl | rfl | rfl | rfl <;> rfl

/-- The random-partition initialiser returns the means `1, -12, 10` for this data when row 3 is put in group 0. -/
theorem bad_init : partitionInit [0] 3 (finMat badData) = ok (stored 1 [some [1], some [-12], some [10]]) := by
  have hg : partitionLoop 3 3 [0] ((List.range 3).map fun i => [i]) = ok [[0, 3], [1], [2]] := by decide
  unfold partitionInit
  have ht : ([0] : List ℕ).take ((finMat badData).rows.length - 3) = [0] := by simp [finMat, badData]
  rw [ht, hg, ok_bind]
  have hm : List.mapM (fun v => do let m ← (finMat badData).selectRows v; ok m.meanRow) [[0, 3], [1], [2]] =
      ok [[XR.fin 1], [XR.fin (-12)], [XR.fin 10]] := by
    have e0 : (finMat badData).selectRows [0, 3] = ok ⟨1, ([[-10], [12]] : List (List ℝ)).map (List.map XR.fin)⟩ := by
      simp [Mat.selectRows, finMat, badData, getAt]
    have e1 : (finMat badData).selectRows [1] = ok ⟨1, ([[-12]] : List (List ℝ)).map (List.map XR.fin)⟩ := by
      simp [Mat.selectRows, finMat, badData, getAt]
    have e2 : (finMat badData).selectRows [2] = ok ⟨1, ([[10]] : List (List ℝ)).map (List.map XR.fin)⟩ := by
      simp [Mat.selectRows, finMat, badData, getAt]
    have m0 : centroidOf 1 [[-10], [12]] = [1] := by
      simp only [centroidOf, mean, List.range, List.range.loop, List.map, List.getD_cons_zero, List.sum_cons, List.sum_nil, List.length]
      norm_num
    have m1 : centroidOf 1 [[-12]] = [-12] := by
      simp only [centroidOf, mean, List.range, List.range.loop, List.map, List.getD_cons_zero, List.sum_cons, List.sum_nil, List.length]
      norm_num
    have m2 : centroidOf 1 [[10]] = [10] := by
      simp only [centroidOf, mean, List.range, List.range.loop, List.map, List.getD_cons_zero, List.sum_cons, List.sum_nil, List.length]
      norm_num
    have f0 := meanRow_fin 1 [[-10], [12]] (by intro r hr; simp at hr; rcases hr with rfl | rfl <;> rfl) (by simp)
    have f1 := meanRow_fin 1 [[-12]] (by intro r hr; simp at hr; rw [hr]; rfl) (by simp)
    have f2 := meanRow_fin 1 [[10]] (by intro r hr; simp at hr; rw [hr]; rfl) (by simp)
    simp only [List.mapM_cons, e0, e1, e2, ok_bind, f0, m0, f1, m1, f2, m2]
    rfl
  rw [hm, ok_bind, Mat.new_flatten (k := 3) (c := (finMat badData).cols) rfl (by intro r hr; simp at hr; rcases hr with rfl | rfl | rfl <;> rfl)]
  rfl

theorem bad_iter1 : findClosest (stored 1 [some [1], some [-12], some [10]]) (finMat badData) =
    ok ([1, 1, 2, 2], badData.rows.map fun x => XR.fin (nearestSq x (proper [some [1], some [-12], some [10]]))) := by
  apply findClosest_of_labels badData_WF (by simp [badData]) [1] [some [-12], some [10]] [1, 1, 2, 2]
  have h1 : ∀ x : ℝ, (x + 12) ^ 2 < (x - 1) ^ 2 → (x + 12) ^ 2 ≤ (x - 10) ^ 2 → NearestProper [some [1], some [-12], some [10]] [x] 1 := by
    intro x ha hb
    refine ⟨[-12], by simp, ?_, ?_⟩
    · intro c' hc'
      simp only [List.mem_cons, Option.some.injEq, List.not_mem_nil, or_false] at hc'
      rcases hc' with rfl | rfl | rfl <;> simp [sqDist] <;> linarith
    · intro t c' ht hc'
      have : t = 0 := by omega
      subst this
      simp only [List.getElem?_cons_zero, Option.some.injEq] at hc'
      subst hc'
      simp [sqDist]; linarith
  have h2 : ∀ x : ℝ, (x - 10) ^ 2 < (x - 1) ^ 2 → (x - 10) ^ 2 < (x + 12) ^ 2 → NearestProper [some [1], some [-12], some [10]] [x] 2 := by
    intro x ha hb
    refine ⟨[10], by simp, ?_, ?_⟩
    · intro c' hc'
      simp only [List.mem_cons, Option.some.injEq, List.not_mem_nil, or_false] at hc'
      rcases hc' with rfl | rfl | rfl <;> simp [sqDist] <;> linarith
    · intro t c' ht hc'
      have : t = 0 ∨ t = 1 := by omega
      rcases this with rfl | rfl
      · simp only [List.getElem?_cons_zero, Option.some.injEq] at hc'
        subst hc'
        simp [sqDist]; linarith
      · simp only [List.getElem?_cons_succ, List.getElem?_cons_zero, Option.some.injEq] at hc'
        subst hc'
        simp [sqDist]; linarith
  refine .cons (h1 _ ?_ ?_) (.cons (h1 _ ?_ ?_) (.cons (h2 _ ?_ ?_) (.cons (h2 _ ?_ ?_) .nil))) <;> norm_num

theorem bad_new1 : newCentroids 3 badData.cols badData.rows [1, 1, 2, 2] = [none, some [-11], some [11]] := by
  simp only [newCentroids, badData, labelled, List.range, List.range.loop, List.zip_cons_cons, List.zip_nil_left, List.filter, List.map, centroidOf, mean,
    List.length]
  norm_num [List.cons_ne_nil]

theorem bad_new0 : newCentroids 3 badData.cols badData.rows [0, 0, 0, 0] = [some [0], none, none] := by
  simp only [newCentroids, badData, labelled, List.range, List.range.loop, List.zip_cons_cons, List.zip_nil_left, List.filter, List.map, centroidOf, mean,
    List.length]
  norm_num [List.cons_ne_nil]

theorem bad_iter3 : findClosest (stored 1 [some [0], none, none]) (finMat badData) =
    ok ([0, 0, 0, 0], badData.rows.map fun x => XR.fin (nearestSq x (proper [some [0], none, none]))) := by
  apply findClosest_of_labels badData_WF (by simp [badData]) [0] [none, none] [0, 0, 0, 0]
  have h1 : ∀ x : ℝ, NearestProper [some [0], none, none] [x] 0 := by
    intro x
    refine ⟨[0], by simp, ?_, by omega⟩
    intro c' hc'
    simp only [List.mem_cons, Option.some.injEq, List.not_mem_nil, or_false, reduceCtorEq] at hc'
    subst hc'; exact le_refl _
  exact .cons (h1 _) (.cons (h1 _) (.cons (h1 _) (.cons (h1 _) .nil)))

theorem bad_tail : ∀ (n : ℕ) (cost : XR), kmLoop 3 (finMat badData) n cost (stored 1 [some [0], none, none]) = ok (stored 1 [some [0], none, none])
  | 0, _ => rfl
  | n + 1, cost => by
    rw [kmLoop, bad_iter3, ok_bind]
    simp only [updateCentroids_stored 3 badData badData_WF [0, 0, 0, 0] rfl, bad_new0, ok_bind]
    split
    · rfl
    · exact bad_tail n _

theorem bad_loop (n : ℕ) : kmLoop 3 (finMat badData) (n + 2) Scalar.zero (stored 1 [some [1], some [-12], some [10]]) =
    ok (stored 1 [some [0], none, none]) := by
  rw [kmLoop, bad_iter1, ok_bind]
  simp only [updateCentroids_stored 3 badData badData_WF [1, 1, 2, 2] rfl, bad_new1, ok_bind]
  have hd : (badData.rows.map fun x => XR.fin (nearestSq x (proper [some [1], some [-12], some [10]]))) = [4, 0, 0, 4].map XR.fin := by
    simp only [badData, proper, List.filterMap, id, List.map, nearestSq, List.foldl, sqDist, List.zipWith, List.sum_cons, List.sum_nil]
    norm_num
  rw [hd, xr_fsum_fin]
  have : ¬ (Scalar.abs (Scalar.zero -. XR.fin ([4, 0, 0, 4] : List ℝ).sum) <. Scalar.ofRat (1 / 10 ^ 14)) = true := by
    simp only [xr_zero, xr_sub, xr_abs, xr_ofRat, xr_lt, decide_eq_true_eq]
    norm_num
  rw [if_neg this, kmLoop]
  have := findClosest_nan badData_WF (by simp [badData]) [some [-11], some [11]]
  change findClosest (stored badData.cols _) _ >>= _ = _
  rw [this, ok_bind]
  simp only [show List.replicate badData.rows.length 0 = [0, 0, 0, 0] from rfl, updateCentroids_stored 3 badData badData_WF [0, 0, 0, 0] rfl, bad_new0, ok_bind]
  split
  · rfl
  · exact bad_tail n _

/-- C31: without the non-emptiness hypothesis the claim is false, already for the built-in random-partition initialiser and
the default 100 iterations. On the data `-10, -12, 10, 12` with `k = 3`, when row 3 is drawn into group 0, the initial centroids
`1, -12, 10` have objective 8; training collapses to the single proper centroid `0` (the other two are NaN) with objective 488. -/
theorem C31_empty_cluster_collapse :
    kmTrain (partitionInit [0]) (⟨100, 3, none⟩ : KMeans XR) (finMat badData) = (⟨100, 3, some (stored 1 [some [0], none, none])⟩, ok ()) ∧
    partitionInit [0] 3 (finMat badData) = ok (finMat ⟨1, [[1], [-12], [10]]⟩) ∧
    inertia badData.rows [[1], [-12], [10]] = 8 ∧ inertia badData.rows (proper [some [0], none, none]) = 488 := by
  refine ⟨?_, ?_, ?_, ?_⟩
  · unfold kmTrain kmInit
    rw [if_neg (by simp [finMat, badData])]
    simp only [bad_init, ok_bind]
    rw [if_neg (by simp [stored]), if_neg (by simp [stored, finMat, badData])]
    simp only [bad_loop 98]
  · rw [bad_init]; rfl
  · simp only [inertia, badData, List.map, nearestSq, List.foldl, sqDist, List.zipWith, List.sum_cons, List.sum_nil]
    norm_num
  · simp only [inertia, badData, proper, List.filterMap, id, List.map, nearestSq, List.foldl, sqDist, List.zipWith, List.sum_cons, List.sum_nil]
    norm_num

end RM
