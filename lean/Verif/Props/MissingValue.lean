import Verif.Props.NaiveBayesUnseen
import Verif.Props.RowWise
import Verif.Model.Svm
import Verif.Props.NNet

/-! C147: a missing number (NaN) in a query. -/

namespace RM
open Outcome Scalar Spec

/-! ### Sums and products with a NaN -/

theorem mv_nan_mul (a : XR) : Scalar.mul XR.nan a = XR.nan := by cases a <;> rfl
theorem mv_mul_nan (a : XR) : Scalar.mul a XR.nan = XR.nan := by cases a <;> rfl
theorem xr_nan_sub (a : XR) : Scalar.sub XR.nan a = XR.nan := by cases a <;> rfl
theorem xr_nan_div (a : XR) : Scalar.div XR.nan a = XR.nan := by cases a <;> rfl

theorem foldl_nan_mem : ∀ (l : List XR) (a : XR), XR.nan ∈ l → l.foldl Scalar.add a = XR.nan
  | [], _, h => by simp at h
  | x :: l, a, h => by
    rw [List.foldl_cons]
    rcases List.mem_cons.1 h with h | h
    · rw [← h, xr_add_nan]; exact xr_foldl_nan l
    · exact foldl_nan_mem l _ h

theorem mv_fsum_nan {l : List XR} (h : XR.nan ∈ l) : fsum l = XR.nan := foldl_nan_mem l _ h

theorem zipWith_nan_mem {f : XR → XR → XR} (hf : ∀ a, f XR.nan a = XR.nan) : ∀ {x y : List XR}, XR.nan ∈ x → x.length = y.length → XR.nan ∈ List.zipWith f x y
  | [], _, h, _ => by simp at h
  | _ :: _, [], _, hl => by simp at hl
  | a :: x, b :: y, h, hl => by
    rw [List.zipWith_cons_cons]
    rcases List.mem_cons.1 h with h | h
    · rw [← h, hf]; simp
    · exact List.mem_cons_of_mem _ (zipWith_nan_mem hf h (by simpa using hl))

theorem dot_nan_mem {x y : List XR} (h : XR.nan ∈ x) (hl : x.length = y.length) : dot x y = XR.nan :=
  mv_fsum_nan (zipWith_nan_mem mv_nan_mul h hl)

/-! ### Regression -/

/-- C147, for linear regression: the prediction is NaN. Missing for C147: other learners fail. -/
theorem C147_linear_partial (w r : List XR) (hw : w.length = r.length + 1) (hr : XR.nan ∈ r) :
    (⟨some w⟩ : LinReg XR).predict ⟨r.length, [r]⟩ = ok [XR.nan] := by
  unfold LinReg.predict
  simp only [withOnes_eq, ok_bind, Mat.mulVec]
  rw [if_pos (by simp [hw])]
  simp only [List.map_cons, List.map_nil]
  rw [dot_nan_mem (List.mem_cons_of_mem _ hr) (by simp [hw])]

/-- C147, for logistic regression: the prediction is NaN. Missing for C147: other learners fail. -/
theorem C147_logistic_partial (w r : List XR) (hw : w.length = r.length + 1) (hr : XR.nan ∈ r) :
    (⟨some w⟩ : LogReg XR).predict ⟨r.length, [r]⟩ = ok [XR.nan] := by
  unfold LogReg.predict
  simp only [withOnes_eq, ok_bind, Mat.mulVec]
  rw [if_pos (by simp [hw])]
  simp only [List.map_cons, List.map_nil, ok_bind]
  rw [dot_nan_mem (List.mem_cons_of_mem _ hr) (by simp [hw])]
  rfl

/-! ### Kernel methods -/

namespace Spec

/-- The kernel of a point with a NaN is NaN. -/
def NanKernel (K : Kernel XR) : Prop := ∀ x y : List XR, XR.nan ∈ x → x.length = y.length → K x y = ok XR.nan

end Spec

/-- C147: the kernels with this property. -/
theorem C147_kernels (a b : XR) :
    NanKernel (linearKernel a) ∧ NanKernel (sqExpKernel a b) ∧ NanKernel (expKernel a b) ∧ NanKernel (hyperTanKernel a b) ∧
    (∀ K K' : Kernel XR, NanKernel K → NanKernel K' → NanKernel (kernelSum K K') ∧ NanKernel (kernelProd K K')) := by
  have hd : ∀ x y : List XR, XR.nan ∈ x → x.length = y.length →
      dot (List.zipWith Scalar.sub x y) (List.zipWith Scalar.sub x y) = XR.nan := fun x y hx hl =>
    dot_nan_mem (zipWith_nan_mem xr_nan_sub hx hl) rfl
  refine ⟨?_, ?_, ?_, ?_, ?_⟩
  · intro x y hx hl
    unfold linearKernel
    rw [dot_nan_mem hx hl, xr_nan_add]
  · intro x y hx hl
    unfold sqExpKernel
    simp only [hl, beq_self_eq_true, assert, if_true, ok_bind, vecZip]
    rw [hd x y hx hl]
    show ok (Scalar.mul b (Scalar.exp (Scalar.div XR.nan _))) = _
    rw [xr_nan_div]
    show ok (Scalar.mul b XR.nan) = _
    rw [mv_mul_nan]
  · intro x y hx hl
    unfold expKernel
    simp only [hl, beq_self_eq_true, assert, if_true, ok_bind, vecZip]
    rw [hd x y hx hl]
    show ok (Scalar.mul b (Scalar.exp (Scalar.div XR.nan _))) = _
    rw [xr_nan_div]
    show ok (Scalar.mul b XR.nan) = _
    rw [mv_mul_nan]
  · intro x y hx hl
    unfold hyperTanKernel
    rw [dot_nan_mem hx hl, mv_mul_nan, xr_nan_add]
    rfl
  · intro K K' h h'
    refine ⟨fun x y hx hl => ?_, fun x y hx hl => ?_⟩
    · unfold kernelSum; rw [h x y hx hl, h' x y hx hl]; rfl
    · unfold kernelProd; rw [h x y hx hl, h' x y hx hl]; rfl

theorem kerMat_nan {K : Kernel XR} (hK : NanKernel K) {r : List XR} (hr : XR.nan ∈ r) {n : ℕ} (hn : r.length = n) {X : Mat XR} (hX : X.WF) (hc : X.cols = n) :
    kerMat K ⟨n, [r]⟩ X = ok ⟨X.rows.length, [List.replicate X.rows.length XR.nan]⟩ := by
  unfold kerMat
  rw [if_neg (by simp [hc])]
  simp only [List.mapM_cons, List.mapM_nil, pure_eq]
  rw [mapM_ok_map _ (fun _ => XR.nan) X.rows (fun y hy => hK r y hr (by rw [hn, hX y hy, hc]))]
  simp [List.map_const']

/-- C147, for support vector machines: the prediction is NaN. Missing for C147: other learners fail. -/
theorem C147_svm_partial (m : Svm XR) (hK : NanKernel m.ker) (al t : List XR) (X : Mat XR) (hX : X.WF) (hne : X.rows ≠ []) (h1 : m.alpha = some al)
    (h2 : m.trainInputs = some X) (h3 : m.trainTargets = some t) (hl : al.length = X.rows.length) (ht : t.length = X.rows.length)
    (r : List XR) (hr : XR.nan ∈ r) (hc : X.cols = r.length + 1) : m.predict ⟨r.length, [r]⟩ = ok [XR.nan] := by
  unfold Svm.predict
  simp only [withOnes_eq, ok_bind, h1, h2, h3]
  have e := kerMat_nan hK (r := Scalar.one :: r) (n := r.length + 1) (List.mem_cons_of_mem _ hr) (by simp) hX hc
  simp only [List.map_cons, List.map_nil]
  rw [e]
  simp only [ok_bind, vecZip]
  rw [if_pos (by rw [hl, ht])]
  simp only [ok_bind, Mat.mulVec]
  rw [if_pos (by simp [hl, ht])]
  simp only [List.map_cons, List.map_nil, ok_bind]
  have hpos := List.length_pos_iff.2 hne
  rw [dot_nan_mem (List.mem_replicate.2 ⟨by omega, rfl⟩) (by simp [hl, ht])]
  rfl

/-- C147, for Gaussian processes: the prediction is NaN. Missing for C147: other learners fail. -/
theorem C147_gp_partial (g : Gp XR) (hK : NanKernel g.ker) (mu : XR) (hm : g.mean = constMean mu) (al : List XR) (X : Mat XR) (hX : X.WF) (hne : X.rows ≠ [])
    (h1 : g.alpha = some al) (h2 : g.trainData = some X) (hl : al.length = X.rows.length)
    (r : List XR) (hr : XR.nan ∈ r) (hc : X.cols = r.length) : g.predict ⟨r.length, [r]⟩ = ok [XR.nan] := by
  unfold Gp.predict
  simp only [h1, h2, hm]
  rw [kerMat_nan hK hr rfl hX hc]
  simp only [ok_bind, Mat.mulVec]
  rw [if_pos hl.symm]
  simp only [List.map_cons, List.map_nil, ok_bind]
  have hpos := List.length_pos_iff.2 hne
  rw [dot_nan_mem (List.mem_replicate.2 ⟨by omega, rfl⟩) (by simp [hl])]
  simp [vecZip, constMean, xr_add_nan]

/-! ### DBSCAN -/

/-- C147, for DBSCAN: the query belongs to no cluster. Missing for C147: other learners fail. -/
theorem C147_dbscan_partial (m : Dbscan XR) (hp : m.predictive = true) (X : Mat XR) (hX : X.WF) (hne : X.rows ≠ []) (cl : List (Option ℕ))
    (h1 : m.clusterData = some X) (h2 : m.clusters = some cl) (r : List XR) (hr : XR.nan ∈ r) (hc : X.cols = r.length) :
    dbPredict m ⟨r.length, [r]⟩ = ok [none] := by
  unfold dbPredict
  rw [if_pos hp, h1, h2]
  simp only [List.mapM_cons, List.mapM_nil, pure_eq]
  have e : X.rows.mapM (fun c => dbDist r c) = ok (X.rows.map fun _ => XR.nan) := by
    apply mapM_ok_map
    intro y hy
    have hl : r.length = y.length := by rw [hX y hy, hc]
    unfold dbDist vecZip
    rw [if_pos hl]
    simp only [ok_bind]
    rw [dot_nan_mem (zipWith_nan_mem xr_nan_sub hr hl) rfl]
    rfl
  have e2 : dbClassify m.eps X cl r = ok none := by
    unfold dbClassify
    rw [e]
    simp only [ok_bind]
    cases hrows : X.rows with
    | nil => exact absurd hrows hne
    | cons a l =>
      simp only [List.map_cons, argminBy, argAux_nan]
      have : (Scalar.lt XR.nan m.eps : Bool) = false := by cases m.eps <;> rfl
      rw [this]
      simp
  rw [e2]
  rfl

/-! ### k-means -/

/-- C147 fails for k-means: the query is put into cluster 0. -/
theorem C147_kmeans_violation (m : KMeans XR) (C : Mat XR) (hC : C.WF) (hne : C.rows ≠ []) (hm : m.centroids = some C) (r : List XR) (hr : XR.nan ∈ r)
    (hc : C.cols = r.length) : kmPredict m ⟨r.length, [r]⟩ = ok [0] := by
  unfold kmPredict
  simp only [hm]
  unfold findClosest
  simp only [List.mapM_cons, List.mapM_nil, pure_eq]
  have e : closestTo C r.length r = ok (0, XR.nan) := by
    unfold closestTo Mat.zip
    rw [if_pos (by simp [hc])]
    simp only [ok_bind]
    rw [if_pos (by simp)]
    simp only [ok_bind, Mat.sumCols]
    have hall : ∀ s ∈ (List.zipWith (List.zipWith Scalar.mul) (List.zipWith (List.zipWith Scalar.sub) C.rows (List.replicate C.rows.length r))
        (List.zipWith (List.zipWith Scalar.sub) C.rows (List.replicate C.rows.length r))).map fsum, s = XR.nan := by
      intro s hs
      obtain ⟨q, hq, rfl⟩ := List.mem_map.1 hs
      obtain ⟨i, hi, rfl⟩ := List.mem_iff_getElem.1 hq
      have hi' : i < C.rows.length := by simpa using hi
      simp only [List.getElem_zipWith, List.getElem_replicate]
      have hl : C.rows[i].length = r.length := by rw [hC _ (List.getElem_mem hi'), hc]
      have hd : XR.nan ∈ List.zipWith Scalar.sub C.rows[i] r := by
        rw [List.zipWith_comm]
        exact zipWith_nan_mem (fun a => by cases a <;> rfl) hr hl.symm
      exact mv_fsum_nan (zipWith_nan_mem mv_nan_mul hd rfl)
    generalize hq : (List.zipWith (List.zipWith Scalar.mul) (List.zipWith (List.zipWith Scalar.sub) C.rows (List.replicate C.rows.length r))
        (List.zipWith (List.zipWith Scalar.sub) C.rows (List.replicate C.rows.length r))).map fsum = q at hall
    cases q with
    | nil =>
      have := congrArg List.length hq
      simp at this
      exact absurd this hne
    | cons a l =>
      rw [hall a (by simp)]
      simp only [argminBy, argAux_nan]
  rw [e]
  rfl

/-! ### Nearest neighbours -/

/-- C147 fails for nearest neighbours: with one neighbour the query gets the label of the first sample, with more predict panics. -/
theorem C147_knn_violation (X : Mat XR) (hX : X.WF) (y : List ℕ) (hy : y.length = X.rows.length) (k : ℕ) (hk : 0 < k) (hkn : k ≤ X.rows.length) (r : List XR)
    (hr : XR.nan ∈ r) (hc : X.cols = r.length) :
    knnPredict bruteSearcher ⟨k, some X, some y⟩ ⟨r.length, [r]⟩ = if k = 1 then ok [y.getD 0 0] else panic := by
  have hd : ∀ x ∈ X.rows, knnDist r x = XR.nan := by
    intro x hx
    unfold knnDist
    rw [foldl_nan_mem _ _ (zipWith_nan_mem (f := fun x y => (x -. y) *. (x -. y)) (fun a => by simp only [xr_nan_sub, mv_nan_mul]) hr (by rw [hX x hx, hc]))]
    rfl
  have e1 : getDistances X r (List.range k) = ok (List.replicate k XR.nan) := by
    unfold getDistances
    have : (!(List.range k).isEmpty) = true := by simp; omega
    rw [this]
    simp only [assert, if_true, ok_bind]
    rw [mapM_ok_map _ (fun _ => XR.nan) (List.range k)]
    · simp [List.map_const']
    · intro i hi
      have hi' : i < X.rows.length := by have := List.mem_range.1 hi; omega
      simp only [getAt, List.getElem?_eq_getElem hi', ofOption, ok_bind]
      rw [hd _ (List.getElem_mem hi')]
  unfold knnPredict bruteSearcher
  simp only [List.mapM_cons, List.mapM_nil, pure_eq]
  unfold bruteSearch
  simp only [e1, ok_bind]
  by_cases h1 : k = 1
  · subst h1
    rw [if_pos rfl]
    have e2 : ∀ (l : List (List XR)) (i : ℕ) (ps : List (ℕ × XR)), offerAll 1 (indexedDists r i l) ps XR.nan = ok ps := by
      intro l
      induction l with
      | nil => intro i ps; rfl
      | cons a l ih =>
        intro i ps
        rw [indexedDists, offerAll]
        have : (Scalar.lt (knnDist r a) XR.nan : Bool) = false := by cases knnDist r a <;> rfl
        rw [this]
        simp only [Bool.false_eq_true, if_false]
        exact ih _ _
    have e3 : knearestNew 1 (List.range 1) (List.replicate 1 XR.nan) = ok [(0, XR.nan)] := by
      simp [knearestNew, List.range_succ]
    rw [e3]
    simp only [ok_bind, knearestDist]
    simp only [List.length_singleton, Nat.lt_irrefl, if_false, List.getLast?_singleton, ok_bind]
    rw [e2]
    simp only [ok_bind, knearestResults]
    cases y with
    | nil => simp at hy; omega
    | cons a y => simp [knnVote, getAt, ofOption, freq, bumpKey, argmaxBy, argAux]
  · rw [if_neg h1]
    have e3 : knearestNew k (List.range k) (List.replicate k XR.nan) = panic := by
      unfold knearestNew
      simp only
      rw [if_pos]
      refine ⟨by simp; omega, ?_⟩
      rw [List.any_eq_true]
      refine ⟨(0, XR.nan), ?_, rfl⟩
      rw [List.mem_iff_getElem]
      exact ⟨0, by simp; omega, by simp⟩
    rw [e3]
    rfl

/-! ### Naive Bayes -/

theorem gaussClassLik_nan {k : ℕ} (d : GaussD XR) (r : List XR) (hr : XR.nan ∈ r) (h1 : IsTable k r.length d.theta) (h2 : IsTable k r.length d.sigma) {i : ℕ}
    (hi : i < k) (p : XR) : gaussClassLik d ⟨r.length, [r]⟩ i p = ok [XR.nan] := by
  obtain ⟨th, e1⟩ : ∃ v, d.theta.rows[i]? = some v := ⟨_, List.getElem?_eq_getElem (by rw [h1.2.1]; exact hi)⟩
  obtain ⟨sg, e2⟩ : ∃ v, d.sigma.rows[i]? = some v := ⟨_, List.getElem?_eq_getElem (by rw [h2.2.1]; exact hi)⟩
  have l1 : th.length = r.length := by rw [h1.2.2 th (List.mem_of_getElem? e1), h1.1]
  have l2 : sg.length = r.length := by rw [h2.2.2 sg (List.mem_of_getElem? e2), h2.1]
  unfold gaussClassLik
  have e3 := selectRows_replicate d.sigma e2 1
  simp only [List.replicate_one] at e3
  rw [e3]
  simp only [ok_bind]
  rw [selectRows_replicate d.theta e1, selectRows_replicate d.sigma e2]
  simp only [ok_bind]
  have e := Mat.zip_replicate Scalar.sub (⟨r.length, [r]⟩ : Mat XR) th
  rw [h1.1, h2.1, e]
  simp only [ok_bind]
  have e4 := Mat.zip_replicate Scalar.div (Mat.map (fun x : XR => x *. x) ⟨r.length, [r].map fun r => List.zipWith Scalar.sub r th⟩) sg
  simp only [Mat.map, List.length_map] at e4 ⊢
  rw [e4]
  simp only [ok_bind, Mat.sumCols, List.map_map, List.map_cons, List.map_nil, Function.comp]
  have hn : XR.nan ∈ List.zipWith Scalar.div (List.map (fun x : XR => x *. x) (List.zipWith Scalar.sub r th)) sg := by
    refine zipWith_nan_mem xr_nan_div (List.mem_map.2 ⟨XR.nan, zipWith_nan_mem xr_nan_sub hr l1.symm, rfl⟩) ?_
    simp [l1, l2]
  rw [mv_fsum_nan hn]
  rfl

/-- C147 fails for Gaussian naive Bayes: the query is put into class 0. -/
theorem C147_gaussian_violation (m m' : NaiveBayes (GaussD XR) XR) (X T : Mat ℝ) (hT : T.WF) (hk : 0 < T.cols)
    (h : nbTrain gaussDistr m (finMat X) (finMat T) = (m', ok ())) (r : List XR) (hr : XR.nan ∈ r) (hc : r.length = X.cols) :
    nbPredict gaussDistr m' ⟨r.length, [r]⟩ = ok ⟨T.cols, [(List.replicate T.cols (.fin 0)).set 0 (.fin 1)]⟩ := by
  obtain ⟨_, d, hd, h1, h2, h3⟩ := xr_nbTrain_ok hT h
  have ht : IsTable T.cols X.cols d.theta ∧ IsTable T.cols X.cols d.sigma := by
    refine nbFit_inv (Inv := fun d : GaussD XR => IsTable T.cols X.cols d.theta ∧ IsTable T.cols X.cols d.sigma) _ 0 _ d ?_ ⟨zeros_table _ _, zeros_table _ _⟩ hd
    intro d v M c d' hc hs hd hu
    obtain ⟨w, hw, _, _, rfl⟩ := xr_gaussUpdate_ok hu
    have hM : M.cols = X.cols := selectRows_cols hs
    exact ⟨set_table hd.1 (by rw [meanRow_length, hM]), set_table hd.2 (by rw [hw, hM])⟩
  rw [← hc] at ht
  set prior := (List.range T.cols).map fun c => Scalar.div (XR.fin (classSize T.rows c)) (XR.fin X.rows.length) with hprior
  have hpl : prior.length = T.cols := by simp [hprior]
  have e : prior.zipIdx.mapM (fun (p : XR × ℕ) => gaussClassLik d ⟨r.length, [r]⟩ p.2 p.1) = ok (prior.zipIdx.map fun _ => [XR.nan]) := by
    apply mapM_ok_map
    intro p hp
    have := List.snd_lt_add_of_mem_zipIdx hp
    exact gaussClassLik_nan d r hr ht.1 ht.2 (by omega) p.1
  have hL : nbLogProbs gaussDistr m' ⟨r.length, [r]⟩ = ok (⟨1, prior.zipIdx.map fun _ => [XR.nan]⟩ : Mat XR).transpose := by
    unfold nbLogProbs
    rw [h1, h3]
    show (do
      let liks ← prior.zipIdx.mapM fun (p : XR × ℕ) => gaussClassLik d ⟨r.length, [r]⟩ p.2 p.1
      let m ← Mat.new prior.length 1 liks.flatten
      ok m.transpose) = _
    rw [e]
    simp only [ok_bind]
    rw [Mat.new_flatten (by simp) (by
      intro l hl
      obtain ⟨_, _, rfl⟩ := List.mem_map.1 hl
      rfl)]
    rfl
  refine nbPredict_nan hk h2 hL (by simp [Mat.transpose, transposeRows]) ?_
  intro l hl
  simp only [Mat.transpose, transposeRows, List.range_one, List.map_cons, List.map_nil, List.mem_singleton] at hl
  rw [hl]
  cases hp : prior with
  | nil => rw [hp] at hpl; simp at hpl; omega
  | cons a l => exact ⟨_, by rw [List.zipIdx_cons, List.map_cons, List.filterMap_cons]; rfl⟩

theorem xr_multUpdate_ok {F : Type} [Scalar F] {d d' : LogProbsD F} {M : Mat F} {c : ℕ} (h : multUpdate d M c = ok d') :
    ∃ v, v.length = M.cols ∧ d' = ⟨⟨d.logProbs.cols, d.logProbs.rows.set c v⟩, d.pseudo⟩ := by
  unfold multUpdate at h
  obtain ⟨a, ha, h⟩ := bind_eq_ok.1 h
  obtain ⟨_, rfl⟩ := setAt_eq_ok ha
  cases h
  exact ⟨_, by simp [Mat.sumRows], rfl⟩

/-- The likelihoods of a row with a NaN, for the count models. -/
theorem count_liks_nan {k : ℕ} (hk : 0 < k) (r : List XR) (hr : XR.nan ∈ r) (Z : Mat XR) (hZ : IsTable k r.length Z) (per : List XR) (hp : per.length = k) :
    ∃ l, (do
      let res ← Mat.mul ⟨r.length, [r]⟩ Z.transpose
      addClassRow res 1 per) = ok (⟨k, [XR.nan :: l]⟩ : Mat XR) := by
  have hmul : Mat.mul ⟨r.length, [r]⟩ Z.transpose = ok ⟨k, [(List.range k).map fun j => dot r (colOf Z.transpose.rows j)]⟩ := by
    unfold Mat.mul
    rw [if_pos (by simp [Mat.transpose, transposeRows, hZ.1])]
    simp [Mat.transpose, hZ.2.1]
  rw [hmul]
  simp only [ok_bind]
  unfold addClassRow
  have hnew : Mat.new 1 per.length per = ok ⟨k, [per]⟩ := by
    have := Mat.new_flatten (rows := [per]) (c := k) (k := 1) rfl (by simpa using hp)
    simp at this
    rw [hp]; exact this
  rw [hnew]
  simp only [ok_bind]
  rw [selectRows_replicate (v := per) _ (by simp)]
  simp only [ok_bind]
  have hz := Mat.zip_replicate Scalar.add (⟨k, [(List.range k).map fun j => dot r (colOf Z.transpose.rows j)]⟩ : Mat XR) per
  simp only [List.length_singleton, List.map_cons, List.map_nil] at hz
  rw [hz]
  obtain ⟨r0, h0⟩ : ∃ v, Z.rows[0]? = some v := ⟨_, List.getElem?_eq_getElem (by rw [hZ.2.1]; exact hk)⟩
  have hl0 : r0.length = Z.cols := hZ.2.2 r0 (List.mem_of_getElem? h0)
  obtain ⟨k', rfl⟩ : ∃ k', k = k' + 1 := ⟨k - 1, by omega⟩
  cases per with
  | nil => simp at hp
  | cons a per =>
    rw [List.range_succ_eq_map, List.map_cons, List.zipWith_cons_cons, colOf_transpose_zero h0 hl0, dot_nan_mem hr (by rw [hl0, hZ.1]), xr_nan_add]
    exact ⟨_, rfl⟩

/-- C147 fails for multinomial naive Bayes: the query is put into class 0. -/
theorem C147_multinomial_violation (m m' : NaiveBayes (LogProbsD XR) XR) (X T : Mat ℝ) (hT : T.WF) (hk : 0 < T.cols)
    (h : nbTrain multDistr m (finMat X) (finMat T) = (m', ok ())) (r : List XR) (hr : XR.nan ∈ r) (hc : r.length = X.cols) :
    nbPredict multDistr m' ⟨r.length, [r]⟩ = ok ⟨T.cols, [(List.replicate T.cols (.fin 0)).set 0 (.fin 1)]⟩ := by
  obtain ⟨_, d, hd, h1, h2, h3⟩ := xr_nbTrain_ok hT h
  have ht : IsTable T.cols X.cols d.logProbs := by
    refine nbFit_inv (Inv := fun d : LogProbsD XR => IsTable T.cols X.cols d.logProbs) _ 0 _ d ?_ (zeros_table _ _) hd
    intro d v M c d' hc hs hd hu
    obtain ⟨w, hw, rfl⟩ := xr_multUpdate_ok hu
    exact set_table hd (by rw [hw, selectRows_cols hs]; rfl)
  rw [← hc] at ht
  obtain ⟨l, hl⟩ := count_liks_nan hk r hr d.logProbs ht (((List.range T.cols).map fun c =>
    Scalar.div (XR.fin (classSize T.rows c)) (XR.fin X.rows.length)).map Scalar.ln) (by simp)
  have hL : nbLogProbs multDistr m' ⟨r.length, [r]⟩ = ok ⟨T.cols, [XR.nan :: l]⟩ := by
    unfold nbLogProbs
    rw [h1, h3]
    exact hl
  exact nbPredict_nan hk h2 hL rfl fun q hq => ⟨l, by simpa using hq⟩

/-- C147 fails for Bernoulli naive Bayes: the query is put into class 0. -/
theorem C147_bernoulli_violation (m m' : NaiveBayes (LogProbsD XR) XR) (X T : Mat ℝ) (hT : T.WF) (hk : 0 < T.cols)
    (h : nbTrain bernDistr m (finMat X) (finMat T) = (m', ok ())) (r : List XR) (hr : XR.nan ∈ r) (hc : r.length = X.cols) :
    nbPredict bernDistr m' ⟨r.length, [r]⟩ = ok ⟨T.cols, [(List.replicate T.cols (.fin 0)).set 0 (.fin 1)]⟩ := by
  obtain ⟨_, d, hd, h1, h2, h3⟩ := xr_nbTrain_ok hT h
  have ht : IsTable T.cols X.cols d.logProbs := by
    refine nbFit_inv (Inv := fun d : LogProbsD XR => IsTable T.cols X.cols d.logProbs) _ 0 _ d ?_ (zeros_table _ _) hd
    intro d v M c d' hc hs hd hu
    obtain ⟨w, hw, rfl⟩ := xr_bernUpdate_ok hu
    exact set_table hd (by rw [hw, selectRows_cols hs]; rfl)
  rw [← hc] at ht
  set prior := (List.range T.cols).map fun c => Scalar.div (XR.fin (classSize T.rows c)) (XR.fin X.rows.length) with hprior
  have hpl : prior.length = T.cols := by simp [hprior]
  set neg := d.logProbs.map fun x => Scalar.ln (Scalar.one -. Scalar.exp x) with hneg
  have hnr : neg.rows.length = T.cols := by simp [hneg, Mat.map, ht.2.1]
  have hzip : Mat.zip Scalar.sub d.logProbs neg = ok ⟨d.logProbs.cols, List.zipWith (List.zipWith Scalar.sub) d.logProbs.rows neg.rows⟩ := by
    unfold Mat.zip; rw [if_pos ⟨by rw [ht.2.1, hnr], rfl⟩]
  have hZ : IsTable T.cols r.length (⟨d.logProbs.cols, List.zipWith (List.zipWith Scalar.sub) d.logProbs.rows neg.rows⟩ : Mat XR) := by
    refine ⟨ht.1, by simp [ht.2.1, hnr], ?_⟩
    intro q hq
    obtain ⟨i, hi, rfl⟩ := List.mem_iff_getElem.1 hq
    simp only [List.length_zipWith] at hi
    have h1 : i < d.logProbs.rows.length := by omega
    simp only [List.getElem_zipWith, List.length_zipWith, hneg, Mat.map, List.getElem_map, List.length_map, min_self]
    exact ht.2.2 _ (List.getElem_mem h1)
  obtain ⟨per, hper, hperl, -⟩ := mapM_shape (f := fun (p : XR × ℕ) => do
    let s ← getAt neg.sumCols p.2
    ok (Scalar.ln p.1 +. s)) (P := fun _ => True) (l := prior.zipIdx) (by
      intro p hp
      have := List.snd_lt_add_of_mem_zipIdx hp
      have hlt : p.2 < neg.sumCols.length := by simp only [Mat.sumCols, List.length_map, hnr]; omega
      refine ⟨Scalar.ln p.1 +. neg.sumCols[p.2], ?_, trivial⟩
      simp only [getAt, List.getElem?_eq_getElem hlt, ofOption, ok_bind])
  obtain ⟨l, hl⟩ := count_liks_nan hk r hr _ hZ per (by rw [hperl, List.length_zipIdx, hpl])
  have hL : nbLogProbs bernDistr m' ⟨r.length, [r]⟩ = ok ⟨T.cols, [XR.nan :: l]⟩ := by
    unfold nbLogProbs
    rw [h1, h3]
    show (do
      let diff ← Mat.zip Scalar.sub d.logProbs neg
      let res ← Mat.mul ⟨r.length, [r]⟩ diff.transpose
      let per ← prior.zipIdx.mapM fun (p : XR × ℕ) => do
        let s ← getAt neg.sumCols p.2
        ok (Scalar.ln p.1 +. s)
      addClassRow res 1 per) = _
    rw [hzip]
    simp only [ok_bind]
    rw [← hl, hper]
    rfl
  exact nbPredict_nan hk h2 hL rfl fun q hq => ⟨l, by simpa using hq⟩

/-! ### Neural networks -/

namespace Spec

/-- Every linear layer has outputs and every activation function gives NaN at NaN. -/
def NanLayers (ls : List (NetLayer XR)) : Prop := ∀ l ∈ ls, match l with
  | .linear _ o _ => 0 < o
  | .activ A => A.func XR.nan = XR.nan

end Spec

theorem netRow_nan {ls : List (NetLayer XR)} {c d : ℕ} (h : LinesUp ls c d) (hn : NanLayers ls) : ∀ (w x : List XR), x.length = c → XR.nan ∈ x →
    XR.nan ∈ netRow ls w x ∧ ((∀ v ∈ x, v = XR.nan) ∨ (∃ k o b, NetLayer.linear k o b ∈ ls) → ∀ v ∈ netRow ls w x, v = XR.nan) := by
  induction h with
  | nil c =>
    intro w x _ hx
    refine ⟨hx, ?_⟩
    rintro (h | ⟨_, _, _, h⟩)
    · exact h
    · simp at h
  | @linear ls k o c d bias h rest ih =>
    intro w x hl hx
    rw [netRow]
    have ho : 0 < o := hn _ List.mem_cons_self
    have hall : ∀ v ∈ (List.range o).map fun j => dot (if bias then Scalar.one :: x else x) ((List.range k).map fun i => w.getD (i * o + j) Scalar.zero), v = XR.nan := by
      intro v hv
      obtain ⟨j, _, rfl⟩ := List.mem_map.1 hv
      cases bias with
      | true => exact dot_nan_mem (List.mem_cons_of_mem _ hx) (by simp at h ⊢; omega)
      | false => exact dot_nan_mem hx (by simp at h ⊢; omega)
    have hmem : XR.nan ∈ (List.range o).map fun j => dot (if bias then Scalar.one :: x else x) ((List.range k).map fun i => w.getD (i * o + j) Scalar.zero) := by
      have h0 := List.mem_map_of_mem (f := fun j => dot (if bias then Scalar.one :: x else x) ((List.range k).map fun i => w.getD (i * o + j) Scalar.zero)) (List.mem_range.2 ho)
      have := hall _ h0
      rw [this] at h0
      exact h0
    have := ih (fun l hl => hn l (List.mem_cons_of_mem _ hl)) (w.drop (k * o)) _ (by simp) hmem
    exact ⟨this.1, fun _ => this.2 (Or.inl hall)⟩
  | @activ ls c d A rest ih =>
    intro w x hl hx
    rw [netRow]
    have hA : A.func XR.nan = XR.nan := hn _ List.mem_cons_self
    have := ih (fun l hl => hn l (List.mem_cons_of_mem _ hl)) w (x.map A.func) (by simpa using hl) (List.mem_map.2 ⟨_, hx, hA⟩)
    refine ⟨this.1, fun h => this.2 ?_⟩
    rcases h with h | ⟨k, o, b, h⟩
    · left
      intro v hv
      obtain ⟨u, hu, rfl⟩ := List.mem_map.1 hv
      rw [h u hu, hA]
    · right
      rcases List.mem_cons.1 h with h | h
      · cases h
      · exact ⟨k, o, b, h⟩

/-- C147: all activation functions of the library are of this kind. -/
theorem C147_activations : (sigmoid : Activ XR).func .nan = .nan ∧ (linearActiv : Activ XR).func .nan = .nan ∧ (expActiv : Activ XR).func .nan = .nan ∧
    (tanhActiv : Activ XR).func .nan = .nan := ⟨rfl, rfl, rfl, rfl⟩

/-- C147, for neural networks with at least one linear layer: all outputs are NaN. Missing for C147: other learners fail. -/
theorem C147_network_partial (net : BaseNet XR) (hn : NanLayers net.layers) (hlin : ∃ k o b, NetLayer.linear k o b ∈ net.layers) (r : List XR) (hr : XR.nan ∈ r) {d : ℕ}
    (h : LinesUp net.layers r.length d) (hw : net.weights.length = totalParams net.layers) :
    net.forwardProp ⟨r.length, [r]⟩ = ok ⟨d, [List.replicate d XR.nan]⟩ := by
  obtain ⟨Y, h1, h2, h3⟩ := C39_forward net (n := 1) (c := r.length) ⟨r.length, [r]⟩ ⟨rfl, rfl, by simp⟩ h hw
  rw [h1]
  have e : netRow net.layers net.weights r = List.replicate d XR.nan := by
    rw [List.eq_replicate_iff]
    exact ⟨netRow_length h _ _ rfl, (netRow_nan h hn _ _ rfl hr).2 (Or.inr hlin)⟩
  obtain ⟨c, rows⟩ := Y
  simp only [List.map_cons, List.map_nil, e] at h3
  rw [h3]
  rw [show c = d from h2.2.1]

/-! ### Concrete cases -/

theorem missing_trains : (∃ m', nbTrain gaussDistr (nbNew _ XR) (finMat ⟨1, [[1], [3], [0], [2]]⟩) (finMat ⟨2, [[0, 1], [0, 1], [1, 0], [1, 0]]⟩) = (m', ok ())) ∧
    (∃ m', nbTrain bernDistr (nbNew _ XR) (finMat ⟨1, [[1], [3], [0], [2]]⟩) (finMat ⟨2, [[0, 1], [0, 1], [1, 0], [1, 0]]⟩) = (m', ok ())) ∧
    ∃ m', nbTrain multDistr (nbNew _ XR) (finMat ⟨1, [[1], [3], [0], [2]]⟩) (finMat ⟨2, [[0, 1], [0, 1], [1, 0], [1, 0]]⟩) = (m', ok ()) := by
  refine ⟨?_, ?_, ?_⟩
  · simp [nbTrain, finMat, nbScan, findClass, nbFit, Mat.selectRows, getAt, ofOption, gaussDistr, gaussUpdate, Mat.varianceRow, setAt, Mat.zeros, List.replicate, List.modify]
  · simp [nbTrain, finMat, nbScan, findClass, nbFit, Mat.selectRows, getAt, ofOption, bernDistr, bernUpdate, setAt, Mat.zeros, List.replicate, List.modify]
  · simp [nbTrain, finMat, nbScan, findClass, nbFit, Mat.selectRows, getAt, ofOption, multDistr, multUpdate, setAt, Mat.zeros, List.replicate, List.modify]

/-- Two classes of two samples each, for the three kinds of naive Bayes: the query NaN is in class 0. -/
example : (∃ m', nbTrain gaussDistr (nbNew _ XR) (finMat ⟨1, [[1], [3], [0], [2]]⟩) (finMat ⟨2, [[0, 1], [0, 1], [1, 0], [1, 0]]⟩) = (m', ok ()) ∧
      nbPredict gaussDistr m' ⟨1, [[.nan]]⟩ = ok ⟨2, [[.fin 1, .fin 0]]⟩) ∧
    (∃ m', nbTrain bernDistr (nbNew _ XR) (finMat ⟨1, [[1], [3], [0], [2]]⟩) (finMat ⟨2, [[0, 1], [0, 1], [1, 0], [1, 0]]⟩) = (m', ok ()) ∧
      nbPredict bernDistr m' ⟨1, [[.nan]]⟩ = ok ⟨2, [[.fin 1, .fin 0]]⟩) ∧
    ∃ m', nbTrain multDistr (nbNew _ XR) (finMat ⟨1, [[1], [3], [0], [2]]⟩) (finMat ⟨2, [[0, 1], [0, 1], [1, 0], [1, 0]]⟩) = (m', ok ()) ∧
      nbPredict multDistr m' ⟨1, [[.nan]]⟩ = ok ⟨2, [[.fin 1, .fin 0]]⟩ := by
  have hT : (⟨2, [[0, 1], [0, 1], [1, 0], [1, 0]]⟩ : Mat ℝ).WF := by
    intro r hr; simp at hr; rcases hr with rfl | rfl <;> rfl
  obtain ⟨⟨m1, h1⟩, ⟨m2, h2⟩, ⟨m3, h3⟩⟩ := missing_trains
  exact ⟨⟨m1, h1, C147_gaussian_violation _ m1 _ _ hT (by norm_num) h1 [.nan] (by simp) rfl⟩,
    ⟨m2, h2, C147_bernoulli_violation _ m2 _ _ hT (by norm_num) h2 [.nan] (by simp) rfl⟩,
    ⟨m3, h3, C147_multinomial_violation _ m3 _ _ hT (by norm_num) h3 [.nan] (by simp) rfl⟩⟩

/-- Nearest neighbours among two samples: with one neighbour the first label, with two a panic. -/
example : knnPredict bruteSearcher ⟨1, some ⟨1, [[.fin 5], [.fin 7]]⟩, some [3, 4]⟩ ⟨1, [[XR.nan]]⟩ = ok [3] ∧
    knnPredict bruteSearcher ⟨2, some ⟨1, [[.fin 5], [.fin 7]]⟩, some [3, 4]⟩ ⟨1, [[XR.nan]]⟩ = panic := by
  have hX : (⟨1, [[.fin 5], [.fin 7]]⟩ : Mat XR).WF := by
    intro r hr; simp at hr; rcases hr with rfl | rfl <;> rfl
  exact ⟨C147_knn_violation _ hX [3, 4] rfl 1 (by norm_num) (by norm_num) [.nan] (by simp) rfl,
    C147_knn_violation _ hX [3, 4] rfl 2 (by norm_num) (by norm_num) [.nan] (by simp) rfl⟩

/-- A network with a hidden layer of width 2. -/
example : (⟨[.new 1 2, .activ sigmoid, .new 2 1], List.replicate 7 Scalar.one, ⟨.mse, .none⟩⟩ : BaseNet XR).forwardProp ⟨1, [[.nan]]⟩ = ok ⟨1, [[.nan]]⟩ :=
  C147_network_partial _ (by
    intro l hl
    simp only [List.mem_cons, List.not_mem_nil, or_false] at hl
    rcases hl with rfl | rfl | rfl
    · exact Nat.zero_lt_two
    · rfl
    · exact Nat.one_pos) ⟨2, 2, true, by simp [NetLayer.new]⟩ [.nan] (by simp) (.linear true rfl (.activ _ (.linear true rfl (.nil _)))) rfl

/-- The default support vector machine, a Gaussian process and DBSCAN on one sample, k-means with two centroids. -/
example : ({ Svm.default with alpha := some [.fin 2], trainInputs := some ⟨2, [[.fin 1, .fin 4]]⟩, trainTargets := some [.fin 1] } : Svm XR).predict ⟨1, [[.nan]]⟩ = ok [.nan] ∧
    (⟨sqExpKernel Scalar.one Scalar.one, constMean (.fin 3), .fin 0, some [.fin 2], none, some ⟨1, [[.fin 4]]⟩⟩ : Gp XR).predict ⟨1, [[.nan]]⟩ = ok [.nan] ∧
    kmPredict ⟨100, 2, some ⟨1, [[.fin 4], [.fin 6]]⟩⟩ ⟨1, [[XR.nan]]⟩ = ok [0] ∧
    dbPredict ⟨.fin 1, 1, some [some 0], true, [true], some ⟨1, [[.fin 4]]⟩⟩ ⟨1, [[XR.nan]]⟩ = ok [none] ∧
    (⟨some [.fin 1, .fin 2]⟩ : LinReg XR).predict ⟨1, [[.nan]]⟩ = ok [.nan] ∧ (⟨some [.fin 1, .fin 2]⟩ : LogReg XR).predict ⟨1, [[.nan]]⟩ = ok [.nan] := by
  refine ⟨?_, ?_, ?_, ?_, C147_linear_partial _ [.nan] rfl (by simp), C147_logistic_partial _ [.nan] rfl (by simp)⟩
  · exact C147_svm_partial _ (C147_kernels _ _).2.1 [.fin 2] [.fin 1] ⟨2, [[.fin 1, .fin 4]]⟩ (by intro r hr; simp at hr; rw [hr]; rfl) (by simp) rfl rfl rfl rfl rfl
      [.nan] (by simp) rfl
  · exact C147_gp_partial _ (C147_kernels _ _).2.1 (.fin 3) rfl [.fin 2] ⟨1, [[.fin 4]]⟩ (by intro r hr; simp at hr; rw [hr]; rfl) (by simp) rfl rfl rfl
      [.nan] (by simp) rfl
  · exact C147_kmeans_violation _ ⟨1, [[.fin 4], [.fin 6]]⟩ (by intro r hr; simp at hr; rcases hr with rfl | rfl <;> rfl) (by simp) rfl [.nan] (by simp) rfl
  · exact C147_dbscan_partial _ rfl ⟨1, [[.fin 4]]⟩ (by intro r hr; simp at hr; rw [hr]; rfl) (by simp) [some 0] rfl rfl [.nan] (by simp) rfl

end RM
