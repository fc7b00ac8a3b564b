import Verif.Props.NaiveBayesUnseen
import Verif.Props.Moves
import Verif.Props.Regression

/-! C146: a feature that does not vary. -/

namespace RM
open Outcome Scalar Spec

/-! ### Learners that look at distances -/

/-- Appending the same number to all points does not change their distances. -/
theorem appended_scales (n : ℕ) (a : ℝ) : ScalesBy n (n + 1) 1 fun x => x ++ [a] := by
  refine ⟨fun x hx => by simp [hx], fun x y hx hy => ?_⟩
  rw [one_mul, eucl_eq_sqrt, eucl_eq_sqrt]
  congr 1
  unfold sqDist
  rw [List.zipWith_append (by omega)]
  simp

namespace Spec

/-- The data with a further column in which every entry is `a`. -/
def withConstant (a : ℝ) (X : Mat ℝ) : Mat ℝ := ⟨X.cols + 1, X.rows.map fun x => x ++ [a]⟩

end Spec

theorem withConstant_moved (a : ℝ) (X : Mat ℝ) : withConstant a X = moved (X.cols + 1) (fun x => x ++ [a]) X := rfl

/-- C146, for nearest neighbours: a further feature that is the same in all samples and queries changes no prediction. Missing for C146: other learners fail on such data. -/
theorem C146_neighbours_partial (a : ℝ) (X : Mat ℝ) (hX : X.WF) (y : List ℕ) (m : KNNClassifier (Option (Mat ℝ))) :
    (knnTrain bruteSearcher m (withConstant a X) y).2 = (knnTrain bruteSearcher m X y).2 ∧
    ((knnTrain bruteSearcher m X y).2 = ok () → ∀ Q : Mat ℝ, Q.WF → Q.cols = X.cols →
      knnPredict bruteSearcher (knnTrain bruteSearcher m (withConstant a X) y).1 (withConstant a Q) =
        knnPredict bruteSearcher (knnTrain bruteSearcher m X y).1 Q) := by
  have h := C85_knn (appended_scales X.cols a) one_pos X hX rfl y m
  refine ⟨h.1, fun ht Q hQ hc => ?_⟩
  have := h.2 ht Q hQ hc
  rw [withConstant_moved, withConstant_moved, hc]
  exact this

/-- C146, for DBSCAN. Missing for C146: other learners fail on such data. -/
theorem C146_dbscan_partial (a : ℝ) (X : Mat ℝ) (hX : X.WF) (m : Dbscan ℝ) (fuel fuel' : ℕ) (m1 m2 : Dbscan ℝ) (h1 : dbTrain fuel m X = some (ok m1))
    (h2 : dbTrain fuel' m (withConstant a X) = some (ok m2)) :
    m2.clusters = m1.clusters ∧ (m.predictive = true → ∀ Q : Mat ℝ, Q.WF → Q.cols = X.cols → dbPredict m2 (withConstant a Q) = dbPredict m1 Q) := by
  have h := C85_dbscan (appended_scales X.cols a) one_pos X hX rfl m fuel fuel' m1 m2 h1 (by
    have : ({ m with eps := 1 * m.eps } : Dbscan ℝ) = m := by simp
    rw [this]
    exact h2)
  refine ⟨h.1, fun hp Q hQ hc => ?_⟩
  rw [withConstant_moved, hc]
  exact h.2 hp Q hQ hc

/-- C146, for Gaussian processes and support vector machines with kernels that depend on the distance. Missing for C146: other learners fail on such data. -/
theorem C146_kernel_methods_partial (a : ℝ) (X : Mat ℝ) (hX : X.WF) (y : List ℝ) (K : Kernel ℝ) (hK : RigidKernel K) :
    (∀ (lib : TriLib ℝ) (mu noise : ℝ) (t t' : Gp ℝ), ({ ker := K, mean := constMean mu, noise := noise } : Gp ℝ).train lib X y = ok t →
      ({ ker := K, mean := constMean mu, noise := noise } : Gp ℝ).train lib (withConstant a X) y = ok t' →
      ∀ Q : Mat ℝ, Q.WF → Q.cols = X.cols → t'.predict (withConstant a Q) = t.predict Q ∧ t'.posterior lib (withConstant a Q) = t.posterior lib Q) ∧
    ∀ (m : Svm ℝ), m.ker = K → ∀ (draws : ℕ → ℕ) (t t' : Svm ℝ), m.train draws X y = ok t → m.train draws (withConstant a X) y = ok t' →
      ∀ Q : Mat ℝ, Q.WF → Q.cols = X.cols → t'.predict (withConstant a Q) = t.predict Q := by
  constructor
  · intro lib mu noise t t' h h' Q hQ hc
    have := C85_gp_rigid lib (appended_scales X.cols a) K hK mu noise X hX rfl y t t' h h' Q hQ hc
    rw [withConstant_moved, hc]
    exact this
  · intro m hm draws t t' h h' Q hQ hc
    have := C85_svm_rigid (appended_scales X.cols a) m (by rw [hm]; exact hK) draws X hX rfl y t t' h h' Q hQ hc
    rw [withConstant_moved, hc]
    exact this

/-- The matrix of the map that appends a coordinate. -/
noncomputable def appendRows (n : ℕ) : List (List ℝ) := (List.range n).map (fun i => (List.range n).map fun j => if j = i then 1 else 0) ++ [List.replicate n 0]

theorem list_range_sum (n : ℕ) (f : ℕ → ℝ) : ((List.range n).map f).sum = ∑ j ∈ Finset.range n, f j := rfl

theorem appendRows_orthonormal (n : ℕ) : OrthonormalColumns n (n + 1) (appendRows n) := by
  refine ⟨by simp [appendRows], ?_, ?_⟩
  · intro r hr
    unfold appendRows at hr
    rcases List.mem_append.1 hr with hr | hr
    · obtain ⟨i, _, rfl⟩ := List.mem_map.1 hr
      simp
    · rw [List.mem_singleton.1 hr, List.length_replicate]
  · intro i hi j hj
    unfold appendRows
    rw [List.map_append, List.sum_append, List.map_map]
    have e : ∀ (k l : ℕ), l < n → ((List.range n).map fun j => if j = k then (1 : ℝ) else 0).getD l 0 = if l = k then 1 else 0 := by
      intro k l hl
      rw [getD_lt _ (by simpa using hl)]
      simp
    simp only [Function.comp_def, e _ i hi, e _ j hj, List.map_cons, List.map_nil, List.sum_cons, List.sum_nil]
    rw [list_range_sum, getD_lt _ (by simpa using hi)]
    simp
    by_cases h : i = j
    · simp [h, hj]
    · simp [h]

theorem affineMap_append {n : ℕ} (a : ℝ) {x : List ℝ} (hx : x.length = n) : affineMap (appendRows n) (List.replicate n 0 ++ [a]) x = x ++ [a] := by
  unfold affineMap appendRows
  rw [List.zipWith_append (by simp)]
  congr 1
  · apply List.ext_getElem (by simp [hx])
    intro i h1 h2
    simp only [List.getElem_zipWith, List.getElem_map, List.getElem_range, List.getElem_replicate, add_zero]
    have : List.zipWith (· * ·) ((List.range n).map fun j => if j = i then (1 : ℝ) else 0) x = (List.range n).map fun j => (if j = i then (1 : ℝ) else 0) * x.getD j 0 := by
      apply List.ext_getElem (by simp [hx])
      intro j h3 h4
      have : j < x.length := by simp at h3; omega
      simp only [List.getElem_zipWith, List.getElem_map, List.getElem_range, getD_lt _ this]
    rw [this, list_range_sum]
    simp only [ite_mul, one_mul, zero_mul, Finset.sum_ite_eq', Finset.mem_range]
    rw [if_pos (by omega), getD_lt]
  · have : (List.zipWith (· * ·) (List.replicate n (0 : ℝ)) x).sum = 0 := by
      apply List.sum_eq_zero
      intro v hv
      obtain ⟨i, hi, rfl⟩ := List.mem_iff_getElem.1 hv
      simp
    simp [this]

theorem moved_append (a : ℝ) {X : Mat ℝ} (hX : X.WF) : moved (X.cols + 1) (affineMap (appendRows X.cols) (List.replicate X.cols 0 ++ [a])) X = withConstant a X := by
  unfold moved withConstant
  congr 1
  exact List.map_congr_left fun x hx => affineMap_append a (hX x hx)

/-- C146, for k-means: with starting centroids that also carry the feature, the same training result, the same centroids with the feature appended and
the same predictions. Missing for C146: other learners fail on such data. -/
theorem C146_kmeans_partial (a : ℝ) (X : Mat ℝ) (hX : X.WF) (hn : 0 < X.cols) (m : KMeans XR) (hk : 0 < m.k)
    (init init' : ℕ → Mat XR → Outcome (Mat XR)) (C0 : Mat ℝ) (hC0 : C0.WF) (hC0n : C0.cols = X.cols)
    (hi : init m.k (finMat X) = ok (finMat C0)) (hi' : init' m.k (finMat (withConstant a X)) = ok (finMat (withConstant a C0))) :
    (kmTrain init' m (finMat (withConstant a X))).2 = (kmTrain init m (finMat X)).2 ∧
    ((kmTrain init m (finMat X)).2 = ok () →
      ∃ C, (kmTrain init m (finMat X)).1.centroids = some (stored X.cols C) ∧
        (kmTrain init' m (finMat (withConstant a X))).1.centroids = some (stored (X.cols + 1) (C.map (Option.map fun c => c ++ [a]))) ∧
        ∀ Q : Mat ℝ, Q.WF → Q.cols = X.cols →
          kmPredict (kmTrain init' m (finMat (withConstant a X))).1 (finMat (withConstant a Q)) = kmPredict (kmTrain init m (finMat X)).1 (finMat Q)) := by
  have eC : moved (X.cols + 1) (affineMap (appendRows X.cols) (List.replicate X.cols 0 ++ [a])) C0 = withConstant a C0 := by
    rw [← hC0n]; exact moved_append a hC0
  have h := C85_kmeans (appendRows_orthonormal X.cols) (b := List.replicate X.cols 0 ++ [a]) (by simp) hn (Nat.succ_pos _) X hX rfl m hk init init' C0 hC0 hC0n hi
    (by rw [moved_append a hX, eC]; exact hi')
  rw [moved_append a hX] at h
  refine ⟨h.1, fun ht => ?_⟩
  obtain ⟨C, h1, h2, h3, h4⟩ := h.2 ht
  refine ⟨C, h1, ?_, ?_⟩
  · rw [h3]
    congr 2
    apply List.map_congr_left
    intro c hc
    cases c with
    | none => rfl
    | some c => simp only [Option.map_some]; rw [affineMap_append a (h2 c hc)]
  · intro Q hQ hc
    have := h4 Q hQ hc
    rw [← hc, moved_append a hQ] at this
    rw [this]

/-! ### Linear regression -/

/-- C146 fails for linear regression: it refuses data with such a feature, whatever the targets. -/
theorem C146_linear_violation {solve : Mat ℝ → List ℝ → Outcome (List ℝ)} (hs : SolvesExactly solve) (hr : SolvesRegular solve)
    (he : SolverReports solve) (a : ℝ) (X : Mat ℝ) (hX : X.WF) (y : List ℝ) (hy : y.length = X.rows.length) :
    LinReg.train solve (withConstant a X) y = err .LinearAlgebra := by
  refine C48_singular hs hr he (withConstant a X) ?_ y (by simpa [withConstant] using hy) ?_
  · intro r h
    obtain ⟨x, hx, rfl⟩ := List.mem_map.1 h
    simp [withConstant, hX x hx]
  · intro hI
    have h := hI ((-a) :: (List.replicate X.cols 0 ++ [1])) (by simp [withConstant]) (by
      intro r hr
      obtain ⟨x, hx, rfl⟩ := List.mem_map.1 hr
      unfold affine Spec.inner
      simp only [List.headD_cons, List.tail_cons]
      rw [List.zipWith_append (by rw [hX x hx, List.length_replicate]), List.sum_append]
      have : (List.zipWith (· * ·) x (List.replicate X.cols (0 : ℝ))).sum = 0 := by
        apply List.sum_eq_zero
        intro v hv
        obtain ⟨i, hi, rfl⟩ := List.mem_iff_getElem.1 hv
        simp
      rw [this]
      simp)
    have h1 : (1 : ℝ) ∈ zeroVec ((withConstant a X).cols + 1) := by rw [← h]; simp
    exact one_ne_zero (List.mem_replicate.1 h1).2

/-! ### Gaussian naive Bayes -/

/-- Sums in which something is minus infinity and nothing is plus infinity or NaN. -/
theorem foldl_ninf : ∀ (l : List XR) (a : XR), ((∃ r, a = .fin r) ∨ a = .ninf) → (∀ x ∈ l, (∃ r, x = .fin r) ∨ x = .ninf) → (a = .ninf ∨ .ninf ∈ l) →
    l.foldl Scalar.add a = .ninf
  | [], a, _, _, h => by simpa using h
  | x :: l, a, ha, hl, h => by
    rw [List.foldl_cons]
    have hx := hl x (by simp)
    refine foldl_ninf l _ ?_ (fun y hy => hl y (List.mem_cons_of_mem _ hy)) ?_
    · rcases ha with ⟨r, rfl⟩ | rfl <;> rcases hx with ⟨s, rfl⟩ | rfl
      · exact Or.inl ⟨_, xr_add ..⟩
      all_goals exact Or.inr rfl
    · rcases h with rfl | h
      · left
        rcases hx with ⟨s, rfl⟩ | rfl <;> rfl
      · rcases List.mem_cons.1 h with rfl | h
        · left
          rcases ha with ⟨r, rfl⟩ | rfl <;> rfl
        · exact Or.inr h

/-- Sums in which something is plus infinity or NaN and nothing is minus infinity. -/
theorem foldl_pinf : ∀ (l : List XR) (a : XR), a ≠ .ninf → (∀ x ∈ l, x ≠ .ninf) → ((a = .pinf ∨ a = .nan) ∨ .pinf ∈ l ∨ .nan ∈ l) →
    l.foldl Scalar.add a = .pinf ∨ l.foldl Scalar.add a = .nan
  | [], a, _, _, h => by simpa using h
  | x :: l, a, ha, hl, h => by
    rw [List.foldl_cons]
    have hx := hl x (by simp)
    refine foldl_pinf l _ ?_ (fun y hy => hl y (List.mem_cons_of_mem _ hy)) ?_
    · cases a <;> cases x <;> simp_all [Scalar.add, XR.add]
    · simp only [List.mem_cons] at h
      cases a <;> cases x <;> simp_all [Scalar.add, XR.add]

/-- The class's log likelihood is NaN at every finite row if one of its variances is 0. -/
theorem gaussClassLik_flat {k f c : ℕ} (d : GaussD XR) (Y : Mat ℝ) (hY : Y.WF) (hYf : Y.cols = f) (h1 : IsTable k f d.theta) (h2 : IsTable k f d.sigma)
    {th sg : List ℝ} (z1 : d.theta.rows[c]? = some (th.map XR.fin)) (z2 : d.sigma.rows[c]? = some (sg.map XR.fin)) (hth : th.length = f) (hsg : sg.length = f)
    (hnn : ∀ v ∈ sg, 0 ≤ v) (h0 : (0 : ℝ) ∈ sg) (p : XR) :
    gaussClassLik d (finMat Y) c p = ok (List.replicate Y.rows.length .nan) := by
  unfold gaussClassLik
  have e3 := selectRows_replicate d.sigma z2 1
  simp only [List.replicate_one] at e3
  rw [e3]
  simp only [ok_bind]
  rw [selectRows_replicate d.theta z1, selectRows_replicate d.sigma z2]
  simp only [ok_bind]
  have hcols : (finMat Y).cols = f := hYf
  have e := Mat.zip_replicate Scalar.sub (finMat Y) (th.map XR.fin)
  rw [hcols] at e
  rw [h1.1, h2.1, e]
  simp only [ok_bind]
  have e4 := Mat.zip_replicate Scalar.div (Mat.map (fun x : XR => x *. x) ⟨f, (finMat Y).rows.map fun r => List.zipWith Scalar.sub r (th.map XR.fin)⟩)
    (sg.map XR.fin)
  simp only [Mat.map, List.length_map] at e4 ⊢
  rw [e4]
  simp only [ok_bind, Mat.sumCols, List.map_map, Mat.sum, Mat.data]
  congr 1
  rw [List.eq_replicate_iff]
  refine ⟨by simp [finMat], ?_⟩
  intro b hb
  obtain ⟨r, hr, rfl⟩ := List.mem_map.1 hb
  obtain ⟨y, hy, rfl⟩ := List.mem_map.1 hr
  have hnij : (Scalar.ofRat (-1 / 2) : XR) *. fsum ([sg.map XR.fin].map (List.map fun x => Scalar.ln ((x *. Scalar.ofRat 2) *. (ScalarPi.pi : XR)))).flatten = .pinf := by
    have e5 : ([sg.map XR.fin].map (List.map fun x => Scalar.ln ((x *. Scalar.ofRat 2) *. (ScalarPi.pi : XR)))).flatten =
        sg.map fun v => if v = 0 then XR.ninf else XR.fin (Real.log (v * 2 * Real.pi)) := by
      simp only [List.map_cons, List.map_nil, List.flatten_cons, List.flatten_nil, List.append_nil, List.map_map]
      apply List.map_congr_left
      intro v hv
      show Scalar.ln ((XR.fin v *. XR.fin ((2 : ℚ) : ℝ)) *. XR.fin Real.pi) = _
      rw [xr_mul, xr_mul]
      by_cases hv0 : v = 0
      · rw [hv0, zero_mul, zero_mul, xr_ln_zero, if_pos rfl]
      · have : 0 < v := lt_of_le_of_ne (hnn v hv) (Ne.symm hv0)
        rw [if_neg hv0, xr_ln _ (by have := Real.pi_pos; push_cast; positivity)]
        norm_num
    rw [e5]
    have e6 : fsum (sg.map fun v => if v = 0 then XR.ninf else XR.fin (Real.log (v * 2 * Real.pi))) = XR.ninf := by
      unfold fsum
      refine foldl_ninf _ _ (Or.inl ⟨0, rfl⟩) ?_ (Or.inr (List.mem_map.2 ⟨0, h0, if_pos rfl⟩))
      intro x hx
      obtain ⟨v, _, rfl⟩ := List.mem_map.1 hx
      split
      · exact Or.inr rfl
      · exact Or.inl ⟨_, rfl⟩
    rw [e6]
    show XR.infOf (-((-1 / 2 : ℚ) : ℝ)) = _
    unfold XR.infOf
    rw [if_pos (by norm_num)]
  simp only [Function.comp]
  rw [hnij]
  set q := (List.zipWith Scalar.div (List.map (fun x : XR => x *. x) (List.zipWith Scalar.sub (List.map XR.fin y) (th.map XR.fin)))
    (sg.map XR.fin)) with hq
  have hyl : y.length = f := by rw [hY y hy, hYf]
  have hqi : ∀ i (hi : i < f), q[i]? = some (if sg[i]'(by omega) = 0 then XR.infOf ((y[i]'(by omega) - th[i]'(by omega)) * (y[i]'(by omega) - th[i]'(by omega))) else
      XR.fin ((y[i]'(by omega) - th[i]'(by omega)) * (y[i]'(by omega) - th[i]'(by omega)) / sg[i]'(by omega))) := by
    intro i hi
    rw [hq, List.getElem?_eq_getElem (by simp; omega)]
    simp only [List.getElem_zipWith, List.getElem_map, xr_sub, xr_mul]
    by_cases h : sg[i]'(by omega) = 0
    · rw [if_pos h, h, xr_div_zero]
    · rw [if_neg h, xr_div _ _ h]
  have hinf : ∀ x : ℝ, XR.infOf (x * x) = .pinf ∨ XR.infOf (x * x) = .nan := by
    intro x
    unfold XR.infOf
    split
    · exact Or.inl rfl
    · rw [if_neg (not_lt.2 (mul_self_nonneg _))]
      exact Or.inr rfl
  have hsum : fsum q = .pinf ∨ fsum q = .nan := by
    unfold fsum
    refine foldl_pinf _ _ (by simp) ?_ (Or.inr ?_)
    · intro x hx
      obtain ⟨i, hi, rfl⟩ := List.mem_iff_getElem.1 hx
      have hif : i < f := by rw [hq] at hi; simp at hi; omega
      have := hqi i hif
      rw [List.getElem?_eq_getElem hi, Option.some.injEq] at this
      rw [this]
      split
      · rcases hinf (y[i]'(by omega) - th[i]'(by omega)) with h | h <;> rw [h] <;> simp
      · simp
    · obtain ⟨i, hi, h0i⟩ := List.mem_iff_getElem.1 h0
      have := hqi i (by omega)
      rw [if_pos h0i] at this
      have hm := List.mem_of_getElem? this
      rcases hinf (y[i]'(by omega) - th[i]'(by omega)) with h | h
      · left; rw [← h]; exact hm
      · right; rw [← h]; exact hm
  rcases hsum with h | h
  · rw [h]
    have : Scalar.neg XR.pinf *. (Scalar.ofRat (1 / 2) : XR) = .ninf := by
      show XR.infOf (-((1 / 2 : ℚ) : ℝ)) = _
      unfold XR.infOf
      rw [if_neg (by norm_num), if_pos (by norm_num)]
    rw [this]
    rfl
  · rw [h]
    rfl

theorem xr_meanRow (X : Mat ℝ) (hw : X.WF) (h : X.rows ≠ []) : (finMat X).meanRow = ((List.range X.cols).map fun j => Spec.mean (col X j)).map XR.fin := by
  have hn : (X.rows.length : ℝ) ≠ 0 := by
    have := List.length_pos_iff.2 h
    positivity
  have hlen : (finMat X).rows.length = X.rows.length := by simp [finMat]
  unfold Mat.meanRow Mat.sumRows
  rw [List.map_map, List.map_map]
  apply List.map_congr_left
  intro j hj
  simp only [Function.comp]
  rw [col_finMat X hw j (List.mem_range.1 hj), xr_fsum_fin, hlen, xr_ofNat, xr_div _ _ hn]
  simp [Spec.mean, col]

theorem xr_varianceRow (X : Mat ℝ) (hw : X.WF) {v : List XR} (h : (finMat X).varianceRow = ok v) : 2 ≤ X.rows.length ∧
    v = ((List.range X.cols).map fun j => sampleVar (col X j)).map XR.fin := by
  have hlen : (finMat X).rows.length = X.rows.length := by simp [finMat]
  have h2 : 2 ≤ X.rows.length := by
    by_contra hcon
    unfold Mat.varianceRow at h
    rw [if_pos (by omega)] at h
    cases h
  refine ⟨h2, ?_⟩
  have := xr_standardizerFit ⟨.fin 0, .fin 1⟩ X hw h2
  unfold standardizerFit at this
  rw [if_neg (by omega), h] at this
  simp only at this
  split at this
  · cases this
  · injection this with e
    have e' := congrArg Standardizer.variances e
    simp only at e'
    rw [e']
    simp [List.map_map, Function.comp_def]

/-- What training stores for a class in which feature `j` has a single value. -/
theorem gauss_flat {X T : Mat ℝ} (hX : X.WF) (hc : ∀ t ∈ T.rows, classOf t ≠ none) (hn : X.rows.length = T.rows.length) {d : GaussD XR}
    (h : nbFit gaussDistr (finMat X) 0 ((List.range T.cols).map fun j => members j 0 (classesOf T.rows))
      ((gaussDistr : NBDistr (GaussD XR) XR).fromParams T.cols X.cols) = (d, ok ()))
    {c : ℕ} (hlt : c < T.cols) (hpos : 0 < classSize T.rows c) {j : ℕ} (hj : j < X.cols) {v : ℝ} (hv : ∀ x ∈ classSamples X.rows T.rows c, coord x j = v) :
    (IsTable T.cols X.cols d.theta ∧ IsTable T.cols X.cols d.sigma) ∧ ∃ th sg : List ℝ, d.theta.rows[c]? = some (th.map XR.fin) ∧
      d.sigma.rows[c]? = some (sg.map XR.fin) ∧ th.length = X.cols ∧ sg.length = X.cols ∧ (∀ v ∈ sg, 0 ≤ v) ∧ (0 : ℝ) ∈ sg := by
  constructor
  · refine nbFit_inv (Inv := fun d : GaussD XR => IsTable T.cols X.cols d.theta ∧ IsTable T.cols X.cols d.sigma) _ 0 _ d ?_ ⟨zeros_table _ _, zeros_table _ _⟩ h
    intro d v M c d' hc hs hd hu
    obtain ⟨w, hw, _, _, rfl⟩ := xr_gaussUpdate_ok hu
    have hM : M.cols = X.cols := selectRows_cols hs
    exact ⟨set_table hd.1 (by rw [meanRow_length, hM]), set_table hd.2 (by rw [hw, hM])⟩
  have hlen := classSamples_length hn c
  have hne : members c 0 (classesOf T.rows) ≠ [] := by
    rw [← classSamples_ne_nil hc hn, ← List.length_pos_iff, hlen]; exact hpos
  have hw := class_wf hX T.rows c
  have g1 := (nbFit_get (fun d : GaussD XR => d.theta.rows) (fun M => ok M.meanRow) (by
    intro d M c d' hu
    obtain ⟨v, hv, h1, h2, rfl⟩ := gaussUpdate_ok hu
    exact ⟨_, rfl, h1, rfl⟩) _ 0 _ d h).2.2 c _ (getElem?_members T.cols T.rows c hlt)
  have g2 := (nbFit_get (fun d : GaussD XR => d.sigma.rows) (fun M => M.varianceRow) (by
    intro d M c d' hu
    obtain ⟨v, hv, h1, h2, rfl⟩ := gaussUpdate_ok hu
    exact ⟨_, hv, h2, rfl⟩) _ 0 _ d h).2.2 c _ (getElem?_members T.cols T.rows c hlt)
  rw [if_neg hne] at g1 g2
  obtain ⟨M, r, hM, hr, hg⟩ := g1
  obtain ⟨M', r', hM', hr', hg'⟩ := g2
  rw [xr_selectRows_class hc hn] at hM hM'
  cases hM; cases hM'; cases hr
  obtain ⟨h2, rfl⟩ := xr_varianceRow _ hw hr'
  rw [xr_meanRow _ hw (by rintro h; rw [h] at h2; simp at h2)] at hg
  rw [Nat.zero_add] at hg hg'
  refine ⟨_, _, hg, hg', by simp, by simp, ?_, ?_⟩
  · intro v hv
    obtain ⟨j, _, rfl⟩ := List.mem_map.1 hv
    unfold sampleVar
    apply div_nonneg
    · apply List.sum_nonneg
      intro x hx
      obtain ⟨y, _, rfl⟩ := List.mem_map.1 hx
      positivity
    · have : (2 : ℝ) ≤ (col (⟨X.cols, classSamples X.rows T.rows c⟩ : Mat ℝ) j).length := by
        unfold col
        rw [List.length_map]
        exact_mod_cast h2
      linarith
  · refine List.mem_map.2 ⟨j, List.mem_range.2 hj, ?_⟩
    have hcol : col (⟨X.cols, classSamples X.rows T.rows c⟩ : Mat ℝ) j = List.replicate (classSamples X.rows T.rows c).length v := by
      rw [List.eq_replicate_iff]
      refine ⟨by simp [col], ?_⟩
      intro b hb
      obtain ⟨x, hx, rfl⟩ := List.mem_map.1 hb
      exact hv x hx
    have hn0 : ((classSamples X.rows T.rows c).length : ℝ) ≠ 0 := by
      have : 0 < (classSamples X.rows T.rows c).length := by omega
      positivity
    have hm : Spec.mean (List.replicate (classSamples X.rows T.rows c).length v) = v := by
      unfold Spec.mean
      rw [List.sum_replicate, List.length_replicate, nsmul_eq_mul, mul_comm, mul_div_assoc, div_self hn0, mul_one]
    rw [hcol]
    unfold sampleVar
    rw [hm]
    simp

/-- The joint log likelihoods of such a class are all NaN. -/
theorem gauss_flat_logProbs {m m' : NaiveBayes (GaussD XR) XR} {X T Y : Mat ℝ} (hX : X.WF) (hT : T.WF) (hY : Y.WF) (hf : Y.cols = X.cols)
    (hn : X.rows.length = T.rows.length) {c : ℕ} (hlt : c < T.cols) (hpos : 0 < classSize T.rows c) {j : ℕ} (hj : j < X.cols) {v : ℝ}
    (hv : ∀ x ∈ classSamples X.rows T.rows c, coord x j = v) (h : nbTrain gaussDistr m (finMat X) (finMat T) = (m', ok ())) :
    m'.clusterCount = some T.cols ∧ ∃ L, nbLogProbs gaussDistr m' (finMat Y) = ok L ∧ L.rows.length = Y.rows.length ∧
      ∀ r ∈ L.rows, r.length = T.cols ∧ r[c]? = some XR.nan := by
  obtain ⟨hc, d, hd, h1, h2, h3⟩ := xr_nbTrain_ok hT h
  obtain ⟨⟨t1, t2⟩, th, sg, z1, z2, l1, l2, hnn, h0⟩ := gauss_flat hX hc hn hd hlt hpos hj hv
  refine ⟨h2, ?_⟩
  set prior := (List.range T.cols).map fun c => Scalar.div (XR.fin (classSize T.rows c)) (XR.fin X.rows.length) with hprior
  have hpl : prior.length = T.cols := by simp [hprior]
  have hfY : (finMat Y).cols = X.cols := hf
  have hnY : (finMat Y).rows.length = Y.rows.length := by simp [finMat]
  have hz : ∀ p ∈ prior.zipIdx, p.2 < T.cols := by
    intro p hp
    have := List.snd_lt_add_of_mem_zipIdx hp
    omega
  obtain ⟨liks, hr, hF⟩ := mapM_forall₂ (fun p : XR × ℕ => gaussClassLik d (finMat Y) p.2 p.1)
    (fun p l => l.length = Y.rows.length ∧ (p.2 = c → l = List.replicate Y.rows.length .nan)) prior.zipIdx (by
      intro p hp
      by_cases hpc : p.2 = c
      · refine ⟨_, by rw [hpc]; exact gaussClassLik_flat d Y hY hf t1 t2 z1 z2 l1 l2 hnn h0 p.1, by simp, fun _ => rfl⟩
      · obtain ⟨l, h1, h2⟩ := gaussClassLik_shape d (finMat Y) (k := T.cols) (by rw [hfY]; exact t1) (by rw [hfY]; exact t2) (hz p hp) p.1
        exact ⟨l, h1, by rw [h2, hnY], fun h => absurd h hpc⟩)
  have hll : liks.length = T.cols := by rw [← hF.length_eq]; simp [hpl]
  have hlen : ∀ l ∈ liks, l.length = Y.rows.length := by
    intro l hl
    obtain ⟨i, hi, rfl⟩ := List.mem_iff_getElem.1 hl
    have := List.forall₂_iff_get.1 hF
    exact (this.2 i (by rw [this.1]; exact hi) hi).1
  have hcl : liks[c]? = some (List.replicate Y.rows.length .nan) := by
    have := List.forall₂_iff_get.1 hF
    have hi : c < liks.length := by rw [hll]; exact hlt
    rw [List.getElem?_eq_getElem hi]
    have := (this.2 c (by rw [this.1]; exact hi) hi).2
    simp only [List.get_eq_getElem, List.getElem_zipIdx] at this
    rw [this (by omega)]
  refine ⟨(⟨Y.rows.length, liks⟩ : Mat XR).transpose, ?_, by simp [Mat.transpose, transposeRows], ?_⟩
  · unfold nbLogProbs
    rw [h1, h3]
    show (do
      let liks ← prior.zipIdx.mapM fun (p : XR × ℕ) => gaussClassLik d (finMat Y) p.2 p.1
      let m ← Mat.new prior.length (finMat Y).rows.length liks.flatten
      ok m.transpose) = _
    rw [hr]
    simp only [ok_bind]
    rw [hnY, Mat.new_flatten (rows := liks) (c := Y.rows.length) (by rw [hpl, hll]) hlen]
    rfl
  · intro r hr
    simp only [Mat.transpose, transposeRows, List.mem_map, List.mem_range] at hr
    obtain ⟨i, hi, rfl⟩ := hr
    have e : (liks.filterMap fun r => r[i]?) = liks.map fun r => r.getD i .nan := by
      rw [← List.filterMap_eq_map]
      apply List.filterMap_congr
      intro l hl
      have := hlen l hl
      simp only [Function.comp]
      rw [List.getElem?_eq_getElem (by omega), getD_lt]
    rw [e]
    refine ⟨by rw [List.length_map, hll], ?_⟩
    rw [List.getElem?_map, hcl, Option.map_some, getD_lt _ (by simpa using hi)]
    simp

/-- C146 fails for Gaussian naive Bayes: if a feature has one value in all samples of class 0, class 0 is predicted for every input row. (Where the
class's mean and variance are computed exactly, as they are for small integers.) -/
theorem C146_gaussian_violation (m m' : NaiveBayes (GaussD XR) XR) (X T Y : Mat ℝ) (hX : X.WF) (hT : T.WF) (hY : Y.WF) (hf : Y.cols = X.cols)
    (hn : X.rows.length = T.rows.length) (hk : 0 < T.cols) (hpos : 0 < classSize T.rows 0) (j : ℕ) (hj : j < X.cols) (v : ℝ)
    (hv : ∀ x ∈ classSamples X.rows T.rows 0, coord x j = v) (h : nbTrain gaussDistr m (finMat X) (finMat T) = (m', ok ())) :
    nbPredict gaussDistr m' (finMat Y) = ok ⟨T.cols, List.replicate Y.rows.length ((List.replicate T.cols (.fin 0)).set 0 (.fin 1))⟩ := by
  obtain ⟨h2, L, hL, hLn, hLr⟩ := gauss_flat_logProbs hX hT hY hf hn hk hpos hj hv h
  have hnY : (finMat Y).rows.length = Y.rows.length := by simp [finMat]
  have := nbPredict_nan hk h2 hL (by rw [hLn, hnY]) (by
    intro r hr
    have := (hLr r hr).2
    cases r with
    | nil => simp at this
    | cons a l => simp only [List.getElem?_cons_zero, Option.some.injEq] at this; exact ⟨l, by rw [this]⟩)
  rw [hnY] at this
  exact this

theorem argAux_skips {α : Type} {better : α → α → Bool} {c : ℕ} : ∀ (l : List α) (best : α) (bi i : ℕ), bi ≠ c →
    (∀ (t : ℕ) v, l[t]? = some v → i + t = c → ∀ b, better b v = false) → (argAux better best bi i l).1 ≠ c
  | [], _, _, _, h, _ => h
  | v :: l, best, bi, i, h, hl => by
    rw [argAux]
    have hl' : ∀ (t : ℕ) w, l[t]? = some w → i + 1 + t = c → ∀ b, better b w = false := fun t w ht hc => hl (t + 1) w (by simpa using ht) (by omega)
    split
    · rename_i hb
      refine argAux_skips l v i (i + 1) ?_ hl'
      rintro rfl
      rw [hl 0 v rfl rfl best] at hb
      simp at hb
    · exact argAux_skips l best bi (i + 1) h hl'

/-- C146 fails for Gaussian naive Bayes: if a feature has one value in all samples of a class other than class 0, that class is never predicted, not
even for its own samples. -/
theorem C146_gaussian_never_violation (m m' : NaiveBayes (GaussD XR) XR) (X T Y : Mat ℝ) (hX : X.WF) (hT : T.WF) (hY : Y.WF) (hf : Y.cols = X.cols)
    (hn : X.rows.length = T.rows.length) (c : ℕ) (hc0 : 0 < c) (hk : c < T.cols) (hpos : 0 < classSize T.rows c) (j : ℕ) (hj : j < X.cols) (v : ℝ)
    (hv : ∀ x ∈ classSamples X.rows T.rows c, coord x j = v) (h : nbTrain gaussDistr m (finMat X) (finMat T) = (m', ok ())) :
    ∃ P, nbPredict gaussDistr m' (finMat Y) = ok P ∧ P.rows.length = Y.rows.length ∧ ∀ r ∈ P.rows, r[c]? = some (.fin 0) := by
  obtain ⟨h2, L, hL, hLn, hLr⟩ := gauss_flat_logProbs hX hT hY hf hn hk hpos hj hv h
  have hnY : (finMat Y).rows.length = Y.rows.length := by simp [finMat]
  obtain ⟨cs, hcs, hF⟩ := mapM_shape (f := fun row : List XR => (do
      let r ← argmaxBy Scalar.lt row
      ok r.1 : Outcome ℕ)) (P := fun b => b ≠ c ∧ b < T.cols) (l := L.rows) (by
    intro r hr
    obtain ⟨hl, hnan⟩ := hLr r hr
    cases r with
    | nil => simp at hnan
    | cons a l =>
      refine ⟨_, rfl, ?_, ?_⟩
      · refine argAux_skips l a 0 1 (by omega) ?_
        intro t w ht hc b
        have : (a :: l)[c]? = some w := by rw [← hc, Nat.add_comm]; simpa using ht
        rw [hnan, Option.some.injEq] at this
        rw [← this]
        cases b <;> rfl
      · have := argAux_lt (fun best x : XR => Scalar.lt best x) a 0 1 l (by omega)
        simp only [List.length_cons] at hl
        omega)
  obtain ⟨rows, hrows, hP⟩ := mapM_shape (f := fun b => setAt (List.replicate T.cols (Scalar.zero : XR)) b Scalar.one)
      (P := fun r : List XR => r.length = T.cols ∧ r[c]? = some (.fin 0)) (l := cs) (by
    intro b hb
    obtain ⟨hbc, hbk⟩ := hF.2 b hb
    refine ⟨_, setAt_of_lt _ (by simpa using hbk), by simp, ?_⟩
    rw [List.getElem?_set_ne hbc]
    simp [hk])
  have hrl : rows.length = Y.rows.length := by rw [hP.1, hF.1, hLn]
  refine ⟨⟨T.cols, rows⟩, ?_, hrl, fun r hr => (hP.2 r hr).2⟩
  unfold nbPredict
  rw [hL]
  simp only [ok_bind]
  rw [hcs]
  simp only [ok_bind, h2]
  rw [hrows]
  simp only [ok_bind]
  rw [hnY]
  exact Mat.new_flatten hrl fun r hr => (hP.2 r hr).1

/-! ### The hypotheses are met -/

/-- Two points, and the same points with a constant feature. -/
example : withConstant 7 ⟨1, [[0], [2]]⟩ = ⟨2, [[0, 7], [2, 7]]⟩ := rfl

/-- Nearest neighbours on them. -/
example (Q : Mat ℝ) (hQ : Q.WF) (hc : Q.cols = 1) :
    knnPredict bruteSearcher (knnTrain bruteSearcher ⟨1, none, none⟩ (withConstant 7 ⟨1, [[0], [2]]⟩) [0, 1]).1 (withConstant 7 Q) =
      knnPredict bruteSearcher (knnTrain bruteSearcher ⟨1, none, none⟩ ⟨1, [[0], [2]]⟩ [0, 1]).1 Q :=
  (C146_neighbours_partial 7 ⟨1, [[0], [2]]⟩ (by intro r hr; simp at hr; rcases hr with rfl | rfl <;> rfl) [0, 1] ⟨1, none, none⟩).2
    rfl Q hQ hc

/-- Linear regression on three points of a line with a constant feature. -/
example : LinReg.train (gaussSolve 0) (withConstant 7 ⟨1, [[0], [1], [2]]⟩) [1, 3, 5] = err .LinearAlgebra :=
  C146_linear_violation (gaussSolve_exact 0 le_rfl) gaussSolve_regular (gaussSolve_reports 0) 7 ⟨1, [[0], [1], [2]]⟩
    (by intro r hr; simp at hr; rcases hr with rfl | rfl | rfl <;> rfl) [1, 3, 5] rfl

theorem flat_class : classOf [1, 0] = some 0 ∧ classOf [0, 1] = some 1 := by
  constructor <;> simp [classOf, List.findIdx?_cons]

theorem flat_trains : ∃ m', nbTrain gaussDistr (nbNew _ XR) (finMat ⟨1, [[3], [3], [0], [2]]⟩) (finMat ⟨2, [[1, 0], [1, 0], [0, 1], [0, 1]]⟩) = (m', ok ()) := by
  simp [nbTrain, finMat, nbScan, findClass, nbFit, Mat.selectRows, getAt, ofOption, gaussDistr, gaussUpdate, Mat.varianceRow, setAt, Mat.zeros, List.replicate, List.modify]

/-- Gaussian naive Bayes with samples 3 and 3 of class 0, 0 and 2 of class 1: the sample 0 of class 1 is put into class 0. -/
example : ∃ m', nbTrain gaussDistr (nbNew _ XR) (finMat ⟨1, [[3], [3], [0], [2]]⟩) (finMat ⟨2, [[1, 0], [1, 0], [0, 1], [0, 1]]⟩) = (m', ok ()) ∧
    nbPredict gaussDistr m' (finMat ⟨1, [[0]]⟩) = ok ⟨2, [[.fin 1, .fin 0]]⟩ := by
  obtain ⟨m', h⟩ := flat_trains
  refine ⟨m', h, ?_⟩
  have := C146_gaussian_violation _ m' ⟨1, [[3], [3], [0], [2]]⟩ ⟨2, [[1, 0], [1, 0], [0, 1], [0, 1]]⟩ ⟨1, [[0]]⟩
    (by intro r hr; simp at hr; rcases hr with rfl | rfl | rfl | rfl <;> rfl) (by intro r hr; simp at hr; rcases hr with rfl | rfl <;> rfl)
    (by intro r hr; simp at hr; rw [hr]; rfl) rfl rfl (by norm_num) (by simp [classSize, flat_class]) 0 (by norm_num) 3
    (by
      intro x hx
      simp only [classSamples, List.zip_cons_cons, List.zip_nil_right, List.filter_cons, flat_class.1, flat_class.2] at hx
      simp at hx
      rw [hx]; rfl) h
  exact this

theorem flat_trains' : ∃ m', nbTrain gaussDistr (nbNew _ XR) (finMat ⟨1, [[0], [2], [3], [3]]⟩) (finMat ⟨2, [[1, 0], [1, 0], [0, 1], [0, 1]]⟩) = (m', ok ()) := by
  simp [nbTrain, finMat, nbScan, findClass, nbFit, Mat.selectRows, getAt, ofOption, gaussDistr, gaussUpdate, Mat.varianceRow, setAt, Mat.zeros, List.replicate, List.modify]

/-- The classes exchanged: even the sample 3 is not put into the class whose samples are all 3. -/
example : ∃ m', nbTrain gaussDistr (nbNew _ XR) (finMat ⟨1, [[0], [2], [3], [3]]⟩) (finMat ⟨2, [[1, 0], [1, 0], [0, 1], [0, 1]]⟩) = (m', ok ()) ∧
    ∃ P, nbPredict gaussDistr m' (finMat ⟨1, [[3]]⟩) = ok P ∧ P.rows.length = 1 ∧ ∀ r ∈ P.rows, r[1]? = some (.fin 0) := by
  obtain ⟨m', h⟩ := flat_trains'
  refine ⟨m', h, ?_⟩
  have := C146_gaussian_never_violation _ m' ⟨1, [[0], [2], [3], [3]]⟩ ⟨2, [[1, 0], [1, 0], [0, 1], [0, 1]]⟩ ⟨1, [[3]]⟩
    (by intro r hr; simp at hr; rcases hr with rfl | rfl | rfl | rfl <;> rfl) (by intro r hr; simp at hr; rcases hr with rfl | rfl <;> rfl)
    (by intro r hr; simp at hr; rw [hr]; rfl) rfl rfl 1 (by norm_num) (by norm_num) (by simp [classSize, flat_class]) 0 (by norm_num) 3
    (by
      intro x hx
      simp only [classSamples, List.zip_cons_cons, List.zip_nil_right, List.filter_cons, flat_class.1, flat_class.2] at hx
      simp at hx
      rw [hx]; rfl) h
  exact this

end RM
