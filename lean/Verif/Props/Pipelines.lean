import Verif.Props.AffineMaps
import Verif.Props.Refit
import Verif.Props.Moves
import Verif.Props.Pca

/-!
C140: preparing the data. Scaling them and turning them to their principal axes, in any number of steps, does not change what linear
regression predicts; scaling does not change what Gaussian naive Bayes predicts; and turning does not change what learners that look at
distances find.
-/

namespace RM
open Outcome Scalar Spec Matrix

/-- A step of preparation for data with `d` columns, as what it makes of the data it was fitted to and then of further data: a scaler, or
principal component analysis with all components kept. -/
inductive Spec.Preparation (svd : Mat ℝ → Outcome (Mat ℝ × Mat ℝ × Mat ℝ)) (d : ℕ) : (Mat ℝ → Outcome (Mat ℝ → Outcome (Mat ℝ))) → Prop
  | scaler {s : Mat ℝ → Outcome (Mat ℝ → Outcome (Mat ℝ))} (h : IsScaler s) : Preparation svd d s
  | axes (m : Pca ℝ) (h : m = Pca.default ∨ ∃ center, m = Pca.new d center) : Preparation svd d fun X => Pca.predict <$> m.train svd X

/-- The steps one after the other, each fitted to what the steps before it made of the data. -/
def Spec.inTurn : List (Mat ℝ → Outcome (Mat ℝ → Outcome (Mat ℝ))) → Mat ℝ → Outcome (Mat ℝ → Outcome (Mat ℝ))
  | [], _ => ok fun Z => ok Z
  | s :: ss, X => do
    let t ← s X
    let Y ← t X
    let u ← inTurn ss Y
    ok fun Z => t Z >>= u

/-- All numbers of the matrix are numbers a 64 bit float can hold. -/
def Spec.Holdable (X : Mat ℝ) : Prop := ∀ r ∈ X.rows, ∀ x ∈ r, |x| ≤ Scalar.maxVal

/-- What a scaler does is a change of units. -/
theorem scaler_units {s : Mat ℝ → Outcome (Mat ℝ → Outcome (Mat ℝ))} (h : IsScaler s) (X : Mat ℝ) (hX : X.WF) (h2 : 2 ≤ X.rows.length)
    (hnc : ∀ j, j < X.cols → NonConstant (Spec.col X j)) (hrep : Holdable X) :
    ∃ (t : Mat ℝ → Outcome (Mat ℝ)) (u : List (ℝ × ℝ)), s X = ok t ∧ u.length = X.cols ∧ (∀ c ∈ u, 0 < c.1) ∧
      ∀ Y : Mat ℝ, Y.WF → Y.cols = X.cols → t Y = ok (inUnits u Y) := by
  cases h with
  | standardizer f hf =>
    obtain ⟨t, u, a, b, c, d⟩ := standardizer_units f X hX h2 hf hnc
    exact ⟨standardizerTransform t, u, by beta_reduce; rw [a]; rfl, b, c, d⟩
  | minmax f hf =>
    obtain ⟨t, u, a, b, c, d⟩ := minmax_units f X hX hf hrep hnc
    exact ⟨minmaxTransform t, u, by beta_reduce; rw [a]; rfl, b, c, d⟩

/-- A change of units is an invertible affine map. -/
theorem units_affine {d : ℕ} {u : List (ℝ × ℝ)} (hu : u.length = d) (hpos : ∀ c ∈ u, 0 < c.1) :
    InvertibleAffine d fun r => List.zipWith (fun (x : ℝ) (c : ℝ × ℝ) => c.1 * x + c.2) r u := by
  obtain ⟨M, c, h1, h2⟩ := C92_rescaling (fun j => (u.getD j (1, 0)).1) (fun j => (u.getD j (1, 0)).2) d (fun j hj => by
    rw [getD_lt _ (by omega)]
    exact (hpos _ (List.getElem_mem _)).ne')
  refine ⟨M, c, h1, fun x hx => ?_⟩
  rw [← h2 x hx]
  apply List.ext_getElem (by simp [rescaleRow, hx, hu])
  intro i h3 h4
  have hi : i < d := by simp [hx, hu] at h3; exact h3
  simp [rescaleRow, List.getElem?_eq_getElem (show i < u.length by omega)]

/-- Principal component analysis with all components kept, of data with at least as many rows as columns, is a rigid motion. -/
theorem axes_motion {svd : Mat ℝ → Outcome (Mat ℝ × Mat ℝ × Mat ℝ)} (hs : SvdExact svd) {m m' : Pca ℝ} (hm : m.Fresh) {X : Mat ℝ} (hX : X.WF)
    (hall : m.n = none ∨ m.n = some X.cols) (htall : X.cols ≤ X.rows.length) (h : m.train svd X = ok m') :
    ∃ (A : List (List ℝ)) (b : List ℝ), OrthonormalColumns X.cols X.cols A ∧ b.length = X.cols ∧
      ∀ Z : Mat ℝ, Z.WF → Z.cols = X.cols → m'.predict Z = ok (moved X.cols (affineMap A b) Z) := by
  have hk : keptComponents m.n X = X.cols := by
    rcases hall with h | h <;> simp [keptComponents, h, htall]
  obtain ⟨W, hW, -, hpr⟩ := C56_predict hs hm hX (Or.inl htall) h
  generalize keptComponents m.n X = p at *
  subst hk
  have hWW : W * Wᵀ = 1 := mul_eq_one_comm.mp hW
  let A : List (List ℝ) := List.ofFn fun k : Fin X.cols => List.ofFn fun j : Fin X.cols => W j k
  let b : List ℝ := List.ofFn fun k : Fin X.cols => -∑ j : Fin X.cols, (if m.center then Spec.mean (Spec.col X j) else 0) * W j k
  have hA : OrthonormalColumns X.cols X.cols A := by
    refine ⟨by simp [A], ?_, ?_⟩
    · intro r hr
      obtain ⟨k, rfl⟩ := (List.mem_ofFn' _ _).1 hr
      simp
    · intro i hi j hj
      have e := congrFun (congrFun hWW ⟨i, hi⟩) ⟨j, hj⟩
      rw [Matrix.mul_apply, Matrix.one_apply] at e
      simp only [Fin.mk.injEq, Matrix.transpose_apply] at e
      rw [← e, List.map_ofFn, List.sum_ofFn]
      refine Finset.sum_congr rfl fun k _ => ?_
      simp [Function.comp, hi, hj]
  have hb : b.length = X.cols := by simp [b]
  refine ⟨A, b, hA, hb, fun Z hZ hc => ?_⟩
  obtain ⟨P, h1, h2, h3⟩ := hpr Z ⟨rfl, hc, fun r hr => by rw [hZ r hr, hc]⟩
  rw [h1]
  congr 1
  obtain ⟨pc, pr⟩ := P
  obtain ⟨g1, g2, g3⟩ := h2
  simp only at g1 g2 g3
  subst g2
  unfold moved
  congr 1
  apply List.ext_getElem (by simp [g1])
  intro i i1 i2
  have hi : i < Z.rows.length := by omega
  rw [List.getElem_map]
  have hl : Z.rows[i].length = X.cols := by rw [hZ _ (List.getElem_mem _), hc]
  apply List.ext_getElem (by rw [affineMap_length hA hb, g3 _ (List.getElem_mem _)])
  intro k k1 k2
  have hk : k < X.cols := by rw [g3 _ (List.getElem_mem _)] at k1; exact k1
  have e := congrFun (congrFun h3 ⟨i, hi⟩) ⟨k, hk⟩
  rw [toM_apply, Matrix.mul_apply] at e
  have e1 : ent (⟨X.cols, pr⟩ : Mat ℝ) i k = pr[i][k] := by
    unfold ent
    rw [getD_lt _ i1, getD_lt _ k1]
  have e2 : (affineMap A b Z.rows[i]).getD k 0 = (affineMap A b Z.rows[i])[k] := getD_lt _ k2
  rw [e1] at e
  rw [← e2, affineMap_getD hA hb hl k hk, e, Finset.sum_range]
  have e3 : b.getD k 0 = -∑ j : Fin X.cols, (if m.center then Spec.mean (Spec.col X j) else 0) * W j ⟨k, hk⟩ := by
    rw [getD_lt _ (by omega)]
    simp [b]
  rw [e3, ← sub_eq_add_neg, ← Finset.sum_sub_distrib]
  refine Finset.sum_congr rfl fun j _ => ?_
  simp only [centred, Matrix.of_apply]
  rw [getD_lt _ hi]
  have e4 : (A.getD k []).getD j 0 = W j ⟨k, hk⟩ := by
    simp [A, hk]
  rw [e4]
  ring

/-- A rigid motion is an invertible affine map. -/
theorem motion_affine {n : ℕ} {A : List (List ℝ)} (hA : OrthonormalColumns n n A) {b : List ℝ} (hb : b.length = n) :
    InvertibleAffine n (affineMap A b) := by
  let M : Matrix (Fin n) (Fin n) ℝ := Matrix.of fun i j => (A.getD i []).getD j 0
  refine ⟨M, fun i => b.getD i 0, ?_, ?_⟩
  · have : Mᵀ * M = 1 := by
      ext i j
      rw [Matrix.mul_apply, Matrix.one_apply]
      have := hA.2.2 i i.2 j j.2
      simp only [Fin.val_inj] at this
      rw [← this]
      have e : (A.map fun r => r.getD i 0 * r.getD j 0) = List.ofFn fun k : Fin n => (A.getD k []).getD i 0 * (A.getD k []).getD j 0 := by
        apply List.ext_getElem (by simp [hA.1])
        intro k k1 k2
        have hk : k < A.length := by simpa using k1
        simp [List.getElem?_eq_getElem hk]
      rw [e, List.sum_ofFn]
      rfl
    have h2 := congrArg Matrix.det this
    rw [Matrix.det_mul, Matrix.det_one] at h2
    exact IsUnit.of_mul_eq_one_right _ h2
  · intro x hx
    apply List.ext_getElem (by rw [affineMap_length hA hb]; simp)
    intro i i1 i2
    have hi : i < n := by simpa using i2
    rw [← getD_lt 0 i1, affineMap_getD hA hb hx i hi, Finset.sum_range]
    simp [M]

/-- Data on which regression can be trained have no constant column. -/
theorem independent_nonConstant {X : Mat ℝ} (hX : X.WF) (hI : AffinelyIndependent X) : ∀ j, j < X.cols → NonConstant (Spec.col X j) := by
  intro j hj
  by_contra hcon
  obtain ⟨c, hc⟩ : ∃ c, ∀ x ∈ Spec.col X j, x = c := by
    by_cases he : Spec.col X j = []
    · exact ⟨0, by simp [he]⟩
    · obtain ⟨c, hc⟩ := List.exists_mem_of_ne_nil _ he
      refine ⟨c, fun x hx => ?_⟩
      by_contra hne
      exact hcon ⟨x, hx, c, hc, hne⟩
  have h := hI (-c :: (List.range X.cols).map fun i => if i = j then 1 else 0) (by simp) (by
    intro x hx
    have hxj := hc (x.getD j 0) (List.mem_map.2 ⟨x, hx, rfl⟩)
    unfold affine
    simp only [List.headD_cons, List.tail_cons]
    have : Spec.inner x ((List.range X.cols).map fun i => if i = j then (1 : ℝ) else 0) = x.getD j 0 := by
      unfold Spec.inner
      rw [zipWith_sum_range (n := X.cols) (hX x hx) (by simp)]
      rw [Finset.sum_eq_single j]
      · rw [getD_lt (l := List.map _ _) 0 (by simpa using hj)]
        simp
      · intro i hi hne
        rw [getD_lt (l := List.map _ _) 0 (by simpa using hi)]
        simp [hne]
      · intro h
        exact absurd (Finset.mem_range.2 hj) h
    rw [this, hxj]
    ring)
  have := congrArg (fun l : List ℝ => l.getD (j + 1) 0) h
  simp [zeroVec, hj] at this

/-- Data on which regression can be trained have more rows than columns. -/
theorem independent_tall {X : Mat ℝ} (hX : X.WF) (hI : AffinelyIndependent X) : X.cols < X.rows.length := by
  have h := (affinelyIndependent_iff hX).1 hI
  have := LinearMap.finrank_le_finrank_of_injective (f := (toM X.rows.length (X.cols + 1) ⟨X.cols + 1, X.rows.map ((1 : ℝ) :: ·)⟩).mulVecLin) (by
    rw [← LinearMap.ker_eq_bot, LinearMap.ker_eq_bot']
    intro v hv
    exact h v hv)
  simpa using this

/-- What a step of preparation does to data on which regression can be trained: an invertible affine map. -/
theorem preparation_affine {svd : Mat ℝ → Outcome (Mat ℝ × Mat ℝ × Mat ℝ)} (hs : SvdExact svd) (ht : SvdTotal svd) {d : ℕ}
    {s : Mat ℝ → Outcome (Mat ℝ → Outcome (Mat ℝ))} (h : Preparation svd d s) (X : Mat ℝ) (hX : X.WF) (hd : X.cols = d) (h2 : 2 ≤ X.rows.length)
    (hI : AffinelyIndependent X) (hrep : Holdable X) :
    ∃ (t : Mat ℝ → Outcome (Mat ℝ)) (φ : List ℝ → List ℝ), s X = ok t ∧ InvertibleAffine d φ ∧
      ∀ Z : Mat ℝ, Z.WF → Z.cols = d → t Z = ok (mapRows φ Z) := by
  subst hd
  cases h with
  | scaler h =>
    obtain ⟨t, u, h1, h2, h3, h4⟩ := scaler_units h X hX h2 (independent_nonConstant hX hI) hrep
    exact ⟨t, _, h1, units_affine h2 h3, h4⟩
  | axes m h =>
    have hf : m.Fresh := by
      rcases h with h | ⟨c, h⟩
      · exact Or.inl h
      · exact Or.inr ⟨_, c, h⟩
    have hn : m.n = none ∨ m.n = some X.cols := by
      rcases h with rfl | ⟨c, rfl⟩
      · exact Or.inl rfl
      · exact Or.inr rfl
    have tr := C56_train hs ht m hX
    rw [if_neg (by rintro ⟨k, h1, h2⟩; rcases hn with h | h <;> rw [h] at h1 <;> cases h1; omega)] at tr
    obtain ⟨m', tr⟩ := tr
    obtain ⟨A, b, hA, hb, hp⟩ := axes_motion hs hf hX hn (independent_tall hX hI).le tr
    refine ⟨m'.predict, affineMap A b, by beta_reduce; rw [tr]; rfl, motion_affine hA hb, fun Z hZ hc => ?_⟩
    rw [hp Z hZ hc]
    unfold moved mapRows
    rw [hc]

/-- **C140 (regression).** Linear regression that trains on data trains on them after any steps of preparation, each fitted to what the
steps before it made of the data, and then predicts the same for further data sent through the same steps. -/
theorem C140_regression {svd : Mat ℝ → Outcome (Mat ℝ × Mat ℝ × Mat ℝ)} (hsvd : SvdExact svd) (htot : SvdTotal svd)
    {solve : Mat ℝ → List ℝ → Outcome (List ℝ)} (hs : SolvesExactly solve) (hr : SolvesRegular solve) {d : ℕ}
    (steps : List (Mat ℝ → Outcome (Mat ℝ → Outcome (Mat ℝ)))) (hsteps : ∀ s ∈ steps, Preparation svd d s)
    (X : Mat ℝ) (hX : X.WF) (hd : X.cols = d) (h2 : 2 ≤ X.rows.length) (y : List ℝ) (m : LinReg ℝ) (h : LinReg.train solve X y = ok m)
    (hrep : ∀ k < steps.length, ∀ t Y, inTurn (steps.take k) X = ok t → t X = ok Y → Holdable Y) :
    ∃ t Y m', inTurn steps X = ok t ∧ t X = ok Y ∧ LinReg.train solve Y y = ok m' ∧
      ∀ Z : Mat ℝ, Z.WF → Z.cols = d → ∃ W p, t Z = ok W ∧ m.predict Z = ok p ∧ m'.predict W = ok p := by
  induction steps generalizing X m with
  | nil =>
    subst hd
    refine ⟨_, X, m, rfl, rfl, h, fun Z hZ hc => ?_⟩
    obtain ⟨m', h', h3⟩ := C92_linear_regression hs hr X hX y m h (C92_rescaling (fun _ => 1) (fun _ => 0) X.cols (by simp))
    obtain ⟨p, hp, -⟩ := h3 Z hZ hc
    exact ⟨Z, p, rfl, hp, hp⟩
  | cons s ss ih =>
    subst hd
    obtain ⟨-, -, hy, -⟩ := linTrain_normal hs hX h
    have hI := (C48_succeeds_iff hs hr X hX y hy).1 ⟨_, h⟩
    obtain ⟨t, φ, e1, hφ, e2⟩ := preparation_affine hsvd htot (hsteps s (by simp)) X hX rfl h2 hI (hrep 0 (by simp) _ X rfl rfl)
    obtain ⟨m₁, h₁, e3⟩ := C92_linear_regression hs hr X hX y m h hφ
    have hw := mapRows_wf hX hφ
    obtain ⟨u, Y, m', f1, f2, f3, f4⟩ := ih (fun q hq => hsteps q (by simp [hq])) (mapRows φ X) hw rfl (by simpa [mapRows] using h2) m₁ h₁ (by
      intro k hk u Y hu hY
      refine hrep (k + 1) (by simpa using hk) (fun Z => t Z >>= u) Y ?_ ?_
      · rw [List.take_succ_cons]
        simp only [inTurn]
        rw [e1, ok_bind, e2 X hX rfl, ok_bind, hu, ok_bind]
      · rw [e2 X hX rfl, ok_bind]
        exact hY)
    refine ⟨fun Z => t Z >>= u, Y, m', ?_, ?_, f3, fun Z hZ hc => ?_⟩
    · simp only [inTurn]
      rw [e1, ok_bind, e2 X hX rfl, ok_bind, f1, ok_bind]
    · beta_reduce
      rw [e2 X hX rfl, ok_bind]
      exact f2
    · obtain ⟨p, p1, p2⟩ := e3 Z hZ hc
      obtain ⟨W, q, w1, w2, w3⟩ := f4 (mapRows φ Z) (mapRows_wf hZ (by rw [hc]; exact hφ)) hc
      rw [p2] at w2
      cases w2
      refine ⟨W, p, ?_, p1, w3⟩
      beta_reduce
      rw [e2 Z hZ hc, ok_bind, w1]

/-- **C140 (naive Bayes).** Gaussian naive Bayes that trains on data trains on them after scaling, and then predicts the same for further
data scaled in the same way. -/
theorem C140_naive_bayes {scaler : Mat ℝ → Outcome (Mat ℝ → Outcome (Mat ℝ))} (hsc : IsScaler scaler) (m m0 m0' : NaiveBayes (GaussD ℝ) ℝ)
    (X T : Mat ℝ) (hX : X.WF) (hT : T.WF) (hn : X.rows.length = T.rows.length) (h2 : 2 ≤ X.rows.length) (hrep : Holdable X)
    (hnc' : ∀ j, j < X.cols → NonConstant (Spec.col X j))
    (hnc : ∀ c < T.cols, ∀ j < X.cols, NonConstant ((classSamples X.rows T.rows c).map fun x => coord x j)) (hsz : ∀ c < T.cols, 0 < classSize T.rows c)
    (h : nbTrain gaussDistr m0 X T = (m, ok ())) :
    ∃ t Y m', scaler X = ok t ∧ t X = ok Y ∧ nbTrain gaussDistr m0' Y T = (m', ok ()) ∧
      ∀ Z : Mat ℝ, Z.WF → Z.cols = X.cols → ∃ W, t Z = ok W ∧ nbPredict gaussDistr m' W = nbPredict gaussDistr m Z := by
  obtain ⟨t, u, e1, e2, e3, e4⟩ := scaler_units hsc X hX h2 hnc' hrep
  obtain ⟨m', f1, f2⟩ := C84_gaussian_bayes m m0 m0' X T hX hT hn u e2 e3 hnc hsz h
  exact ⟨t, _, m', e1, e4 X hX rfl, f1, fun Z hZ hc => ⟨_, e4 Z hZ hc, f2 Z hZ hc⟩⟩

section
variable {svd : Mat ℝ → Outcome (Mat ℝ × Mat ℝ × Mat ℝ)} (hs : SvdExact svd) {m m' : Pca ℝ} (hm : m.Fresh) {X : Mat ℝ} (hX : X.WF)
  (hall : m.n = none ∨ m.n = some X.cols) (htall : X.cols ≤ X.rows.length) (h : m.train svd X = ok m')
include hs hm hX hall htall h

/-- **C140 (nearest neighbours).** After principal component analysis with all components kept, k nearest neighbours gives the labels it
gives without it. -/
theorem C140_axes_knn (y : List ℕ) (k : KNNClassifier (Option (Mat ℝ))) :
    ∃ Y, m'.predict X = ok Y ∧ (knnTrain bruteSearcher k Y y).2 = (knnTrain bruteSearcher k X y).2 ∧
      ((knnTrain bruteSearcher k X y).2 = ok () → ∀ Q : Mat ℝ, Q.WF → Q.cols = X.cols → ∃ W, m'.predict Q = ok W ∧
        knnPredict bruteSearcher (knnTrain bruteSearcher k Y y).1 W = knnPredict bruteSearcher (knnTrain bruteSearcher k X y).1 Q) := by
  obtain ⟨A, b, hA, hb, hp⟩ := axes_motion hs hm hX hall htall h
  obtain ⟨h1, h2⟩ := C85_knn (affineMap_rigid hA hb) one_pos X hX rfl y k
  exact ⟨_, hp X hX rfl, h1, fun hok Q hQ hc => ⟨_, hp Q hQ hc, h2 hok Q hQ hc⟩⟩

/-- **C140 (density clustering).** After principal component analysis with all components kept, DBSCAN finds the clusters it finds without
it. -/
theorem C140_axes_dbscan (c : Dbscan ℝ) : ∃ Y, m'.predict X = ok Y ∧ ∀ fuel fuel' c₁ c₂,
    dbTrain fuel c X = some (ok c₁) → dbTrain fuel' c Y = some (ok c₂) → c₂.clusters = c₁.clusters ∧
      (c.predictive = true → ∀ Q : Mat ℝ, Q.WF → Q.cols = X.cols → ∃ W, m'.predict Q = ok W ∧ dbPredict c₂ W = dbPredict c₁ Q) := by
  obtain ⟨A, b, hA, hb, hp⟩ := axes_motion hs hm hX hall htall h
  refine ⟨_, hp X hX rfl, fun fuel fuel' c₁ c₂ h1 h2 => ?_⟩
  obtain ⟨g1, g2⟩ := C85_dbscan (affineMap_rigid hA hb) one_pos X hX rfl c fuel fuel' c₁ c₂ h1 (by simpa using h2)
  exact ⟨g1, fun hc Q hQ hQc => ⟨_, hp Q hQ hQc, g2 hc Q hQ hQc⟩⟩

/-- **C140 (k-means).** After principal component analysis with all components kept, k-means with k-means++ started from the same draws
puts all points into the clusters it puts them into without it. -/
theorem C140_axes_kmeans (hcols : 0 < X.cols) (c : KMeans XR) (hk : 0 < c.k) (hkd : c.k ≤ X.rows.dedup.length) (raw : ℕ) (us : List ℝ)
    (hu : ∀ u ∈ us, 0 ≤ u ∧ u < 1) (hl : c.k - 1 ≤ us.length) :
    let init := kppInit raw (us.map XR.fin)
    ∃ Y, m'.predict X = ok Y ∧ (kmTrain init c (finMat Y)).2 = (kmTrain init c (finMat X)).2 ∧
      ((kmTrain init c (finMat X)).2 = ok () → ∀ Q : Mat ℝ, Q.WF → Q.cols = X.cols → ∃ W, m'.predict Q = ok W ∧
        kmPredict (kmTrain init c (finMat Y)).1 (finMat W) = kmPredict (kmTrain init c (finMat X)).1 (finMat Q)) := by
  intro init
  obtain ⟨A, b, hA, hb, hp⟩ := axes_motion hs hm hX hall htall h
  obtain ⟨C0, w1, w2, i1, i2⟩ := C85_kplusplus_start hA hb hcols hcols raw us c.k X hX rfl hk hkd hu hl
  obtain ⟨g1, g2⟩ := C85_kmeans hA hb hcols hcols X hX rfl c hk init init C0 w1 w2 i1 i2
  refine ⟨_, hp X hX rfl, g1, fun hok Q hQ hc => ⟨_, hp Q hQ hc, ?_⟩⟩
  obtain ⟨-, -, -, -, g3⟩ := g2 hok
  exact g3 Q hQ hc

/-- **C140 (support vector machines).** With a kernel that is a function of the distance, and the same draws. -/
theorem C140_axes_svm (c : Svm ℝ) (hK : RigidKernel c.ker) (draws : ℕ → ℕ) (y : List ℝ) :
    ∃ Y, m'.predict X = ok Y ∧ ((∃ t, c.train draws X y = ok t) ↔ ∃ t, c.train draws Y y = ok t) ∧
      ∀ t t', c.train draws X y = ok t → c.train draws Y y = ok t' → ∀ Q : Mat ℝ, Q.WF → Q.cols = X.cols →
        ∃ W, m'.predict Q = ok W ∧ t'.predict W = t.predict Q := by
  obtain ⟨A, b, hA, hb, hp⟩ := axes_motion hs hm hX hall htall h
  have hT := affineMap_rigid hA hb
  obtain ⟨g1, g2⟩ := C85_svm hT c c (fun _ _ hx hy => rigid_ones hT hK hx hy) rfl rfl draws X hX rfl y
  exact ⟨_, hp X hX rfl, g1, fun t t' h1 h2 Q hQ hc => ⟨_, hp Q hQ hc, g2 t t' h1 h2 Q hQ hc⟩⟩

/-- **C140 (Gaussian processes).** With a kernel that is a function of the distance and a constant mean: the predictions and their
covariances. -/
theorem C140_axes_gp (lib : TriLib ℝ) (K : Kernel ℝ) (hK : RigidKernel K) (a noise : ℝ) (y : List ℝ) :
    let g : Gp ℝ := { ker := K, mean := constMean a, noise := noise }
    ∃ Y, m'.predict X = ok Y ∧ ∀ t t', g.train lib X y = ok t → g.train lib Y y = ok t' → ∀ Q : Mat ℝ, Q.WF → Q.cols = X.cols →
      ∃ W, m'.predict Q = ok W ∧ t'.predict W = t.predict Q ∧ t'.posterior lib W = t.posterior lib Q := by
  intro g
  obtain ⟨A, b, hA, hb, hp⟩ := axes_motion hs hm hX hall htall h
  refine ⟨_, hp X hX rfl, fun t t' h1 h2 Q hQ hc => ⟨_, hp Q hQ hc, ?_⟩⟩
  exact C85_gp_rigid lib (affineMap_rigid hA hb) K hK a noise X hX rfl y t t' h1 h2 Q hQ hc

end

/-- Three numbers, first brought into the range from 0 to 1 and then turned to their principal axis: regression predicts for all inputs what
it predicts without that. -/
example : let X : Mat ℝ := ⟨1, [[1], [3], [4]]⟩
    let steps : List (Mat ℝ → Outcome (Mat ℝ → Outcome (Mat ℝ))) :=
      [fun X => minmaxTransform <$> minmaxFit ⟨0, 1⟩ X, fun X => Pca.predict <$> Pca.default.train someSvd X]
    ∃ t Y m m', inTurn steps X = ok t ∧ t X = ok Y ∧ LinReg.train (gaussSolve (0 : ℝ)) X [1, 2, 5] = ok m ∧
      LinReg.train (gaussSolve (0 : ℝ)) Y [1, 2, 5] = ok m' ∧
      ∀ Z : Mat ℝ, Z.WF → Z.cols = 1 → ∃ W p, t Z = ok W ∧ m.predict Z = ok p ∧ m'.predict W = ok p := by
  intro X steps
  have hX : X.WF := by intro r hr; simp [X] at hr; rcases hr with rfl | rfl | rfl <;> rfl
  obtain ⟨m, hm⟩ := (C48_succeeds_iff (gaussSolve_exact 0 le_rfl) gaussSolve_regular X hX [1, 2, 5] rfl).2 units_independent
  have hlt : (0 : ℝ) < 1 := one_pos
  have hmax : (4 : ℝ) ≤ Scalar.maxVal := le_trans (le_trans (by norm_num) (pow_le_pow_right₀ one_le_two (show 2 ≤ 971 by norm_num))) maxVal_ge
  have hH : Holdable X := by
    intro r hr x hx
    simp [X] at hr
    rcases hr with rfl | rfl | rfl <;> simp at hx <;> subst hx <;> norm_num [abs_of_nonneg] <;> linarith
  obtain ⟨t, Y, m', h1, h2, h3, h4⟩ := C140_regression someSvd_exact someSvd_total (gaussSolve_exact 0 le_rfl) gaussSolve_regular steps (d := 1) (by
    intro s hs
    simp only [steps, List.mem_cons, List.not_mem_nil, or_false] at hs
    rcases hs with rfl | rfl
    · exact .scaler (.minmax ⟨0, 1⟩ hlt)
    · exact .axes Pca.default (Or.inl rfl)) X hX rfl (by simp [X]) [1, 2, 5] m hm (by
    intro k hk t Y ht hY
    have hk' : k = 0 ∨ k = 1 := by simp [steps] at hk; omega
    rcases hk' with rfl | rfl
    · cases ht
      cases hY
      exact hH
    · simp only [steps, List.take_succ_cons, List.take_zero, inTurn] at ht
      obtain ⟨t0, u, e1, e2, e3, e4⟩ := minmax_units ⟨0, 1⟩ X hX hlt hH (independent_nonConstant hX units_independent)
      have e5 : (minmaxTransform <$> minmaxFit ⟨0, 1⟩ X : Outcome _) = ok (minmaxTransform t0) := by rw [e1]; rfl
      rw [e5, ok_bind, e4 X hX rfl, ok_bind, ok_bind] at ht
      cases ht
      beta_reduce at hY
      rw [e4 X hX rfl, ok_bind] at hY
      cases hY
      exact C98_minmax_range ⟨0, 1⟩ hlt (by simp; linarith) (by simp; linarith) X hX (independent_nonConstant hX units_independent) hH _ _ e5 (e4 X hX rfl))
  exact ⟨t, Y, m, m', h1, h2, hm, h3, h4⟩

/-- The corners of a square and its middle, turned to their principal axes: the hypotheses on the data hold. -/
example : let X : Mat ℝ := ⟨2, [[0, 0], [0, 2], [2, 0], [2, 2], [1, 1]]⟩
    ∃ m' : Pca ℝ, Pca.default.train someSvd X = ok m' ∧ (Pca.default : Pca ℝ).Fresh ∧ X.WF ∧ X.cols ≤ X.rows.length ∧ 3 ≤ X.rows.dedup.length := by
  intro X
  have hw : X.WF := by intro r hr; simp [X] at hr; rcases hr with rfl | rfl | rfl | rfl | rfl <;> rfl
  have t := C56_train someSvd_exact someSvd_total Pca.default hw
  rw [if_neg (by simp [Pca.default])] at t
  obtain ⟨m', t⟩ := t
  refine ⟨m', t, Or.inl rfl, hw, by simp [X], ?_⟩
  rw [List.Nodup.dedup (by simp [X])]
  simp [X]

end RM
