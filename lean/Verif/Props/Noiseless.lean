import Verif.Proofs.StrictPD
import Verif.Props.Gp
import Verif.Props.Regression
import Verif.Props.KNNTree

/-! C90: noiseless data are learnt exactly. -/

namespace RM
open Outcome Scalar Spec Matrix

/-! ### Gaussian processes -/

/-- The squared exponential, exponential and rational quadratic kernels, their products, and their sums with each other and
with any kernel of `C61_gram`, are strictly positive definite on distinct points. -/
theorem C90_strict_kernels {K : Kernel ℝ} (h : StrictBuilt K) (d : ℕ) : StrictKernel K d := by
  induction h with
  | @sqExp ls ampl hl ha =>
    intro n x hx hinj
    refine ⟨_, fun i j => (C60_values (x i) (x j) ((hx i).trans (hx j).symm) 0 0 0 ls ampl).2.2.2.1, ?_⟩
    have := (SPD.gauss x hx hinj (t := 1 / (2 * ls ^ 2)) (by positivity)).smul ha
    convert this using 6
    ring
  | @exp ls ampl hl ha =>
    intro n x hx hinj
    refine ⟨_, fun i j => (C60_values (x i) (x j) ((hx i).trans (hx j).symm) 0 0 0 ls ampl).2.2.2.2.1, ?_⟩
    have := (SPD.expDist x hx hinj (b := 1 / (2 * ls ^ 2)) (by positivity)).smul ha
    convert this using 6
    ring
  | @rationalQuadratic alpha ls ha hl =>
    intro n x hx hinj
    refine ⟨_, fun i j => (C60_values (x i) (x j) ((hx i).trans (hx j).symm) alpha 0 0 ls 0).2.2.2.2.2.2, ?_⟩
    have := (SPD.rationalQuadratic x hx hinj (a := alpha) (b := 1 / (2 * alpha * ls ^ 2)) ha (by positivity))
    convert this using 5
    ring
  | @sum_left k1 k2 _ h2 ih1 =>
    intro n x hx hinj
    obtain ⟨G1, e1, p1⟩ := ih1 n x hx hinj
    obtain ⟨G2, e2, p2⟩ := C61_gram h2 d n x hx
    exact ⟨_, fun i j => by unfold kernelSum; rw [e1, ok_bind, e2, ok_bind]; rfl, p1.add p2⟩
  | @sum_right k1 k2 h1 _ ih2 =>
    intro n x hx hinj
    obtain ⟨G1, e1, p1⟩ := C61_gram h1 d n x hx
    obtain ⟨G2, e2, p2⟩ := ih2 n x hx hinj
    refine ⟨_, fun i j => by unfold kernelSum; rw [e1, ok_bind, e2, ok_bind], ?_⟩
    have := p2.add p1
    convert this using 3
    exact add_comm _ _
  | @prod k1 k2 _ _ ih1 ih2 =>
    intro n x hx hinj
    obtain ⟨G1, e1, p1⟩ := ih1 n x hx hinj
    obtain ⟨G2, e2, p2⟩ := ih2 n x hx hinj
    exact ⟨_, fun i j => by unfold kernelProd; rw [e1, ok_bind, e2, ok_bind]; rfl, p1.mul p2⟩

theorem strictBuilt_built {K : Kernel ℝ} (h : StrictBuilt K) : Built K := by
  have hp : ∀ {K : Kernel ℝ}, PSDBuilt K → Built K := by
    intro K h
    induction h with
    | linear _ => exact .linear _
    | poly d _ _ => exact .poly _ _ _
    | sqExp _ _ => exact .sqExp _ _
    | exp _ _ => exact .exp _ _
    | rationalQuadratic _ _ => exact .rationalQuadratic _ _
    | sum _ _ h1 h2 => exact .sum h1 h2
    | prod _ _ h1 h2 => exact .prod h1 h2
  induction h with
  | sqExp _ _ => exact .sqExp _ _
  | exp _ _ => exact .exp _ _
  | rationalQuadratic _ _ => exact .rationalQuadratic _ _
  | sum_left _ h2 ih => exact .sum ih (hp h2)
  | sum_right h1 _ ih => exact .sum (hp h1) ih
  | prod _ _ h1 h2 => exact .prod h1 h2

theorem rows_injective {X : Mat ℝ} (hd : X.rows.Nodup) : Function.Injective fun i : Fin X.rows.length => X.rows.getD i [] := by
  intro i j hij
  simp only at hij
  rw [getD_lt [] i.2, getD_lt [] j.2] at hij
  exact Fin.ext ((List.Nodup.getElem_inj_iff hd).1 hij)

/-- With a strictly positive definite kernel and no noise (the default of the library), training with one target per row
succeeds exactly when no row is repeated, whatever the mean function and the targets; and then the model predicts each
training target exactly, and is certain about it (its posterior covariance on the training rows is zero). -/
theorem C90_gp_interpolates {lib : TriLib ℝ} (hl : TriLibOk lib) {K : Kernel ℝ} (hK : StrictBuilt K) {mean : Mat ℝ → List ℝ} (hm : MeanSized mean)
    {X : Mat ℝ} (hX : X.WF) {y : List ℝ} (hy : y.length = X.rows.length) :
    ((∃ g', Gp.train lib ⟨K, mean, 0, none, none, none⟩ X y = ok g') ↔ X.rows.Nodup) ∧
    ∀ g', Gp.train lib ⟨K, mean, 0, none, none, none⟩ X y = ok g' →
      g'.predict X = ok y ∧ ∃ S, g'.posterior lib X = ok (y, S) ∧ toM X.rows.length X.rows.length S = 0 := by
  have hk := C59_kernels (strictBuilt_built hK)
  have hval : ∀ i j : Fin X.rows.length, noisyGram (kernelValue K) 0 X i j = kernelValue K (X.rows.getD i []) (X.rows.getD j []) := by
    intro i j
    unfold noisyGram gram
    rw [zero_smul, add_zero]
    rfl
  refine ⟨?_, ?_⟩
  · rw [(C59_train_iff (g := ⟨K, mean, 0, none, none, none⟩) hl hk hm hX hy).1]
    constructor
    · intro hpd
      rw [List.nodup_iff_injective_get]
      intro i j hij
      by_contra hne
      have hrow : X.rows.getD i [] = X.rows.getD j [] := by
        rw [getD_lt [] i.2, getD_lt [] j.2]; exact hij
      have h1 := hpd.2 (Pi.single i 1 - Pi.single j 1) (by
        intro h0
        have := congrFun h0 i
        simp [Pi.single_eq_of_ne hne] at this)
      simp only [sub_dotProduct, single_dotProduct, one_mul, Matrix.mulVec_sub, Matrix.mulVec_single_one, Pi.sub_apply, Matrix.col_apply] at h1
      simp only [hval, hrow] at h1
      linarith
    · intro hd
      refine ⟨noisyGram_symm hk hX _, fun v hv => ?_⟩
      obtain ⟨G, hG, hs⟩ := C90_strict_kernels hK X.cols X.rows.length (fun i => X.rows.getD i []) (fun i => getD_row_length hX i.2) (rows_injective hd)
      have he : noisyGram (kernelValue K) 0 X = Matrix.of G := by
        ext i j
        rw [hval]
        have h1 := hG i j
        rw [hk.value _ _ (by rw [getD_row_length hX i.2, getD_row_length hX j.2])] at h1
        injection h1
      show 0 < v ⬝ᵥ (noisyGram (kernelValue K) 0 X).mulVec v
      rw [he, quad_eq]
      exact hs.2 v hv
  · intro g' h
    have h1 := (C59_interpolates (g := ⟨K, mean, 0, none, none, none⟩) hl hk hm hX h).2 rfl
    obtain ⟨p, S, h2, h3, -, -, -, -, h4⟩ := C59_posterior (g := ⟨K, mean, 0, none, none, none⟩) hl hk hm hX h hX rfl
    rw [h1] at h2
    injection h2 with h2
    subst h2
    exact ⟨h1, S, h3, h4 rfl rfl⟩

/-- The squared exponential kernel on three points of the plane. -/
example (a b c : ℝ) : ∃ g', Gp.train exactLib ⟨sqExpKernel 1 1, constMean 0, 0, none, none, none⟩ ⟨2, [[0, 0], [0, 1], [2, 0]]⟩ [a, b, c] = ok g' :=
  (C90_gp_interpolates exactLib_ok (.sqExp one_ne_zero one_pos) (C59_mean 0).1
    (by intro r hr; simp at hr; rcases hr with rfl | rfl | rfl <;> rfl) (by rfl)).1.2 (by norm_num)

/-! ### Linear regression -/

/-- If the targets are an affine function of the rows, training finds that function, and predictions at all inputs, also
those never seen, are exact. -/
theorem C90_linear {solve : Mat ℝ → List ℝ → Outcome (List ℝ)} (hs : SolvesExactly solve) {X : Mat ℝ} (hX : X.WF) {β : List ℝ}
    (hb : β.length = X.cols + 1) {m : LinReg ℝ} (h : LinReg.train solve X (X.rows.map (affine β)) = ok m) :
    m.parameters = some β ∧ ∀ Z : Mat ℝ, Z.cols = X.cols → m.predict Z = ok (Z.rows.map (affine β)) := by
  obtain ⟨β', h1, h2, h3⟩ := C48_least_squares hs X hX _ m h
  have hzero : rss X (X.rows.map (affine β)) β = 0 := by
    unfold rss
    rw [List.zipWith_map_right, List.zipWith_self]
    simp
  have hβ : β' = β := by
    by_contra hne
    have h4 := h3 β hb (Ne.symm hne)
    rw [hzero] at h4
    have : 0 ≤ rss X (X.rows.map (affine β)) β' := by
      unfold rss
      exact zipWith_nonneg _ (fun _ _ => sq_nonneg _) _ _
    linarith
  subst hβ
  refine ⟨h1, fun Z hZ => ?_⟩
  have : m = ⟨some β'⟩ := by cases m; simp_all
  rw [this]
  exact C48_predict β' Z (by rw [h2, hZ])

/-- Conversely training succeeds on all data whose columns are affinely independent. -/
theorem C90_linear_trains {solve : Mat ℝ → List ℝ → Outcome (List ℝ)} (hs : SolvesExactly solve) (hr : SolvesRegular solve) {X : Mat ℝ} (hX : X.WF)
    (hI : AffinelyIndependent X) {β : List ℝ} (hb : β.length = X.cols + 1) :
    LinReg.train solve X (X.rows.map (affine β)) = ok ⟨some β⟩ := by
  obtain ⟨m, hm⟩ := (C48_succeeds_iff hs hr X hX (X.rows.map (affine β)) (by simp)).2 hI
  have := (C90_linear hs hX hb hm).1
  rw [hm]
  cases m
  simp_all

/-- The line `y = b + a x` through three points. -/
example (a b : ℝ) : LinReg.train (gaussSolve 0) ⟨1, [[0], [1], [2]]⟩ [b, b + a, b + 2 * a] = ok ⟨some [b, a]⟩ := by
  have h := C90_linear_trains (gaussSolve_exact 0 le_rfl) gaussSolve_regular (X := ⟨1, [[0], [1], [2]]⟩) (β := [b, a])
    (by intro r hr; simp at hr; rcases hr with rfl | rfl | rfl <;> rfl) (by
      intro β hl h
      match β, hl with
      | [u, v], _ =>
        have h0 := h [0] (by simp)
        have h1 := h [1] (by simp)
        simp [affine, Spec.inner] at h0 h1
        have : v = 0 := by linarith
        subst h0
        subst this
        rfl) rfl
  simpa [affine, Spec.inner] using h

/-! ### Nearest neighbours -/

theorem eucl_zero_iff {u v : List ℝ} (hl : u.length = v.length) (h : eucl u v ≤ 0) : u = v := by
  have h1 : eucl u v = 0 := le_antisymm h (Real.sqrt_nonneg _)
  have h2 : sqDist u v = 0 := (Real.sqrt_eq_zero (sqDist_nonneg u v)).1 h1
  have h1 := h2
  exact eq_of_sqDist u v hl h1

theorem nearest_is_self {X : Mat ℝ} (hX : X.WF) (hd : X.rows.Nodup) {q : ℕ} (hq : q < X.rows.length) {r : List ℕ × List ℝ}
    (h : KNearestOf X.rows.length (fun i => eucl (X.rows.getD q []) (X.rows.getD i [])) 1 r) : r.1 = [q] := by
  obtain ⟨i, hi⟩ := List.length_eq_one_iff.1 h.count
  rw [hi]
  congr 1
  by_contra hne
  have hiX := h.rows i (by rw [hi]; simp)
  have h1 := h.nearest q hq (by rw [hi]; simpa using fun e => hne e.symm) _ (by rw [h.distances, hi]; exact List.mem_singleton_self _)
  simp only at h1
  have h0 : eucl (X.rows.getD q []) (X.rows.getD q []) = 0 := by
    unfold eucl
    have := sqDist_self (X.rows.getD q [])
    unfold sqDist at this
    rw [this, Real.sqrt_zero]
  rw [h0] at h1
  have h2 := eucl_zero_iff (by rw [getD_row_length hX hq, getD_row_length hX hiX]) h1
  rw [getD_lt [] hq, getD_lt [] hiX] at h2
  exact hne ((List.Nodup.getElem_inj_iff hd).1 h2.symm)

theorem one_nn {S : Type} (R : Searcher ℝ S) (s : S) {X : Mat ℝ} (hX : X.WF) (hd : X.rows.Nodup) {y : List ℕ} (hy : X.rows.length = y.length)
    (hs : ∀ q < X.rows.length, ∃ r, R.search s (X.rows.getD q []) 1 = ok r ∧
      KNearestOf X.rows.length (fun i => eucl (X.rows.getD q []) (X.rows.getD i [])) 1 r) :
    knnPredict R ⟨1, s, some y⟩ X = ok y := by
  have hone : ∀ q (hq : q < X.rows.length), (do let (idx, _) ← R.search s (X.rows.getD q []) 1; knnVote y idx : Outcome ℕ) = ok (y[q]'(by rw [← hy]; exact hq)) := by
    intro q hq
    obtain ⟨r, h1, h2⟩ := hs q hq
    have h3 := nearest_is_self hX hd hq h2
    obtain ⟨l, h4, h5⟩ := C24_vote_is_majority y [q] [y[q]'(by rw [← hy]; exact hq)] (by simp) (by simp [hy ▸ hq])
    obtain ⟨idx, ds⟩ := r
    simp only at h3
    subst h3
    rw [h1, ok_bind]
    show knnVote y [q] = _
    rw [h4]
    have := h5.occurs
    rw [List.mem_singleton] at this
    rw [this]
  have hmap : ∀ (f : List ℝ → Outcome ℕ) (rows : List (List ℝ)) (y : List ℕ) (hl : rows.length = y.length),
      (∀ q (hq : q < rows.length), f (rows.getD q []) = ok (y[q]'(by rw [← hl]; exact hq))) → rows.mapM f = ok y := by
    intro f rows
    induction rows with
    | nil => intro y hl _; cases y with
      | nil => rfl
      | cons a y => simp at hl
    | cons x rows ih =>
      intro y hl h
      cases y with
      | nil => simp at hl
      | cons a y =>
        have h0 := h 0 (by simp)
        have h1 := ih y (by simpa using hl) (fun q hq => by simpa using h (q + 1) (by simpa using hq))
        rw [List.mapM_cons]
        simp only [List.getD_cons_zero, List.getElem_cons_zero] at h0
        rw [h0, ok_bind, h1]
        rfl
  unfold knnPredict
  exact hmap _ _ _ hy hone

/-- A classifier for one neighbour that was trained by brute force on data without repeated rows gives each training row its
own label. -/
theorem C90_nearest_brute {X : Mat ℝ} (hX : X.WF) (hd : X.rows.Nodup) {y : List ℕ} {s : Option (Mat ℝ)} {t : Option (List ℕ)}
    {c : KNNClassifier (Option (Mat ℝ))} (h : knnTrain bruteSearcher ⟨1, s, t⟩ X y = (c, ok ())) : knnPredict bruteSearcher c X = ok y := by
  unfold knnTrain at h
  split_ifs at h with h1 h2
  · simp at h
  · simp at h
  · simp only [bruteSearcher, bruteBuild, Prod.mk.injEq, and_true] at h
    subst h
    refine one_nn bruteSearcher (some X) hX hd (by simpa using h1) fun q hq => ?_
    exact C19_brute_force_exact X _ 1 le_rfl (not_lt.1 h2)

example : knnPredict bruteSearcher (knnTrain bruteSearcher ⟨1, none, none⟩ ⟨1, [[0], [5], [3]]⟩ [2, 0, 7]).1 (⟨1, [[0], [5], [3]]⟩ : Mat ℝ) = ok [2, 0, 7] :=
  C90_nearest_brute (s := none) (t := none) (by intro r hr; simp at hr; rcases hr with rfl | rfl | rfl <;> rfl) (by norm_num) rfl

/-- The same with a kd-tree, as long as all distances are below the largest float. -/
theorem C90_nearest_kd (t0 t : BinaryTree ℝ (List ℝ × List ℝ)) {X : Mat ℝ} (hX : X.WF) (hc : 0 < X.cols) (hd : X.rows.Nodup) {fuel : ℕ}
    (h : treeBuild kdKind fuel t0 X = some (ok t)) {y : List ℕ} (hy : X.rows.length = y.length)
    (hmax : ∀ u ∈ X.rows, ∀ v ∈ X.rows, eucl u v < 2 ^ 1024 - 2 ^ 971)
    (build : BinaryTree ℝ (List ℝ × List ℝ) → Mat ℝ → Outcome (BinaryTree ℝ (List ℝ × List ℝ))) :
    knnPredict ⟨build, treeSearch kdKind⟩ ⟨1, t, some y⟩ X = ok y := by
  refine one_nn _ t hX hd hy fun q hq => ?_
  have := C21_kd_search_two_partial t0 X hX hc fuel t h (X.rows.getD q []) (by rw [getD_row_length hX hq]) 1 le_rfl (by decide) (by omega)
    (fun i hi => by
      rw [C19_C21_C22_distance_is_euclidean, getD_lt [] hq, getD_lt [] hi]
      exact hmax _ (List.getElem_mem _) _ (List.getElem_mem _))
  simpa only [C19_C21_C22_distance_is_euclidean] using this

example (a b c : ℕ) (build : BinaryTree ℝ (List ℝ × List ℝ) → Mat ℝ → Outcome (BinaryTree ℝ (List ℝ × List ℝ))) :
    ∃ t, treeBuild kdKind 2 ⟨3, none, none⟩ lineData = some (ok t) ∧ knnPredict ⟨build, treeSearch kdKind⟩ ⟨1, t, some [a, b, c]⟩ lineData = ok [a, b, c] := by
  refine ⟨_, lineTree kdKind _ rfl, C90_nearest_kd ⟨3, none, none⟩ _ (by unfold Mat.WF lineData; simp) (by simp [lineData]) (by norm_num [lineData])
    (lineTree kdKind _ rfl) rfl ?_ build⟩
  have hbig : (11 : ℝ) < 2 ^ 1024 - 2 ^ 971 := by
    have h1 : (2 : ℝ) ^ 1024 = 2 ^ 971 * 2 ^ 53 := by rw [← pow_add]
    have h2 : (2 : ℝ) ^ 4 ≤ 2 ^ 971 := pow_le_pow_right₀ (by norm_num) (by norm_num)
    rw [h1]
    clear h1
    generalize (2 : ℝ) ^ 971 = z at h2
    norm_num at h2 ⊢
    linarith
  intro u hu v hv
  refine lt_of_le_of_lt ?_ hbig
  simp only [lineData, List.mem_cons, List.not_mem_nil, or_false] at hu hv
  rcases hu with rfl | rfl | rfl <;> rcases hv with rfl | rfl | rfl <;> rw [← C19_C21_C22_distance_is_euclidean, knnDist_line] <;> norm_num

/-- The same with a ball tree. -/
theorem C90_nearest_ball (t0 t : BinaryTree ℝ (List ℝ × ℝ)) {X : Mat ℝ} (hX : X.WF) (hc : 0 < X.cols) (hd : X.rows.Nodup) {fuel : ℕ}
    (h : treeBuild ballKind fuel t0 X = some (ok t)) {y : List ℕ} (hy : X.rows.length = y.length)
    (hmax : ∀ u ∈ X.rows, ∀ v ∈ X.rows, eucl u v < 2 ^ 1024 - 2 ^ 971)
    (build : BinaryTree ℝ (List ℝ × ℝ) → Mat ℝ → Outcome (BinaryTree ℝ (List ℝ × ℝ))) :
    knnPredict ⟨build, treeSearch ballKind⟩ ⟨1, t, some y⟩ X = ok y := by
  refine one_nn _ t hX hd hy fun q hq => ?_
  exact C22_ball_search_two_partial t0 X hX hc fuel t h (X.rows.getD q []) (by rw [getD_row_length hX hq]) 1 le_rfl (by decide) (by omega)
    (fun i hi => by
      rw [getD_lt [] hq, getD_lt [] hi]
      exact hmax _ (List.getElem_mem _) _ (List.getElem_mem _))

end RM
