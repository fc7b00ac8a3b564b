import Verif.Proofs.Pca
import Verif.Proofs.PcaAlg
import Verif.Proofs.SvdExists

/-! C56, C57, C69: principal component analysis. -/

namespace RM
open Outcome Scalar Spec Matrix
set_option linter.unusedSectionVars false

/-- A model no training has touched. -/
def Pca.Fresh (m : Pca ℝ) : Prop := m = Pca.default ∨ ∃ n center, m = Pca.new n center

theorem Pca.Fresh.inv {m : Pca ℝ} (h : m.Fresh) : m.inv = false := by
  rcases h with rfl | ⟨n, c, rfl⟩ <;> rfl

/-- The calls of `train` on a list of data sets: a rejected data set leaves the model as it was. -/
noncomputable def Pca.trainAll (svd : Mat ℝ → Outcome (Mat ℝ × Mat ℝ × Mat ℝ)) (m : Pca ℝ) : List (Mat ℝ) → Outcome (Pca ℝ)
  | [] => ok m
  | X :: Xs =>
    match m.train svd X with
    | ok m' => m'.trainAll svd Xs
    | err _ => m.trainAll svd Xs
    | .panic => .panic
    | .ub => .ub

variable {svd : Mat ℝ → Outcome (Mat ℝ × Mat ℝ × Mat ℝ)}

/-- C56: a trained model projects the centred data on orthonormal directions, which are the components: their columns when
there are at least as many samples as columns, and their rows otherwise. -/
theorem C56_predict (hs : SvdExact svd) {m m' : Pca ℝ} (hm : m.Fresh) {X : Mat ℝ} (hX : X.WF) (hp : Projectable m.n X)
    (h : m.train svd X = ok m') :
    ∃ W : Matrix (Fin X.cols) (Fin (keptComponents m.n X)) ℝ, Wᵀ * W = 1 ∧
      (∃ K, m'.getComponents = ok K ∧
        if X.rows.length < X.cols then HasShape K (keptComponents m.n X) X.cols ∧ toM (keptComponents m.n X) X.cols K = Wᵀ
        else HasShape K X.cols (keptComponents m.n X) ∧ toM X.cols (keptComponents m.n X) K = W) ∧
      ∀ Z, HasShape Z Z.rows.length X.cols → ∃ P, m'.predict Z = ok P ∧ HasShape P Z.rows.length (keptComponents m.n X) ∧
        toM Z.rows.length (keptComponents m.n X) P = centred m.center X Z * W := by
  obtain ⟨B, U, V, hsvd, hK, hZ⟩ := pca_core hs hX hp (Or.inl hm.inv) h
  exact ⟨_, submatrix_orthonormal hsvd.right _ (Fin.castLE_injective _), hK, hZ⟩

/-- C56: `PCA::default()` keeps all components and centres. -/
theorem C56_default (hs : SvdExact svd) {m' : Pca ℝ} {X : Mat ℝ} (hX : X.WF) (h : Pca.default.train svd X = ok m') :
    ∃ W : Matrix (Fin X.cols) (Fin (min X.rows.length X.cols)) ℝ, Wᵀ * W = 1 ∧
      ∀ Z, HasShape Z Z.rows.length X.cols → ∃ P, m'.predict Z = ok P ∧ HasShape P Z.rows.length (min X.rows.length X.cols) ∧
        toM Z.rows.length (min X.rows.length X.cols) P = centred true X Z * W := by
  obtain ⟨W, hW, -, hZ⟩ := C56_predict hs (Or.inl rfl) hX (Or.inr (Or.inl rfl)) h
  have hk : keptComponents (Pca.default : Pca ℝ).n X = min X.rows.length X.cols := by simp [keptComponents, Pca.default]
  rw [← hk]
  exact ⟨W, hW, hZ⟩

/-- C56: `PCA::new(k, center)` on at least as many samples as columns keeps `k` components, and centres as told. -/
theorem C56_new (hs : SvdExact svd) {k : ℕ} {center : Bool} {m' : Pca ℝ} {X : Mat ℝ} (hX : X.WF) (htall : X.cols ≤ X.rows.length)
    (hk : k ≤ X.cols) (h : (Pca.new k center).train svd X = ok m') :
    ∃ W : Matrix (Fin X.cols) (Fin k) ℝ, Wᵀ * W = 1 ∧
      ∀ Z, HasShape Z Z.rows.length X.cols → ∃ P, m'.predict Z = ok P ∧ HasShape P Z.rows.length k ∧
        toM Z.rows.length k P = centred center X Z * W := by
  obtain ⟨W, hW, -, hZ⟩ := C56_predict hs (Or.inr ⟨k, center, rfl⟩) hX (Or.inl htall) h
  have hk' : keptComponents (Pca.new k center : Pca ℝ).n X = k := by
    simp only [keptComponents, Pca.new, Option.getD_some]; omega
  generalize keptComponents (Pca.new k center : Pca ℝ).n X = p at *
  subst hk'
  exact ⟨W, hW, hZ⟩

/-- C56: with centring, the columns of the projected training data have mean zero. -/
theorem C56_mean_zero (hs : SvdExact svd) {m m' : Pca ℝ} (hm : m.Fresh) (hc : m.center = true) {X P : Mat ℝ} (hX : X.WF)
    (hp : Projectable m.n X) (h : m.train svd X = ok m') (hP : m'.predict X = ok P) : ∀ j < P.cols, mean (col P j) = 0 := by
  obtain ⟨W, -, -, hZ⟩ := C56_predict hs hm hX hp h
  obtain ⟨P', h1, h2, h3⟩ := hZ X (wf_shape hX)
  rw [hP] at h1
  injection h1 with h1
  subst h1
  intro j hj
  rw [h2.2.1] at hj
  have hcol : ∀ (M : Mat ℝ) (n : ℕ) (_ : M.rows.length = n) (j : ℕ), (col M j).sum = ∑ i : Fin n, ent M i j := by
    intro M n hn j
    subst hn
    rw [Spec.col, sum_eq_range (n := M.rows.length) (by simp), Finset.sum_range]
    refine Finset.sum_congr rfl fun i _ => ?_
    simp [ent]
  rw [mean, hcol P _ h2.1]
  have hent : ∀ i : Fin X.rows.length, ent P i j = ∑ k, centred true X X i k * W k ⟨j, hj⟩ := by
    intro i
    have e := congrFun (congrFun h3 i) ⟨j, hj⟩
    rw [toM_apply, Matrix.mul_apply, hc] at e
    exact e
  rw [Finset.sum_congr rfl fun i _ => hent i, Finset.sum_comm]
  have hz : ∀ k : Fin X.cols, ∑ i, centred true X X i k = 0 := by
    intro k
    have e1 : ∀ i : Fin X.rows.length, centred true X X i k = ent X i k - mean (col X k) := fun i => rfl
    rw [Finset.sum_congr rfl fun i _ => e1 i, Finset.sum_sub_distrib, ← hcol X _ rfl, mean]
    rcases Nat.eq_zero_or_pos X.rows.length with h0 | h0
    · have : X.rows = [] := List.length_eq_zero_iff.mp h0
      simp [Spec.col, this]
    · have : (X.rows.length : ℝ) ≠ 0 := by positivity
      simp only [Finset.sum_const, Finset.card_univ, Fintype.card_fin, nsmul_eq_mul, Spec.col, List.length_map]
      field_simp
      ring
  have : ∑ k, ∑ i, centred true X X i k * W k ⟨j, hj⟩ = 0 := by
    refine Finset.sum_eq_zero fun k _ => ?_
    rw [← Finset.sum_mul, hz, zero_mul]
  rw [this, zero_div]

/-- C56: all components kept and at least as many samples as columns: the distance of any two points is the distance of
their projections. -/
theorem C56_distances (hs : SvdExact svd) {m m' : Pca ℝ} (hm : m.Fresh) {X : Mat ℝ} (hX : X.WF)
    (hall : m.n = none ∨ m.n = some X.cols) (htall : X.cols ≤ X.rows.length) (h : m.train svd X = ok m')
    {Z P : Mat ℝ} (hZ : HasShape Z Z.rows.length X.cols) (hP : m'.predict Z = ok P) (i j : Fin Z.rows.length) :
    normSq (toM Z.rows.length X.cols P i - toM Z.rows.length X.cols P j) =
      normSq (toM Z.rows.length X.cols Z i - toM Z.rows.length X.cols Z j) := by
  have hk : keptComponents m.n X = X.cols := by
    rcases hall with h | h <;> simp [keptComponents, h, htall]
  obtain ⟨W, hW, -, hpr⟩ := C56_predict hs hm hX (Or.inl htall) h
  obtain ⟨P', h1, -, h3⟩ := hpr Z hZ
  rw [hP] at h1
  injection h1 with h1
  subst h1
  generalize keptComponents m.n X = p at *
  subst hk
  rw [h3]
  have hWW : W * Wᵀ = 1 := mul_eq_one_comm.mp hW
  have e : ∀ v : Fin X.cols → ℝ, normSq (v ᵥ* W) = normSq v := by
    intro v
    refine normSq_project W v ?_
    rw [Matrix.vecMul_vecMul, hWW, Matrix.vecMul_one]
  have e2 : (centred m.center X Z * W) i - (centred m.center X Z * W) j = (centred m.center X Z i - centred m.center X Z j) ᵥ* W := by
    rw [Matrix.sub_vecMul]
    rfl
  rw [e2, e]
  congr 1
  funext k
  simp only [centred, Matrix.of_apply, Pi.sub_apply, toM_apply, ent]
  ring

/-- C56: with all components kept the distances of the training points are kept, for any shape of the data. -/
theorem C56_training_distances (hs : SvdExact svd) {m m' : Pca ℝ} (hm : m.Fresh) {X P : Mat ℝ} (hX : X.WF)
    (hall : m.n = none ∨ m.n = some X.cols) (h : m.train svd X = ok m') (hP : m'.predict X = ok P)
    (i j : Fin X.rows.length) :
    normSq (toM X.rows.length (min X.rows.length X.cols) P i - toM X.rows.length (min X.rows.length X.cols) P j) =
      normSq (toM X.rows.length X.cols X i - toM X.rows.length X.cols X j) := by
  have hk : keptComponents m.n X = min X.rows.length X.cols := by
    rcases hall with h | h <;> simp [keptComponents, h]
  obtain ⟨B, U, V, hsvd, -, hpr⟩ := pca_core hs hX (Or.inr hall) (Or.inl hm.inv) h
  obtain ⟨P', h1, -, h3⟩ := hpr X (wf_shape hX)
  rw [hP] at h1
  injection h1 with h1
  subst h1
  have h4 : toM X.rows.length (min X.rows.length X.cols) P = centred m.center X X * V := by
    have gen : ∀ (p : ℕ) (hle : p ≤ min X.rows.length X.cols), p = min X.rows.length X.cols →
        toM X.rows.length p P = centred m.center X X * V.submatrix id (Fin.castLE hle) →
        toM X.rows.length (min X.rows.length X.cols) P = centred m.center X X * V := by
      rintro p hle rfl h
      exact h
    exact gen _ _ hk h3
  rw [h4]
  have e2 : (centred m.center X X * V) i - (centred m.center X X * V) j = (centred m.center X X i - centred m.center X X j) ᵥ* V := by
    rw [Matrix.sub_vecMul]
    rfl
  have e3 : ((centred m.center X X i - centred m.center X X j) ᵥ* V) ᵥ* Vᵀ = centred m.center X X i - centred m.center X X j := by
    have hk := svd_keeps hsvd
    have hr : ∀ i, (centred m.center X X i ᵥ* V) ᵥ* Vᵀ = centred m.center X X i := by
      intro i
      conv_rhs => rw [← hk]
      rfl
    rw [Matrix.sub_vecMul, Matrix.sub_vecMul, hr, hr]
  rw [e2, normSq_project V _ e3]
  congr 1
  funext k
  simp only [centred, Matrix.of_apply, Pi.sub_apply, toM_apply, ent]
  ring

/-- C56: data of another width than the training data is rejected. -/
theorem C56_width {m m' : Pca ℝ} {X Z : Mat ℝ} (h : m.train svd X = ok m') (hw : Z.cols ≠ X.cols) :
    m'.predict Z = err .InvalidData := by
  have hf : m'.nFeatures = some X.cols := by
    rw [Pca.train] at h
    split at h
    · simp at h
    · obtain ⟨⟨D, cs⟩, -, h⟩ := bind_eq_ok.mp h
      obtain ⟨⟨B, U, V⟩, -, h⟩ := bind_eq_ok.mp h
      obtain ⟨K, -, h⟩ := bind_eq_ok.mp h
      injection h with h
      rw [← h]
  rw [Pca.predict, hf]
  simp only
  rw [if_pos (Ne.symm hw)]

/-- C56: training fails exactly when more components than columns are asked for, and then with `InvalidData`. -/
theorem C56_train (hs : SvdExact svd) (ht : SvdTotal svd) (m : Pca ℝ) {X : Mat ℝ} (hX : X.WF) :
    if ∃ k, m.n = some k ∧ X.cols < k then m.train svd X = err .InvalidData else ∃ m', m.train svd X = ok m' := by
  have hiff : (∃ k, m.n = some k ∧ X.cols < k) ↔ tooManyComponents m.n X.cols = true := by
    cases m.n <;> simp [tooManyComponents]
  split
  · rename_i h
    rw [Pca.train, if_pos (hiff.mp h)]
  · rename_i h
    rw [hiff] at h
    rw [Pca.train, if_neg h]
    obtain ⟨D, h1, h2, -⟩ := prepare_ok (m := m) hX
    obtain ⟨B, U, V, h3⟩ := ht D _ _ h2
    obtain ⟨-, -, hV, -⟩ := hs D B U V _ _ h2 h3
    rw [h1, ok_bind]
    simp only [h3, expectOk, ok_bind, decide_eq_true_eq]
    have hsel : ∃ K, selectComponents m.n (if X.rows.length < X.cols then V.transpose else V) = ok K := by
      cases hn : m.n with
      | none => exact ⟨_, rfl⟩
      | some k =>
        rw [hn] at h
        have hk : k ≤ X.cols := by simpa [tooManyComponents] using h
        by_cases hw : X.rows.length < X.cols
        · rw [if_pos hw]
          obtain ⟨K, hK, -⟩ := firstCols_toM (transpose_toM hV).1 hk
          exact ⟨K, hK⟩
        · rw [if_neg hw]
          obtain ⟨K, hK, -⟩ := firstCols_toM hV (k := k) (by omega)
          exact ⟨K, hK⟩
    obtain ⟨K, hK⟩ := hsel
    rw [hK]
    exact ⟨_, rfl⟩

/-- C56: before training there are no components and no predictions. -/
theorem C56_untrained {m : Pca ℝ} (hm : m.Fresh) (Z : Mat ℝ) :
    m.predict Z = err .UntrainedModel ∧ m.getComponents = err .UntrainedModel := by
  rcases hm with rfl | ⟨n, c, rfl⟩ <;> exact ⟨rfl, rfl⟩

/-- C69: the projected columns of the training data are orthogonal (uncorrelated, when the data is centred), with sums of
squares that do not increase. -/
theorem C69_uncorrelated (hs : SvdExact svd) {m m' : Pca ℝ} (hm : m.Fresh) {X P : Mat ℝ} (hX : X.WF) (hp : Projectable m.n X)
    (h : m.train svd X = ok m') (hP : m'.predict X = ok P) :
    ∃ lam : Fin (keptComponents m.n X) → ℝ, Antitone lam ∧
      (toM X.rows.length (keptComponents m.n X) P)ᵀ * toM X.rows.length (keptComponents m.n X) P = Matrix.diagonal lam := by
  obtain ⟨B, U, V, hsvd, -, hpr⟩ := pca_core hs hX hp (Or.inl hm.inv) h
  obtain ⟨P', h1, -, h3⟩ := hpr X (wf_shape hX)
  rw [hP] at h1
  injection h1 with h1
  subst h1
  obtain ⟨lam, e1, e2, -, -⟩ := svd_scores hsvd (kept_le m.n X)
  exact ⟨lam, e2, by rw [h3, e1]⟩

/-- C69: no orthonormal directions capture more of the training data's variance. -/
theorem C69_most_variance (hs : SvdExact svd) {m m' : Pca ℝ} (hm : m.Fresh) {X P : Mat ℝ} (hX : X.WF) (hp : Projectable m.n X)
    (h : m.train svd X = ok m') (hP : m'.predict X = ok P) (Q : Matrix (Fin X.cols) (Fin (keptComponents m.n X)) ℝ)
    (hQ : Qᵀ * Q = 1) : frobSq (centred m.center X X * Q) ≤ frobSq (toM X.rows.length (keptComponents m.n X) P) := by
  obtain ⟨B, U, V, hsvd, -, hpr⟩ := pca_core hs hX hp (Or.inl hm.inv) h
  obtain ⟨P', h1, -, h3⟩ := hpr X (wf_shape hX)
  rw [hP] at h1
  injection h1 with h1
  subst h1
  rw [h3]
  exact svd_captures hsvd (kept_le m.n X) Q hQ

/-- C69: going back from the projections along the components loses no more than with any other orthonormal directions. -/
theorem C69_reconstruction (hs : SvdExact svd) {m m' : Pca ℝ} (hm : m.Fresh) {X P K : Mat ℝ} (hX : X.WF)
    (htall : X.cols ≤ X.rows.length) (h : m.train svd X = ok m') (hP : m'.predict X = ok P) (hK : m'.getComponents = ok K)
    (Q : Matrix (Fin X.cols) (Fin (keptComponents m.n X)) ℝ) (hQ : Qᵀ * Q = 1) :
    frobSq (centred m.center X X - toM X.rows.length (keptComponents m.n X) P * (toM X.cols (keptComponents m.n X) K)ᵀ) ≤
      frobSq (centred m.center X X - centred m.center X X * Q * Qᵀ) := by
  obtain ⟨B, U, V, hsvd, ⟨K', k1, k2⟩, hpr⟩ := pca_core hs hX (Or.inl htall) (Or.inl hm.inv) h
  obtain ⟨P', h1, -, h3⟩ := hpr X (wf_shape hX)
  rw [hP] at h1
  injection h1 with h1
  subst h1
  rw [hK] at k1
  injection k1 with k1
  subst k1
  rw [if_neg (by omega)] at k2
  rw [h3, k2.2, residual _ hQ, residual _ (submatrix_orthonormal hsvd.right _ (Fin.castLE_injective _))]
  have := svd_captures hsvd (kept_le m.n X) Q hQ
  linarith

/-- The calls of `train` keep the number of components, the centring, and, on data with at least as many samples as columns,
the orientation. -/
theorem trainAll_keeps {m m' : Pca ℝ} {Xs : List (Mat ℝ)} (h : m.trainAll svd Xs = ok m') :
    m'.n = m.n ∧ m'.center = m.center ∧ ((∀ X ∈ Xs, X.cols ≤ X.rows.length) → m'.inv = m.inv) := by
  induction Xs generalizing m with
  | nil =>
    injection h with h
    subst h
    exact ⟨rfl, rfl, fun _ => rfl⟩
  | cons X Xs ih =>
    rw [Pca.trainAll] at h
    cases ht : m.train svd X with
    | ok m1 =>
      rw [ht] at h
      obtain ⟨h1, h2, h3⟩ := ih h
      rw [Pca.train] at ht
      split at ht
      · simp at ht
      · obtain ⟨⟨D, cs⟩, -, ht⟩ := bind_eq_ok.mp ht
        obtain ⟨⟨B, U, V⟩, -, ht⟩ := bind_eq_ok.mp ht
        obtain ⟨K, -, ht⟩ := bind_eq_ok.mp ht
        injection ht with ht
        subst ht
        refine ⟨h1, h2, fun hall => ?_⟩
        rw [h3 fun Y hY => hall Y (List.mem_cons_of_mem _ hY)]
        have := hall X List.mem_cons_self
        simp [this]
    | err e =>
      rw [ht] at h
      obtain ⟨h1, h2, h3⟩ := ih h
      exact ⟨h1, h2, fun hall => h3 fun Y hY => hall Y (List.mem_cons_of_mem _ hY)⟩
    | panic => rw [ht] at h; simp at h
    | ub => rw [ht] at h; simp at h

/-- C57 (partial): a model trained before only on data with at least as many samples as columns, or now trained on wider data,
predicts as a new model with the same settings trained on the last data. Missing: wide data followed by data that is not, where the
property fails (`C57_violation`). -/
theorem C57_retrain_partial (hs : SvdExact svd) {m m1 m2 m' : Pca ℝ} (hm : m.Fresh) {Xs : List (Mat ℝ)} {X : Mat ℝ} (hX : X.WF)
    (hist : m.trainAll svd Xs = ok m1) (hshape : (∀ Y ∈ Xs, Y.cols ≤ Y.rows.length) ∨ X.rows.length < X.cols)
    (h1 : m1.train svd X = ok m2) (h2 : m.train svd X = ok m') :
    (∀ Z, m2.predict Z = m'.predict Z) ∧ m2.getComponents = m'.getComponents := by
  obtain ⟨e1, e2, e3⟩ := trainAll_keeps hist
  have hi : (if X.rows.length < X.cols then true else m1.inv) = if X.rows.length < X.cols then true else m.inv := by
    split
    · rfl
    · rename_i hw
      rcases hshape with h | h
      · exact e3 h
      · exact absurd h hw
  have hcen : ∀ (a b : Pca ℝ), a.center = b.center → a.prepare X >>= (fun p => ok p.1) = b.prepare X >>= fun p => ok p.1 := by
    intro a b hab
    simp only [Pca.prepare, hab]
    split
    · cases centering X X.meanRow <;> rfl
    · rfl
  obtain ⟨D, d1, -, -⟩ := prepare_ok (m := m1) hX
  obtain ⟨D', d2, -, -⟩ := prepare_ok (m := m) hX
  have hD : D = D' := by
    have := hcen m1 m e2
    rw [d1, d2] at this
    simpa using this
  subst hD
  rw [Pca.train, e1] at h1
  rw [Pca.train] at h2
  split at h1
  · simp at h1
  · rename_i hk
    rw [if_neg hk] at h2
    rw [d1, ok_bind] at h1
    rw [d2, ok_bind] at h2
    obtain ⟨⟨B, U, V⟩, hsv, h1⟩ := bind_eq_ok.mp h1
    simp only [decide_eq_true_eq] at h1
    simp only [hsv, ok_bind, decide_eq_true_eq] at h2
    obtain ⟨K, hK, h1⟩ := bind_eq_ok.mp h1
    rw [hK, ok_bind] at h2
    injection h1 with h1
    injection h2 with h2
    subst h1
    subst h2
    refine ⟨fun Z => ?_, rfl⟩
    simp only [Pca.predict, Pca.project, e2, hi]
    by_cases hc : m.center = true
    · simp only [hc, if_true]
    · simp only [hc]
      rfl

/-- The right singular vectors of this matrix are a cyclic permutation, which is not its own transpose. -/
theorem not_symmetric {B U V : Matrix (Fin 3) (Fin 3) ℝ} (h : IsSvd (Matrix.diagonal ![1, 3, 2]) B U V) : Vᵀ ≠ V := by
  intro hsym
  obtain ⟨lam, -, hanti, -, heig⟩ := svd_scores h (le_refl 3)
  have hV := h.right
  have e : ∀ i j : Fin 3, ![1, 9, 4] i * V i j = V i j * lam j := by
    intro i j
    have h1 := congrFun (congrFun heig i) j
    rw [Matrix.mul_diagonal, Matrix.diagonal_transpose, Matrix.diagonal_mul_diagonal, Matrix.diagonal_mul] at h1
    rw [← show (![1, 3, 2] i * ![1, 3, 2] i : ℝ) = ![1, 9, 4] i by fin_cases i <;> norm_num]
    exact h1
  have o : ∀ i j : Fin 3, V 0 i * V 0 j + V 1 i * V 1 j + V 2 i * V 2 j = if i = j then 1 else 0 := by
    intro i j
    have h1 := congrFun (congrFun hV i) j
    rw [Matrix.mul_apply, Fin.sum_univ_three, Matrix.one_apply] at h1
    exact h1
  have s : ∀ i j : Fin 3, V i j = V j i := fun i j => congrFun (congrFun hsym j) i
  have a1 : lam 1 ≤ lam 0 := hanti (by decide)
  have a2 : lam 2 ≤ lam 1 := hanti (by decide)
  have z : ∀ i j : Fin 3, lam j ≠ ![1, 9, 4] i → V i j = 0 := by
    intro i j hne
    have h1 := e i j
    have : V i j * (lam j - ![1, 9, 4] i) = 0 := by linarith
    rcases mul_eq_zero.mp this with h | h
    · exact h
    · exact absurd (by linarith) hne
  have z0 : ∀ j : Fin 3, lam j ≠ 1 → V 0 j = 0 := fun j hj => z 0 j hj
  have z1 : ∀ j : Fin 3, lam j ≠ 9 → V 1 j = 0 := fun j hj => z 1 j hj
  have z2 : ∀ j : Fin 3, lam j ≠ 4 → V 2 j = 0 := fun j hj => z 2 j hj
  have val : ∀ j : Fin 3, lam j = 1 ∨ lam j = 9 ∨ lam j = 4 := by
    intro j
    by_contra hc
    push Not at hc
    have h0 := o j j
    rw [z0 j hc.1, z1 j hc.2.1, z2 j hc.2.2] at h0
    simp at h0
  have inj : ∀ i j : Fin 3, i ≠ j → lam i ≠ lam j := by
    intro i j hij heq
    have hi := o i i
    have hj := o j j
    have hc := o i j
    rw [if_pos rfl] at hi hj
    rw [if_neg hij] at hc
    rcases val i with h | h | h
    · have h' := heq ▸ h
      rw [z1 i (by rw [h]; norm_num), z2 i (by rw [h]; norm_num)] at hi hc
      rw [z1 j (by rw [h']; norm_num), z2 j (by rw [h']; norm_num)] at hj
      nlinarith
    · have h' := heq ▸ h
      rw [z0 i (by rw [h]; norm_num), z2 i (by rw [h]; norm_num)] at hi hc
      rw [z0 j (by rw [h']; norm_num), z2 j (by rw [h']; norm_num)] at hj
      nlinarith
    · have h' := heq ▸ h
      rw [z0 i (by rw [h]; norm_num), z1 i (by rw [h]; norm_num)] at hi hc
      rw [z0 j (by rw [h']; norm_num), z1 j (by rw [h']; norm_num)] at hj
      nlinarith
  have l0 : lam 0 = 9 := by
    have i1 := inj 0 1 (by decide)
    have i2 := inj 0 2 (by decide)
    have i3 := inj 1 2 (by decide)
    rcases val 0 with h0 | h0 | h0 <;> rcases val 1 with h1 | h1 | h1 <;> rcases val 2 with h2 | h2 | h2 <;>
      simp only [h0, h1, h2] at * <;> first | rfl | (exfalso; first | exact i1 rfl | exact i2 rfl | exact i3 rfl | linarith)
  have l1 : lam 1 ≠ 1 := by
    intro h1
    have i3 := inj 1 2 (by decide)
    rcases val 2 with h2 | h2 | h2
    · exact i3 (by rw [h1, h2])
    · linarith
    · linarith
  have h0 := o 0 0
  rw [z0 0 (by rw [l0]; norm_num), z2 0 (by rw [l0]; norm_num), s 1 0, z0 1 (by simpa using l1)] at h0
  simp at h0

/-- Two samples with three columns. -/
def wideData : Mat ℝ := ⟨3, [[1, 0, 0], [0, 1, 0]]⟩

/-- Three samples with three columns. -/
def squareData : Mat ℝ := ⟨3, [[1, 0, 0], [0, 3, 0], [0, 0, 2]]⟩

/-- C57 fails: whatever singular value decomposition is used, a model trained on two samples and then on three does not predict
as a new model trained on the three. -/
theorem C57_violation (hs : SvdExact svd) (ht : SvdTotal svd) :
    ∃ (m1 m2 m' : Pca ℝ), (Pca.new 3 false).train svd wideData = ok m1 ∧ m1.train svd squareData = ok m2 ∧
      (Pca.new 3 false).train svd squareData = ok m' ∧ m2.predict squareData ≠ m'.predict squareData := by
  have hw1 : wideData.WF := by simp [Mat.WF, wideData]
  have hw2 : squareData.WF := by simp [Mat.WF, squareData]
  have t1 := C56_train hs ht (Pca.new 3 false) hw1
  rw [if_neg (by simp [Pca.new, wideData])] at t1
  obtain ⟨m1, t1⟩ := t1
  obtain ⟨-, -, -, -, K1, -, -, -, e1⟩ := train_parts hs hw1 t1
  have hsh : HasShape squareData 3 3 := wf_shape hw2
  obtain ⟨B, U, V, hsv⟩ := ht squareData 3 3 hsh
  obtain ⟨-, -, hV, hsvd⟩ := hs squareData B U V 3 3 hsh hsv
  obtain ⟨K, k1, k2, k3⟩ := firstCols_toM hV (k := 3) (le_refl 3)
  have hT : ∀ m : Pca ℝ, m.n = some 3 → m.center = false → m.train svd squareData = ok ⟨some 3, false, some 3, m.centers, some K, m.inv⟩ := by
    intro m h1 h2
    have h3 : squareData.cols = 3 := rfl
    have h4 : squareData.rows.length = 3 := rfl
    have h5 : tooManyComponents m.n squareData.cols = false := by rw [h1]; rfl
    have h6 : m.prepare squareData = ok (squareData, m.centers) := by simp [Pca.prepare, h2]
    rw [Pca.train, if_neg (by simp [h5]), h6, ok_bind]
    simp only [hsv, expectOk, ok_bind, h3, h4, lt_irrefl, decide_false, Bool.false_eq_true, if_false, h1, selectComponents, k1, h2]
  refine ⟨m1, _, _, t1, hT m1 (by rw [e1]; rfl) (by rw [e1]; rfl), hT _ rfl rfl, ?_⟩
  have hi : m1.inv = true := by rw [e1]; rfl
  obtain ⟨hKt, hKt'⟩ := transpose_toM k2
  obtain ⟨P1, p1, q1, r1⟩ := mul_toM hsh hKt
  obtain ⟨P2, p2, q2, r2⟩ := mul_toM hsh k2
  have g1 : Pca.predict ⟨some 3, false, some 3, m1.centers, some K, m1.inv⟩ squareData = ok P1 := by
    simp only [Pca.predict, Pca.project, hi, if_true]
    exact p1
  have g2 : Pca.predict ⟨some 3, false, some 3, (Pca.new 3 false : Pca ℝ).centers, some K, (Pca.new 3 false : Pca ℝ).inv⟩ squareData = ok P2 := p2
  rw [g1, g2]
  intro heq
  injection heq with heq
  subst heq
  have hd : toM 3 3 squareData = Matrix.diagonal ![1, 3, 2] := by
    ext i j
    fin_cases i <;> fin_cases j <;> simp [toM_apply, ent, squareData]
  have hVK : toM 3 3 K = toM 3 3 V := k3
  have hsvd' : IsSvd (toM 3 3 squareData) (toM 3 3 B) (toM 3 3 U) (toM 3 3 V) := hsvd
  rw [hd] at hsvd'
  refine not_symmetric hsvd' ?_
  rw [hKt', r2, hVK, hd] at r1
  ext i j
  have h := congrFun (congrFun r1 i) j
  rw [Matrix.diagonal_mul, Matrix.diagonal_mul] at h
  have hne : (![1, 3, 2] i : ℝ) ≠ 0 := by fin_cases i <;> norm_num
  exact (mul_left_cancel₀ hne h).symm

/-- C57: there is a decomposition `C57_violation` is about. -/
example : ∃ (m1 m2 m' : Pca ℝ), (Pca.new 3 false).train someSvd wideData = ok m1 ∧ m1.train someSvd squareData = ok m2 ∧
    (Pca.new 3 false).train someSvd squareData = ok m' ∧ m2.predict squareData ≠ m'.predict squareData :=
  C57_violation someSvd_exact someSvd_total

/-- C57: on data with fewer samples than columns, and fewer components than columns asked for, training succeeds and every
prediction panics: not the components are restricted but the columns. -/
theorem C57_wide_restricted_violation (hs : SvdExact svd) (ht : SvdTotal svd) {m : Pca ℝ} (hm : m.Fresh) {X : Mat ℝ} (hX : X.WF)
    (hw : X.rows.length < X.cols) {k : ℕ} (hn : m.n = some k) (hk : k < X.cols) :
    ∃ m', m.train svd X = ok m' ∧ ∀ Z, HasShape Z Z.rows.length X.cols → m'.predict Z = Outcome.panic := by
  have t1 := C56_train hs ht m hX
  rw [if_neg (by rw [hn]; rintro ⟨k', h1, h2⟩; injection h1 with h1; omega)] at t1
  obtain ⟨m', t1⟩ := t1
  refine ⟨m', t1, fun Z hZ => ?_⟩
  obtain ⟨-, B, U, V, K, hV, hsvd, hK, rfl⟩ := train_parts hs hX t1
  rw [if_pos hw, hn, selectComponents] at hK
  obtain ⟨K', k1, k2, -⟩ := firstCols_toM (transpose_toM hV).1 hk.le
  rw [k1] at hK
  injection hK with hK
  subst hK
  have hp : ∀ D, HasShape D Z.rows.length X.cols → D.mul K'.transpose = Outcome.panic := by
    intro D hD
    rw [Mat.mul, if_neg]
    rw [hD.2.1, (transpose_toM k2).1.1]
    omega
  simp only [Pca.predict, hZ.2.1, ne_eq, not_true_eq_false, if_false, Pca.project, if_pos hw]
  cases hc : m.center with
  | false => simpa using hp Z hZ
  | true =>
    obtain ⟨D, d1, d2, -⟩ := centering_centred hX hZ
    simp only [if_true, d1, ok_bind]
    exact hp D d2

/-- The hypotheses of C56 and C69 are met: three samples with three columns, two components. -/
example : ∃ m' : Pca ℝ, (Pca.new 2 true).train someSvd squareData = ok m' ∧ (Pca.new 2 true : Pca ℝ).Fresh ∧ squareData.WF ∧
    Projectable (Pca.new 2 true : Pca ℝ).n squareData ∧ keptComponents (Pca.new 2 true : Pca ℝ).n squareData = 2 := by
  have hw : squareData.WF := by simp [Mat.WF, squareData]
  have t := C56_train someSvd_exact someSvd_total (Pca.new 2 true) hw
  rw [if_neg (by simp [Pca.new, squareData])] at t
  obtain ⟨m', t⟩ := t
  exact ⟨m', t, Or.inr ⟨2, true, rfl⟩, hw, Or.inl (le_refl 3), rfl⟩

/-- The hypotheses of C56 and C69 are met with all components and fewer samples than columns. -/
example : ∃ m' : Pca ℝ, Pca.default.train someSvd wideData = ok m' ∧ (Pca.default : Pca ℝ).Fresh ∧ wideData.WF ∧
    Projectable (Pca.default : Pca ℝ).n wideData ∧ keptComponents (Pca.default : Pca ℝ).n wideData = 2 := by
  have hw : wideData.WF := by simp [Mat.WF, wideData]
  have t := C56_train someSvd_exact someSvd_total Pca.default hw
  rw [if_neg (by simp [Pca.default])] at t
  obtain ⟨m', t⟩ := t
  exact ⟨m', t, Or.inl rfl, hw, Or.inr (Or.inl rfl), rfl⟩

/-- The hypotheses of `C57_retrain_partial` are met: three samples, then two. -/
example : ∃ m1 m2 m' : Pca ℝ, (Pca.new 3 true).trainAll someSvd [squareData] = ok m1 ∧ m1.train someSvd wideData = ok m2 ∧
    (Pca.new 3 true).train someSvd wideData = ok m' ∧ ∀ Z, m2.predict Z = m'.predict Z := by
  have hw1 : wideData.WF := by simp [Mat.WF, wideData]
  have hw2 : squareData.WF := by simp [Mat.WF, squareData]
  have t1 := C56_train someSvd_exact someSvd_total (Pca.new 3 true) hw2
  rw [if_neg (by simp [Pca.new, squareData])] at t1
  obtain ⟨m1, t1⟩ := t1
  have h1 : (Pca.new 3 true).trainAll someSvd [squareData] = ok m1 := by
    rw [Pca.trainAll, t1]; rfl
  have t2 := C56_train someSvd_exact someSvd_total m1 hw1
  rw [if_neg (by rw [(trainAll_keeps h1).1]; simp [Pca.new, wideData])] at t2
  obtain ⟨m2, t2⟩ := t2
  have t3 := C56_train someSvd_exact someSvd_total (Pca.new 3 true) hw1
  rw [if_neg (by simp [Pca.new, wideData])] at t3
  obtain ⟨m', t3⟩ := t3
  exact ⟨m1, m2, m', h1, t2, t3,
    (C57_retrain_partial someSvd_exact (Or.inr ⟨3, true, rfl⟩) hw1 h1 (Or.inr (by decide)) t2 t3).1⟩

end RM
