import Verif.Proofs.Gp
import Verif.Props.Kernel

/-! C59: Gaussian process regression.

The kernel and the mean are arbitrary functions (open traits); the Cholesky decomposition and the triangular solvers of the
linear algebra library are assumed to meet the contracts of Spec/Cholesky, which `choleskyFactor` and Gaussian elimination
meet (`exactLib`). -/

namespace RM
open Outcome Scalar Spec Matrix

/-- An implementation of the library functions that meets the contracts. -/
noncomputable def exactLib : TriLib ℝ := ⟨choleskyFactor, gaussSolve 0, gaussSolve 0⟩

theorem exactLib_ok : TriLibOk exactLib := ⟨choleskyFactor_exact, choleskyFactor_posDef, gauss_lower, gauss_upper⟩

example : CholeskyReports exactLib.cholesky := choleskyFactor_reports

/-- The value of a kernel. -/
noncomputable def kernelValue (K : Kernel ℝ) (u v : List ℝ) : ℝ := match K u v with | .ok a => a | _ => 0

/-- Every kernel that can be built with the library is a symmetric function, and the constant mean has one value per row. -/
theorem C59_kernels {K : Kernel ℝ} (h : Built K) : IsKernel K (kernelValue K) := by
  constructor
  · intro u v huv
    rcases (C60_panics u v).1 K h with ⟨a, ha⟩ | ⟨_, hne⟩
    · unfold kernelValue; rw [ha]
    · exact absurd huv hne
  · intro u v _
    unfold kernelValue
    rw [C60_symmetric h u v]

theorem C59_mean (a : ℝ) : MeanSized (constMean a) ∧ ∀ X : Mat ℝ, ∀ m ∈ constMean a X, m = a := by
  constructor
  · intro X; simp [constMean]
  · intro X m hm
    have := List.eq_of_mem_replicate hm
    rw [this]
    exact zero_add a

theorem bilin {n m : ℕ} (v : Fin n → ℝ) (M : Matrix (Fin n) (Fin m) ℝ) (u : Fin m → ℝ) : v ⬝ᵥ M.mulVec u = ∑ i, ∑ j, v i * u j * M i j := by
  simp only [dotProduct, Matrix.mulVec, Finset.mul_sum]
  exact Finset.sum_congr rfl fun i _ => Finset.sum_congr rfl fun j _ => by ring

section
variable {lib : TriLib ℝ} (hl : TriLibOk lib) {g g' : Gp ℝ} {k : List ℝ → List ℝ → ℝ} (hk : IsKernel g.ker k) (hm : MeanSized g.mean)
  {X : Mat ℝ} (hX : X.WF) {y : List ℝ}
include hl hk hm hX

/-- After training, the prediction for the rows of `Z` is `m(Z) + k(Z, X) (k(X, X) + noise I)⁻¹ (y - m(X))`. -/
theorem C59_predict (h : g.train lib X y = ok g') {Z : Mat ℝ} (hZ : Z.WF) (hc : Z.cols = X.cols) :
    ∃ p, g'.predict Z = ok p ∧ p.length = Z.rows.length ∧
      toV _ p = toV _ (g.mean Z) + (gram k Z X).mulVec ((noisyGram k g.noise X)⁻¹.mulVec (toV _ y - toV _ (g.mean X))) :=
  gp_predict_trained hl hk hm hX h hZ hc

/-- The matrix inverted in the prediction is invertible. -/
theorem C59_regular (h : g.train lib X y = ok g') : IsUnit (noisyGram k g.noise X) := by
  obtain ⟨l, alpha, e, h1, h2, h3, h4, hy, hpd, ha, hA⟩ := gp_alpha hl hk hm hX h
  exact (Matrix.isUnit_iff_isUnit_det _).mpr (isUnit_iff_ne_zero.mpr (posDefinite_det hpd))

/-- On the training data the residuals are the noise times the weights; with zero noise the predictions are the targets. -/
theorem C59_interpolates (h : g.train lib X y = ok g') :
    (∃ p, g'.predict X = ok p ∧ toV X.rows.length y - toV _ p = g.noise • (noisyGram k g.noise X)⁻¹.mulVec (toV _ y - toV _ (g.mean X))) ∧
    (g.noise = 0 → g'.predict X = ok y) := by
  obtain ⟨p, p1, p2, p3⟩ := C59_predict hl hk hm hX h hX rfl
  have hu := (Matrix.isUnit_iff_isUnit_det _).mp (C59_regular hl hk hm hX h)
  obtain ⟨l, alpha, e, h1, h2, h3, h4, hy, hpd, ha, hA⟩ := gp_alpha hl hk hm hX h
  have hres : toV X.rows.length y - toV _ p = g.noise • (noisyGram k g.noise X)⁻¹.mulVec (toV _ y - toV _ (g.mean X)) := by
    have hsplit : gram k X X = noisyGram k g.noise X - g.noise • 1 := by unfold noisyGram; rw [add_sub_cancel_right]
    rw [p3, hsplit, Matrix.sub_mulVec, Matrix.mulVec_mulVec, Matrix.mul_nonsing_inv _ hu, Matrix.one_mulVec, Matrix.smul_mulVec, Matrix.one_mulVec]
    abel
  refine ⟨⟨p, p1, hres⟩, ?_⟩
  intro h0
  rw [h0, zero_smul] at hres
  rw [p1, toV_inj p2 hy (sub_eq_zero.mp hres).symm]

/-- Training with one target per row succeeds exactly when the covariance of the noisy observations is positive definite;
otherwise it returns an error. -/
theorem C59_train_iff (hy : y.length = X.rows.length) :
    ((∃ g', g.train lib X y = ok g') ↔ PosDefinite (noisyGram k g.noise X)) ∧
    (CholeskyReports lib.cholesky → ¬ PosDefinite (noisyGram k g.noise X) → g.train lib X y = err .InvalidState) := by
  obtain ⟨G, g1, g2, g3⟩ := kerMat_gram hk hX hX rfl
  obtain ⟨n1, n2⟩ := scaledIdentity_toM X.rows.length g.noise
  obtain ⟨A, a1, a2, a3⟩ := zip_toM Scalar.add g2 n1
  have hA : toM X.rows.length X.rows.length A = noisyGram k g.noise X := by
    ext i j
    rw [a3, g3, n2]
    rfl
  have htrain : (∃ L, lib.cholesky A = ok L) → ∃ g', g.train lib X y = ok g' := by
    rintro ⟨l, hc⟩
    obtain ⟨c1, c2, c3, c4⟩ := hl.exact A l _ a2 (by rw [hA]; exact noisyGram_symm hk hX _) hc
    have hr : vecZip Scalar.sub y (g.mean X) = ok (List.zipWith Scalar.sub y (g.mean X)) := by
      unfold vecZip
      rw [if_pos (hy.trans (hm X).symm)]
    obtain ⟨x, x1, x2, -⟩ := hl.lower l (List.zipWith Scalar.sub y (g.mean X)) _ c1 c2 (fun i => (c3 i).ne') (by simp [hy, hm X])
    obtain ⟨t1, t2⟩ := transpose_toM c1
    obtain ⟨b, b1, -, -⟩ := hl.upper l.transpose x _ t1 (by rw [t2, transpose_transpose]; exact c2) (by intro i; rw [t2]; exact (c3 i).ne') x2
    refine ⟨{ g with trainMat := some l, trainData := some X, alpha := some b }, ?_⟩
    unfold Gp.train
    rw [g1]
    simp only [expectOk, ok_bind]
    rw [a1, ok_bind, hc]
    simp only [orInvalidState, ok_bind]
    rw [hr, ok_bind, x1]
    simp only [ok_bind]
    rw [b1]
    rfl
  have hiff : (∃ g', g.train lib X y = ok g') ↔ PosDefinite (noisyGram k g.noise X) := by
    constructor
    · rintro ⟨g', h⟩
      obtain ⟨l, alpha, e, h1, h2, h3, h4, hy, hpd, ha, hA⟩ := gp_alpha hl hk hm hX h
      exact hpd
    · intro hpd
      exact htrain (hl.total A _ a2 (by rw [hA]; exact hpd))
  refine ⟨hiff, ?_⟩
  intro htot hnot
  rcases htot A _ a2 with hok | ⟨e, he⟩
  · exact absurd (hiff.mp (htrain hok)) hnot
  · unfold Gp.train
    rw [g1]
    simp only [expectOk, ok_bind]
    rw [a1, ok_bind, he]
    rfl

/-- With a positive semi-definite kernel (all those of `C61_gram`) and positive noise, training with one target per row never
fails. -/
theorem C59_train_psd (hp : PSDKernel g.ker X.cols) (hn : 0 < g.noise) (hy : y.length = X.rows.length) : ∃ g', g.train lib X y = ok g' := by
  rw [(C59_train_iff hl hk hm hX hy).1]
  refine ⟨noisyGram_symm hk hX _, ?_⟩
  intro v hv
  obtain ⟨G, hG, hpsd⟩ := hp X.rows.length (fun i => X.rows.getD i []) fun i => getD_row_length hX i.2
  have hGe : ∀ i j, gram k X X i j = G i j := by
    intro i j
    have := hG i j
    rw [hk.value _ _ (by rw [getD_row_length hX i.2, getD_row_length hX j.2])] at this
    injection this
  have h1 : 0 ≤ v ⬝ᵥ (gram k X X).mulVec v := by
    have := hpsd.2 v
    rw [bilin]
    exact this.trans_eq (Finset.sum_congr rfl fun i _ => Finset.sum_congr rfl fun j _ => by rw [hGe])
  have h2 : 0 < v ⬝ᵥ v := by
    have : 0 ≤ v ⬝ᵥ v := Finset.sum_nonneg fun i _ => mul_self_nonneg _
    exact lt_of_le_of_ne this fun h => hv (dotProduct_self_eq_zero.mp h.symm)
  unfold noisyGram
  rw [Matrix.add_mulVec, Matrix.smul_mulVec, Matrix.one_mulVec, dotProduct_add, dotProduct_smul, smul_eq_mul]
  nlinarith [mul_pos hn h2]

/-- The posterior: its mean is the prediction and its covariance is `k(Z, Z) - k(Z, X) (k(X, X) + noise I)⁻¹ k(X, Z)`. It is
symmetric, never exceeds the prior covariance, and with zero noise it is zero on the training data. -/
theorem C59_posterior (h : g.train lib X y = ok g') {Z : Mat ℝ} (hZ : Z.WF) (hc : Z.cols = X.cols) :
    ∃ p S, g'.predict Z = ok p ∧ g'.posterior lib Z = ok (p, S) ∧ HasShape S Z.rows.length Z.rows.length ∧
      toM _ _ S = gram k Z Z - gram k Z X * (noisyGram k g.noise X)⁻¹ * gram k X Z ∧
      (toM Z.rows.length Z.rows.length S)ᵀ = toM _ _ S ∧ PosSemi (gram k Z Z - toM _ _ S) ∧
      (g.noise = 0 → Z = X → toM Z.rows.length Z.rows.length S = 0) := by
  obtain ⟨p, S, h1, h2, h3, h4, V, h5⟩ := gp_posterior_trained hl hk hm hX h hZ hc
  refine ⟨p, S, h1, h2, h3, h4, ?_, ?_, ?_⟩
  · rw [h4, h5, transpose_sub, transpose_mul, transpose_transpose, gram_symm hk hZ hZ rfl]
  · rw [h4, sub_sub_cancel, h5]
    refine ⟨by rw [transpose_mul, transpose_transpose], ?_⟩
    intro v
    rw [← Matrix.mulVec_mulVec, Matrix.dotProduct_mulVec, ← Matrix.mulVec_transpose]
    exact Finset.sum_nonneg fun i _ => mul_self_nonneg _
  · intro h0 hZX
    subst hZX
    have hu := (Matrix.isUnit_iff_isUnit_det _).mp (C59_regular hl hk hm hX h)
    have hg : noisyGram k g.noise Z = gram k Z Z := by unfold noisyGram; rw [h0, zero_smul, add_zero]
    rw [hg] at hu h4
    rw [h4, Matrix.mul_nonsing_inv _ hu, Matrix.one_mul, sub_self]

/-- With a positive semi-definite kernel and non-negative noise the posterior covariance is positive semi-definite. -/
theorem C59_posterior_psd (hp : PSDKernel g.ker X.cols) (hn : 0 ≤ g.noise) (h : g.train lib X y = ok g') {Z : Mat ℝ} (hZ : Z.WF) (hc : Z.cols = X.cols) :
    ∃ p S, g'.posterior lib Z = ok (p, S) ∧ PosSemi (toM Z.rows.length Z.rows.length S) := by
  obtain ⟨p, S, -, h2, h3, h4, h5, -, -⟩ := C59_posterior hl hk hm hX h hZ hc
  refine ⟨p, S, h2, h5, ?_⟩
  intro c
  have hu := (Matrix.isUnit_iff_isUnit_det _).mp (C59_regular hl hk hm hX h)
  -- the weights `w = A⁻¹ k(X, Z) c`
  set A := noisyGram k g.noise X with hA
  set w := A⁻¹.mulVec ((gram k X Z).mulVec c) with hw
  have hAw : A.mulVec w = (gram k X Z).mulVec c := by rw [hw, Matrix.mulVec_mulVec, Matrix.mul_nonsing_inv _ hu, Matrix.one_mulVec]
  obtain ⟨G, hG, hpsd⟩ := hp (X.rows.length + Z.rows.length) (Fin.append (fun i => X.rows.getD i []) (fun i => Z.rows.getD i [])) (by
    intro i
    refine Fin.addCases (fun i => ?_) (fun i => ?_) i
    · rw [Fin.append_left]; exact getD_row_length hX i.2
    · rw [Fin.append_right, getD_row_length hZ i.2, hc])
  have hlx : ∀ i : Fin X.rows.length, (X.rows.getD i []).length = X.cols := fun i => getD_row_length hX i.2
  have hlz : ∀ i : Fin Z.rows.length, (Z.rows.getD i []).length = X.cols := fun i => (getD_row_length hZ i.2).trans hc
  have gxx : ∀ i j, G (Fin.castAdd _ i) (Fin.castAdd _ j) = gram k X X i j := by
    intro i j
    have := hG (Fin.castAdd _ i) (Fin.castAdd _ j)
    rw [Fin.append_left, Fin.append_left, hk.value _ _ ((hlx i).trans (hlx j).symm)] at this
    injection this with this
    exact this.symm
  have gxz : ∀ i j, G (Fin.castAdd _ i) (Fin.natAdd _ j) = gram k X Z i j := by
    intro i j
    have := hG (Fin.castAdd _ i) (Fin.natAdd _ j)
    rw [Fin.append_left, Fin.append_right, hk.value _ _ ((hlx i).trans (hlz j).symm)] at this
    injection this with this
    exact this.symm
  have gzz : ∀ i j, G (Fin.natAdd _ i) (Fin.natAdd _ j) = gram k Z Z i j := by
    intro i j
    have := hG (Fin.natAdd _ i) (Fin.natAdd _ j)
    rw [Fin.append_right, Fin.append_right, hk.value _ _ ((hlz i).trans (hlz j).symm)] at this
    injection this with this
    exact this.symm
  have gzx : ∀ i j, G (Fin.natAdd _ i) (Fin.castAdd _ j) = gram k X Z j i := by
    intro i j
    rw [hpsd.1, gxz]
  have hq := hpsd.2 (Fin.append (-w) c)
  have hquad : ∑ i, ∑ j, Fin.append (-w) c i * Fin.append (-w) c j * G i j =
      w ⬝ᵥ (gram k X X).mulVec w - 2 * (w ⬝ᵥ (gram k X Z).mulVec c) + c ⬝ᵥ (gram k Z Z).mulVec c := by
    simp only [Fin.sum_univ_add, Fin.append_left, Fin.append_right, gxx, gxz, gzz, gzx, Pi.neg_apply]
    simp only [Finset.sum_add_distrib, bilin]
    rw [Finset.sum_comm (f := fun (x : Fin Z.rows.length) (i : Fin X.rows.length) => c x * -w i * gram k X Z i x)]
    have e1 : ∑ x, ∑ y, -w x * -w y * gram k X X x y = ∑ x, ∑ y, w x * w y * gram k X X x y :=
      Finset.sum_congr rfl fun x _ => Finset.sum_congr rfl fun y _ => by ring
    have e2 : ∑ x, ∑ y, -w x * c y * gram k X Z x y = - ∑ x, ∑ y, w x * c y * gram k X Z x y := by
      rw [← Finset.sum_neg_distrib]
      refine Finset.sum_congr rfl fun x _ => ?_
      rw [← Finset.sum_neg_distrib]
      exact Finset.sum_congr rfl fun y _ => by ring
    have e3 : ∑ y, ∑ x, c x * -w y * gram k X Z y x = - ∑ x, ∑ y, w x * c y * gram k X Z x y := by
      rw [← e2]
      exact Finset.sum_congr rfl fun x _ => Finset.sum_congr rfl fun y _ => by ring
    rw [e1, e2, e3]
    ring
  rw [hquad] at hq
  have hgx : w ⬝ᵥ (gram k X X).mulVec w = w ⬝ᵥ (gram k X Z).mulVec c - g.noise * (w ⬝ᵥ w) := by
    have : gram k X X = A - g.noise • 1 := by rw [hA]; unfold noisyGram; rw [add_sub_cancel_right]
    rw [this, Matrix.sub_mulVec, Matrix.smul_mulVec, Matrix.one_mulVec, dotProduct_sub, dotProduct_smul, smul_eq_mul, hAw]
  have hww : 0 ≤ w ⬝ᵥ w := Finset.sum_nonneg fun i _ => mul_self_nonneg _
  have hcz : c ⬝ᵥ (gram k Z X * A⁻¹ * gram k X Z).mulVec c = w ⬝ᵥ (gram k X Z).mulVec c := by
    rw [← Matrix.mulVec_mulVec, ← Matrix.mulVec_mulVec, ← hw, ← gram_symm hk hX hZ hc.symm, Matrix.dotProduct_mulVec, Matrix.vecMul_transpose, dotProduct_comm]
  rw [h4, Matrix.sub_mulVec, dotProduct_sub, hcz]
  nlinarith [mul_nonneg hn hww]

/-- Data with another number of columns is rejected, by `predict` and by `get_posterior`. -/
theorem C59_columns (h : g.train lib X y = ok g') {Z : Mat ℝ} (hc : Z.cols ≠ X.cols) :
    g'.predict Z = err .InvalidState ∧ g'.posterior lib Z = err .InvalidState := by
  obtain ⟨l, alpha, e, -⟩ := gp_alpha hl hk hm hX h
  subst e
  have hker : kerMat g.ker Z X = err .InvalidState := by unfold kerMat; rw [if_pos hc]
  constructor
  · unfold Gp.predict; simp only; rw [hker]; rfl
  · unfold Gp.posterior; simp only; rw [hker]; rfl

/-- A number of targets that differs from the number of rows never trains; when the covariance is positive definite it panics
instead of returning an error. -/
theorem C59_count (hy : y.length ≠ X.rows.length) :
    (∀ g', g.train lib X y ≠ ok g') ∧ (PosDefinite (noisyGram k g.noise X) → g.train lib X y = Outcome.panic) := by
  constructor
  · intro g' h
    obtain ⟨l, alpha, e, h1, h2, h3, h4, hy', _⟩ := gp_alpha hl hk hm hX h
    exact hy hy'
  · intro hpd
    obtain ⟨G, g1, g2, g3⟩ := kerMat_gram hk hX hX rfl
    obtain ⟨n1, n2⟩ := scaledIdentity_toM X.rows.length g.noise
    obtain ⟨A, a1, a2, a3⟩ := zip_toM Scalar.add g2 n1
    have hA : toM X.rows.length X.rows.length A = noisyGram k g.noise X := by
      ext i j
      rw [a3, g3, n2]
      rfl
    obtain ⟨L, hL⟩ := hl.total A _ a2 (by rw [hA]; exact hpd)
    unfold Gp.train
    rw [g1]
    simp only [expectOk, ok_bind]
    rw [a1, ok_bind, hL]
    simp only [orInvalidState, ok_bind]
    unfold vecZip
    rw [if_neg (by rw [hm X]; exact hy)]
    rfl

end

/-- A model that was not trained predicts nothing. (`Gp` leaves the trained fields empty, as `new` and `default` do.) -/
theorem C59_untrained (lib : TriLib ℝ) (K : Kernel ℝ) (mean : Mat ℝ → List ℝ) (noise : ℝ) (Z : Mat ℝ) :
    Gp.predict ⟨K, mean, noise, none, none, none⟩ Z = err .UntrainedModel ∧
    Gp.posterior lib ⟨K, mean, noise, none, none, none⟩ Z = err .UntrainedModel := ⟨rfl, rfl⟩

/-- Training forgets earlier training: it gives what a new model with the same kernel, mean and noise gives, and a training
that fails leaves nothing behind because the old model is the one kept. -/
theorem C59_retrain (lib : TriLib ℝ) (g : Gp ℝ) (X : Mat ℝ) (y : List ℝ) :
    g.train lib X y = Gp.train lib ⟨g.ker, g.mean, g.noise, none, none, none⟩ X y := rfl

/-- Trained with the squared exponential kernel on three points, two of them equal, with noise 1/10, for all targets. -/
example (a b c : ℝ) : ∃ g', Gp.train exactLib ⟨sqExpKernel 1 1, constMean 0, 1 / 10, none, none, none⟩ ⟨1, [[0], [0], [2]]⟩ [a, b, c] = ok g' :=
  C59_train_psd (g := ⟨sqExpKernel 1 1, constMean 0, 1 / 10, none, none, none⟩) exactLib_ok (C59_kernels (Built.sqExp 1 1)) (C59_mean 0).1
    (by intro r hr; simp at hr; rcases hr with rfl | rfl | rfl <;> rfl) (C61_gram (PSDBuilt.sqExp one_ne_zero zero_le_one) 1) (by norm_num) rfl

/-- Without noise: the linear kernel on two independent points; the trained model returns the targets. -/
example (a b : ℝ) : ∃ g', Gp.train exactLib ⟨linearKernel 0, constMean 3, 0, none, none, none⟩ ⟨2, [[1, 0], [1, 1]]⟩ [a, b] = ok g' ∧
    g'.predict ⟨2, [[1, 0], [1, 1]]⟩ = ok [a, b] := by
  have hX : (⟨2, [[1, 0], [1, 1]]⟩ : Mat ℝ).WF := by intro r hr; simp at hr; rcases hr with rfl | rfl <;> rfl
  have hk := C59_kernels (Built.linear (0 : ℝ))
  have hpd : PosDefinite (noisyGram (kernelValue (linearKernel 0)) 0 (⟨2, [[1, 0], [1, 1]]⟩ : Mat ℝ)) := by
    refine ⟨noisyGram_symm hk hX 0, ?_⟩
    intro v hv
    have e : ∀ u w : List ℝ, u.length = w.length → kernelValue (linearKernel 0) u w = innerProd u w := by
      intro u w h
      unfold kernelValue
      rw [(C60_values u w h 0 0 0 0 0).1, add_zero]
    rw [bilin]
    unfold noisyGram
    rw [zero_smul, add_zero]
    change 0 < ∑ i : Fin 2, ∑ j : Fin 2, v i * v j * gram (kernelValue (linearKernel 0)) ⟨2, [[1, 0], [1, 1]]⟩ ⟨2, [[1, 0], [1, 1]]⟩ i j
    have e1 : ∀ i j : Fin 2, gram (kernelValue (linearKernel 0)) ⟨2, [[1, 0], [1, 1]]⟩ ⟨2, [[1, 0], [1, 1]]⟩ i j = if i = 1 ∧ j = 1 then 2 else 1 := by
      intro i j
      unfold gram
      fin_cases i <;> fin_cases j <;> (simp [e, innerProd]; try norm_num)
    simp only [e1, Fin.sum_univ_two]
    have hv' : v (0 : Fin 2) ≠ 0 ∨ v (1 : Fin 2) ≠ 0 := by
      by_contra hcon
      push Not at hcon
      apply hv
      funext i
      have : ∀ i : Fin 2, v i = 0 := by intro i; fin_cases i; exacts [hcon.1, hcon.2]
      exact this i
    norm_num
    rcases eq_or_ne (v (1 : Fin 2)) 0 with h1 | h1
    · rcases hv' with h0 | h0
      · rw [h1]; nlinarith [mul_self_pos.mpr h0]
      · exact absurd h1 h0
    · nlinarith [mul_self_pos.mpr h1, mul_self_nonneg (v (0 : Fin 2) + v (1 : Fin 2))]
  obtain ⟨g', h⟩ := (C59_train_iff (g := ⟨linearKernel 0, constMean 3, 0, none, none, none⟩) exactLib_ok hk (C59_mean 3).1 hX (y := [a, b]) rfl).1.mpr hpd
  exact ⟨g', h, (C59_interpolates exactLib_ok hk (C59_mean 3).1 hX h).2 rfl⟩

end RM
