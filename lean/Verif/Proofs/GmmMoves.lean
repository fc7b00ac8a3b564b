import Verif.Proofs.GmmHist
import Verif.Spec.GmmMoves

/-! Gaussian mixtures under affine changes of the features. -/

namespace RM
open Outcome Scalar Spec Matrix

theorem moved_quad {d : ℕ} {M : Matrix (Fin d) (Fin d) ℝ} (hM : M.det ≠ 0) (S : Matrix (Fin d) (Fin d) ℝ) (v : Fin d → ℝ) :
    (M *ᵥ v) ⬝ᵥ (M * S * Mᵀ)⁻¹ *ᵥ (M *ᵥ v) = v ⬝ᵥ S⁻¹ *ᵥ v := by
  have hu : IsUnit M.det := isUnit_iff_ne_zero.mpr hM
  have e : (M * S * Mᵀ)⁻¹ *ᵥ (M *ᵥ v) = (Mᵀ)⁻¹ *ᵥ (S⁻¹ *ᵥ v) := by
    rw [Matrix.mul_inv_rev, Matrix.mul_inv_rev, Matrix.mulVec_mulVec, Matrix.mulVec_mulVec, Matrix.mul_assoc, Matrix.mul_assoc,
      Matrix.nonsing_inv_mul M hu, Matrix.mul_one]
  rw [e, Matrix.dotProduct_mulVec, ← Matrix.mulVec_transpose, Matrix.transpose_nonsing_inv, Matrix.transpose_transpose,
    Matrix.mulVec_mulVec, Matrix.nonsing_inv_mul M hu, Matrix.one_mulVec]

theorem gaussDensity_moved {d : ℕ} {M : Matrix (Fin d) (Fin d) ℝ} (hM : M.det ≠ 0) (c μ x : Fin d → ℝ) (S : Matrix (Fin d) (Fin d) ℝ) :
    gaussDensity (M *ᵥ μ + c) (M * S * Mᵀ) (M *ᵥ x + c) = gaussDensity μ S x / |M.det| := by
  unfold gaussDensity
  have e : M *ᵥ x + c - (M *ᵥ μ + c) = M *ᵥ (x - μ) := by
    rw [Matrix.mulVec_sub, add_sub_add_right_eq_sub]
  have h2 : (2 * Real.pi) ^ d * (M * S * Mᵀ).det = M.det ^ 2 * ((2 * Real.pi) ^ d * S.det) := by
    rw [Matrix.det_mul, Matrix.det_mul, Matrix.det_transpose]
    ring
  rw [e, moved_quad hM, h2, Real.sqrt_mul (sq_nonneg _), Real.sqrt_sq_eq_abs, div_div, mul_comm |M.det|]

theorem mixDensity_moved {k d : ℕ} {M : Matrix (Fin d) (Fin d) ℝ} (hM : M.det ≠ 0) (c : Fin d → ℝ) (w : Fin k → ℝ) (μ : Fin k → Fin d → ℝ)
    (S : Fin k → Matrix (Fin d) (Fin d) ℝ) (x : Fin d → ℝ) :
    mixDensity w (fun j => M *ᵥ μ j + c) (fun j => M * S j * Mᵀ) (M *ᵥ x + c) = mixDensity w μ S x / |M.det| := by
  unfold mixDensity
  rw [Finset.sum_div]
  refine Finset.sum_congr rfl fun j _ => ?_
  rw [gaussDensity_moved hM, mul_div_assoc]

theorem posterior_moved {k d : ℕ} {M : Matrix (Fin d) (Fin d) ℝ} (hM : M.det ≠ 0) (c : Fin d → ℝ) (w : Fin k → ℝ) (μ : Fin k → Fin d → ℝ)
    (S : Fin k → Matrix (Fin d) (Fin d) ℝ) (x : Fin d → ℝ) :
    posterior w (fun j => M *ᵥ μ j + c) (fun j => M * S j * Mᵀ) (M *ᵥ x + c) = posterior w μ S x := by
  funext j
  unfold posterior
  have : |M.det| ≠ 0 := abs_ne_zero.mpr hM
  rw [mixDensity_moved hM, gaussDensity_moved hM, mul_div_assoc', div_div_div_cancel_right₀ this]

theorem logLikelihood_moved {n k d : ℕ} {M : Matrix (Fin d) (Fin d) ℝ} (hM : M.det ≠ 0) (c : Fin d → ℝ) {w : Fin k → ℝ} (hw : IsMixture w)
    (μ : Fin k → Fin d → ℝ) {S : Fin k → Matrix (Fin d) (Fin d) ℝ} (hS : ∀ j, PosDefinite (S j)) (x : Fin n → Fin d → ℝ) :
    logLikelihood w (fun j => M *ᵥ μ j + c) (fun j => M * S j * Mᵀ) (movedRows M c x) = logLikelihood w μ S x - n * Real.log |M.det| := by
  unfold logLikelihood
  have : ∀ i, Real.log (mixDensity w (fun j => M *ᵥ μ j + c) (fun j => M * S j * Mᵀ) (movedRows M c x i)) =
      Real.log (mixDensity w μ S (x i)) - Real.log |M.det| := by
    intro i
    show Real.log (mixDensity w (fun j => M *ᵥ μ j + c) (fun j => M * S j * Mᵀ) (M *ᵥ x i + c)) = _
    rw [mixDensity_moved hM, Real.log_div (posterior_pos hw hS (x i)).1.ne' (abs_ne_zero.mpr hM)]
  simp only [this, Finset.sum_sub_distrib, Finset.sum_const, Finset.card_univ, Fintype.card_fin, nsmul_eq_mul]

theorem posDefinite_moved {d : ℕ} {M S : Matrix (Fin d) (Fin d) ℝ} (hM : M.det ≠ 0) (hS : PosDefinite S) : PosDefinite (M * S * Mᵀ) := by
  have hu : IsUnit Mᵀ.det := by rw [Matrix.det_transpose]; exact isUnit_iff_ne_zero.mpr hM
  refine ⟨?_, fun v hv => ?_⟩
  · have := hS.1
    unfold Matrix.IsSymm at *
    rw [Matrix.transpose_mul, Matrix.transpose_mul, Matrix.transpose_transpose, this, Matrix.mul_assoc]
  · have h0 : Mᵀ *ᵥ v ≠ 0 := by
      intro h
      apply hv
      have := congrArg (fun u => (Mᵀ)⁻¹ *ᵥ u) h
      simpa [Matrix.mulVec_mulVec, Matrix.nonsing_inv_mul _ hu] using this
    have := hS.2 _ h0
    rw [← Matrix.mulVec_mulVec, ← Matrix.mulVec_mulVec, Matrix.dotProduct_mulVec, ← Matrix.mulVec_transpose]
    exact this

theorem codeLik_moved {n k d : ℕ} {M : Matrix (Fin d) (Fin d) ℝ} (hM : M.det ≠ 0) (c : Fin d → ℝ) {w : Fin k → ℝ} (hw : IsMixture w)
    (μ : Fin k → Fin d → ℝ) {S : Fin k → Matrix (Fin d) (Fin d) ℝ} (hS : ∀ j, PosDefinite (S j)) (x : Fin n → Fin d → ℝ) :
    codeLik w (fun j => M *ᵥ μ j + c) (fun j => M * S j * Mᵀ) (movedRows M c x) = codeLik w μ S x - n * Real.log |M.det| := by
  have h1 := codeLik_eq hw (fun j => posDefinite_moved hM (hS j)) (μ := fun j => M *ᵥ μ j + c) (movedRows M c x)
  have h2 := logLikelihood_moved hM c hw μ hS x
  rw [codeLik_eq hw hS]
  linarith

/-! ### Averages and covariances -/

theorem weightedMean_moved {n k d : ℕ} (M : Matrix (Fin d) (Fin d) ℝ) (c : Fin d → ℝ) (r : Fin n → Fin k → ℝ) (x : Fin n → Fin d → ℝ) (j : Fin k)
    (h : compTotal r j ≠ 0) : weightedMean r (movedRows M c x) j = M *ᵥ weightedMean r x j + c := by
  funext a
  simp only [weightedMean, movedRows, Matrix.of_apply, Pi.add_apply, Matrix.mulVec, dotProduct]
  rw [div_eq_iff h, add_mul, Finset.sum_mul]
  simp only [mul_add, Finset.sum_add_distrib, Finset.mul_sum]
  congr 1
  · rw [Finset.sum_comm]
    refine Finset.sum_congr rfl fun b _ => ?_
    rw [mul_assoc, div_mul_cancel₀ _ h, Finset.mul_sum]
    exact Finset.sum_congr rfl fun i _ => by ring
  · rw [← Finset.sum_mul]
    exact mul_comm _ _

/-- A weighted sum of products of differences. -/
theorem scatter_moved {n d : ℕ} (M : Matrix (Fin d) (Fin d) ℝ) (q : Fin n → ℝ) (y : Fin n → Fin d → ℝ) (t : ℝ) (a b : Fin d) :
    (∑ i, q i * ((M *ᵥ y i) a * (M *ᵥ y i) b)) / t =
      (M * (Matrix.of fun a b => (∑ i, q i * (y i a * y i b)) / t) * Mᵀ) a b := by
  simp only [Matrix.mul_apply, Matrix.transpose_apply, Matrix.of_apply, Matrix.mulVec, dotProduct, Finset.sum_mul, Finset.mul_sum,
    Finset.sum_div]
  rw [Finset.sum_comm' (t' := Finset.univ) (s' := fun _ => Finset.univ) (by simp)]
  refine Finset.sum_congr rfl fun e _ => ?_
  rw [Finset.sum_comm]
  refine Finset.sum_congr rfl fun f _ => ?_
  refine Finset.sum_congr rfl fun i _ => ?_
  ring

theorem weightedCov_moved {n k d : ℕ} (M : Matrix (Fin d) (Fin d) ℝ) (c : Fin d → ℝ) (r : Fin n → Fin k → ℝ) (x : Fin n → Fin d → ℝ) (j : Fin k)
    (h : compTotal r j ≠ 0) : weightedCov r (movedRows M c x) j = M * weightedCov r x j * Mᵀ := by
  ext a b
  have e : ∀ i a, movedRows M c x i a - weightedMean r (movedRows M c x) j a = (M *ᵥ fun a => x i a - weightedMean r x j a) a := by
    intro i a
    rw [weightedMean_moved M c r x j h]
    have : (fun a => x i a - weightedMean r x j a) = x i - weightedMean r x j := rfl
    rw [this, Matrix.mulVec_sub]
    simp only [movedRows, Matrix.of_apply, Pi.add_apply, Pi.sub_apply]
    ring
  have h2 := scatter_moved M (fun i => r i j) (fun i a => x i a - weightedMean r x j a) (compTotal r j) a b
  simp only [weightedCov, e, Matrix.of_apply]
  exact h2

theorem sampleCov_moved {n d : ℕ} (hn : 0 < n) (M : Matrix (Fin d) (Fin d) ℝ) (c : Fin d → ℝ) (x : Fin n → Fin d → ℝ) :
    sampleCov (movedRows M c x) = M * sampleCov x * Mᵀ := by
  have hn' : (n : ℝ) ≠ 0 := by exact_mod_cast hn.ne'
  ext a b
  have e : ∀ i a, movedRows M c x i a - (∑ i, movedRows M c x i a) / n = (M *ᵥ fun a => x i a - (∑ i, x i a) / n) a := by
    intro i a
    have h1 := congrFun (weightedMean_moved (k := 1) M c (fun _ _ => 1) x 0 (by simpa [compTotal] using hn')) a
    simp only [weightedMean, compTotal, one_mul, Finset.sum_const, Finset.card_univ, Fintype.card_fin, nsmul_eq_mul, mul_one] at h1
    have h0 : weightedMean (k := 1) (fun _ _ => 1) x 0 = fun a => (∑ i, x i a) / (n : ℝ) := by
      funext a
      simp [weightedMean, compTotal]
    rw [h1, h0]
    have : (fun a => x i a - (∑ i, x i a) / (n : ℝ)) = x i - fun a => (∑ i, x i a) / (n : ℝ) := rfl
    rw [this, Matrix.mulVec_sub]
    simp only [movedRows, Matrix.of_apply, Pi.add_apply, Pi.sub_apply]
    ring
  have h2 := scatter_moved M (fun _ => 1) (fun i a => x i a - (∑ i, x i a) / n) ((n - 1 : ℕ) : ℝ) a b
  simp only [one_mul] at h2
  simp only [sampleCov, e, Matrix.of_apply]
  exact h2

/-- Changes that rescale and reorder keep the diagonal part. -/
theorem diag_moved {d : ℕ} {M : Matrix (Fin d) (Fin d) ℝ} (h1 : ∀ a b b', b ≠ b' → M a b = 0 ∨ M a b' = 0)
    (h2 : ∀ a a' b, a ≠ a' → M a b = 0 ∨ M a' b = 0) (W : Matrix (Fin d) (Fin d) ℝ) (t : ℝ) :
    (Matrix.diagonal fun a => (M * W * Mᵀ) a a * t) = M * (Matrix.diagonal fun a => W a a * t) * Mᵀ := by
  ext a b
  have e : (M * (Matrix.diagonal fun a => W a a * t) * Mᵀ) a b = ∑ e, M a e * (W e e * t) * M b e := by
    rw [Matrix.mul_apply]
    exact Finset.sum_congr rfl fun e _ => by rw [Matrix.mul_diagonal, Matrix.transpose_apply]
  rw [Matrix.diagonal_apply, e]
  split
  · rename_i hab
    subst hab
    rw [Matrix.mul_apply, Finset.sum_mul]
    refine Finset.sum_congr rfl fun e _ => ?_
    rw [Matrix.mul_apply, Matrix.transpose_apply, Finset.sum_mul, Finset.sum_mul, Finset.sum_eq_single e]
    · ring
    · intro f _ hf
      rcases h1 a f e hf with h | h <;> rw [h] <;> ring
    · simp
  · rename_i hab
    refine (Finset.sum_eq_zero fun e _ => ?_).symm
    rcases h2 a b e hab with h | h <;> rw [h] <;> ring

theorem optionCov_moved {n k d : ℕ} {opt : CovOption ℝ} {M : Matrix (Fin d) (Fin d) ℝ} (ho : Suits opt M) (c : Fin d → ℝ) (r : Fin n → Fin k → ℝ)
    (x : Fin n → Fin d → ℝ) (j : Fin k) (h : compTotal r j ≠ 0) : optionCov opt r (movedRows M c x) j = M * optionCov opt r x j * Mᵀ := by
  cases opt with
  | full => exact weightedCov_moved M c r x j h
  | diagonal =>
    have := diag_moved ho.1 ho.2 (weightedCov r x j) 1
    simp only [mul_one] at this
    show (Matrix.diagonal fun a => weightedCov r (movedRows M c x) j a a) = _
    rw [weightedCov_moved M c r x j h, this]
    rfl
  | regularized e =>
    have ho' : M * Mᵀ = 1 := ho
    show weightedCov r (movedRows M c x) j + _ = M * (weightedCov r x j + _) * Mᵀ
    rw [weightedCov_moved M c r x j h, Matrix.mul_add, Matrix.add_mul, Matrix.mul_smul, Matrix.smul_mul, Matrix.mul_one, ho']

theorem startCov_moved {n d : ℕ} (hn : 0 < n) {opt : CovOption ℝ} {M : Matrix (Fin d) (Fin d) ℝ} (ho : Suits opt M) (c : Fin d → ℝ)
    (x : Fin n → Fin d → ℝ) : startCov opt (movedRows M c x) = M * startCov opt x * Mᵀ := by
  cases opt with
  | full => exact sampleCov_moved hn M c x
  | diagonal =>
    show (Matrix.diagonal fun a => sampleCov (movedRows M c x) a a * _) = M * (Matrix.diagonal fun a => sampleCov x a a * _) * Mᵀ
    rw [sampleCov_moved hn M c x, diag_moved ho.1 ho.2]
  | regularized e =>
    have ho' : M * Mᵀ = 1 := ho
    show sampleCov (movedRows M c x) + _ = M * (sampleCov x + _) * Mᵀ
    rw [sampleCov_moved hn M c x, Matrix.mul_add, Matrix.add_mul, Matrix.mul_smul, Matrix.smul_mul, Matrix.mul_one, ho']

/-! ### The loop -/

theorem det_moved {d : ℕ} {M : Matrix (Fin d) (Fin d) ℝ} (hM : M.det ≠ 0) (S : Matrix (Fin d) (Fin d) ℝ) :
    (M * S * Mᵀ).det ≠ 0 ↔ S.det ≠ 0 := by
  rw [Matrix.det_mul, Matrix.det_mul, Matrix.det_transpose]
  simp [hM]

/-- One step that does not stop, on both sides. -/
theorem emStep_moved {n k d : ℕ} (hn : 0 < n) {lup : Mat ℝ → Outcome (ℝ × Outcome (Mat ℝ))} (hl : LupExact lup) (hr : LupRegular lup)
    {M : Matrix (Fin d) (Fin d) ℝ} (hM : M.det ≠ 0) (c : Fin d → ℝ) {m m' : Gmm ℝ} (ho : OptOk m.covOption) (hs : Suits m.covOption M)
    (hopt : m'.covOption = m.covOption) (hit : m'.maxIters = m.maxIters)
    {w : Fin k → ℝ} {μ : Fin k → Fin d → ℝ} {S : Fin k → Matrix (Fin d) (Fin d) ℝ} (hm : HasParams m w μ S)
    (hm' : HasParams m' w (fun j => M *ᵥ μ j + c) (fun j => M * S j * Mᵀ))
    {x : Matrix (Fin n) (Fin d) ℝ} (hg : GoodParams m.covOption x w μ S) :
    ((∀ o, m.emStep lup (ofM x) ≠ ok o) ∧ ∀ o, m'.emStep lup (ofM (movedRows M c x)) ≠ ok o) ∨
    (∀ j, PosDefinite (S j)) ∧
      (|codeLik w μ S x - m.logLik| < 1 / 10 ^ 15 → m.emStep lup (ofM x) = ok none) ∧
      (|codeLik w μ S x - n * Real.log |M.det| - m'.logLik| < 1 / 10 ^ 15 → m'.emStep lup (ofM (movedRows M c x)) = ok none) ∧
      (¬ |codeLik w μ S x - m.logLik| < 1 / 10 ^ 15 → ¬ |codeLik w μ S x - n * Real.log |M.det| - m'.logLik| < 1 / 10 ^ 15 →
        ∃ (m1 m1' : Gmm ℝ) (w1 : Fin k → ℝ) (μ1 : Fin k → Fin d → ℝ) (S1 : Fin k → Matrix (Fin d) (Fin d) ℝ),
          m.emStep lup (ofM x) = ok (some m1) ∧ m'.emStep lup (ofM (movedRows M c x)) = ok (some m1') ∧
          HasParams m1 w1 μ1 S1 ∧ HasParams m1' w1 (fun j => M *ᵥ μ1 j + c) (fun j => M * S1 j * Mᵀ) ∧
          GoodParams m.covOption x w1 μ1 S1 ∧ m1.covOption = m.covOption ∧ m1'.covOption = m.covOption ∧ m1.maxIters = m.maxIters ∧
          m1'.maxIters = m.maxIters ∧ m1.logLik = codeLik w μ S x ∧ m1'.logLik = codeLik w μ S x - n * Real.log |M.det|) := by
  by_cases hdet : ∀ j, (S j).det ≠ 0
  · right
    have hS : ∀ j, PosDefinite (S j) := fun j => posSemi_posDef (hg.semi j) (hdet j)
    have h1 := memberships_regular hl hr hm hdet x
    have h1' := memberships_regular hl hr hm' (fun j => (det_moved hM (S j)).mpr (hdet j)) (movedRows M c x)
    obtain ⟨e1, e2⟩ := emStep_eval hm x h1
    obtain ⟨e1', e2'⟩ := emStep_eval hm' (movedRows M c x) h1'
    have hp : (fun i => posterior w (fun j => M *ᵥ μ j + c) (fun j => M * S j * Mᵀ) (movedRows M c x i)) = fun i => posterior w μ S (x i) :=
      funext fun i => posterior_moved hM c w μ S (x i)
    have hc := codeLik_moved hM c hg.mix μ hS x
    rw [hc] at e1' e2'
    refine ⟨hS, e1, e1', fun g g' => ?_⟩
    obtain ⟨m1, a1, a2, a3, a4, a5⟩ := e2 g
    obtain ⟨m1', b1, b2, b3, b4, b5⟩ := e2' g'
    rw [hp, hopt] at b2
    have hN := compTotal_pos (μ := μ) hn hg.mix hS x
    have f1 : weightedMean (fun i => posterior w μ S (x i)) (movedRows M c x) =
        fun j => M *ᵥ weightedMean (fun i => posterior w μ S (x i)) x j + c :=
      funext fun j => weightedMean_moved M c _ _ j (hN j).ne'
    have f2 : optionCov m.covOption (fun i => posterior w μ S (x i)) (movedRows M c x) =
        fun j => M * optionCov m.covOption (fun i => posterior w μ S (x i)) x j * Mᵀ :=
      funext fun j => optionCov_moved hs c _ _ j (hN j).ne'
    rw [f1, f2] at b2
    exact ⟨m1, m1', _, _, _, a1, b1, a2, b2, next_good hn ho x hg.mix hS, a3, b3.trans hopt, a4, b4.trans hit, a5, b5⟩
  · left
    constructor
    · intro o h
      obtain ⟨⟨P, l⟩, h1, -⟩ := bind_eq_ok.mp h
      exact hdet (memberships_ok hl hm h1).1
    · intro o h
      obtain ⟨⟨P, l⟩, h1, -⟩ := bind_eq_ok.mp h
      exact hdet fun j => (det_moved hM (S j)).mp ((memberships_ok hl hm' h1).1 j)

/-- The loops run alike when the stored likelihoods differ by the volume. -/
theorem emLoop_moved {n k d : ℕ} (hn : 0 < n) {lup : Mat ℝ → Outcome (ℝ × Outcome (Mat ℝ))} (hl : LupExact lup) (hr : LupRegular lup)
    {M : Matrix (Fin d) (Fin d) ℝ} (hM : M.det ≠ 0) (c : Fin d → ℝ) {m m' : Gmm ℝ} (ho : OptOk m.covOption) (hs : Suits m.covOption M)
    (hopt : m'.covOption = m.covOption) (hit : m'.maxIters = m.maxIters) (hlik : m'.logLik = m.logLik - n * Real.log |M.det|)
    {w : Fin k → ℝ} {μ : Fin k → Fin d → ℝ} {S : Fin k → Matrix (Fin d) (Fin d) ℝ} (hm : HasParams m w μ S)
    (hm' : HasParams m' w (fun j => M *ᵥ μ j + c) (fun j => M * S j * Mᵀ))
    {x : Matrix (Fin n) (Fin d) ℝ} (hg : GoodParams m.covOption x w μ S) (t : ℕ) :
    ((∀ r, m.emLoop lup (ofM x) t ≠ ok r) ∧ ∀ r, m'.emLoop lup (ofM (movedRows M c x)) t ≠ ok r) ∨
    ∃ m1 m1', m.emLoop lup (ofM x) t = ok m1 ∧ m'.emLoop lup (ofM (movedRows M c x)) t = ok m1' ∧ IsMoved M c m1 m1' ∧
      m1'.logLik = m1.logLik - n * Real.log |M.det| := by
  induction t generalizing m m' w μ S with
  | zero => exact Or.inr ⟨m, m', rfl, rfl, ⟨k, w, μ, S, hm, hm', hopt, hit⟩, hlik⟩
  | succ t ih =>
    rcases emStep_moved hn hl hr hM c ho hs hopt hit hm hm' hg with ⟨h1, h2⟩ | ⟨hS, h1, h2, h3⟩
    · left
      refine ⟨fun r h => ?_, fun r h => ?_⟩
      · rw [Gmm.emLoop] at h
        obtain ⟨o, h, -⟩ := bind_eq_ok.mp h
        exact h1 o h
      · rw [Gmm.emLoop] at h
        obtain ⟨o, h, -⟩ := bind_eq_ok.mp h
        exact h2 o h
    · have e : codeLik w μ S x - n * Real.log |M.det| - m'.logLik = codeLik w μ S x - m.logLik := by
        rw [hlik]
        ring
      rw [e] at h2 h3
      rw [Gmm.emLoop, Gmm.emLoop]
      by_cases hlt : |codeLik w μ S x - m.logLik| < 1 / 10 ^ 15
      · rw [h1 hlt, h2 hlt]
        exact Or.inr ⟨m, m', rfl, rfl, ⟨k, w, μ, S, hm, hm', hopt, hit⟩, hlik⟩
      · obtain ⟨m1, m1', w1, μ1, S1, a1, a2, a3, a4, a5, a6, a7, a8, a9, a10, a11⟩ := h3 hlt hlt
        rw [a1, a2]
        exact ih (by rw [a6]; exact ho) (by rw [a6]; exact hs) (a7.trans a6.symm) (a9.trans a8.symm) (by rw [a10, a11]) a3 a4
          (by rw [a6]; exact a5)

end RM
