import Mathlib.LinearAlgebra.Matrix.Trace
import Mathlib.Analysis.SpecialFunctions.Log.Basic
import Verif.Spec.Gmm
import Verif.Proofs.SvdExists

/-! Expectation maximisation does not decrease the likelihood. -/

namespace RM
open Spec Matrix

/-- Gibbs' inequality. -/
theorem gibbs {k : ℕ} {r a : Fin k → ℝ} (hr : ∀ j, 0 < r j) (hr1 : ∑ j, r j = 1) (ha : ∀ j, 0 < a j) :
    ∑ j, r j * Real.log (a j / r j) ≤ Real.log (∑ j, a j) := by
  have hne : (Finset.univ : Finset (Fin k)).Nonempty := by
    by_contra h
    rw [Finset.not_nonempty_iff_eq_empty] at h
    rw [h, Finset.sum_empty] at hr1
    exact zero_ne_one hr1
  have hA : 0 < ∑ j, a j := Finset.sum_pos (fun j _ => ha j) hne
  have h1 : ∀ j, r j * Real.log (a j / r j) ≤ r j * Real.log (∑ j, a j) + (a j / (∑ j, a j) - r j) := by
    intro j
    have hx : 0 < a j / (r j * ∑ j, a j) := div_pos (ha j) (mul_pos (hr j) hA)
    have h2 := Real.log_le_sub_one_of_pos hx
    have h3 : Real.log (a j / (r j * ∑ j, a j)) = Real.log (a j / r j) - Real.log (∑ j, a j) := by
      rw [← div_div, Real.log_div (div_pos (ha j) (hr j)).ne' hA.ne']
    rw [h3] at h2
    have h4 := mul_le_mul_of_nonneg_left h2 (hr j).le
    have h5 : r j * (a j / (r j * ∑ j, a j) - 1) = a j / (∑ j, a j) - r j := by
      have := (hr j).ne'
      field_simp
    rw [h5] at h4
    linarith
  have h6 := Finset.sum_le_sum fun j (_ : j ∈ Finset.univ) => h1 j
  rw [Finset.sum_add_distrib, Finset.sum_sub_distrib, ← Finset.sum_mul, ← Finset.sum_div, hr1, div_self hA.ne'] at h6
  linarith

theorem diag_of_pos {d : ℕ} {S V : Matrix (Fin d) (Fin d) ℝ} {lam : Fin d → ℝ} (hS : PosDefinite S) (hV : Vᵀ * V = 1)
    (h : S * V = V * Matrix.diagonal lam) (j : Fin d) : 0 < lam j := by
  have h1 := hS.2 (V.col j) (by
    intro h0
    have h2 := congrFun (congrFun hV j) j
    rw [Matrix.mul_apply, Matrix.one_apply_eq] at h2
    have : ∀ i, V i j = 0 := fun i => congrFun h0 i
    simp [this] at h2)
  have h2 : S *ᵥ (V.col j) = lam j • V.col j := by
    funext i
    have h3 := congrFun (congrFun h i) j
    rw [Matrix.mul_diagonal, Matrix.mul_apply] at h3
    rw [Matrix.mulVec, dotProduct, Pi.smul_apply, smul_eq_mul, mul_comm]
    exact h3
  rw [h2, dotProduct_smul] at h1
  have h4 : V.col j ⬝ᵥ V.col j = 1 := by
    have h2 := congrFun (congrFun hV j) j
    rw [Matrix.mul_apply, Matrix.one_apply_eq] at h2
    exact h2
  rw [h4] at h1
  simpa using h1

theorem det_trace_of_diag {d : ℕ} {S V : Matrix (Fin d) (Fin d) ℝ} {lam : Fin d → ℝ} (hV : Vᵀ * V = 1)
    (h : S * V = V * Matrix.diagonal lam) : S = V * Matrix.diagonal lam * Vᵀ ∧ S.det = ∏ j, lam j ∧ S.trace = ∑ j, lam j := by
  have hVV : V * Vᵀ = 1 := mul_eq_one_comm.mp hV
  have hS : S = V * Matrix.diagonal lam * Vᵀ := by rw [← h, Matrix.mul_assoc, hVV, Matrix.mul_one]
  refine ⟨hS, ?_, ?_⟩
  · have hd : V.det * Vᵀ.det = 1 := by rw [← Matrix.det_mul, hVV, Matrix.det_one]
    rw [hS, Matrix.det_mul, Matrix.det_mul, Matrix.det_diagonal]
    linear_combination (∏ j, lam j) * hd
  · rw [hS, Matrix.trace_mul_comm, ← Matrix.mul_assoc, hV, Matrix.one_mul, Matrix.trace_diagonal]

/-- The logarithm of the determinant lies below its tangent. -/
theorem logdet_le {d : ℕ} {S T : Matrix (Fin d) (Fin d) ℝ} (hS : PosDefinite S) (hT : PosDefinite T) :
    Real.log T.det + d ≤ Real.log S.det + (S⁻¹ * T).trace := by
  obtain ⟨V, lam, hV, -, hSV⟩ := sorted_eigen S hS.1
  have hlam := diag_of_pos hS hV hSV
  obtain ⟨eS, dS, -⟩ := det_trace_of_diag hV hSV
  have hVV : V * Vᵀ = 1 := mul_eq_one_comm.mp hV
  have hSpos : 0 < S.det := by rw [dS]; exact Finset.prod_pos fun j _ => hlam j
  obtain ⟨B, hBB⟩ : ∃ B : Matrix (Fin d) (Fin d) ℝ, Bᵀ * B = S⁻¹ := by
    refine ⟨Matrix.diagonal (fun j => 1 / Real.sqrt (lam j)) * Vᵀ, ?_⟩
    symm
    apply Matrix.inv_eq_left_inv
    have e1 : (Matrix.diagonal (fun j => 1 / Real.sqrt (lam j)) * Vᵀ)ᵀ * (Matrix.diagonal (fun j => 1 / Real.sqrt (lam j)) * Vᵀ) = V * Matrix.diagonal (fun j => 1 / lam j) * Vᵀ := by
      simp only [Matrix.transpose_mul, Matrix.transpose_transpose, Matrix.diagonal_transpose]
      rw [Matrix.mul_assoc, ← Matrix.mul_assoc (Matrix.diagonal _) (Matrix.diagonal _), Matrix.diagonal_mul_diagonal, Matrix.mul_assoc]
      congr 2
      congr 1
      funext j
      rw [div_mul_div_comm, one_mul, Real.mul_self_sqrt (hlam j).le]
    rw [e1, eS]
    have e2 : V * Matrix.diagonal (fun j => 1 / lam j) * Vᵀ * (V * Matrix.diagonal lam * Vᵀ)
        = V * (Matrix.diagonal (fun j => 1 / lam j) * (Vᵀ * V) * Matrix.diagonal lam) * Vᵀ := by
      simp only [Matrix.mul_assoc]
    rw [e2, hV, Matrix.mul_one, Matrix.diagonal_mul_diagonal]
    have e3 : (fun j => 1 / lam j * lam j) = fun _ => (1 : ℝ) := by
      funext j
      have := (hlam j).ne'
      field_simp
    rw [e3, Matrix.diagonal_one, Matrix.mul_one, hVV]
  have hdetB : Bᵀ.det * B.det * S.det = 1 := by
    rw [← Matrix.det_mul, hBB, ← Matrix.det_mul, Matrix.nonsing_inv_mul _ (Ne.isUnit hSpos.ne'), Matrix.det_one]
  have hBne : B.det ≠ 0 := by
    intro h
    rw [h] at hdetB
    simp at hdetB
  have hM : PosDefinite (B * T * Bᵀ) := by
    constructor
    · rw [Matrix.transpose_mul, Matrix.transpose_mul, Matrix.transpose_transpose, hT.1, Matrix.mul_assoc]
    · intro v hv
      have hne : Bᵀ *ᵥ v ≠ 0 := by
        intro h0
        exact hv (Matrix.eq_zero_of_mulVec_eq_zero (by rw [Matrix.det_transpose]; exact hBne) h0)
      have h1 := hT.2 _ hne
      rw [← Matrix.mulVec_mulVec, ← Matrix.mulVec_mulVec, Matrix.dotProduct_mulVec]
      rw [Matrix.mulVec_transpose] at h1 ⊢
      exact h1
  obtain ⟨W, mu, hW, -, hMW⟩ := sorted_eigen (B * T * Bᵀ) hM.1
  have hmu := diag_of_pos hM hW hMW
  obtain ⟨-, dM, tM⟩ := det_trace_of_diag hW hMW
  have htr : (S⁻¹ * T).trace = ∑ j, mu j := by
    rw [← tM, ← hBB, Matrix.mul_assoc, Matrix.trace_mul_comm, Matrix.mul_assoc]
  have hdT : T.det = S.det * ∏ j, mu j := by
    rw [← dM, Matrix.det_mul, Matrix.det_mul]
    linear_combination (-T.det) * hdetB
  have hprod : 0 < ∏ j, mu j := Finset.prod_pos fun j _ => hmu j
  rw [hdT, Real.log_mul hSpos.ne' hprod.ne', htr, Real.log_prod (fun j _ => (hmu j).ne')]
  have hl : ∑ j, Real.log (mu j) ≤ ∑ j, (mu j - 1) := Finset.sum_le_sum fun j _ => Real.log_le_sub_one_of_pos (hmu j)
  rw [Finset.sum_sub_distrib] at hl
  simp only [Finset.sum_const, Finset.card_univ, Fintype.card_fin, nsmul_eq_mul, mul_one] at hl
  linarith

theorem posDef_det {d : ℕ} {S : Matrix (Fin d) (Fin d) ℝ} (hS : PosDefinite S) : 0 < S.det := by
  obtain ⟨V, lam, hV, -, hSV⟩ := sorted_eigen S hS.1
  rw [(det_trace_of_diag hV hSV).2.1]
  exact Finset.prod_pos fun j _ => diag_of_pos hS hV hSV j

theorem posSemi_posDef {d : ℕ} {S : Matrix (Fin d) (Fin d) ℝ} (hS : PosSemi S) (hd : S.det ≠ 0) : PosDefinite S := by
  refine ⟨hS.1, fun v hv => ?_⟩
  obtain ⟨V, lam, hV, -, hSV⟩ := sorted_eigen S hS.1
  obtain ⟨eS, dS, -⟩ := det_trace_of_diag hV hSV
  have hVV : V * Vᵀ = 1 := mul_eq_one_comm.mp hV
  have hq : ∀ u : Fin d → ℝ, u ⬝ᵥ S *ᵥ u = ∑ j, lam j * (Vᵀ *ᵥ u) j ^ 2 := by
    intro u
    rw [eS, ← Matrix.mulVec_mulVec, ← Matrix.mulVec_mulVec, Matrix.dotProduct_mulVec, Matrix.mulVec_transpose, dotProduct]
    refine Finset.sum_congr rfl fun j _ => ?_
    rw [Matrix.mulVec_diagonal]
    ring
  have hnn : ∀ j, 0 ≤ lam j := by
    intro j
    have h1 := hS.2 (V.col j)
    rw [hq] at h1
    have h2 : Vᵀ *ᵥ V.col j = Pi.single j 1 := by
      funext i
      have := congrFun (congrFun hV i) j
      rw [Matrix.mul_apply, Matrix.one_apply] at this
      rw [Matrix.mulVec, dotProduct, Pi.single_apply]
      exact this
    rw [h2, Finset.sum_eq_single j] at h1
    · simpa using h1
    · intro i _ hi; simp [hi]
    · intro h; exact absurd (Finset.mem_univ _) h
  have hpos : ∀ j, 0 < lam j := by
    intro j
    refine lt_of_le_of_ne (hnn j) fun h0 => hd ?_
    rw [dS]
    exact Finset.prod_eq_zero (Finset.mem_univ j) h0.symm
  rw [hq]
  refine Finset.sum_pos' (fun j _ => mul_nonneg (hnn j) (sq_nonneg _)) ?_
  by_contra hc
  push Not at hc
  apply hv
  have hz : Vᵀ *ᵥ v = 0 := by
    funext j
    have h1 := hc j (Finset.mem_univ _)
    have h2 : lam j * (Vᵀ *ᵥ v) j ^ 2 = 0 := le_antisymm h1 (mul_nonneg (hnn j) (sq_nonneg _))
    rcases mul_eq_zero.mp h2 with h | h
    · exact absurd h (hpos j).ne'
    · exact pow_eq_zero_iff (two_ne_zero) |>.mp h
  rw [← Matrix.one_mulVec v, ← hVV, ← Matrix.mulVec_mulVec, hz, Matrix.mulVec_zero]

theorem inv_quad_nonneg {d : ℕ} {S : Matrix (Fin d) (Fin d) ℝ} (hS : PosDefinite S) (v : Fin d → ℝ) : 0 ≤ v ⬝ᵥ S⁻¹ *ᵥ v := by
  have hu : IsUnit S.det := (posDef_det hS).ne'.isUnit
  have h1 : S *ᵥ (S⁻¹ *ᵥ v) = v := by
    rw [Matrix.mulVec_mulVec, Matrix.mul_nonsing_inv _ hu, Matrix.one_mulVec]
  conv_rhs => rw [← h1]
  by_cases h0 : S⁻¹ *ᵥ v = 0
  · rw [h0]; simp
  · rw [dotProduct_comm, h1, ← h1]
    have := hS.2 _ h0
    rw [h1] at this ⊢
    exact this.le

/-- The density is positive, and its logarithm. -/
theorem gaussDensity_pos {d : ℕ} {S : Matrix (Fin d) (Fin d) ℝ} (hS : PosDefinite S) (μ x : Fin d → ℝ) : 0 < gaussDensity μ S x := by
  unfold gaussDensity
  have := posDef_det hS
  have := Real.pi_pos
  positivity

theorem log_gaussDensity {d : ℕ} {S : Matrix (Fin d) (Fin d) ℝ} (hS : PosDefinite S) (μ x : Fin d → ℝ) :
    Real.log (gaussDensity μ S x) = -(1 / 2) * ((x - μ) ⬝ᵥ S⁻¹ *ᵥ (x - μ)) - (1 / 2) * Real.log ((2 * Real.pi) ^ d) - (1 / 2) * Real.log S.det := by
  unfold gaussDensity
  have h1 := posDef_det hS
  have h2 : 0 < (2 * Real.pi) ^ d := by have := Real.pi_pos; positivity
  rw [Real.log_div (Real.exp_pos _).ne' (Real.sqrt_pos.mpr (mul_pos h2 h1)).ne', Real.log_exp, Real.log_sqrt (mul_pos h2 h1).le,
    Real.log_mul h2.ne' h1.ne']
  ring

/-- The weighted sum of squares around any point. -/
theorem weighted_quad {n k d : ℕ} (r : Fin n → Fin k → ℝ) (x : Fin n → Fin d → ℝ) (j : Fin k) (hN : compTotal r j ≠ 0)
    (M : Matrix (Fin d) (Fin d) ℝ) (μ : Fin d → ℝ) :
    ∑ i, r i j * ((x i - μ) ⬝ᵥ M *ᵥ (x i - μ)) = compTotal r j * (M * weightedCov r x j).trace +
      compTotal r j * ((weightedMean r x j - μ) ⬝ᵥ M *ᵥ (weightedMean r x j - μ)) := by
  have hzero : ∀ a, ∑ i, r i j * (x i a - weightedMean r x j a) = 0 := by
    intro a
    simp only [mul_sub, Finset.sum_sub_distrib, ← Finset.sum_mul]
    rw [weightedMean, show ∑ i, r i j = compTotal r j from rfl]
    field_simp
    ring
  have hexp : ∀ i, (x i - μ) ⬝ᵥ M *ᵥ (x i - μ) = (x i - weightedMean r x j) ⬝ᵥ M *ᵥ (x i - weightedMean r x j) +
      (x i - weightedMean r x j) ⬝ᵥ (M *ᵥ (weightedMean r x j - μ) + (weightedMean r x j - μ) ᵥ* M) +
      (weightedMean r x j - μ) ⬝ᵥ M *ᵥ (weightedMean r x j - μ) := by
    intro i
    have : x i - μ = (x i - weightedMean r x j) + (weightedMean r x j - μ) := by abel
    rw [this, Matrix.mulVec_add, add_dotProduct, dotProduct_add, dotProduct_add, dotProduct_add,
      Matrix.dotProduct_mulVec (weightedMean r x j - μ) M (x i - weightedMean r x j),
      dotProduct_comm ((weightedMean r x j - μ) ᵥ* M) (x i - weightedMean r x j)]
    ring
  have hcross : ∀ u : Fin d → ℝ, ∑ i, r i j * ((x i - weightedMean r x j) ⬝ᵥ u) = 0 := by
    intro u
    simp only [dotProduct, Pi.sub_apply, Finset.mul_sum]
    rw [Finset.sum_comm]
    refine Finset.sum_eq_zero fun a _ => ?_
    have : ∀ i, r i j * ((x i a - weightedMean r x j a) * u a) = (r i j * (x i a - weightedMean r x j a)) * u a := by intro i; ring
    rw [Finset.sum_congr rfl fun i _ => this i, ← Finset.sum_mul, hzero, zero_mul]
  have htrace : ∑ i, r i j * ((x i - weightedMean r x j) ⬝ᵥ M *ᵥ (x i - weightedMean r x j)) = compTotal r j * (M * weightedCov r x j).trace := by
    rw [Matrix.trace]
    simp only [Matrix.diag_apply, Matrix.mul_apply, weightedCov, Matrix.of_apply, Finset.mul_sum, dotProduct, Matrix.mulVec, Pi.sub_apply]
    rw [Finset.sum_comm]
    refine Finset.sum_congr rfl fun a _ => ?_
    rw [Finset.sum_comm]
    refine Finset.sum_congr rfl fun b _ => ?_
    rw [mul_div_assoc', mul_div_assoc', mul_div_cancel_left₀ _ hN, Finset.mul_sum]
    exact Finset.sum_congr rfl fun i _ => by ring
  simp only [hexp, mul_add, Finset.sum_add_distrib]
  rw [htrace, hcross, ← Finset.sum_mul]
  rw [show ∑ i, r i j = compTotal r j from rfl]
  ring

/-- The maximisation step for one component. -/
theorem em_component {n k d : ℕ} (r : Fin n → Fin k → ℝ) (x : Fin n → Fin d → ℝ) (j : Fin k) (hN : 0 < compTotal r j)
    {S T : Matrix (Fin d) (Fin d) ℝ} (hS : PosDefinite S) (hT : PosDefinite T) (μ : Fin d → ℝ)
    (h1 : (S⁻¹ * weightedCov r x j).trace = (S⁻¹ * T).trace) (h2 : (T⁻¹ * weightedCov r x j).trace = d) :
    ∑ i, r i j * Real.log (gaussDensity μ S (x i)) ≤ ∑ i, r i j * Real.log (gaussDensity (weightedMean r x j) T (x i)) := by
  have e : ∀ (U : Matrix (Fin d) (Fin d) ℝ) (ν : Fin d → ℝ), PosDefinite U →
      ∑ i, r i j * Real.log (gaussDensity ν U (x i)) = -(1 / 2) * (compTotal r j * (U⁻¹ * weightedCov r x j).trace +
        compTotal r j * ((weightedMean r x j - ν) ⬝ᵥ U⁻¹ *ᵥ (weightedMean r x j - ν)))
        - compTotal r j * ((1 / 2) * Real.log ((2 * Real.pi) ^ d) + (1 / 2) * Real.log U.det) := by
    intro U ν hU
    rw [← weighted_quad r x j hN.ne' U⁻¹ ν, compTotal, Finset.mul_sum, Finset.sum_mul, ← Finset.sum_sub_distrib]
    refine Finset.sum_congr rfl fun i _ => ?_
    rw [log_gaussDensity hU]
    ring
  rw [e S μ hS, e T _ hT, h1, h2]
  have hl := mul_le_mul_of_nonneg_left (logdet_le hS hT) hN.le
  have hq := mul_nonneg hN.le (inv_quad_nonneg hS (weightedMean r x j - μ))
  simp only [sub_self, zero_dotProduct, mul_zero, add_zero]
  nlinarith

theorem trace_diagonal_mul {d : ℕ} (v : Fin d → ℝ) (W : Matrix (Fin d) (Fin d) ℝ) :
    (Matrix.diagonal v * W).trace = (Matrix.diagonal v * Matrix.diagonal fun a => W a a).trace := by
  simp [Matrix.trace, Matrix.diagonal_mul]

/-- The posterior probabilities. -/
theorem posterior_pos {k d : ℕ} {w : Fin k → ℝ} (hw : IsMixture w) {μ : Fin k → Fin d → ℝ} {S : Fin k → Matrix (Fin d) (Fin d) ℝ}
    (hS : ∀ j, PosDefinite (S j)) (x : Fin d → ℝ) :
    0 < mixDensity w μ S x ∧ (∀ j, 0 < posterior w μ S x j) ∧ ∑ j, posterior w μ S x j = 1 := by
  have hne : (Finset.univ : Finset (Fin k)).Nonempty := by
    by_contra h
    rw [Finset.not_nonempty_iff_eq_empty] at h
    have := hw.2
    rw [h, Finset.sum_empty] at this
    exact zero_ne_one this
  have hpos : ∀ j, 0 < w j * gaussDensity (μ j) (S j) x := fun j => mul_pos (hw.1 j) (gaussDensity_pos (hS j) _ _)
  have hm : 0 < mixDensity w μ S x := Finset.sum_pos (fun j _ => hpos j) hne
  refine ⟨hm, fun j => div_pos (hpos j) hm, ?_⟩
  unfold posterior
  rw [← Finset.sum_div]
  exact div_self hm.ne'

/-- One iteration of expectation maximisation does not decrease the likelihood. -/
theorem em_increases {n k d : ℕ} (x : Fin n → Fin d → ℝ) (hn : 0 < n) {w : Fin k → ℝ} (hw : IsMixture w) {μ : Fin k → Fin d → ℝ}
    {S : Fin k → Matrix (Fin d) (Fin d) ℝ} (hS : ∀ j, PosDefinite (S j)) {T : Fin k → Matrix (Fin d) (Fin d) ℝ}
    (hT : ∀ j, PosDefinite (T j))
    (h1 : ∀ j, ((S j)⁻¹ * weightedCov (fun i => posterior w μ S (x i)) x j).trace = ((S j)⁻¹ * T j).trace)
    (h2 : ∀ j, ((T j)⁻¹ * weightedCov (fun i => posterior w μ S (x i)) x j).trace = d) :
    logLikelihood w μ S x ≤ logLikelihood (fun j => compTotal (fun i => posterior w μ S (x i)) j / n)
      (weightedMean (fun i => posterior w μ S (x i)) x) T x := by
  have hn' : (0 : ℝ) < n := by exact_mod_cast hn
  have hr := fun i => posterior_pos hw (μ := μ) hS (x i)
  have hN : ∀ j, 0 < compTotal (fun i => posterior w μ S (x i)) j := by
    intro j
    have : Nonempty (Fin n) := ⟨⟨0, hn⟩⟩
    exact Finset.sum_pos (fun i _ => (hr i).2.1 j) Finset.univ_nonempty
  have hw' : ∀ j, 0 < compTotal (fun i => posterior w μ S (x i)) j / n := fun j => div_pos (hN j) hn'
  have hw1 : ∑ j, compTotal (fun i => posterior w μ S (x i)) j / n = 1 := by
    rw [← Finset.sum_div]
    unfold compTotal
    rw [Finset.sum_comm, Finset.sum_congr rfl fun i _ => (hr i).2.2]
    simp [hn.ne']
  -- the weights
  have hweights : ∑ j, compTotal (fun i => posterior w μ S (x i)) j * Real.log (w j) ≤
      ∑ j, compTotal (fun i => posterior w μ S (x i)) j * Real.log (compTotal (fun i => posterior w μ S (x i)) j / n) := by
    have g := gibbs hw' hw1 hw.1
    rw [hw.2, Real.log_one] at g
    have e : ∀ j, compTotal (fun i => posterior w μ S (x i)) j / n * Real.log (w j / (compTotal (fun i => posterior w μ S (x i)) j / n)) =
        (compTotal (fun i => posterior w μ S (x i)) j * Real.log (w j) -
          compTotal (fun i => posterior w μ S (x i)) j * Real.log (compTotal (fun i => posterior w μ S (x i)) j / n)) / n := by
      intro j
      rw [Real.log_div (hw.1 j).ne' (hw' j).ne']
      ring
    rw [Finset.sum_congr rfl fun j _ => e j, ← Finset.sum_div, Finset.sum_sub_distrib] at g
    have := (div_le_iff₀ hn').mp g
    linarith
  -- the components
  have hcomp : ∀ j, ∑ i, posterior w μ S (x i) j * Real.log (gaussDensity (μ j) (S j) (x i)) ≤
      ∑ i, posterior w μ S (x i) j * Real.log (gaussDensity (weightedMean (fun i => posterior w μ S (x i)) x j) (T j) (x i)) :=
    fun j => em_component (fun i => posterior w μ S (x i)) x j (hN j) (hS j) (hT j) (μ j) (h1 j) (h2 j)
  -- the samples
  have hsample : ∀ i, Real.log (mixDensity w μ S (x i)) +
      ∑ j, posterior w μ S (x i) j * (Real.log (compTotal (fun i => posterior w μ S (x i)) j / n) +
        Real.log (gaussDensity (weightedMean (fun i => posterior w μ S (x i)) x j) (T j) (x i)) -
        (Real.log (w j) + Real.log (gaussDensity (μ j) (S j) (x i)))) ≤
      Real.log (mixDensity (fun j => compTotal (fun i => posterior w μ S (x i)) j / n)
        (weightedMean (fun i => posterior w μ S (x i)) x) T (x i)) := by
    intro i
    have g := gibbs (hr i).2.1 (hr i).2.2 (a := fun j => compTotal (fun i => posterior w μ S (x i)) j / n *
      gaussDensity (weightedMean (fun i => posterior w μ S (x i)) x j) (T j) (x i)) fun j => mul_pos (hw' j) (gaussDensity_pos (hT j) _ _)
    refine le_trans (le_of_eq ?_) g
    have e0 : Real.log (mixDensity w μ S (x i)) = ∑ j, posterior w μ S (x i) j * Real.log (mixDensity w μ S (x i)) := by
      rw [← Finset.sum_mul, (hr i).2.2, one_mul]
    rw [e0, ← Finset.sum_add_distrib]
    refine Finset.sum_congr rfl fun j _ => ?_
    have gp := gaussDensity_pos (hS j) (μ j) (x i)
    rw [Real.log_div (mul_pos (hw' j) (gaussDensity_pos (hT j) _ _)).ne' ((hr i).2.1 j).ne',
      Real.log_mul (hw' j).ne' (gaussDensity_pos (hT j) _ _).ne']
    have e1 : Real.log (posterior w μ S (x i) j) = Real.log (w j) + Real.log (gaussDensity (μ j) (S j) (x i)) - Real.log (mixDensity w μ S (x i)) := by
      unfold posterior
      rw [Real.log_div (mul_pos (hw.1 j) gp).ne' (hr i).1.ne', Real.log_mul (hw.1 j).ne' gp.ne']
    rw [e1]
    ring
  have htotal := Finset.sum_le_sum fun i (_ : i ∈ (Finset.univ : Finset (Fin n))) => hsample i
  rw [Finset.sum_add_distrib, Finset.sum_comm] at htotal
  have hdiff : 0 ≤ ∑ j, ∑ i, posterior w μ S (x i) j * (Real.log (compTotal (fun i => posterior w μ S (x i)) j / n) +
        Real.log (gaussDensity (weightedMean (fun i => posterior w μ S (x i)) x j) (T j) (x i)) -
        (Real.log (w j) + Real.log (gaussDensity (μ j) (S j) (x i)))) := by
    have e : ∀ j, ∑ i, posterior w μ S (x i) j * (Real.log (compTotal (fun i => posterior w μ S (x i)) j / n) +
        Real.log (gaussDensity (weightedMean (fun i => posterior w μ S (x i)) x j) (T j) (x i)) -
        (Real.log (w j) + Real.log (gaussDensity (μ j) (S j) (x i)))) =
        (compTotal (fun i => posterior w μ S (x i)) j * Real.log (compTotal (fun i => posterior w μ S (x i)) j / n)
          - compTotal (fun i => posterior w μ S (x i)) j * Real.log (w j)) +
        (∑ i, posterior w μ S (x i) j * Real.log (gaussDensity (weightedMean (fun i => posterior w μ S (x i)) x j) (T j) (x i)) -
          ∑ i, posterior w μ S (x i) j * Real.log (gaussDensity (μ j) (S j) (x i))) := by
      intro j
      have ec : ∀ c : ℝ, compTotal (fun i => posterior w μ S (x i)) j * c = ∑ i, posterior w μ S (x i) j * c :=
        fun c => Finset.sum_mul ..
      rw [← mul_sub, ec, ← Finset.sum_sub_distrib, ← Finset.sum_add_distrib]
      exact Finset.sum_congr rfl fun i _ => by ring
    rw [Finset.sum_congr rfl fun j _ => e j, Finset.sum_add_distrib, Finset.sum_sub_distrib]
    have := Finset.sum_nonneg fun j (_ : j ∈ (Finset.univ : Finset (Fin k))) => sub_nonneg.mpr (hcomp j)
    linarith
  unfold logLikelihood
  linarith

/-- The conditions of `em_increases` for the full and the diagonal option. -/
theorem option_traces {n k d : ℕ} (r : Fin n → Fin k → ℝ) (x : Fin n → Fin d → ℝ) (j : Fin k) (opt : CovOption ℝ)
    {S : Matrix (Fin d) (Fin d) ℝ} (hopt : opt = .full ∨ opt = .diagonal ∧ ∃ v, S = Matrix.diagonal v)
    (hT : PosDefinite (optionCov opt r x j)) :
    (S⁻¹ * weightedCov r x j).trace = (S⁻¹ * optionCov opt r x j).trace ∧
      ((optionCov opt r x j)⁻¹ * weightedCov r x j).trace = d := by
  have hu : IsUnit (optionCov opt r x j).det := (posDef_det hT).ne'.isUnit
  have h3 : ((optionCov opt r x j)⁻¹ * optionCov opt r x j).trace = d := by
    rw [Matrix.nonsing_inv_mul _ hu, Matrix.trace_one, Fintype.card_fin]
  rcases hopt with rfl | ⟨rfl, v, rfl⟩
  · exact ⟨rfl, h3⟩
  · constructor
    · rw [Matrix.inv_diagonal, trace_diagonal_mul]; rfl
    · rw [← h3]
      simp only [optionCov, Matrix.inv_diagonal]
      rw [trace_diagonal_mul]

end RM
