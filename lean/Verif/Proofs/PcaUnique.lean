import Mathlib.LinearAlgebra.Matrix.NonsingularInverse
import Verif.Proofs.PcaAlg
import Verif.Proofs.SvdExists

/-! How far a singular value decomposition is determined by the matrix. -/

namespace RM
open Outcome Scalar Spec Matrix

variable {n n' d : ℕ} {A : Matrix (Fin n) (Fin d) ℝ} {A' : Matrix (Fin n') (Fin d) ℝ} {σ σ' : Fin d → ℝ}
  {U : Matrix (Fin n) (Fin d) ℝ} {U' : Matrix (Fin n') (Fin d) ℝ} {V V' O : Matrix (Fin d) (Fin d) ℝ}

/-- The sum of squares along the first right singular vectors. -/
theorem frobSq_first (h : IsSvd A (Matrix.diagonal σ) U V) {p : ℕ} (hp : p ≤ d) :
    frobSq (A * V.submatrix id (Fin.castLE hp)) = ∑ i : Fin p, σ (Fin.castLE hp i) ^ 2 := by
  have hAV : A * V = U * Matrix.diagonal σ := by
    rw [h.product, Matrix.mul_assoc, h.right, Matrix.mul_one]
  have e : A * V.submatrix id (Fin.castLE hp) = U * (Matrix.diagonal σ).submatrix id (Fin.castLE hp) := by
    ext i j
    have := congrFun (congrFun hAV i) (Fin.castLE hp j)
    simpa [Matrix.mul_apply] using this
  rw [e, frobSq_isometry h.left, frobSq, Finset.sum_comm]
  refine Finset.sum_congr rfl fun j _ => ?_
  rw [Finset.sum_eq_single (Fin.castLE hp j)]
  · simp
  · intro i _ hi
    simp [Matrix.diagonal_apply_ne _ hi]
  · simp

/-- The singular values of a matrix whose Gram matrix is turned and multiplied by `q²` are no larger than `q` times the ones of the
matrix, on average over the first ones. -/
theorem partial_le (h : IsSvd A (Matrix.diagonal σ) U V) (h' : IsSvd A' (Matrix.diagonal σ') U' V') {q : ℝ} (hO : O * Oᵀ = 1)
    (hG : A'ᵀ * A' = q ^ 2 • (O * (Aᵀ * A) * Oᵀ)) {p : ℕ} (hp : p ≤ d) :
    ∑ i : Fin p, σ' (Fin.castLE hp i) ^ 2 ≤ q ^ 2 * ∑ i : Fin p, σ (Fin.castLE hp i) ^ 2 := by
  rw [← frobSq_first h hp, ← frobSq_first h' hp]
  set Q := V'.submatrix id (Fin.castLE hp) with hQ
  have hQ1 : Qᵀ * Q = 1 := submatrix_orthonormal h'.right _ (Fin.castLE_injective _)
  have hcap := svd_captures h hp (Oᵀ * Q) (by
    rw [Matrix.transpose_mul, Matrix.transpose_transpose, Matrix.mul_assoc, ← Matrix.mul_assoc O, hO, Matrix.one_mul, hQ1])
  have e : frobSq (A' * Q) = q ^ 2 * frobSq (A * (Oᵀ * Q)) := by
    rw [frobSq_trace, frobSq_trace, Matrix.transpose_mul, Matrix.mul_assoc, ← Matrix.mul_assoc A'ᵀ, hG, Matrix.smul_mul, Matrix.mul_smul,
      Matrix.trace_smul, smul_eq_mul]
    congr 2
    simp only [Matrix.transpose_mul, Matrix.transpose_transpose, Matrix.mul_assoc]
  rw [e]
  exact mul_le_mul_of_nonneg_left hcap (sq_nonneg q)

/-- Sequences with the same partial sums are the same. -/
theorem eq_of_partial {f g : Fin d → ℝ} (h : ∀ (p : ℕ) (hp : p ≤ d), ∑ i : Fin p, f (Fin.castLE hp i) = ∑ i : Fin p, g (Fin.castLE hp i)) :
    f = g := by
  funext i
  have h1 := h (i + 1) i.2
  have h0 := h i i.2.le
  rw [Fin.sum_univ_castSucc, Fin.sum_univ_castSucc (n := (i : ℕ))] at h1
  have e1 : ∀ f : Fin d → ℝ, ∑ j : Fin (i : ℕ), f (Fin.castLE i.2 j.castSucc) = ∑ j : Fin (i : ℕ), f (Fin.castLE i.2.le j) :=
    fun f => Finset.sum_congr rfl fun j _ => rfl
  rw [e1, e1, h0] at h1
  have e2 : Fin.castLE i.2 (Fin.last (i : ℕ)) = i := rfl
  rw [e2] at h1
  linarith

/-- The singular values are determined: they are multiplied by `q` when the Gram matrix is turned and multiplied by `q²`. -/
theorem singular_values (h : IsSvd A (Matrix.diagonal σ) U V) (h' : IsSvd A' (Matrix.diagonal σ') U' V') {q : ℝ} (hq : 0 < q)
    (hO : O * Oᵀ = 1) (hG : A'ᵀ * A' = q ^ 2 • (O * (Aᵀ * A) * Oᵀ)) : ∀ i, σ' i = q * σ i := by
  have hO' : Oᵀ * O = 1 := mul_eq_one_comm.mp hO
  have hG' : Aᵀ * A = q⁻¹ ^ 2 • (Oᵀ * (A'ᵀ * A') * Oᵀᵀ) := by
    rw [hG, Matrix.mul_smul, Matrix.smul_mul, smul_smul, ← mul_pow, inv_mul_cancel₀ hq.ne', one_pow, one_smul, Matrix.transpose_transpose]
    rw [Matrix.mul_assoc, Matrix.mul_assoc, Matrix.mul_assoc, hO', Matrix.mul_one, ← Matrix.mul_assoc, hO', Matrix.one_mul]
  have hsq : (fun i => σ' i ^ 2) = fun i => q ^ 2 * σ i ^ 2 := by
    apply eq_of_partial
    intro p hp
    refine le_antisymm ?_ ?_
    · rw [← Finset.mul_sum]
      exact partial_le h h' hO hG hp
    · have := partial_le (O := Oᵀ) h' h (by rw [Matrix.transpose_transpose, hO']) hG' hp
      rw [← Finset.mul_sum]
      have hq2 : 0 < q ^ 2 := by positivity
      rw [inv_pow, inv_mul_eq_div, le_div_iff₀ hq2] at this
      linarith
  obtain ⟨s, e, -, hs⟩ := h.values
  obtain ⟨s', e', -, hs'⟩ := h'.values
  intro i
  have n1 : 0 ≤ σ i := by
    have := congrFun (congrFun e i) i
    rw [Matrix.diagonal_apply_eq, Matrix.diagonal_apply_eq] at this
    rw [this]; exact hs i
  have n2 : 0 ≤ σ' i := by
    have := congrFun (congrFun e' i) i
    rw [Matrix.diagonal_apply_eq, Matrix.diagonal_apply_eq] at this
    rw [this]; exact hs' i
  have : σ' i ^ 2 = q ^ 2 * σ i ^ 2 := congrFun hsq i
  rw [← mul_pow] at this
  exact (sq_eq_sq₀ n2 (mul_nonneg hq.le n1)).mp this

theorem gram_eigen (h : IsSvd A (Matrix.diagonal σ) U V) : Aᵀ * A * V = V * Matrix.diagonal fun i => σ i ^ 2 := by
  rw [h.product]
  simp only [Matrix.transpose_mul, Matrix.transpose_transpose, Matrix.diagonal_transpose, Matrix.mul_assoc]
  rw [h.right, Matrix.mul_one, ← Matrix.mul_assoc Uᵀ, h.left, Matrix.one_mul, Matrix.diagonal_mul_diagonal]
  simp only [sq]

/-- The first `p` right singular vectors are determined up to an orthogonal matrix that mixes only vectors with equal singular values,
if the singular values after them are different from theirs. -/
theorem singular_vectors (h : IsSvd A (Matrix.diagonal σ) U V) (h' : IsSvd A' (Matrix.diagonal σ') U' V') {q : ℝ} (hq : 0 < q)
    (hO : O * Oᵀ = 1) (hG : A'ᵀ * A' = q ^ 2 • (O * (Aᵀ * A) * Oᵀ)) {p : ℕ} (hp : p ≤ d)
    (hgap : ∀ i j : Fin d, (i : ℕ) < p → p ≤ (j : ℕ) → σ i ≠ σ j) :
    ∃ R : Matrix (Fin p) (Fin p) ℝ, R * Rᵀ = 1 ∧ (∀ i j, σ (Fin.castLE hp i) ≠ σ (Fin.castLE hp j) → R i j = 0) ∧
      V'.submatrix id (Fin.castLE hp) = O * V.submatrix id (Fin.castLE hp) * R := by
  have hval := singular_values h h' hq hO hG
  have hO' : Oᵀ * O = 1 := mul_eq_one_comm.mp hO
  have hV : V * Vᵀ = 1 := mul_eq_one_comm.mp h.right
  have hpos : ∀ i, 0 ≤ σ i := by
    obtain ⟨s, e, -, hs⟩ := h.values
    intro i
    have := congrFun (congrFun e i) i
    rw [Matrix.diagonal_apply_eq, Matrix.diagonal_apply_eq] at this
    rw [this]; exact hs i
  set M : Matrix (Fin d) (Fin d) ℝ := Vᵀ * Oᵀ * V' with hM
  have hV' : V' = O * V * M := by
    rw [hM, Matrix.mul_assoc Vᵀ, ← Matrix.mul_assoc, Matrix.mul_assoc O, hV, Matrix.mul_one, ← Matrix.mul_assoc, hO, Matrix.one_mul]
  have hMM : Mᵀ * M = 1 := by
    have h1 := h'.right
    rw [hV'] at h1
    simp only [Matrix.transpose_mul, Matrix.mul_assoc] at h1
    rw [← Matrix.mul_assoc Oᵀ, hO', Matrix.one_mul, ← Matrix.mul_assoc Vᵀ, h.right, Matrix.one_mul] at h1
    exact h1
  -- the entries of `M` between vectors with different singular values are zero
  have hent : ∀ i j, σ i ≠ σ j → M i j = 0 := by
    intro i j hij
    have e1 := gram_eigen h'
    rw [hG] at e1
    have e2 : Matrix.diagonal (fun i => σ i ^ 2) * M = M * Matrix.diagonal fun i => σ i ^ 2 := by
      have a1 : Vᵀ * (Aᵀ * A) = Matrix.diagonal (fun i => σ i ^ 2) * Vᵀ := by
        have := congrArg Matrix.transpose (gram_eigen h)
        simpa only [Matrix.transpose_mul, Matrix.transpose_transpose, Matrix.diagonal_transpose, Matrix.mul_assoc] using this
      have a2 : Vᵀ * Oᵀ * (q ^ 2 • (O * (Aᵀ * A) * Oᵀ) * V') = Vᵀ * Oᵀ * (V' * Matrix.diagonal fun i => σ' i ^ 2) := by rw [e1]
      have a3 : Vᵀ * Oᵀ * (q ^ 2 • (O * (Aᵀ * A) * Oᵀ) * V') = q ^ 2 • (Matrix.diagonal (fun i => σ i ^ 2) * M) := by
        rw [Matrix.smul_mul, Matrix.mul_smul]
        congr 1
        simp only [Matrix.mul_assoc]
        rw [← Matrix.mul_assoc Oᵀ O, hO', Matrix.one_mul, hM]
        simp only [← Matrix.mul_assoc]
        rw [Matrix.mul_assoc Vᵀ, a1]
      have a4 : (Matrix.diagonal fun i => σ' i ^ 2) = q ^ 2 • Matrix.diagonal fun i => σ i ^ 2 := by
        rw [← Matrix.diagonal_smul]
        congr 1
        funext i
        rw [hval i, mul_pow]
        rfl
      rw [a3, a4, Matrix.mul_smul, Matrix.mul_smul, ← Matrix.mul_assoc (Vᵀ * Oᵀ), ← hM] at a2
      have hq2 : q ^ 2 ≠ 0 := by positivity
      exact smul_right_injective _ hq2 a2
    have e3 := congrFun (congrFun e2 i) j
    rw [Matrix.diagonal_mul, Matrix.mul_diagonal] at e3
    have e4 : σ i ^ 2 ≠ σ j ^ 2 := fun hc => hij ((sq_eq_sq₀ (hpos i) (hpos j)).mp hc)
    have e5 : (σ i ^ 2 - σ j ^ 2) * M i j = 0 := by linarith
    exact (mul_eq_zero.mp e5).resolve_left (sub_ne_zero.mpr e4)
  -- sums over all vectors are sums over the first ones
  have hsum : ∀ f : Fin d → ℝ, (∀ i : Fin d, p ≤ (i : ℕ) → f i = 0) → ∑ i, f i = ∑ i : Fin p, f (Fin.castLE hp i) := by
    intro f hf
    symm
    rw [← Finset.sum_image (g := Fin.castLE hp) (s := Finset.univ) (fun a _ b _ hab => Fin.castLE_injective hp hab)]
    refine Finset.sum_subset (Finset.subset_univ _) fun i _ hi => ?_
    by_cases hip : (i : ℕ) < p
    · exact absurd (Finset.mem_image.mpr ⟨(⟨i, hip⟩ : Fin p), Finset.mem_univ _, rfl⟩) hi
    · exact hf i (not_lt.mp hip)
  refine ⟨M.submatrix (Fin.castLE hp) (Fin.castLE hp), ?_, fun i j hij => hent _ _ hij, ?_⟩
  · rw [mul_eq_one_comm]
    ext a b
    have := congrFun (congrFun hMM (Fin.castLE hp a)) (Fin.castLE hp b)
    rw [Matrix.mul_apply, hsum] at this
    · rw [Matrix.mul_apply]
      simp only [Matrix.transpose_apply, Matrix.submatrix_apply] at this ⊢
      rw [this, Matrix.one_apply, Matrix.one_apply]
      simp only [(Fin.castLE_injective hp).eq_iff]
    · intro i hi
      rw [Matrix.transpose_apply, hent i (Fin.castLE hp a) (Ne.symm (hgap _ i (by simp) hi)), zero_mul]
  · ext a b
    have := congrFun (congrFun hV' a) (Fin.castLE hp b)
    rw [Matrix.mul_apply, hsum] at this
    · rw [Matrix.submatrix_apply, id, this, Matrix.mul_apply]
      refine Finset.sum_congr rfl fun i _ => ?_
      congr 1
    · intro i hi
      rw [hent i (Fin.castLE hp b) (Ne.symm (hgap _ i (by simp) hi)), mul_zero]

end RM
