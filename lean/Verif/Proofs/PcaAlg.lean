import Mathlib.LinearAlgebra.Matrix.Trace
import Verif.Spec.Pca

/-! The first right singular vectors capture the most variance. -/

namespace RM
open Spec Matrix

theorem frobSq_trace {n m : ℕ} (M : Matrix (Fin n) (Fin m) ℝ) : frobSq M = (Mᵀ * M).trace := by
  rw [frobSq, Finset.sum_comm, Matrix.trace]
  refine Finset.sum_congr rfl fun j _ => ?_
  rw [Matrix.diag_apply, Matrix.mul_apply]
  exact Finset.sum_congr rfl fun i _ => by rw [Matrix.transpose_apply, sq]

theorem frobSq_nonneg {n m : ℕ} (M : Matrix (Fin n) (Fin m) ℝ) : 0 ≤ frobSq M :=
  Finset.sum_nonneg fun _ _ => Finset.sum_nonneg fun _ _ => sq_nonneg _

theorem frobSq_transpose {n m : ℕ} (M : Matrix (Fin n) (Fin m) ℝ) : frobSq Mᵀ = frobSq M := by
  rw [frobSq, frobSq, Finset.sum_comm]; rfl

theorem frobSq_isometry {n m k : ℕ} {U : Matrix (Fin n) (Fin m) ℝ} (hU : Uᵀ * U = 1) (M : Matrix (Fin m) (Fin k) ℝ) :
    frobSq (U * M) = frobSq M := by
  rw [frobSq_trace, frobSq_trace, Matrix.transpose_mul, Matrix.mul_assoc, ← Matrix.mul_assoc Uᵀ, hU, Matrix.one_mul]

theorem frobSq_orthonormal {n p : ℕ} {Q : Matrix (Fin n) (Fin p) ℝ} (hQ : Qᵀ * Q = 1) : frobSq Q = p := by
  rw [frobSq_trace, hQ, Matrix.trace_one, Fintype.card_fin]

theorem pythagoras {n m k : ℕ} {V : Matrix (Fin n) (Fin m) ℝ} (hV : Vᵀ * V = 1) (M : Matrix (Fin n) (Fin k) ℝ) :
    frobSq (M - V * (Vᵀ * M)) = frobSq M - frobSq (Vᵀ * M) := by
  have h1 : (V * (Vᵀ * M))ᵀ * M = (Vᵀ * M)ᵀ * (Vᵀ * M) := by
    rw [Matrix.transpose_mul, Matrix.mul_assoc]
  have h2 : Mᵀ * (V * (Vᵀ * M)) = (Vᵀ * M)ᵀ * (Vᵀ * M) := by
    rw [← Matrix.mul_assoc, Matrix.transpose_mul, Matrix.transpose_transpose]
  have h3 : (V * (Vᵀ * M))ᵀ * (V * (Vᵀ * M)) = (Vᵀ * M)ᵀ * (Vᵀ * M) := by
    rw [Matrix.transpose_mul, Matrix.mul_assoc, ← Matrix.mul_assoc Vᵀ V, hV, Matrix.one_mul]
  rw [frobSq_trace, frobSq_trace, frobSq_trace, Matrix.transpose_sub, Matrix.sub_mul, Matrix.mul_sub, Matrix.mul_sub, h1, h2, h3,
    Matrix.trace_sub, Matrix.trace_sub, Matrix.trace_sub]
  ring

theorem bessel {n m k : ℕ} {V : Matrix (Fin n) (Fin m) ℝ} (hV : Vᵀ * V = 1) (M : Matrix (Fin n) (Fin k) ℝ) :
    frobSq (Vᵀ * M) ≤ frobSq M := by
  have h := pythagoras hV M
  have h' := frobSq_nonneg (M - V * (Vᵀ * M))
  linarith

theorem submatrix_orthonormal {n q p : ℕ} {V : Matrix (Fin n) (Fin q) ℝ} (hV : Vᵀ * V = 1) (f : Fin p → Fin q) (hf : Function.Injective f) :
    (V.submatrix id f)ᵀ * V.submatrix id f = 1 := by
  ext i j
  have h := congrFun (congrFun hV (f i)) (f j)
  rw [Matrix.mul_apply, Matrix.one_apply] at h
  rw [Matrix.mul_apply, Matrix.one_apply]
  simp only [hf.eq_iff] at h
  exact h

/-- A weighted sum of decreasing numbers with weights in the unit interval and total `p` is at most the sum of the first `p`. -/
theorem weighted_le {q p : ℕ} (hp : p ≤ q) {s t : Fin q → ℝ} (hs : Antitone s) (hs0 : ∀ i, 0 ≤ s i) (ht0 : ∀ i, 0 ≤ t i)
    (ht1 : ∀ i, t i ≤ 1) (ht : ∑ i, t i ≤ p) : ∑ i, s i * t i ≤ ∑ i : Fin p, s (Fin.castLE hp i) := by
  have hsum : ∑ i : Fin p, s (Fin.castLE hp i) = ∑ i : Fin q, s i * if (i : ℕ) < p then 1 else 0 := by
    have : ∀ i : Fin q, (s i * if (i : ℕ) < p then (1 : ℝ) else 0) = if (i : ℕ) < p then s i else 0 := by
      intro i; split <;> simp
    simp only [this]
    rw [← Finset.sum_filter]
    refine Finset.sum_bij (fun i _ => Fin.castLE hp i) ?_ ?_ ?_ ?_
    · intro i _; simp
    · intro i _ j _ h; exact Fin.castLE_injective hp h
    · intro i hi
      exact ⟨⟨i, by simpa using hi⟩, Finset.mem_univ _, rfl⟩
    · intro i _; rfl
  have hcount : ∑ i : Fin q, (if (i : ℕ) < p then (1 : ℝ) else 0) = p := by
    rw [Fin.sum_univ_eq_sum_range fun i => if i < p then (1 : ℝ) else 0, ← Finset.sum_filter]
    have : (Finset.range q).filter (· < p) = Finset.range p := by
      ext x; simp; omega
    rw [this]; simp
  rw [hsum]
  have key : ∃ θ : ℝ, 0 ≤ θ ∧ ∀ i : Fin q, s i * (t i - if (i : ℕ) < p then 1 else 0) ≤ θ * (t i - if (i : ℕ) < p then 1 else 0) := by
    rcases hp.lt_or_eq with h | h
    · refine ⟨s ⟨p, h⟩, hs0 _, fun i => ?_⟩
      split
      · rename_i hi
        have h1 : s ⟨p, h⟩ ≤ s i := hs (Fin.le_def.mpr hi.le)
        exact mul_le_mul_of_nonpos_right h1 (by linarith [ht1 i])
      · rename_i hi
        have h1 : s i ≤ s ⟨p, h⟩ := hs (Fin.le_def.mpr (not_lt.mp hi))
        rw [sub_zero]
        exact mul_le_mul_of_nonneg_right h1 (ht0 i)
    · refine ⟨0, le_refl _, fun i => ?_⟩
      rw [if_pos (by rw [h]; exact i.2), zero_mul]
      exact mul_nonpos_of_nonneg_of_nonpos (hs0 i) (by linarith [ht1 i])
  obtain ⟨θ, hθ, hk⟩ := key
  have h1 := Finset.sum_le_sum fun i (_ : i ∈ Finset.univ) => hk i
  rw [← Finset.mul_sum, Finset.sum_sub_distrib, hcount] at h1
  simp only [mul_sub, Finset.sum_sub_distrib] at h1
  have h2 : θ * (∑ i, t i) - θ * p ≤ 0 := by
    rw [← mul_sub]
    exact mul_nonpos_of_nonneg_of_nonpos hθ (by linarith)
  linarith

variable {r c q : ℕ} {A : Matrix (Fin r) (Fin c) ℝ} {B : Matrix (Fin q) (Fin q) ℝ} {U : Matrix (Fin r) (Fin q) ℝ}
  {V : Matrix (Fin c) (Fin q) ℝ}

/-- The projected columns are orthogonal, with decreasing norms. -/
theorem svd_scores (h : IsSvd A B U V) {p : ℕ} (hp : p ≤ q) :
    ∃ lam : Fin p → ℝ, (A * V.submatrix id (Fin.castLE hp))ᵀ * (A * V.submatrix id (Fin.castLE hp)) = Matrix.diagonal lam ∧
      Antitone lam ∧ (∀ i, 0 ≤ lam i) ∧ Aᵀ * A * V.submatrix id (Fin.castLE hp) = V.submatrix id (Fin.castLE hp) * Matrix.diagonal lam := by
  obtain ⟨hA, hU, hV, σ, rfl, hanti, hnn⟩ := h
  have hAV : A * V = U * Matrix.diagonal σ := by
    rw [hA, Matrix.mul_assoc, hV, Matrix.mul_one]
  have hgram : Aᵀ * A = V * Matrix.diagonal (fun i => σ i ^ 2) * Vᵀ := by
    rw [hA, Matrix.transpose_mul, Matrix.transpose_mul, Matrix.transpose_transpose, Matrix.diagonal_transpose]
    have : V * (diagonal σ * Uᵀ) * (U * diagonal σ * Vᵀ) = V * (diagonal σ * (Uᵀ * U) * diagonal σ) * Vᵀ := by
      simp only [Matrix.mul_assoc]
    rw [this, hU, Matrix.mul_one, Matrix.diagonal_mul_diagonal]
    simp only [sq]
  have heig : Aᵀ * A * V.submatrix id (Fin.castLE hp) = V.submatrix id (Fin.castLE hp) * Matrix.diagonal fun i => σ (Fin.castLE hp i) ^ 2 := by
    have h1 : Aᵀ * A * V = V * Matrix.diagonal fun i => σ i ^ 2 := by
      rw [hgram, Matrix.mul_assoc, hV, Matrix.mul_one]
    ext i j
    have h2 := congrFun (congrFun h1 i) (Fin.castLE hp j)
    rw [Matrix.mul_diagonal] at h2
    rw [Matrix.mul_diagonal, Matrix.mul_apply]
    rw [Matrix.mul_apply] at h2
    exact h2
  refine ⟨fun i => σ (Fin.castLE hp i) ^ 2, ?_, ?_, fun i => sq_nonneg _, heig⟩
  · have : (A * V.submatrix id (Fin.castLE hp))ᵀ * (A * V.submatrix id (Fin.castLE hp))
        = (V.submatrix id (Fin.castLE hp))ᵀ * (Aᵀ * A * V.submatrix id (Fin.castLE hp)) := by
      rw [Matrix.transpose_mul]; simp only [Matrix.mul_assoc]
    rw [this, heig, ← Matrix.mul_assoc, submatrix_orthonormal hV _ (Fin.castLE_injective hp), Matrix.one_mul]
  · intro i j hij
    exact pow_le_pow_left₀ (hnn _) (hanti (by simpa using hij)) 2

/-- The first right singular vectors capture the most variance among orthonormal families of the same size. -/
theorem svd_captures (h : IsSvd A B U V) {p : ℕ} (hp : p ≤ q) (Q : Matrix (Fin c) (Fin p) ℝ) (hQ : Qᵀ * Q = 1) :
    frobSq (A * Q) ≤ frobSq (A * V.submatrix id (Fin.castLE hp)) := by
  obtain ⟨hA, hU, hV, σ, rfl, hanti, hnn⟩ := h
  have hval : ∀ M : Matrix (Fin c) (Fin p) ℝ, frobSq (A * M) = ∑ i, σ i ^ 2 * ∑ j, (Vᵀ * M) i j ^ 2 := by
    intro M
    rw [hA, Matrix.mul_assoc, Matrix.mul_assoc, frobSq_isometry hU, frobSq]
    refine Finset.sum_congr rfl fun i _ => ?_
    rw [Finset.mul_sum]
    refine Finset.sum_congr rfl fun j _ => ?_
    rw [Matrix.diagonal_mul, mul_pow]
  have hW : frobSq (A * V.submatrix id (Fin.castLE hp)) = ∑ i : Fin p, σ (Fin.castLE hp i) ^ 2 := by
    have hAV : A * V = U * Matrix.diagonal σ := by
      rw [hA, Matrix.mul_assoc, hV, Matrix.mul_one]
    have : A * V.submatrix id (Fin.castLE hp) = U * (Matrix.diagonal σ).submatrix id (Fin.castLE hp) := by
      ext i j
      have h2 := congrFun (congrFun hAV i) (Fin.castLE hp j)
      rw [Matrix.mul_apply, Matrix.mul_apply] at h2
      rw [Matrix.mul_apply, Matrix.mul_apply]
      exact h2
    rw [this, frobSq_isometry hU, frobSq, Finset.sum_comm]
    refine Finset.sum_congr rfl fun j _ => ?_
    rw [Finset.sum_eq_single (Fin.castLE hp j)]
    · simp
    · intro i _ hi; simp [Matrix.diagonal_apply_ne _ hi]
    · intro hi; exact absurd (Finset.mem_univ _) hi
  rw [hval, hW]
  refine weighted_le hp (s := fun i => σ i ^ 2) (fun i j hij => pow_le_pow_left₀ (hnn _) (hanti hij) 2) (fun i => sq_nonneg _)
    (fun i => Finset.sum_nonneg fun _ _ => sq_nonneg _) (fun i => ?_) ?_
  · have h1 := bessel hQ (V.submatrix id (fun _ : Fin 1 => i))
    have h2 : frobSq (V.submatrix id (fun _ : Fin 1 => i)) = 1 := by
      have := frobSq_orthonormal (submatrix_orthonormal hV (fun _ : Fin 1 => i) fun a b _ => Subsingleton.elim a b)
      simpa using this
    rw [h2] at h1
    refine le_trans (le_of_eq ?_) h1
    rw [← frobSq_transpose, Matrix.transpose_mul, Matrix.transpose_transpose, frobSq]
    simp only [Finset.univ_unique, Finset.sum_singleton]
    exact Finset.sum_congr rfl fun j _ => by rw [Matrix.mul_apply, Matrix.mul_apply]; rfl
  · have h1 := bessel hV Q
    rw [frobSq_orthonormal hQ, frobSq] at h1
    exact h1

/-- All right singular vectors together keep the rows. -/
theorem svd_keeps (h : IsSvd A B U V) : A * V * Vᵀ = A := by
  obtain ⟨hA, hU, hV, -⟩ := h
  rw [hA, Matrix.mul_assoc, Matrix.mul_assoc (U * B), ← Matrix.mul_assoc Vᵀ, hV, Matrix.one_mul]

/-- What is lost by projecting. -/
theorem residual {p : ℕ} (A : Matrix (Fin r) (Fin c) ℝ) {Q : Matrix (Fin c) (Fin p) ℝ} (hQ : Qᵀ * Q = 1) :
    frobSq (A - A * Q * Qᵀ) = frobSq A - frobSq (A * Q) := by
  have h := pythagoras hQ Aᵀ
  have e1 : Aᵀ - Q * (Qᵀ * Aᵀ) = (A - A * Q * Qᵀ)ᵀ := by
    rw [Matrix.transpose_sub, Matrix.transpose_mul, Matrix.transpose_mul, Matrix.transpose_transpose]
  have e2 : Qᵀ * Aᵀ = (A * Q)ᵀ := by rw [Matrix.transpose_mul]
  rwa [e1, e2, frobSq_transpose, frobSq_transpose, frobSq_transpose] at h

/-- A product with a matrix keeps the lengths of the vectors it can be undone on. -/
theorem normSq_project {p : ℕ} (W : Matrix (Fin c) (Fin p) ℝ) (v : Fin c → ℝ) (h : (v ᵥ* W) ᵥ* Wᵀ = v) :
    normSq (v ᵥ* W) = normSq v := by
  rw [normSq, normSq]
  nth_rw 4 [← h]
  rw [Matrix.vecMul_transpose, ← Matrix.dotProduct_mulVec v W, dotProduct_comm]

end RM
