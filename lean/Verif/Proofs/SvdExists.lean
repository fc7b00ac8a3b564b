import Mathlib.Analysis.Matrix.Spectrum
import Verif.Spec.Pca
import Verif.Proofs.ToMatrix

/-! Every real matrix has a singular value decomposition, so the contract of rulinalg's `svd` can be met. -/

namespace RM
open Outcome Scalar Spec Matrix

theorem sorted_eigen {c : ℕ} (S : Matrix (Fin c) (Fin c) ℝ) (hS : Sᵀ = S) :
    ∃ (V : Matrix (Fin c) (Fin c) ℝ) (lam : Fin c → ℝ), Vᵀ * V = 1 ∧ Antitone lam ∧ S * V = V * Matrix.diagonal lam := by
  have hH : S.IsHermitian := by
    rw [Matrix.IsHermitian, Matrix.conjTranspose_eq_transpose_of_trivial, hS]
  have hsym := Matrix.isSymmetric_toEuclideanLin_iff.mpr hH
  have hn : Module.finrank ℝ (EuclideanSpace ℝ (Fin c)) = c := by simp
  let b := hsym.eigenvectorBasis hn
  refine ⟨Matrix.of fun i j => b j i, hsym.eigenvalues hn, ?_, hsym.eigenvalues_antitone hn, ?_⟩
  · ext i j
    have h := b.inner_eq_ite i j
    rw [EuclideanSpace.inner_eq_star_dotProduct] at h
    rw [Matrix.mul_apply, Matrix.one_apply, ← h]
    simp [dotProduct, mul_comm]
  · ext i j
    have h := hsym.apply_eigenvectorBasis hn j
    have h2 := congrArg (fun v : EuclideanSpace ℝ (Fin c) => v i) h
    simp only [Matrix.toLpLin_apply, PiLp.smul_apply] at h2
    rw [Matrix.mul_apply, Matrix.mul_diagonal]
    simp only [Matrix.mulVec, dotProduct] at h2
    simp only [Matrix.of_apply]
    rw [mul_comm]
    exact h2

theorem svd_tall {r c : ℕ} (hrc : c ≤ r) (A : Matrix (Fin r) (Fin c) ℝ) :
    ∃ (B : Matrix (Fin c) (Fin c) ℝ) (U : Matrix (Fin r) (Fin c) ℝ) (V : Matrix (Fin c) (Fin c) ℝ), IsSvd A B U V := by
  obtain ⟨V, lam, hV, hlam, hSV⟩ := sorted_eigen (Aᵀ * A) (by rw [Matrix.transpose_mul, Matrix.transpose_transpose])
  have hgram : (A * V)ᵀ * (A * V) = Matrix.diagonal lam := by
    rw [Matrix.transpose_mul, Matrix.mul_assoc, ← Matrix.mul_assoc Aᵀ, hSV, ← Matrix.mul_assoc, hV, Matrix.one_mul]
  have hdot : ∀ i j, ∑ k, (A * V) k i * (A * V) k j = if i = j then lam i else 0 := by
    intro i j
    have h := congrFun (congrFun hgram i) j
    rw [Matrix.mul_apply, Matrix.diagonal_apply] at h
    simpa using h
  have hnn : ∀ i, 0 ≤ lam i := by
    intro i
    have h := hdot i i
    rw [if_pos rfl] at h
    rw [← h]
    exact Finset.sum_nonneg fun k _ => mul_self_nonneg _
  have hzero : ∀ i, lam i = 0 → ∀ k, (A * V) k i = 0 := by
    intro i hi k
    have h := hdot i i
    rw [if_pos rfl, hi, Finset.sum_eq_zero_iff_of_nonneg fun k _ => mul_self_nonneg _] at h
    exact mul_self_eq_zero.mp (h k (Finset.mem_univ k))
  let v : Fin r → EuclideanSpace ℝ (Fin r) := fun i =>
    if h : (i : ℕ) < c then WithLp.toLp 2 fun k => (A * V) k ⟨i, h⟩ / Real.sqrt (lam ⟨i, h⟩) else 0
  let s : Set (Fin r) := {i | ∃ h : (i : ℕ) < c, 0 < lam ⟨i, h⟩}
  have hv : Orthonormal ℝ (s.domRestrict v) := by
    rw [orthonormal_iff_ite]
    rintro ⟨i, hi, hi0⟩ ⟨j, hj, hj0⟩
    rw [EuclideanSpace.inner_eq_star_dotProduct]
    simp only [Set.domRestrict_apply, v, dif_pos hi, dif_pos hj, dotProduct, star_trivial, Subtype.mk.injEq]
    have h := hdot ⟨j, hj⟩ ⟨i, hi⟩
    have e : ∀ k, (A * V) k ⟨j, hj⟩ / Real.sqrt (lam ⟨j, hj⟩) * ((A * V) k ⟨i, hi⟩ / Real.sqrt (lam ⟨i, hi⟩))
        = ((A * V) k ⟨j, hj⟩ * (A * V) k ⟨i, hi⟩) * (1 / (Real.sqrt (lam ⟨j, hj⟩) * Real.sqrt (lam ⟨i, hi⟩))) := by
      intro k; rw [div_mul_div_comm, div_eq_mul_one_div]
    rw [Finset.sum_congr rfl fun k _ => e k, ← Finset.sum_mul, h]
    by_cases hij : i = j
    · subst hij
      rw [if_pos rfl, if_pos rfl, Real.mul_self_sqrt hi0.le]
      field_simp
    · rw [if_neg, if_neg hij, zero_mul]
      intro h
      exact hij (Fin.ext (Fin.mk.inj_iff.mp h).symm)
  obtain ⟨b, hb⟩ := hv.exists_orthonormalBasis_extension_of_card_eq (by simp)
  have hAV : A * V = (Matrix.of fun k (i : Fin c) => b (Fin.castLE hrc i) k) * Matrix.diagonal fun i => Real.sqrt (lam i) := by
    ext k i
    rw [Matrix.mul_diagonal, Matrix.of_apply]
    rcases (hnn i).lt_or_eq with h | h
    · rw [hb (Fin.castLE hrc i) ⟨i.2, h⟩]
      have hi : ((Fin.castLE hrc i : Fin r) : ℕ) < c := i.2
      simp only [v, dif_pos hi]
      have : Real.sqrt (lam i) ≠ 0 := (Real.sqrt_pos.mpr h).ne'
      rw [show (⟨(Fin.castLE hrc i : Fin r), hi⟩ : Fin c) = i from rfl]
      field_simp
    · rw [← h, Real.sqrt_zero, mul_zero, hzero i h.symm]
  have hVV : V * Vᵀ = 1 := mul_eq_one_comm.mp hV
  refine ⟨Matrix.diagonal fun i => Real.sqrt (lam i), Matrix.of fun k (i : Fin c) => b (Fin.castLE hrc i) k, V, ?_, ?_, hV, ?_⟩
  · rw [← hAV, Matrix.mul_assoc, hVV, Matrix.mul_one]
  · ext i j
    have h := b.inner_eq_ite (Fin.castLE hrc i) (Fin.castLE hrc j)
    rw [EuclideanSpace.inner_eq_star_dotProduct] at h
    rw [Matrix.mul_apply, Matrix.one_apply]
    have e : (Fin.castLE hrc i = Fin.castLE hrc j) ↔ i = j := (Fin.castLE_injective hrc).eq_iff
    simp only [e] at h
    rw [← h]
    simp [dotProduct, mul_comm]
  · exact ⟨_, rfl, fun i j h => Real.sqrt_le_sqrt (hlam h), fun i => Real.sqrt_nonneg _⟩

/-- Every matrix has a singular value decomposition. -/
theorem svd_exists {r c q : ℕ} (hq : q = min r c) (A : Matrix (Fin r) (Fin c) ℝ) :
    ∃ (B : Matrix (Fin q) (Fin q) ℝ) (U : Matrix (Fin r) (Fin q) ℝ) (V : Matrix (Fin c) (Fin q) ℝ), IsSvd A B U V := by
  rcases le_total c r with h | h
  · rw [min_eq_right h] at hq
    subst hq
    exact svd_tall h A
  · rw [min_eq_left h] at hq
    subst hq
    obtain ⟨B, U, V, h1, h2, h3, σ, h4, h5⟩ := svd_tall h Aᵀ
    refine ⟨B, V, U, ?_, h3, h2, σ, h4, h5⟩
    rw [← Matrix.transpose_transpose A, h1, Matrix.transpose_mul, Matrix.transpose_mul, Matrix.transpose_transpose, h4,
      Matrix.diagonal_transpose, Matrix.mul_assoc]

/-- A matrix of the model with the entries of a Mathlib matrix. -/
noncomputable def ofM {n m : ℕ} (M : Matrix (Fin n) (Fin m) ℝ) : Mat ℝ := matOf n m fun x => M x.1 x.2

theorem ofM_shape {n m : ℕ} (M : Matrix (Fin n) (Fin m) ℝ) : HasShape (ofM M) n m := matOf_shape _ _ _

theorem toM_ofM {n m : ℕ} (M : Matrix (Fin n) (Fin m) ℝ) : toM n m (ofM M) = M := by
  rw [ofM, toM_matOf]; rfl

/-- A decomposition that meets the contract. -/
noncomputable def someSvd (A : Mat ℝ) : Outcome (Mat ℝ × Mat ℝ × Mat ℝ) :=
  let h := svd_exists rfl (toM A.rows.length A.cols A)
  ok (ofM h.choose, ofM h.choose_spec.choose, ofM h.choose_spec.choose_spec.choose)

theorem someSvd_exact : SvdExact someSvd := by
  intro A B U V r c hA h
  obtain ⟨rfl, rfl, -⟩ := hA
  rw [someSvd] at h
  injection h with h
  injection h with h1 h
  injection h with h2 h3
  subst h1; subst h2; subst h3
  refine ⟨ofM_shape _, ofM_shape _, ofM_shape _, ?_⟩
  rw [toM_ofM, toM_ofM, toM_ofM]
  exact (svd_exists rfl (toM A.rows.length A.cols A)).choose_spec.choose_spec.choose_spec

theorem someSvd_total : SvdTotal someSvd := fun _ _ _ _ => ⟨_, _, _, rfl⟩

end RM
