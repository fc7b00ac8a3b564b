import Mathlib.Analysis.Calculus.Deriv.Pow
import Mathlib.Algebra.BigOperators.Field
import Mathlib.Analysis.Calculus.FDeriv.Add
import Mathlib.Analysis.Calculus.FDeriv.Comp
import Verif.Model.LinReg
import Verif.Spec.Regression
import Verif.Proofs.ToMatrix
import Verif.Proofs.NNet

/-! Least squares and gradients of linear models. -/

namespace RM
open Outcome Scalar Spec Matrix

theorem withOnes_ok (X : Mat ℝ) : withOnes X = ok ⟨X.cols + 1, X.rows.map ((1 : ℝ) :: ·)⟩ := hcat_ones X

theorem withOnes_shape {X : Mat ℝ} (hX : X.WF) : HasShape (⟨X.cols + 1, X.rows.map ((1 : ℝ) :: ·)⟩ : Mat ℝ) X.rows.length (X.cols + 1) := by
  refine ⟨by simp, rfl, ?_⟩
  intro row hrow
  obtain ⟨r, hr, rfl⟩ := List.mem_map.mp hrow
  simp [hX r hr]

theorem dot_inner (x w : List ℝ) : dot x w = inner x w := dot_real x w

theorem dot_affine (x β : List ℝ) (h : β ≠ []) : dot (1 :: x) β = affine β x := by
  cases β with
  | nil => exact absurd rfl h
  | cons b β => rw [dot_cons_real, affine, dot_inner]; simp

/-- Scores of the rows. -/
theorem mulVec_row {A : Mat ℝ} {n m : ℕ} (hA : HasShape A n m) {w : List ℝ} (hw : w.length = m) (i : Fin n) :
    (toM n m A).mulVec (toV m w) i = inner (A.rows.getD i []) w := by
  rw [← dot_inner, dot_eq_range (shape_row_length hA i.2) hw, Finset.sum_range]
  rfl

theorem zipWith_sum_fin {rows : List (List ℝ)} {y : List ℝ} {n : ℕ} (h1 : rows.length = n) (h2 : y.length = n) (f : List ℝ → ℝ → ℝ) :
    (List.zipWith f rows y).sum = ∑ i : Fin n, f (rows.getD i []) (y.getD i 0) := by
  conv_lhs => rw [← ofFn_getD h1 [], ← ofFn_getD h2 0, zipWith_ofFn, List.sum_ofFn]

/-- Pythagoras: the squared error splits at a solution of the normal equations. -/
theorem least_squares {n m : ℕ} (A : Matrix (Fin n) (Fin m) ℝ) (y : Fin n → ℝ) (b c : Fin m → ℝ) (h : (Aᵀ * A).mulVec b = Aᵀ.mulVec y) :
    ∑ i, (y i - A.mulVec c i) ^ 2 = ∑ i, (y i - A.mulVec b i) ^ 2 + ∑ i, (A.mulVec (c - b) i) ^ 2 := by
  have h0 : Aᵀ.mulVec (y - A.mulVec b) = 0 := by rw [Matrix.mulVec_sub, ← h, Matrix.mulVec_mulVec, sub_self]
  have h1 : ∑ i, (y - A.mulVec b) i * A.mulVec (c - b) i = 0 := by
    have : (y - A.mulVec b) ⬝ᵥ A.mulVec (c - b) = 0 := by
      rw [Matrix.dotProduct_mulVec, ← Matrix.mulVec_transpose, h0, zero_dotProduct]
    exact this
  have h2 : ∀ i, (y i - A.mulVec c i) ^ 2 = (y i - A.mulVec b i) ^ 2 + (A.mulVec (c - b) i) ^ 2 - 2 * ((y - A.mulVec b) i * A.mulVec (c - b) i) := by
    intro i
    have : A.mulVec (c - b) i = A.mulVec c i - A.mulVec b i := by rw [Matrix.mulVec_sub]; rfl
    rw [this, Pi.sub_apply]; ring
  simp only [h2, Finset.sum_sub_distrib, Finset.sum_add_distrib, ← Finset.mul_sum]
  rw [h1]; ring

/-- The gradient of a sum of functions of the scores. -/
theorem gradient_linear {n m : ℕ} (A : Matrix (Fin n) (Fin m) ℝ) (h : Fin n → ℝ → ℝ) (d : Fin n → ℝ) (w : Fin m → ℝ)
    (hd : ∀ i, HasDerivAt (h i) (d i) (A.mulVec w i)) :
    IsGradientAt (fun v => ∑ i, h i (A.mulVec v i)) (Aᵀ.mulVec d) w := by
  unfold IsGradientAt
  have hs : ∀ i, HasFDerivAt (fun v : Fin m → ℝ => A.mulVec v i) (∑ k, A i k • (ContinuousLinearMap.proj k : (Fin m → ℝ) →L[ℝ] ℝ)) w := by
    intro i
    have : (fun v : Fin m → ℝ => A.mulVec v i) = fun v => (∑ k, A i k • (ContinuousLinearMap.proj k : (Fin m → ℝ) →L[ℝ] ℝ)) v := by
      funext v
      simp [Matrix.mulVec, dotProduct]
    rw [this]
    exact ContinuousLinearMap.hasFDerivAt _
  have := HasFDerivAt.fun_sum (u := Finset.univ) fun i _ => (hd i).comp_hasFDerivAt w (hs i)
  refine this.congr_fderiv ?_
  ext v
  simp only [ContinuousLinearMap.sum_apply, ContinuousLinearMap.smul_apply, ContinuousLinearMap.proj_apply, smul_eq_mul, Matrix.mulVec,
    dotProduct, Matrix.transpose_apply, Finset.mul_sum, Finset.sum_mul]
  rw [Finset.sum_comm]
  exact Finset.sum_congr rfl fun k _ => Finset.sum_congr rfl fun i _ => by ring

theorem gradient_div {ι : Type} [Fintype ι] {f : (ι → ℝ) → ℝ} {g x : ι → ℝ} (h : IsGradientAt f g x) (c : ℝ) :
    IsGradientAt (fun v => f v / c) (fun k => g k / c) x := by
  unfold IsGradientAt at h ⊢
  have := h.mul_const c⁻¹
  simp only [← div_eq_mul_inv] at this
  refine this.congr_fderiv ?_
  ext v
  simp only [ContinuousLinearMap.sum_apply, ContinuousLinearMap.smul_apply, ContinuousLinearMap.proj_apply, smul_eq_mul, Finset.mul_sum]
  exact Finset.sum_congr rfl fun k _ => by ring

end RM
