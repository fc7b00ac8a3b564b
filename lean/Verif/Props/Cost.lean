import Mathlib.Analysis.SpecialFunctions.Log.Deriv
import Mathlib.Analysis.Calculus.Deriv.Pow
import Mathlib.Algebra.BigOperators.Field
import Verif.Model.Cost
import Verif.Proofs.MatOf

/-!
C42: the cost functions and their gradients (exact arithmetic).
-/

namespace RM
open Outcome Scalar Spec

theorem mseCost_matOf {r c : ℕ} (x t : Fin r × Fin c → ℝ) :
    mseCost (matOf r c x) (matOf r c t) = ok ((∑ k, (x k - t k) ^ 2) / (2 * r)) := by
  have h1 := zip_matOf Scalar.sub x t
  have h2 := zip_matOf Scalar.mul (fun k => x k -. t k) (fun k => x k -. t k)
  unfold mseCost
  rw [h1, ok_bind, h2, ok_bind, sum_matOf, (matOf_shape r c _).1]
  simp [sq]

theorem ceCost_matOf {r c : ℕ} (x t : Fin r × Fin c → ℝ) :
    ceCost (matOf r c x) (matOf r c t) = ok (-(∑ k, (t k * Real.log (x k) + (1 - t k) * Real.log (1 - x k))) / r) := by
  unfold ceCost
  simp only [map_matOf, zip_matOf, ok_bind, sum_matOf, (matOf_shape r c _).1]
  congr 2
  simp [oneMinus, neg_add_eq_sub]

/-- C42: a panic exactly when the shapes differ. -/
theorem C42_shape_mismatch (X T : Mat ℝ) : (mseCost X T = Outcome.panic ↔ ¬(X.rows.length = T.rows.length ∧ X.cols = T.cols)) ∧
    (mseGrad X T = Outcome.panic ↔ ¬(X.rows.length = T.rows.length ∧ X.cols = T.cols)) := by
  by_cases h : X.rows.length = T.rows.length ∧ X.cols = T.cols
  · constructor
    · simp only [h, not_true, iff_false, and_self]
      unfold mseCost Mat.zip
      rw [if_pos h, ok_bind, if_pos ⟨rfl, rfl⟩, ok_bind]
      exact fun hc => by cases hc
    · simp only [h, not_true, iff_false, and_self]
      unfold mseGrad Mat.zip
      rw [if_pos h]
      exact fun hc => by cases hc
  · constructor
    · refine iff_of_true ?_ h
      unfold mseCost Mat.zip
      rw [if_neg h]; rfl
    · refine iff_of_true ?_ h
      unfold mseGrad Mat.zip
      rw [if_neg h]

/-- C42 (mean squared error): the cost is `1/(2n)` times the sum of squared differences; it is non-negative and zero only
when the outputs are the targets. -/
theorem C42_mse {r c : ℕ} (hr : 0 < r) (X T : Mat ℝ) (hX : HasShape X r c) (hT : HasShape T r c) :
    ∃ v, mseCost X T = ok v ∧ v = (∑ i : Fin r, ∑ j : Fin c, (ent X i j - ent T i j) ^ 2) / (2 * r) ∧ 0 ≤ v ∧ (v = 0 ↔ X = T) := by
  have hr' : (0 : ℝ) < 2 * r := by positivity
  have h1 : mseCost X T = mseCost (matOf r c fun k => ent X k.1 k.2) (matOf r c fun k => ent T k.1 k.2) := by
    rw [← eq_matOf hX, ← eq_matOf hT]
  rw [h1, mseCost_matOf]
  refine ⟨_, rfl, ?_, ?_, ?_⟩
  · rw [Fintype.sum_prod_type]
  · exact div_nonneg (Finset.sum_nonneg fun k _ => sq_nonneg _) hr'.le
  · rw [div_eq_zero_iff, or_iff_left hr'.ne', Finset.sum_eq_zero_iff_of_nonneg (fun k _ => sq_nonneg _)]
    constructor
    · intro h
      rw [eq_matOf hX, eq_matOf hT]
      congr 1
      funext k
      have := h k (Finset.mem_univ k)
      exact sub_eq_zero.1 (pow_eq_zero_iff (two_ne_zero)|>.1 this)
    · rintro rfl k _
      simp

/-- C42 (mean squared error): `grad_cost` is the number of rows times the gradient of `cost` in the outputs. -/
theorem C42_mse_grad {r c : ℕ} (X T : Mat ℝ) (hr : 0 < r) (hX : HasShape X r c) (hT : HasShape T r c) :
    ∃ G, mseGrad X T = ok G ∧ MatGradientAt (fun Y => do let v ← mseCost Y T; ok ((r : ℝ) * v)) Set.univ r c G X := by
  have hr' : (r : ℝ) ≠ 0 := by positivity
  have h1 : mseGrad X T = ok (matOf r c fun k => ent X k.1 k.2 - ent T k.1 k.2) := by
    conv_lhs => rw [eq_matOf hX, eq_matOf hT]
    exact zip_matOf _ _ _
  refine ⟨_, h1, matOf_shape _ _ _, fun v => ∑ k, (v k - ent T k.1 k.2) ^ 2 / 2, ?_, ?_⟩
  · intro v _
    show (do let w ← mseCost (matOf r c v) T; ok ((r : ℝ) * w)) = _
    conv_lhs => rw [eq_matOf hT]
    rw [mseCost_matOf, ok_bind]
    congr 1
    simp only [← Finset.sum_div]
    field_simp
  · have := gradient_separable (fun k y => (y - ent T k.1 k.2) ^ 2 / 2) (fun k : Fin r × Fin c => ent X k.1 k.2 - ent T k.1 k.2) (fun k => ent X k.1 k.2) (by
      intro k
      have h := (((hasDerivAt_id (ent X k.1 k.2)).sub_const (ent T k.1 k.2)).fun_pow 2).div_const 2
      have e : ((2 : ℕ) : ℝ) * (id (ent X ↑k.1 ↑k.2) - ent T ↑k.1 ↑k.2) ^ (2 - 1) * 1 / 2 = ent X k.1 k.2 - ent T k.1 k.2 := by
        simp
      rw [e] at h
      exact h)
    simpa only [ent_matOf] using this

/-- C42 (cross entropy): for outputs strictly between 0 and 1 and targets between 0 and 1 the cost is
`-1/n * Σ t ln x + (1 - t) ln (1 - x)`, which is non-negative. -/
theorem C42_crossEntropy {r c : ℕ} (X T : Mat ℝ) (hX : HasShape X r c) (hT : HasShape T r c)
    (hx : ∀ row ∈ X.rows, ∀ x ∈ row, 0 < x ∧ x < 1) (ht : ∀ row ∈ T.rows, ∀ t ∈ row, 0 ≤ t ∧ t ≤ 1) :
    ∃ v, ceCost X T = ok v ∧ v = -(∑ i : Fin r, ∑ j : Fin c, (ent T i j * Real.log (ent X i j) + (1 - ent T i j) * Real.log (1 - ent X i j))) / r ∧ 0 ≤ v := by
  have hme : ∀ (M : Mat ℝ), HasShape M r c → ∀ (i : Fin r) (j : Fin c), ∃ row ∈ M.rows, ent M i j ∈ row := by
    intro M hM i j
    have hi : (i : ℕ) < M.rows.length := by rw [hM.1]; exact i.2
    have hj : (j : ℕ) < (M.rows[(i : ℕ)]).length := by rw [hM.2.2 _ (List.getElem_mem hi)]; exact j.2
    refine ⟨M.rows[(i : ℕ)], List.getElem_mem hi, ?_⟩
    unfold ent
    rw [getD_lt _ hi, getD_lt _ hj]
    exact List.getElem_mem hj
  have h1 : ceCost X T = ceCost (matOf r c fun k => ent X k.1 k.2) (matOf r c fun k => ent T k.1 k.2) := by
    rw [← eq_matOf hX, ← eq_matOf hT]
  rw [h1, ceCost_matOf]
  refine ⟨_, rfl, ?_, ?_⟩
  · rw [Fintype.sum_prod_type]
  · apply div_nonneg _ (Nat.cast_nonneg r)
    rw [neg_nonneg]
    apply Finset.sum_nonpos
    intro k _
    obtain ⟨row, hrow, hm⟩ := hme X hX k.1 k.2
    obtain ⟨row', hrow', hm'⟩ := hme T hT k.1 k.2
    obtain ⟨a1, a2⟩ := hx row hrow _ hm
    obtain ⟨b1, b2⟩ := ht row' hrow' _ hm'
    have l1 : Real.log (ent X k.1 k.2) ≤ 0 := Real.log_nonpos a1.le a2.le
    have l2 : Real.log (1 - ent X k.1 k.2) ≤ 0 := Real.log_nonpos (by linarith) (by linarith)
    nlinarith [mul_nonneg b1 (neg_nonneg.2 l1), mul_nonneg (sub_nonneg.2 b2) (neg_nonneg.2 l2)]

/-- C42 (cross entropy): `grad_cost` is the number of rows times the gradient of `cost` in the outputs. -/
theorem C42_crossEntropy_grad {r c : ℕ} (X T : Mat ℝ) (hr : 0 < r) (hX : HasShape X r c) (hT : HasShape T r c)
    (hx : ∀ i : Fin r, ∀ j : Fin c, 0 < ent X i j ∧ ent X i j < 1) :
    ∃ G, ceGrad X T = ok G ∧ MatGradientAt (fun Y => do let v ← ceCost Y T; ok ((r : ℝ) * v)) (Set.Ioo 0 1) r c G X := by
  have hr' : (r : ℝ) ≠ 0 := by positivity
  have h1 : ceGrad X T = ok (matOf r c fun k => (ent X k.1 k.2 - ent T k.1 k.2) / (ent X k.1 k.2 * (1 - ent X k.1 k.2))) := by
    conv_lhs => rw [eq_matOf hX, eq_matOf hT]
    unfold ceGrad
    simp only [map_matOf, zip_matOf, ok_bind]
    congr 2
    funext k
    simp [oneMinus, neg_add_eq_sub]
  refine ⟨_, h1, matOf_shape _ _ _, fun v => ∑ k, -(ent T k.1 k.2 * Real.log (v k) + (1 - ent T k.1 k.2) * Real.log (1 - v k)), ?_, ?_⟩
  · intro v _
    show (do let w ← ceCost (matOf r c v) T; ok ((r : ℝ) * w)) = _
    conv_lhs => rw [eq_matOf hT]
    rw [ceCost_matOf, ok_bind]
    congr 1
    simp only [Finset.sum_neg_distrib]
    field_simp
  · have := gradient_separable (fun k y => -(ent T k.1 k.2 * Real.log y + (1 - ent T k.1 k.2) * Real.log (1 - y)))
      (fun k : Fin r × Fin c => (ent X k.1 k.2 - ent T k.1 k.2) / (ent X k.1 k.2 * (1 - ent X k.1 k.2))) (fun k => ent X k.1 k.2) (by
      intro k
      obtain ⟨a1, a2⟩ := hx k.1 k.2
      have b1 : ent X k.1 k.2 ≠ 0 := a1.ne'
      have b2 : 1 - ent X k.1 k.2 ≠ 0 := by linarith
      have d1 := (Real.hasDerivAt_log b1).const_mul (ent T k.1 k.2)
      have d2 := (((hasDerivAt_id (ent X k.1 k.2)).const_sub 1).log b2).const_mul (1 - ent T k.1 k.2)
      have d := (d1.add d2).neg
      have e : -(ent T ↑k.1 ↑k.2 * (ent X ↑k.1 ↑k.2)⁻¹ + (1 - ent T ↑k.1 ↑k.2) * (-1 / (1 - ent X k.1 k.2))) = (ent X k.1 k.2 - ent T k.1 k.2) / (ent X k.1 k.2 * (1 - ent X k.1 k.2)) := by
        field_simp
        ring
      rw [← e]
      exact d)
    simpa only [ent_matOf] using this

/-- Gibbs' inequality for one Bernoulli term. -/
theorem bernoulli_gibbs {x t : ℝ} (hx0 : 0 < x) (hx1 : x < 1) (ht0 : 0 < t) (ht1 : t < 1) :
    t * Real.log x + (1 - t) * Real.log (1 - x) ≤ t * Real.log t + (1 - t) * Real.log (1 - t) := by
  have h1 := Real.log_le_sub_one_of_pos (div_pos hx0 ht0)
  have h2 := Real.log_le_sub_one_of_pos (div_pos (sub_pos.2 hx1) (sub_pos.2 ht1))
  rw [Real.log_div hx0.ne' ht0.ne'] at h1
  rw [Real.log_div (sub_pos.2 hx1).ne' (sub_pos.2 ht1).ne'] at h2
  have h3 := mul_le_mul_of_nonneg_left h1 ht0.le
  have h4 := mul_le_mul_of_nonneg_left h2 (sub_pos.2 ht1).le
  have e1 : t * (x / t - 1) = x - t := by field_simp
  have e2 : (1 - t) * ((1 - x) / (1 - t) - 1) = t - x := by
    have := (sub_pos.2 ht1).ne'
    field_simp; ring
  rw [e1] at h3
  rw [e2] at h4
  nlinarith

/-- C42 (cross entropy): among outputs strictly between 0 and 1 the targets themselves (strictly between 0 and 1) have the
least cost. -/
theorem C42_crossEntropy_min {r c : ℕ} (X T : Mat ℝ) (hX : HasShape X r c) (hT : HasShape T r c)
    (hx : ∀ i : Fin r, ∀ j : Fin c, 0 < ent X i j ∧ ent X i j < 1) (ht : ∀ i : Fin r, ∀ j : Fin c, 0 < ent T i j ∧ ent T i j < 1) :
    ∃ v w, ceCost X T = ok v ∧ ceCost T T = ok w ∧ w ≤ v := by
  have h1 : ceCost X T = ceCost (matOf r c fun k => ent X k.1 k.2) (matOf r c fun k => ent T k.1 k.2) := by
    rw [← eq_matOf hX, ← eq_matOf hT]
  have h2 : ceCost T T = ceCost (matOf r c fun k => ent T k.1 k.2) (matOf r c fun k => ent T k.1 k.2) := by
    rw [← eq_matOf hT]
  rw [h1, h2, ceCost_matOf, ceCost_matOf]
  refine ⟨_, _, rfl, rfl, ?_⟩
  apply div_le_div_of_nonneg_right _ (Nat.cast_nonneg r)
  rw [neg_le_neg_iff]
  apply Finset.sum_le_sum
  intro k _
  exact bernoulli_gibbs (hx k.1 k.2).1 (hx k.1 k.2).2 (ht k.1 k.2).1 (ht k.1 k.2).2

/-- C42: the vector versions are the matrix versions of the one-column matrix with the same entries. -/
theorem C42_vector (x t : List ℝ) (h : x.length = t.length) :
    mseCostVec x t = mseCost ⟨1, x.map fun a => [a]⟩ ⟨1, t.map fun a => [a]⟩ ∧
    ceCostVec x t = ceCost ⟨1, x.map fun a => [a]⟩ ⟨1, t.map fun a => [a]⟩ ∧
    (∃ g, mseGradVec x t = ok g ∧ mseGrad ⟨1, x.map fun a => [a]⟩ ⟨1, t.map fun a => [a]⟩ = ok ⟨1, g.map fun a => [a]⟩) ∧
    ∃ g, ceGradVec x t = ok g ∧ ceGrad ⟨1, x.map fun a => [a]⟩ ⟨1, t.map fun a => [a]⟩ = ok ⟨1, g.map fun a => [a]⟩ := by
  have hz : ∀ (f : ℝ → ℝ → ℝ) (a b : List ℝ), a.length = b.length →
      vecZip f a b = ok (List.zipWith f a b) ∧ Mat.zip f ⟨1, a.map fun y => [y]⟩ ⟨1, b.map fun y => [y]⟩ = ok ⟨1, (List.zipWith f a b).map fun y => [y]⟩ := by
    intro f a b hab
    constructor
    · unfold vecZip; rw [if_pos hab]
    · unfold Mat.zip
      rw [if_pos ⟨by simpa using hab, rfl⟩]
      congr 2
      simp only
      rw [List.zipWith_map, List.map_zipWith]
      rfl
  have hm : ∀ (f : ℝ → ℝ) (a : List ℝ), Mat.map f ⟨1, a.map fun y => [y]⟩ = ⟨1, (a.map f).map fun y => [y]⟩ := by
    intro f a; unfold Mat.map; simp [Function.comp_def]
  have hs : ∀ a : List ℝ, Mat.sum ⟨1, a.map fun y => [y]⟩ = fsum a := by
    intro a
    rw [Mat.sum_real, fsum_real]
    simp [Function.comp_def]
  have l1 : (List.zipWith Scalar.sub x t).length = x.length := by simp [h]
  refine ⟨?_, ?_, ⟨_, (hz _ _ _ h).1, (hz _ _ _ h).2⟩, ?_⟩
  · unfold mseCostVec mseCost
    rw [(hz _ _ _ h).1, (hz _ _ _ h).2]
    simp only [ok_bind]
    rw [(hz _ _ _ rfl).1, (hz _ _ _ rfl).2]
    simp only [ok_bind, hs, List.length_map]
  · unfold ceCostVec ceCost
    have a1 : t.length = (x.map Scalar.ln).length := by simp [h]
    have a2 : (t.map oneMinus).length = ((x.map oneMinus).map Scalar.ln).length := by simp [h]
    have a3 : (List.zipWith Scalar.mul t (x.map Scalar.ln)).length = (List.zipWith Scalar.mul (t.map oneMinus) ((x.map oneMinus).map Scalar.ln)).length := by
      simp
    simp only [hm]
    rw [(hz _ _ _ a1).1, (hz _ _ _ a1).2]
    simp only [ok_bind]
    rw [(hz _ _ _ a2).1, (hz _ _ _ a2).2]
    simp only [ok_bind]
    rw [(hz _ _ _ a3).1, (hz _ _ _ a3).2]
    simp only [ok_bind, hs, List.length_map]
  · have a1 : x.length = (x.map oneMinus).length := by simp
    have a2 : (List.zipWith Scalar.sub x t).length = (List.zipWith Scalar.mul x (x.map oneMinus)).length := by simp [h]
    refine ⟨List.zipWith Scalar.div (List.zipWith Scalar.sub x t) (List.zipWith Scalar.mul x (x.map oneMinus)), ?_, ?_⟩
    · unfold ceGradVec
      rw [(hz _ _ _ h).1, ok_bind, (hz _ _ _ a1).1, ok_bind, (hz _ _ _ a2).1]
    · unfold ceGrad
      rw [hm, (hz _ _ _ h).2, ok_bind, (hz _ _ _ a1).2, ok_bind, (hz _ _ _ a2).2]

/-- Example: the hypotheses are met by a 2 by 1 problem; the cost is 1/4 * ((1/2)^2 + (1/4)^2). -/
example : mseCost (⟨1, [[1/2], [3/4]]⟩ : Mat ℝ) ⟨1, [[1], [1]]⟩ = ok (5 / 64) := by
  simp [mseCost, Mat.zip, Mat.sum, Mat.data, fsum, ok_bind]
  norm_num

example : HasShape (⟨1, [[1/2], [3/4]]⟩ : Mat ℝ) 2 1 ∧ ∀ row ∈ (⟨1, [[1/2], [3/4]]⟩ : Mat ℝ).rows, ∀ x ∈ row, 0 < x ∧ x < 1 := by
  constructor
  · exact ⟨rfl, rfl, by intro row h; simp at h; rcases h with rfl | rfl <;> rfl⟩
  · intro row h x hx
    simp at h
    rcases h with rfl | rfl <;> · simp at hx; subst hx; norm_num

end RM
