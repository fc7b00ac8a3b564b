import Mathlib.Analysis.Calculus.Deriv.Abs
import Mathlib.Analysis.SpecialFunctions.Sqrt
import Mathlib.Analysis.Calculus.Deriv.Pow
import Mathlib.Algebra.BigOperators.Field
import Verif.Model.Regularization
import Verif.Proofs.MatOf

/-!
C43: is `reg_grad` the gradient of `reg_cost`? Yes for L1 and None; for L2 and ElasticNet only when the Euclidean norm of
the weights is exactly 1/2 (exact arithmetic).
-/

namespace RM
open Outcome Scalar Spec

theorem data_matOf_sum (f : ℝ → ℝ) {r c : ℕ} (v : Fin r × Fin c → ℝ) : fsum ((matOf r c v).data.map f) = ∑ k, f (v k) := by
  have := sum_matOf (fun k => f (v k))
  rw [← map_matOf] at this
  rw [← this]
  unfold Mat.sum Mat.data Mat.map
  rw [List.map_flatten]

theorem l1Cost_matOf {r c : ℕ} (x : ℝ) (v : Fin r × Fin c → ℝ) : l1Cost (matOf r c v) x = (∑ k, |v k|) * x / (2 * r) := by
  unfold l1Cost
  rw [data_matOf_sum, (matOf_shape r c v).1]
  simp [one_add_one_eq_two]

theorem l2Cost_matOf {r c : ℕ} (x : ℝ) (v : Fin r × Fin c → ℝ) : l2Cost (matOf r c v) x = Real.sqrt (∑ k, v k ^ 2) * x / (2 * r) := by
  unfold l2Cost
  rw [data_matOf_sum, (matOf_shape r c v).1]
  simp [one_add_one_eq_two, sq]

theorem l1Grad_matOf {r c : ℕ} (x : ℝ) (v : Fin r × Fin c → ℝ) :
    l1Grad (matOf r c v) x = matOf r c fun k => (if v k < 0 then -x else x) / (2 * r) := by
  unfold l1Grad
  simp only
  rw [map_matOf, (matOf_shape r c v).1]
  congr 1
  funext k
  simp only [real_signNeg, decide_eq_true_eq, real_neg, real_div, real_add, real_one, real_mul, real_ofNat, one_add_one_eq_two]
  split <;> rfl

theorem l2Grad_matOf {r c : ℕ} (x : ℝ) (v : Fin r × Fin c → ℝ) : l2Grad (matOf r c v) x = matOf r c fun k => v k * (x / r) := by
  unfold l2Grad
  rw [map_matOf, (matOf_shape r c v).1]
  rfl

theorem l1_gradient {r c : ℕ} (x : ℝ) (w : Fin r × Fin c → ℝ) (hw : ∀ k, w k ≠ 0) :
    IsGradientAt (fun v => (∑ k, |v k|) * x / (2 * r)) (fun k => (if w k < 0 then -x else x) / (2 * r)) w := by
  have h := gradient_separable (fun k y => |y| * x / (2 * r)) (fun k : Fin r × Fin c => (if w k < 0 then -x else x) / (2 * r)) w (by
    intro k
    rcases lt_or_gt_of_ne (hw k) with h | h
    · rw [if_pos h]
      have d := ((hasDerivAt_abs_neg h).mul_const x).div_const (2 * (r : ℝ))
      simpa using d
    · rw [if_neg h.not_gt]
      have d := ((hasDerivAt_abs_pos h).mul_const x).div_const (2 * (r : ℝ))
      simpa using d)
  convert h using 2 with v
  rw [Finset.sum_mul, Finset.sum_div]

/-- C43 (L1): where no weight is zero, `reg_grad` is the gradient of `reg_cost = strength / (2 rows) * Σ |w|`. -/
theorem C43_l1 {r c : ℕ} (x : ℝ) (W : Mat ℝ) (hW : HasShape W r c) (h0 : ∀ i : Fin r, ∀ j : Fin c, ent W i j ≠ 0) :
    regCost (.l1 x) W = (∑ i : Fin r, ∑ j : Fin c, |ent W i j|) * x / (2 * r) ∧
    ∃ G, regGrad (.l1 x) W = ok G ∧ MatGradientAt (fun V => ok (regCost (.l1 x) V)) Set.univ r c G W := by
  constructor
  · show l1Cost W x = _
    rw [eq_matOf hW, l1Cost_matOf, Fintype.sum_prod_type]
    simp only [ent_matOf]
  · refine ⟨_, rfl, ?_⟩
    have e : l1Grad W x = matOf r c fun k => (if ent W k.1 k.2 < 0 then -x else x) / (2 * r) := by
      conv_lhs => rw [eq_matOf hW]
      exact l1Grad_matOf _ _
    rw [e]
    refine ⟨matOf_shape _ _ _, fun v => (∑ k, |v k|) * x / (2 * r), ?_, ?_⟩
    · intro v _
      exact congrArg _ (l1Cost_matOf x v)
    · have := l1_gradient x (fun k : Fin r × Fin c => ent W k.1 k.2) fun k => h0 k.1 k.2
      simpa only [ent_matOf] using this

/-- C43 (None): cost zero and gradient zero. -/
theorem C43_none {r c : ℕ} (W : Mat ℝ) (hW : HasShape W r c) :
    regCost .none W = 0 ∧ ∃ G, regGrad .none W = ok G ∧ MatGradientAt (fun V => ok (regCost .none V)) Set.univ r c G W := by
  refine ⟨rfl, _, rfl, ?_⟩
  have e : (Mat.zeros W.rows.length W.cols : Mat ℝ) = matOf r c fun _ => 0 := by
    rw [hW.1, hW.2.1]
    unfold Mat.zeros matOf
    simp [List.ofFn_const]
  rw [e]
  refine ⟨matOf_shape _ _ _, fun _ => 0, fun v _ => rfl, ?_⟩
  simp only [ent_matOf]
  unfold IsGradientAt
  simpa using hasFDerivAt_const (0 : ℝ) _

theorem sqrt_gradient {ι : Type} [Fintype ι] (a : ℝ) (w : ι → ℝ) (h : 0 < ∑ k, w k ^ 2) :
    IsGradientAt (fun v => Real.sqrt (∑ k, v k ^ 2) * a) (fun k => w k / Real.sqrt (∑ k, w k ^ 2) * a) w := by
  have h1 := gradient_separable (fun (_ : ι) y => y ^ 2) (fun k => 2 * w k) w (by
    intro k
    have := hasDerivAt_pow 2 (w k)
    simpa using this)
  have h2 := ((Real.hasDerivAt_sqrt h.ne').comp_hasFDerivAt w h1).mul_const a
  unfold IsGradientAt
  refine HasFDerivAt.congr_fderiv h2 ?_
  rw [Finset.smul_sum, Finset.smul_sum]
  congr 1
  funext k
  rw [smul_smul, smul_smul]
  congr 1
  have hs := (Real.sqrt_pos.2 h).ne'
  field_simp

/-- C43 (L2), what `reg_grad` is: the gradient of `strength / (2 rows) * Σ w²`, the squared norm. -/
theorem C43_l2_partial {r c : ℕ} (x : ℝ) (W : Mat ℝ) (hW : HasShape W r c) :
    ∃ G, regGrad (.l2 x) W = ok G ∧ MatGradientAt (fun V => ok ((∑ i : Fin r, ∑ j : Fin c, ent V i j ^ 2) * x / (2 * r))) Set.univ r c G W := by
  refine ⟨_, rfl, ?_⟩
  have e : l2Grad W x = matOf r c fun k => ent W k.1 k.2 * (x / r) := by
    conv_lhs => rw [eq_matOf hW]
    exact l2Grad_matOf _ _
  rw [e]
  refine ⟨matOf_shape _ _ _, fun v => ∑ k, v k ^ 2 * x / (2 * r), ?_, ?_⟩
  · intro v _
    congr 1
    simp only [ent_matOf, ← Finset.sum_div, ← Finset.sum_mul]
    rw [Fintype.sum_prod_type]
  · have := gradient_separable (fun (_ : Fin r × Fin c) y => y ^ 2 * x / (2 * r)) (fun k => ent W k.1 k.2 * (x / r)) (fun k => ent W k.1 k.2) (by
      intro k
      have d := ((hasDerivAt_pow 2 (ent W k.1 k.2)).mul_const x).div_const (2 * (r : ℝ))
      refine d.congr_deriv ?_
      rcases Nat.eq_zero_or_pos r with h | h
      · subst h; simp
      · have : (r : ℝ) ≠ 0 := by positivity
        field_simp
        norm_num
        ring)
    simpa only [ent_matOf] using this

/-- A scaled version of the Euclidean norm has the gradient of the squared norm only at norm 1/2. -/
theorem norm_vs_sq {ι : Type} [Fintype ι] [DecidableEq ι] (a b : ℝ) (hab : a = b / 2) (hb : b ≠ 0) (w : ι → ℝ) (hw : 0 < ∑ k, w k ^ 2) :
    IsGradientAt (fun v => Real.sqrt (∑ k, v k ^ 2) * a) (fun k => w k * b) w ↔ Real.sqrt (∑ k, w k ^ 2) = 1 / 2 := by
  have hg := sqrt_gradient a w hw
  have hs := Real.sqrt_pos.2 hw
  constructor
  · intro h
    have he := gradient_unique hg h
    obtain ⟨k, hk⟩ : ∃ k, w k ≠ 0 := by
      by_contra hc
      push Not at hc
      simp [hc] at hw
    have h1 := congrFun he k
    rw [hab, div_mul_eq_mul_div, div_eq_iff hs.ne'] at h1
    have h2 : w k * b * (1 / 2) = w k * b * Real.sqrt (∑ k, w k ^ 2) := by
      rw [← h1]; ring
    exact (mul_left_cancel₀ (mul_ne_zero hk hb) h2).symm
  · intro h
    convert hg using 1
    funext k
    rw [h, hab]
    ring

/-- C43 fails for L2: for a non-zero weight matrix and a non-zero strength, `reg_grad` is the gradient of `reg_cost` exactly
when the Euclidean norm of the weights is 1/2. -/
theorem C43_l2_violation {r c : ℕ} (x : ℝ) (hx : x ≠ 0) (W : Mat ℝ) (hW : HasShape W r c) (h0 : ∃ i : Fin r, ∃ j : Fin c, ent W i j ≠ 0) :
    (∃ G, regGrad (.l2 x) W = ok G ∧ MatGradientAt (fun V => ok (regCost (.l2 x) V)) Set.univ r c G W) ↔
      ∑ i : Fin r, ∑ j : Fin c, ent W i j ^ 2 = 1 / 4 := by
  have hr : 0 < r := by obtain ⟨i, _⟩ := h0; exact i.pos
  have hr' : (r : ℝ) ≠ 0 := by positivity
  have e : l2Grad W x = matOf r c fun k => ent W k.1 k.2 * (x / r) := by
    conv_lhs => rw [eq_matOf hW]
    exact l2Grad_matOf _ _
  have hpos : 0 < ∑ k : Fin r × Fin c, (ent W k.1 k.2) ^ 2 := by
    obtain ⟨i, j, hij⟩ := h0
    exact Finset.sum_pos' (fun k _ => sq_nonneg _) ⟨(i, j), Finset.mem_univ _, by positivity⟩
  have hcrit := norm_vs_sq (x / (2 * r)) (x / r) (by field_simp) (div_ne_zero hx hr') (fun k : Fin r × Fin c => ent W k.1 k.2) hpos
  have hsum : (∑ i : Fin r, ∑ j : Fin c, ent W i j ^ 2 = 1 / 4) ↔ Real.sqrt (∑ k : Fin r × Fin c, (ent W k.1 k.2) ^ 2) = 1 / 2 := by
    rw [Fintype.sum_prod_type, Real.sqrt_eq_iff_mul_self_eq_of_pos (by norm_num : (0 : ℝ) < 1 / 2)]
    norm_num
    exact eq_comm
  rw [hsum, ← hcrit]
  constructor
  · rintro ⟨G, hG, _, φ, hφ, hgrad⟩
    cases hG
    rw [e] at hgrad
    simp only [ent_matOf] at hgrad
    have : φ = fun v => Real.sqrt (∑ k, v k ^ 2) * (x / (2 * r)) := by
      funext v
      have := hφ v (fun _ => trivial)
      injection this with this
      rw [← this]
      show l2Cost (matOf r c v) x = _
      rw [l2Cost_matOf]
      ring
    rw [this] at hgrad
    exact hgrad
  · intro h
    refine ⟨_, rfl, ?_⟩
    rw [e]
    refine ⟨matOf_shape _ _ _, _, ?_, by simpa only [ent_matOf] using h⟩
    intro v _
    show ok (l2Cost (matOf r c v) x) = _
    rw [l2Cost_matOf]
    congr 1
    ring

/-- C43 (ElasticNet): the gradient is the sum of the gradients of the L1 cost and of the squared-norm cost, where no weight
is zero; as for L2 the cost uses the unsquared norm. -/
theorem C43_elasticNet_partial {r c : ℕ} (x y : ℝ) (W : Mat ℝ) (hW : HasShape W r c) (h0 : ∀ i : Fin r, ∀ j : Fin c, ent W i j ≠ 0) :
    regCost (.elasticNet x y) W = regCost (.l1 x) W + regCost (.l2 y) W ∧
    ∃ G, regGrad (.elasticNet x y) W = ok G ∧ MatGradientAt (fun V => ok (regCost (.l1 x) V + (∑ i : Fin r, ∑ j : Fin c, ent V i j ^ 2) * y / (2 * r))) Set.univ r c G W := by
  refine ⟨rfl, ?_⟩
  obtain ⟨G1, g1, s1, φ1, f1, d1⟩ := (C43_l1 x W hW h0).2
  obtain ⟨G2, g2, s2, φ2, f2, d2⟩ := C43_l2_partial y W hW
  cases g1
  cases g2
  have e : regGrad (.elasticNet x y) W = ok (matOf r c fun k => ent (l1Grad W x) k.1 k.2 + ent (l2Grad W y) k.1 k.2) := by
    show Mat.zip Scalar.add (l1Grad W x) (l2Grad W y) = _
    conv_lhs => rw [eq_matOf s1, eq_matOf s2]
    exact zip_matOf _ _ _
  refine ⟨_, e, matOf_shape _ _ _, fun v => φ1 v + φ2 v, ?_, ?_⟩
  · intro v hv
    have h1 := f1 v hv
    have h2 := f2 v hv
    injection h1 with h1
    injection h2 with h2
    simp only
    rw [← h1, ← h2]
  · have := HasFDerivAt.fun_add d1 d2
    unfold IsGradientAt
    refine HasFDerivAt.congr_fderiv this ?_
    rw [← Finset.sum_add_distrib]
    congr 1
    funext k
    simp only
    rw [ent_matOf, add_smul]

/-- Example: for the 1 by 1 weight 3 and strength 1, the L2 cost is 3/2, its derivative is 1/2, and `reg_grad` is 3. -/
example : regCost (.l2 1) (⟨1, [[3]]⟩ : Mat ℝ) = 3 / 2 ∧ regGrad (.l2 1) (⟨1, [[3]]⟩ : Mat ℝ) = ok ⟨1, [[3]]⟩ := by
  constructor
  · simp [regCost, l2Cost, Mat.data, fsum]
    norm_num
  · simp [regGrad, l2Grad, Mat.map]

example : ¬ ∃ G, regGrad (.l2 1) (⟨1, [[3]]⟩ : Mat ℝ) = ok G ∧ MatGradientAt (fun V => ok (regCost (.l2 1) V)) Set.univ 1 1 G ⟨1, [[3]]⟩ := by
  rw [C43_l2_violation (r := 1) (c := 1) 1 one_ne_zero ⟨1, [[3]]⟩ ⟨rfl, rfl, by simp⟩ ⟨0, 0, by simp [ent]⟩]
  simp [ent]
  norm_num

end RM
