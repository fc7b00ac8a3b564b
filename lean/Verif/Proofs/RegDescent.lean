import Mathlib.Analysis.Convex.Deriv
import Mathlib.Algebra.Order.BigOperators.Ring.Finset
import Verif.Props.Regression

/-! Smoothness of the costs of the linear models. -/

set_option linter.unusedSectionVars false

namespace RM
open Outcome Scalar Spec Matrix

/-- The inputs of a regression with their column of ones. -/
def fullOf (X : Mat ℝ) : Mat ℝ := ⟨X.cols + 1, X.rows.map ((1 : ℝ) :: ·)⟩

theorem sq_mulVec_le {n m : ℕ} (A : Matrix (Fin n) (Fin m) ℝ) (v : Fin m → ℝ) :
    ∑ i, (A.mulVec v i) ^ 2 ≤ (∑ i, ∑ k, A i k ^ 2) * ∑ k, v k ^ 2 := by
  rw [Finset.sum_mul]
  apply Finset.sum_le_sum
  intro i _
  exact Finset.sum_mul_sq_le_sq_mul_sq Finset.univ (fun k => A i k) v

/-- The descent inequality of a sum of functions of the scores. -/
theorem smooth_scores {n m : ℕ} (A : Matrix (Fin n) (Fin m) ℝ) (h d : Fin n → ℝ → ℝ) (c : ℝ) (hc0 : 0 ≤ c)
    (hc : ∀ i s s', h i s' ≤ h i s + d i s * (s' - s) + c / 2 * (s' - s) ^ 2) (w v : Fin m → ℝ) :
    ∑ i, h i (A.mulVec v i) ≤ ∑ i, h i (A.mulVec w i) + ∑ k, Aᵀ.mulVec (fun i => d i (A.mulVec w i)) k * (v k - w k) +
      c / 2 * ((∑ i, ∑ k, A i k ^ 2) * ∑ k, (v k - w k) ^ 2) := by
  have h1 : ∑ i, h i (A.mulVec v i) ≤ ∑ i, (h i (A.mulVec w i) + d i (A.mulVec w i) * (A.mulVec v i - A.mulVec w i) +
      c / 2 * (A.mulVec v i - A.mulVec w i) ^ 2) := Finset.sum_le_sum fun i _ => hc i _ _
  rw [Finset.sum_add_distrib, Finset.sum_add_distrib, ← Finset.mul_sum] at h1
  have hsub : ∀ i, A.mulVec v i - A.mulVec w i = A.mulVec (v - w) i := fun i => by rw [Matrix.mulVec_sub]; rfl
  have h2 : ∑ i, d i (A.mulVec w i) * (A.mulVec v i - A.mulVec w i) = ∑ k, Aᵀ.mulVec (fun i => d i (A.mulVec w i)) k * (v k - w k) := by
    simp only [hsub]
    have : (fun i => d i (A.mulVec w i)) ⬝ᵥ A.mulVec (v - w) = Aᵀ.mulVec (fun i => d i (A.mulVec w i)) ⬝ᵥ (v - w) := by
      rw [Matrix.dotProduct_mulVec, ← Matrix.mulVec_transpose]
    exact this
  have h3 : ∑ i, (A.mulVec v i - A.mulVec w i) ^ 2 ≤ (∑ i, ∑ k, A i k ^ 2) * ∑ k, (v k - w k) ^ 2 := by
    simp only [hsub]
    exact sq_mulVec_le A (v - w)
  rw [h2] at h1
  have := mul_le_mul_of_nonneg_left h3 (by linarith : 0 ≤ c / 2)
  linarith

theorem square_smooth (t s s' : ℝ) : (s' - t) ^ 2 / 2 ≤ (s - t) ^ 2 / 2 + (s - t) * (s' - s) + 1 / 2 * (s' - s) ^ 2 := by
  nlinarith

/-- The derivative of the cross entropy of a score is 1/4-Lipschitz, in integrated form. -/
theorem crossEntropy_smooth (t s s' : ℝ) :
    -(t * Real.log (logistic s') + (1 - t) * Real.log (1 - logistic s')) ≤
      -(t * Real.log (logistic s) + (1 - t) * Real.log (1 - logistic s)) + (logistic s - t) * (s' - s) + (1 / 4) / 2 * (s' - s) ^ 2 := by
  let q : ℝ → ℝ := fun x => x ^ 2 / 8 - -(t * Real.log (logistic x) + (1 - t) * Real.log (1 - logistic x))
  have hq : ∀ x, HasDerivAt q (x / 4 - (logistic x - t)) x := by
    intro x
    have h := ((hasDerivAt_pow 2 x).div_const 8).sub (crossEntropy_deriv t x)
    refine h.congr_deriv ?_
    norm_num
    ring
  have hmono : Monotone (deriv q) := by
    have he : deriv q = fun x => x / 4 - (logistic x - t) := funext fun x => (hq x).deriv
    rw [he]
    have hd : ∀ x, HasDerivAt (fun x => x / 4 - (logistic x - t)) (1 / 4 - logistic x * (1 - logistic x)) x := by
      intro x
      exact ((hasDerivAt_id x).div_const 4).sub ((logistic_deriv x).sub_const t)
    apply monotone_of_deriv_nonneg (fun x => (hd x).differentiableAt)
    intro x
    rw [(hd x).deriv]
    nlinarith [sq_nonneg (logistic x - 1 / 2)]
  have hconv : ConvexOn ℝ Set.univ q := by
    apply MonotoneOn.convexOn_of_deriv convex_univ
    · exact (continuous_iff_continuousAt.mpr fun x => (hq x).continuousAt).continuousOn
    · exact fun x _ => (hq x).differentiableAt.differentiableWithinAt
    · exact hmono.monotoneOn _
  have key : q s + (s / 4 - (logistic s - t)) * (s' - s) ≤ q s' := by
    rcases lt_trichotomy s s' with h | h | h
    · have := hconv.le_slope_of_hasDerivAt (Set.mem_univ s) (Set.mem_univ s') h (hq s)
      rw [slope_def_field, le_div_iff₀ (by linarith)] at this
      linarith
    · subst h; simp
    · have := hconv.slope_le_of_hasDerivAt (Set.mem_univ s') (Set.mem_univ s) h (hq s)
      rw [slope_def_field, div_le_iff₀ (by linarith)] at this
      linarith
  simp only [q] at key
  nlinarith

/-- The gradient of linear regression, explicitly. -/
noncomputable def linGrad (X : Mat ℝ) (y w : List ℝ) : List ℝ :=
  List.ofFn fun k : Fin X.cols => (toM X.rows.length X.cols X)ᵀ.mulVec (fun i => (toM X.rows.length X.cols X).mulVec (toV _ w) i - toV _ y i) k / X.rows.length

/-- The gradient of logistic regression, explicitly. -/
noncomputable def logGrad (X : Mat ℝ) (y w : List ℝ) : List ℝ :=
  List.ofFn fun k : Fin X.cols => (toM X.rows.length X.cols X)ᵀ.mulVec (fun i => logistic ((toM X.rows.length X.cols X).mulVec (toV _ w) i) - toV _ y i) k / X.rows.length

theorem grad_list {X : Mat ℝ} (hX : X.WF) (d : Fin X.rows.length → ℝ) :
    ∃ g, X.transpose.mulVec (List.ofFn d) = ok g ∧
      (g.map fun x => x /. Scalar.ofNat X.rows.length) = List.ofFn fun k : Fin X.cols => (toM X.rows.length X.cols X)ᵀ.mulVec d k / X.rows.length := by
  have hS : HasShape X X.rows.length X.cols := ⟨rfl, rfl, hX⟩
  obtain ⟨t1, t2⟩ := transpose_toM hS
  obtain ⟨g, g1, g2, g3⟩ := mulVec_toV t1 (v := List.ofFn d) (by simp)
  rw [t2, toV_ofFn] at g3
  refine ⟨g, g1, ?_⟩
  conv_lhs => rw [← ofFn_getD g2 0, List.map_ofFn]
  congr 1
  funext k
  have := congrFun g3 k
  unfold toV at this
  simp only [Function.comp, real_div, real_ofNat]
  rw [this]

theorem linComputeGrad_eq (X : Mat ℝ) (hX : X.WF) (y w : List ℝ) (hy : y.length = X.rows.length) (hw : w.length = X.cols) :
    linComputeGrad w X y = ok (halfMeanSquares X y w, linGrad X y w) := by
  have hS : HasShape X X.rows.length X.cols := ⟨rfl, rfl, hX⟩
  obtain ⟨g0, h0, -⟩ := C49_linear X hX y w hy hw
  obtain ⟨o, o1, o2, o3⟩ := mulVec_toV hS hw
  have hd : vecZip Scalar.sub o y = ok (List.ofFn fun i : Fin X.rows.length => o.getD i 0 - y.getD i 0) := by
    conv_lhs => rw [← ofFn_getD o2 0, ← ofFn_getD hy 0, vecZip_ofFn]
    rfl
  obtain ⟨g, g1, g2⟩ := grad_list hX fun i : Fin X.rows.length => o.getD i 0 - y.getD i 0
  unfold linComputeGrad at h0 ⊢
  rw [o1, ok_bind] at h0 ⊢
  obtain ⟨c, hc, h0⟩ := bind_eq_ok.mp h0
  rw [hc, ok_bind]
  rw [hd, ok_bind, g1, ok_bind] at h0 ⊢
  injection h0 with h0
  injection h0 with h0 _
  rw [h0, g2]
  unfold linGrad
  rw [← o3]
  rfl

theorem logComputeGrad_eq (X : Mat ℝ) (hX : X.WF) (y w : List ℝ) (hy : y.length = X.rows.length) (hw : w.length = X.cols) :
    logComputeGrad w X y = ok (meanCrossEntropy X y w, logGrad X y w) := by
  have hS : HasShape X X.rows.length X.cols := ⟨rfl, rfl, hX⟩
  obtain ⟨g0, h0, -⟩ := C49_logistic X hX y w hy hw
  obtain ⟨o, o1, o2, o3⟩ := mulVec_toV hS hw
  have hd : vecZip Scalar.sub (o.map (sigmoid : Activ ℝ).func) y = ok (List.ofFn fun i : Fin X.rows.length => logistic (o.getD i 0) - y.getD i 0) := by
    conv_lhs => rw [← ofFn_getD o2 0, ← ofFn_getD hy 0, List.map_ofFn, vecZip_ofFn]
    rfl
  obtain ⟨g, g1, g2⟩ := grad_list hX fun i : Fin X.rows.length => logistic (o.getD i 0) - y.getD i 0
  unfold logComputeGrad at h0 ⊢
  rw [o1, ok_bind] at h0 ⊢
  dsimp only at h0 ⊢
  obtain ⟨c, hc, h0⟩ := bind_eq_ok.mp h0
  rw [hc, ok_bind]
  rw [hd, ok_bind, g1, ok_bind] at h0 ⊢
  injection h0 with h0
  injection h0 with h0 _
  rw [h0, g2]
  unfold logGrad
  rw [← o3]
  rfl

end RM
