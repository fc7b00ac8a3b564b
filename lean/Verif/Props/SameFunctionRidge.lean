import Verif.Props.SameFunction
import Verif.Props.Gp
import Verif.Props.AffineMaps

/-!
C102: a Gaussian process with the linear kernel is ridge regression.
-/

set_option linter.unusedSectionVars false

namespace RM
open Outcome Scalar Spec Matrix

namespace Spec
/-- The sum of squared errors of the affine function with intercept `b` and slopes `w` against the targets less `m`, plus `noise` times
the squared length of the slopes, plus `noise / c` times the square of the intercept. -/
noncomputable def ridgeCost (c noise m : ℝ) (X : Mat ℝ) (y : List ℝ) (b : ℝ) (w : List ℝ) : ℝ :=
  (List.zipWith (fun x t => (t - (m + (b + inner x w))) ^ 2) X.rows y).sum + noise * (inner w w + b ^ 2 / c)
end Spec

/-- The cost splits at the weights that the Gaussian process finds. -/
theorem ridge_split {n d : ℕ} (A : Matrix (Fin n) (Fin d) ℝ) (α r : Fin n → ℝ) {c noise : ℝ}
    (h : ∀ i, ∑ j, (∑ k, A i k * A j k + c) * α j + noise * α i = r i) (w' : Fin d → ℝ) (b' : ℝ) (hc : c ≠ 0 ∨ b' = 0) :
    ∑ i, (r i - (b' + ∑ k, A i k * w' k)) ^ 2 + noise * (∑ k, w' k * w' k + b' ^ 2 / c) =
      ∑ i, (r i - (c * ∑ j, α j + ∑ k, A i k * ∑ j, A j k * α j)) ^ 2 + noise * (∑ k, (∑ j, A j k * α j) * (∑ j, A j k * α j) + (c * ∑ j, α j) ^ 2 / c) +
      (∑ i, ((b' - c * ∑ j, α j) + ∑ k, A i k * (w' k - ∑ j, A j k * α j)) ^ 2 +
        noise * (∑ k, (w' k - ∑ j, A j k * α j) ^ 2 + (b' - c * ∑ j, α j) ^ 2 / c)) := by
  set w : Fin d → ℝ := fun k => ∑ j, A j k * α j with hw
  set s := ∑ j, α j with hs
  have hres : ∀ i, r i - (c * s + ∑ k, A i k * w k) = noise * α i := by
    intro i
    rw [← h i]
    have e1 : ∑ k, A i k * w k = ∑ j, (∑ k, A i k * A j k) * α j := by
      simp only [hw, Finset.mul_sum, Finset.sum_mul]
      rw [Finset.sum_comm]
      exact Finset.sum_congr rfl fun j _ => Finset.sum_congr rfl fun k _ => by ring
    rw [e1]
    simp only [add_mul, Finset.sum_add_distrib]
    rw [← Finset.mul_sum]
    ring
  have hcross : ∑ i, α i * ((b' - c * s) + ∑ k, A i k * (w' k - w k)) = (b' - c * s) * s + ∑ k, w k * (w' k - w k) := by
    simp only [mul_add, Finset.sum_add_distrib]
    rw [← Finset.sum_mul, ← hs, mul_comm s]
    congr 1
    simp only [Finset.mul_sum, hw, Finset.sum_mul]
    rw [Finset.sum_comm]
    exact Finset.sum_congr rfl fun k _ => Finset.sum_congr rfl fun i _ => by ring
  have h1 : ∀ i, (r i - (b' + ∑ k, A i k * w' k)) ^ 2 = (r i - (c * s + ∑ k, A i k * w k)) ^ 2 +
      ((b' - c * s) + ∑ k, A i k * (w' k - w k)) ^ 2 - 2 * noise * (α i * ((b' - c * s) + ∑ k, A i k * (w' k - w k))) := by
    intro i
    have e : ∑ k, A i k * (w' k - w k) = ∑ k, A i k * w' k - ∑ k, A i k * w k := by simp only [mul_sub, Finset.sum_sub_distrib]
    have h2 := hres i
    rw [e]
    linear_combination 2 * ((b' - c * s) + (∑ k, A i k * w' k - ∑ k, A i k * w k)) * (-h2)
  simp only [h1, Finset.sum_sub_distrib, Finset.sum_add_distrib]
  rw [← Finset.mul_sum, hcross]
  have h3 : ∑ k, w' k * w' k = ∑ k, w k * w k + 2 * ∑ k, w k * (w' k - w k) + ∑ k, (w' k - w k) ^ 2 := by
    rw [Finset.mul_sum, ← Finset.sum_add_distrib, ← Finset.sum_add_distrib]
    exact Finset.sum_congr rfl fun k _ => by ring
  have h4 : b' ^ 2 / c = (c * s) ^ 2 / c + 2 * ((b' - c * s) * s) + (b' - c * s) ^ 2 / c := by
    rcases eq_or_ne c 0 with h0 | h0
    · rcases hc with hc | hc
      · exact absurd h0 hc
      · rw [h0, hc]; simp
    · field_simp
      ring
  rw [h3, h4]
  ring

section
variable {lib : TriLib ℝ} (hl : TriLibOk lib) (c m noise : ℝ) {X : Mat ℝ} (hX : X.WF) {y : List ℝ} {g' : Gp ℝ}
include hl hX

/-- The function that the Gaussian process has learned, and where the cost splits. -/
theorem gp_ridge_core (h : Gp.train lib ⟨linearKernel c, constMean m, noise, none, none, none⟩ X y = ok g') :
    ∃ (w : List ℝ) (b : ℝ), w.length = X.cols ∧ (c = 0 → b = 0) ∧
      (∀ Z : Mat ℝ, Z.WF → Z.cols = X.cols → g'.predict Z = ok (Z.rows.map fun z => m + (b + Spec.inner z w))) ∧
      ∀ (w' : List ℝ) (b' : ℝ), w'.length = X.cols → (c ≠ 0 ∨ b' = 0) →
        ∃ q, 0 ≤ q ∧ ridgeCost c noise m X y b' w' = ridgeCost c noise m X y b w + (q +
          noise * (∑ k : Fin X.cols, (w'.getD k 0 - w.getD k 0) ^ 2 + (b' - b) ^ 2 / c)) := by
  have hk := C59_kernels (Built.linear c)
  have hm := (C59_mean m).1
  obtain ⟨l, alpha, e, -, -, -, -, hy, -, ha, hA⟩ := gp_alpha (g := ⟨linearKernel c, constMean m, noise, none, none, none⟩) hl hk hm hX h
  have hval : ∀ u v : List ℝ, kernelValue (linearKernel c) u v = Spec.inner u v + c := by
    intro u v
    unfold kernelValue linearKernel
    simp only [dot_inner, real_add]
  have hmean : ∀ Z : Mat ℝ, constMean m Z = List.replicate Z.rows.length m := by
    intro Z
    unfold constMean
    rw [real_zero, real_add, zero_add]
  set A : Matrix (Fin X.rows.length) (Fin X.cols) ℝ := fun i k => (X.rows.getD i []).getD k 0 with hAdef
  have hrow : ∀ i : Fin X.rows.length, (X.rows.getD i []).length = X.cols := fun i => getD_row_length hX i.2
  set α : Fin X.rows.length → ℝ := toV _ alpha with hα
  have hsys : ∀ i, ∑ j, (∑ k, A i k * A j k + c) * α j + noise * α i = y.getD i 0 - m := by
    intro i
    have := congrFun hA i
    unfold noisyGram at this
    simp only at this
    rw [Matrix.add_mulVec, Pi.add_apply, Matrix.smul_mulVec, Matrix.one_mulVec, Pi.smul_apply, Pi.sub_apply, hmean] at this
    have e1 : (gram (kernelValue (linearKernel c)) X X).mulVec (toV _ alpha) i = ∑ j, (∑ k, A i k * A j k + c) * α j := by
      unfold Matrix.mulVec dotProduct gram
      apply Finset.sum_congr rfl
      intro j _
      beta_reduce
      rw [Matrix.of_apply, hval, inner_fin (hrow i) (hrow j)]
    rw [e1] at this
    have e2 : toV X.rows.length (List.replicate X.rows.length m) i = m := by
      unfold toV
      rw [getD_lt 0 (by simp)]
      simp
    rw [e2] at this
    exact this
  set w : List ℝ := List.ofFn fun k => ∑ j, A j k * α j with hw
  have hwl : w.length = X.cols := by simp [hw]
  have hwk : ∀ k : Fin X.cols, w.getD k 0 = ∑ j, A j k * α j := by
    intro k
    rw [getD_lt 0 (by rw [hwl]; exact k.2)]
    simp [hw]
  have hinner : ∀ z : List ℝ, z.length = X.cols → Spec.inner z w = ∑ j : Fin X.rows.length, Spec.inner z (X.rows.getD j []) * α j := by
    intro z hz
    rw [inner_fin hz hwl]
    simp only [hwk]
    have : ∀ j : Fin X.rows.length, Spec.inner z (X.rows.getD j []) = ∑ k : Fin X.cols, z.getD k 0 * A j k := fun j => inner_fin hz (hrow j)
    simp only [this, Finset.mul_sum, Finset.sum_mul]
    rw [Finset.sum_comm]
    exact Finset.sum_congr rfl fun j _ => Finset.sum_congr rfl fun k _ => by ring
  have hcost : ∀ (w' : List ℝ) (b' : ℝ), w'.length = X.cols → ridgeCost c noise m X y b' w' =
      ∑ i : Fin X.rows.length, ((y.getD i 0 - m) - (b' + ∑ k, A i k * w'.getD k 0)) ^ 2 + noise * (∑ k : Fin X.cols, w'.getD k 0 * w'.getD k 0 + b' ^ 2 / c) := by
    intro w' b' hw'
    unfold ridgeCost
    rw [zipWith_sum_fin rfl hy, inner_fin hw' hw']
    congr 1
    apply Finset.sum_congr rfl
    intro i _
    rw [inner_fin (hrow i) hw', sub_sub]
  refine ⟨w, c * ∑ j, α j, hwl, fun h0 => by rw [h0, zero_mul], ?_, ?_⟩
  · intro Z hZ hc
    obtain ⟨p, p1, p2, p3⟩ := C59_predict (g := ⟨linearKernel c, constMean m, noise, none, none, none⟩) hl hk hm hX h hZ hc
    have hu := (Matrix.isUnit_iff_isUnit_det _).mp (C59_regular (g := ⟨linearKernel c, constMean m, noise, none, none, none⟩) hl hk hm hX h)
    rw [← hA, Matrix.mulVec_mulVec _ (noisyGram _ _ X)⁻¹, Matrix.nonsing_inv_mul _ hu, Matrix.one_mulVec] at p3
    rw [p1]
    congr 1
    apply toV_inj p2 (by simp)
    rw [p3]
    funext i
    have e1 : toV Z.rows.length (List.replicate Z.rows.length m) i = m := by
      unfold toV
      rw [getD_lt 0 (by simp)]
      simp
    have hz : (Z.rows.getD i []).length = X.cols := (getD_row_length hZ i.2).trans hc
    have e2 : (gram (kernelValue (linearKernel c)) Z X).mulVec α i = c * ∑ j, α j + Spec.inner (Z.rows.getD i []) w := by
      rw [hinner _ hz, Finset.mul_sum, ← Finset.sum_add_distrib]
      unfold Matrix.mulVec dotProduct gram
      apply Finset.sum_congr rfl
      intro j _
      beta_reduce
      rw [Matrix.of_apply, hval]
      ring
    have e3 : toV Z.rows.length (Z.rows.map fun z => m + (c * ∑ j, α j + Spec.inner z w)) i =
        m + (c * ∑ j, α j + Spec.inner (Z.rows.getD i []) w) := by
      unfold toV
      rw [getD_map_lt _ _ [] _ _ i.2]
    rw [Pi.add_apply, e3, e2]
    simp only
    rw [hmean, e1]
  · intro w' b' hw' hc
    have := ridge_split A α (fun i => y.getD i 0 - m) hsys (fun k => w'.getD k 0) b' hc
    refine ⟨∑ i, ((b' - c * ∑ j, α j) + ∑ k, A i k * (w'.getD k 0 - ∑ j, A j k * α j)) ^ 2, Finset.sum_nonneg fun i _ => sq_nonneg _, ?_⟩
    rw [hcost w' b' hw', hcost w _ hwl]
    simp only [hwk]
    exact this

/-- **C102 (Gaussian process and ridge regression).** A Gaussian process with the linear kernel with constant `c > 0`, the constant mean `m`
and positive noise predicts `m` plus an affine function, and that affine function is the one and only minimiser of the ridge regression cost. -/
theorem C102_gp_ridge (hc : 0 < c) (hs : 0 < noise) (h : Gp.train lib ⟨linearKernel c, constMean m, noise, none, none, none⟩ X y = ok g') :
    ∃ (w : List ℝ) (b : ℝ), w.length = X.cols ∧
      (∀ Z : Mat ℝ, Z.WF → Z.cols = X.cols → g'.predict Z = ok (Z.rows.map fun z => m + (b + Spec.inner z w))) ∧
      ∀ (w' : List ℝ) (b' : ℝ), w'.length = X.cols → (w', b') ≠ (w, b) → ridgeCost c noise m X y b w < ridgeCost c noise m X y b' w' := by
  obtain ⟨w, b, h1, -, h2, h3⟩ := gp_ridge_core hl c m noise hX h
  refine ⟨w, b, h1, h2, ?_⟩
  intro w' b' hw' hne
  obtain ⟨q, hq, e⟩ := h3 w' b' hw' (Or.inl hc.ne')
  rw [e]
  have hp : 0 < ∑ k : Fin X.cols, (w'.getD k 0 - w.getD k 0) ^ 2 + (b' - b) ^ 2 / c := by
    have p1 : 0 ≤ ∑ k : Fin X.cols, (w'.getD k 0 - w.getD k 0) ^ 2 := Finset.sum_nonneg fun k _ => sq_nonneg _
    have p2 : 0 ≤ (b' - b) ^ 2 / c := by positivity
    by_contra hcon
    have z1 : ∑ k : Fin X.cols, (w'.getD k 0 - w.getD k 0) ^ 2 = 0 := by linarith
    have z2 : (b' - b) ^ 2 / c = 0 := by linarith
    apply hne
    have hb : b' = b := by
      have := (div_eq_zero_iff.1 z2).resolve_right hc.ne'
      have := pow_eq_zero_iff (two_ne_zero) |>.1 this
      linarith
    have hww : w' = w := by
      apply toV_inj hw' h1
      funext k
      have := (Finset.sum_eq_zero_iff_of_nonneg fun k _ => sq_nonneg _).1 z1 k (Finset.mem_univ k)
      have := pow_eq_zero_iff (two_ne_zero) |>.1 this
      show w'.getD k 0 = w.getD k 0
      linarith
    rw [hb, hww]
  nlinarith [mul_pos hs hp]

/-- **C102 (Gaussian process and ridge regression through the origin).** With the default linear kernel, whose constant is 0, there is no intercept:
the process predicts `m` plus a linear function, the one and only minimiser of the ridge regression cost without intercept. -/
theorem C102_gp_ridge_origin (hs : 0 < noise) (h : Gp.train lib ⟨linearDefault, constMean m, noise, none, none, none⟩ X y = ok g') :
    ∃ w : List ℝ, w.length = X.cols ∧
      (∀ Z : Mat ℝ, Z.WF → Z.cols = X.cols → g'.predict Z = ok (Z.rows.map fun z => m + Spec.inner z w)) ∧
      ∀ w' : List ℝ, w'.length = X.cols → w' ≠ w →
        (List.zipWith (fun x t => (t - (m + Spec.inner x w)) ^ 2) X.rows y).sum + noise * Spec.inner w w <
          (List.zipWith (fun x t => (t - (m + Spec.inner x w')) ^ 2) X.rows y).sum + noise * Spec.inner w' w' := by
  obtain ⟨w, b, h1, h0, h2, h3⟩ := gp_ridge_core hl 0 m noise hX h
  have hb := h0 rfl
  subst hb
  refine ⟨w, h1, ?_, ?_⟩
  · intro Z hZ hc
    rw [h2 Z hZ hc]
    simp only [zero_add]
  · intro w' hw' hne
    obtain ⟨q, hq, e⟩ := h3 w' 0 hw' (Or.inr rfl)
    have hr : ∀ v : List ℝ, ridgeCost 0 noise m X y 0 v = (List.zipWith (fun x t => (t - (m + Spec.inner x v)) ^ 2) X.rows y).sum + noise * Spec.inner v v := by
      intro v
      unfold ridgeCost
      simp
    rw [← hr, ← hr, e]
    have hp : 0 < ∑ k : Fin X.cols, (w'.getD k 0 - w.getD k 0) ^ 2 := by
      apply lt_of_le_of_ne (Finset.sum_nonneg fun k _ => sq_nonneg _)
      intro z1
      apply hne
      apply toV_inj hw' h1
      funext k
      have := (Finset.sum_eq_zero_iff_of_nonneg fun k _ => sq_nonneg _).1 z1.symm k (Finset.mem_univ k)
      have := pow_eq_zero_iff (two_ne_zero) |>.1 this
      show w'.getD k 0 = w.getD k 0
      linarith
    have := mul_pos hs hp
    simp only [sub_self, ne_eq, OfNat.ofNat_ne_zero, not_false_eq_true, zero_pow, zero_div, add_zero]
    linarith

end

/-- Training succeeds on three points, two of them equal, for all targets, with an intercept and without. -/
example (a b t : ℝ) : (∃ g', Gp.train exactLib ⟨linearKernel 2, constMean 5, 1 / 10, none, none, none⟩ ⟨1, [[0], [0], [2]]⟩ [a, b, t] = ok g') ∧
    ∃ g', Gp.train exactLib ⟨linearDefault, constMean 5, 1 / 10, none, none, none⟩ ⟨1, [[0], [0], [2]]⟩ [a, b, t] = ok g' := by
  have hX : (⟨1, [[0], [0], [2]]⟩ : Mat ℝ).WF := by intro r hr; simp at hr; rcases hr with rfl | rfl | rfl <;> rfl
  constructor
  · exact C59_train_psd (g := ⟨linearKernel 2, constMean 5, 1 / 10, none, none, none⟩) exactLib_ok (C59_kernels (Built.linear 2)) (C59_mean 5).1 hX
      (C61_gram (PSDBuilt.linear (by norm_num)) 1) (by norm_num) rfl
  · exact C59_train_psd (g := ⟨linearKernel 0, constMean 5, 1 / 10, none, none, none⟩) exactLib_ok (C59_kernels (Built.linear 0)) (C59_mean 5).1 hX
      (C61_gram (PSDBuilt.linear le_rfl) 1) (by norm_num) rfl

end RM
