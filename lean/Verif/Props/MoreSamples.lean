import Verif.Props.TestScores
import Verif.Props.Noise
import Verif.Props.NaiveBayesOptimal
import Verif.Props.Encoding

/-! C115: with more and more samples, what is learnt approaches the truth. Exact arithmetic. -/

namespace RM
open Outcome Scalar Spec MeasureTheory ProbabilityTheory Filter Topology Matrix

/-! ### Linear regression -/

/-- The mean squared error of the affine function `β` on the distribution of the samples. -/
noncomputable def Spec.affineRisk {Ω S : Type} [MeasurableSpace Ω] (P : Measure Ω) (s : ℕ → Ω → S) (row : S → List ℝ) (target : S → ℝ) (β : List ℝ) : ℝ :=
  ∫ ω, (target (s 0 ω) - affine β (row (s 0 ω))) ^ 2 ∂P

/-- No affine function of the features is zero almost surely, except the one that is zero everywhere. -/
def Spec.NonDegenerate {Ω S : Type} [MeasurableSpace Ω] (P : Measure Ω) (s : ℕ → Ω → S) (row : S → List ℝ) (d : ℕ) : Prop :=
  ∀ γ : List ℝ, γ.length = d + 1 → (∀ᵐ ω ∂P, affine γ (row (s 0 ω)) = 0) → γ = zeroVec (d + 1)

/-- Entry `j` of a sample with a leading one. -/
def zc {S : Type} (row : S → List ℝ) (j : ℕ) (x : S) : ℝ := ((1 : ℝ) :: row x).getD j 0

theorem toV_list {n : ℕ} {β : List ℝ} (hb : β.length = n) : List.ofFn (toV n β) = β := by
  subst hb
  refine List.ext_getElem (by simp) fun i h1 h2 => ?_
  simp [toV, List.getD_eq_getElem?_getD, h2]

section
variable {Ω S : Type} [MeasurableSpace Ω] [MeasurableSpace S] {P : Measure Ω} [IsProbabilityMeasure P] {s : ℕ → Ω → S} (hs : IsSample P s) {d : ℕ}
  {row : S → List ℝ} (hlen : ∀ x, (row x).length = d) {target : S → ℝ} (hrm : ∀ j < d, Measurable fun x => (row x).getD j 0)
  (hr2 : ∀ j < d, MemLp (fun ω => (row (s 0 ω)).getD j 0) 2 P)
  (htm : Measurable target) (ht2 : MemLp (fun ω => target (s 0 ω)) 2 P)

include hrm in
theorem zc_measurable (j : Fin (d + 1)) : Measurable (zc row j) := by
  obtain ⟨j, hj⟩ := j
  cases j with
  | zero => exact measurable_const
  | succ j => exact hrm j (by omega)

include hr2 in
theorem zc_memLp (j : Fin (d + 1)) : MemLp (fun ω => zc row j (s 0 ω)) 2 P := by
  obtain ⟨j, hj⟩ := j
  cases j with
  | zero => exact memLp_const (1 : ℝ)
  | succ j => exact hr2 j (by omega)

include hlen in
theorem affine_zc {γ : List ℝ} (hγ : γ.length = d + 1) (x : S) : affine γ (row x) = ∑ j : Fin (d + 1), toV _ γ j * zc row j x := by
  rw [affine_sum hγ (hlen x)]
  exact Finset.sum_congr rfl fun j _ => mul_comm _ _

include hs hlen hrm hr2 htm ht2 in
/-- **C115 (linear regression).** If the features and the target have second moments and no affine function of the features vanishes, there is exactly one affine function of smallest
mean squared error. Almost surely training succeeds on all sufficiently long initial parts of the samples, the parameters converge to those of this function, and the predictions for any
row converge to its values. -/
theorem C115_linear {solve : Mat ℝ → List ℝ → Outcome (List ℝ)} (hse : SolvesExactly solve) (hsr : SolvesRegular solve) (hnd : NonDegenerate P s row d) :
    ∃ β : List ℝ, β.length = d + 1 ∧ (∀ γ : List ℝ, γ.length = d + 1 → γ ≠ β → affineRisk P s row target β < affineRisk P s row target γ) ∧
      ∀ᵐ ω ∂P, ∃ B : ℕ → List ℝ, (∀ᶠ n in atTop, LinReg.train solve ⟨d, onFirst row s n ω⟩ (onFirst target s n ω) = ok ⟨some (B n)⟩) ∧
        (∀ j, Tendsto (fun n => (B n).getD j 0) atTop (𝓝 (β.getD j 0))) ∧
        ∀ x : List ℝ, x.length = d → ∃ p : ℕ → ℝ, (∀ᶠ n in atTop, LinReg.predict ⟨some (B n)⟩ ⟨d, [x]⟩ = ok [p n]) ∧ Tendsto p atTop (𝓝 (affine β x)) := by
  set A : Matrix (Fin (d + 1)) (Fin (d + 1)) ℝ := Matrix.of fun j k => ∫ ω, zc row j (s 0 ω) * zc row k (s 0 ω) ∂P with hA
  set b : Fin (d + 1) → ℝ := fun j => ∫ ω, zc row j (s 0 ω) * target (s 0 ω) ∂P with hb
  have hzm := zc_measurable (row := row) hrm
  have hz2 := zc_memLp (row := row) (s := s) hr2
  have hquad := quad_moment (r := fun (j : Fin (d + 1)) ω => zc row j (s 0 ω)) hz2 (C := A) (fun i j => rfl)
  have hcomb := memLp_combo (r := fun (j : Fin (d + 1)) ω => zc row j (s 0 ω)) hz2
  have hzero : ∀ v : Fin (d + 1) → ℝ, ∫ ω, (∑ j, v j * zc row j (s 0 ω)) ^ 2 ∂P = 0 → v = 0 := by
    intro v hv
    rw [integral_eq_zero_iff_of_nonneg (fun ω => sq_nonneg _) (hcomb v).integrable_sq] at hv
    have h1 := hnd (List.ofFn v) (by simp) (by
      filter_upwards [hv] with ω hω
      rw [affine_zc hlen (by simp), toV_ofFn]
      exact pow_eq_zero_iff two_ne_zero |>.1 hω)
    funext j
    have h2 := congrArg (fun l => toV (d + 1) l j) h1
    beta_reduce at h2
    rw [toV_ofFn] at h2
    rw [h2]
    simp [toV, zeroVec]
  have hAu : IsUnit A := by
    rw [← Matrix.mulVec_injective_iff_isUnit]
    intro v w hvw
    have h0 : A.mulVec (v - w) = 0 := by rw [Matrix.mulVec_sub, hvw, sub_self]
    have := hquad (v - w) (v - w)
    rw [h0, dotProduct_zero] at this
    exact sub_eq_zero.1 (hzero (v - w) (by simpa only [sq] using this))
  have hAd := (Matrix.isUnit_iff_isUnit_det _).1 hAu
  have hAd0 : A.det ≠ 0 := hAd.ne_zero
  set bv : Fin (d + 1) → ℝ := A⁻¹.mulVec b with hbv
  have hAb : A.mulVec bv = b := by rw [hbv, Matrix.mulVec_mulVec, Matrix.mul_nonsing_inv _ hAd, Matrix.one_mulVec]
  refine ⟨List.ofFn bv, by simp, ?_, ?_⟩
  · intro γ hγ hne
    have hu : MemLp (fun ω => target (s 0 ω) - ∑ j, bv j * zc row j (s 0 ω)) 2 P := ht2.sub (hcomb bv)
    have hdiff := hcomb (bv - toV (d + 1) γ)
    have horth : ∫ ω, (target (s 0 ω) - ∑ j, bv j * zc row j (s 0 ω)) * (∑ j, (bv - toV (d + 1) γ) j * zc row j (s 0 ω)) ∂P = 0 := by
      have e : ∀ ω, (target (s 0 ω) - ∑ j, bv j * zc row j (s 0 ω)) * (∑ j, (bv - toV (d + 1) γ) j * zc row j (s 0 ω)) =
          target (s 0 ω) * (∑ j, (bv - toV (d + 1) γ) j * zc row j (s 0 ω)) - (∑ j, bv j * zc row j (s 0 ω)) * (∑ j, (bv - toV (d + 1) γ) j * zc row j (s 0 ω)) := fun ω => by ring
      rw [integral_congr_ae (Eventually.of_forall e), integral_sub (integrable_prod ht2 hdiff) (integrable_prod (hcomb bv) hdiff), hquad, integral_mul_combo ht2 hz2]
      have h3 : ∀ j : Fin (d + 1), ∫ ω, target (s 0 ω) * zc row j (s 0 ω) ∂P = b j := fun j => by
        rw [hb]
        exact integral_congr_ae (Eventually.of_forall fun ω => mul_comm _ _)
      have hAt : Aᵀ = A := by
        ext j k
        rw [Matrix.transpose_apply, hA]
        exact integral_congr_ae (Eventually.of_forall fun ω => mul_comm _ _)
      rw [Matrix.dotProduct_mulVec, ← Matrix.mulVec_transpose, hAt, hAb, sub_eq_zero]
      simp only [h3]
      exact dotProduct_comm _ _
    have hpyth := integral_sq_add hu hdiff horth
    unfold affineRisk
    have e1 : ∀ ω, target (s 0 ω) - affine γ (row (s 0 ω)) = (target (s 0 ω) - ∑ j, bv j * zc row j (s 0 ω)) + ∑ j, (bv - toV (d + 1) γ) j * zc row j (s 0 ω) := by
      intro ω
      rw [affine_zc hlen hγ]
      simp only [Pi.sub_apply, sub_mul, Finset.sum_sub_distrib]
      ring
    simp only [e1]
    rw [hpyth]
    have e2 : ∀ ω, target (s 0 ω) - affine (List.ofFn bv) (row (s 0 ω)) = target (s 0 ω) - ∑ j, bv j * zc row j (s 0 ω) := by
      intro ω
      rw [affine_zc hlen (by simp), toV_ofFn]
    simp only [e2]
    refine lt_add_of_pos_right _ (lt_of_le_of_ne (integral_nonneg fun ω => sq_nonneg _) fun h0 => hne ?_)
    have h4 := hzero _ h0.symm
    rw [sub_eq_zero] at h4
    rw [h4, toV_list hγ]
  · have hG : ∀ᵐ ω ∂P, ∀ j k : Fin (d + 1), Tendsto (fun n : ℕ => (∑ i ∈ Finset.range n, zc row j (s i ω) * zc row k (s i ω)) / n) atTop (𝓝 (A j k)) := by
      rw [ae_all_iff]; intro j
      rw [ae_all_iff]; intro k
      exact sample_limit hs (e := fun x => zc row j x * zc row k x) ((hzm j).mul (hzm k)) (integrable_prod (hz2 j) (hz2 k))
    have hH : ∀ᵐ ω ∂P, ∀ j : Fin (d + 1), Tendsto (fun n : ℕ => (∑ i ∈ Finset.range n, zc row j (s i ω) * target (s i ω)) / n) atTop (𝓝 (b j)) := by
      rw [ae_all_iff]; intro j
      exact sample_limit hs (e := fun x => zc row j x * target x) ((hzm j).mul htm) (integrable_prod (hz2 j) ht2)
    filter_upwards [hG, hH] with ω hGω hHω
    set G : ℕ → Matrix (Fin (d + 1)) (Fin (d + 1)) ℝ := fun n => Matrix.of fun j k => (∑ i ∈ Finset.range n, zc row j (s i ω) * zc row k (s i ω)) / n with hGdef
    set h : ℕ → Fin (d + 1) → ℝ := fun n j => (∑ i ∈ Finset.range n, zc row j (s i ω) * target (s i ω)) / n with hhdef
    have hGt : Tendsto G atTop (𝓝 A) := tendsto_pi_nhds.2 fun j => tendsto_pi_nhds.2 fun k => hGω j k
    have hht : Tendsto h atTop (𝓝 b) := tendsto_pi_nhds.2 hHω
    have hdett : Tendsto (fun n => (G n).det) atTop (𝓝 A.det) := ((continuous_id.matrix_det).tendsto A).comp hGt
    have hinvt : Tendsto (fun n => (G n)⁻¹) atTop (𝓝 A⁻¹) := by
      simp only [Matrix.inv_def, Ring.inverse_eq_inv']
      exact (hdett.inv₀ hAd0).smul (((continuous_id.matrix_adjugate).tendsto A).comp hGt)
    have hsolt : Tendsto (fun n => (G n)⁻¹.mulVec (h n)) atTop (𝓝 bv) := by
      refine tendsto_pi_nhds.2 fun j => ?_
      change Tendsto (fun n => ∑ k, (G n)⁻¹ j k * h n k) atTop (𝓝 (∑ k, A⁻¹ j k * b k))
      exact tendsto_finsetSum _ fun k _ => ((tendsto_pi_nhds.1 (tendsto_pi_nhds.1 hinvt j) k).mul (tendsto_pi_nhds.1 hht k))
    have hgood : ∀ᶠ n in atTop, ∃ β : List ℝ, LinReg.train solve ⟨d, onFirst row s n ω⟩ (onFirst target s n ω) = ok ⟨some β⟩ ∧ β.length = d + 1 ∧
        toV (d + 1) β = (G n)⁻¹.mulVec (h n) := by
      filter_upwards [hdett.eventually_ne hAd0, eventually_gt_atTop 0] with n hdn hn
      have hn0 : (n : ℝ) ≠ 0 := by exact_mod_cast hn.ne'
      have hXW : (⟨d, onFirst row s n ω⟩ : Mat ℝ).WF := by
        intro r hr
        obtain ⟨i, -, rfl⟩ := List.mem_map.1 hr
        exact hlen _
      have hXl : (onFirst row s n ω).length = n := onFirst_length _ _ _ _
      have hrowi : ∀ i : Fin (onFirst row s n ω).length, (onFirst row s n ω).getD i [] = row (s i ω) := by
        intro i
        have hi : (i : ℕ) < n := lt_of_lt_of_eq i.2 hXl
        rw [List.getD_eq_getElem?_getD, onFirst_getElem? row s ω hi]
        rfl
      set M := toM (onFirst row s n ω).length (d + 1) ⟨d + 1, (onFirst row s n ω).map ((1 : ℝ) :: ·)⟩ with hM
      have hMe : ∀ (i : Fin (onFirst row s n ω).length) (j : Fin (d + 1)), M i j = zc row j (s i ω) := by
        intro i j
        change ((((onFirst row s n ω).map ((1 : ℝ) :: ·)).getD i []).getD j 0 : ℝ) = _
        rw [getD_map_lt _ _ [] _ _ i.2, hrowi]
        rfl
      have hMM : Mᵀ * M = (n : ℝ) • G n := by
        ext j k
        rw [Matrix.mul_apply, Matrix.smul_apply, hGdef]
        beta_reduce
        rw [Matrix.of_apply, smul_eq_mul, mul_div_cancel₀ _ hn0]
        simp only [Matrix.transpose_apply, hMe]
        rw [Fin.sum_univ_eq_sum_range (fun i => zc row j (s i ω) * zc row k (s i ω)), hXl]
      have hdetM : IsUnit (Mᵀ * M) := by
        rw [Matrix.isUnit_iff_isUnit_det, hMM, Matrix.det_smul]
        exact (mul_ne_zero (pow_ne_zero _ hn0) hdn).isUnit
      have hI : AffinelyIndependent ⟨d, onFirst row s n ω⟩ := by
        intro γ hγ h0
        have h1 : M.mulVec (toV _ γ) = 0 := by
          funext i
          have := h0 _ (List.getElem_mem i.2)
          have h2 := hrowi i
          rw [List.getD_eq_getElem?_getD, List.getElem?_eq_getElem i.2] at h2
          simp only [Option.getD_some] at h2
          rw [h2, affine_zc hlen hγ] at this
          rw [Pi.zero_apply, ← this]
          rw [Matrix.mulVec, dotProduct]
          exact Finset.sum_congr rfl fun j _ => by rw [hMe, mul_comm]
        have h3 : (Mᵀ * M).mulVec (toV _ γ) = (Mᵀ * M).mulVec 0 := by rw [← Matrix.mulVec_mulVec, h1, Matrix.mulVec_zero, Matrix.mulVec_zero]
        have h4 := Matrix.mulVec_injective_iff_isUnit.2 hdetM h3
        rw [← toV_list hγ, h4]
        exact List.ext_getElem (by simp [zeroVec]) fun i h5 h6 => by simp only [zeroVec, List.getElem_replicate, List.getElem_ofFn, Pi.zero_apply]
      obtain ⟨m, hm⟩ := (C48_succeeds_iff hse hsr ⟨d, onFirst row s n ω⟩ hXW (onFirst target s n ω) (by simp [onFirst])).2 hI
      obtain ⟨β, rfl, -, hbl, h1, -⟩ := linTrain_normal hse hXW hm
      refine ⟨β, hm, hbl, ?_⟩
      have hMy : Mᵀ.mulVec (toV _ (onFirst target s n ω)) = (n : ℝ) • h n := by
        funext j
        rw [Pi.smul_apply, hhdef, smul_eq_mul, mul_div_cancel₀ _ hn0]
        have : ∀ i : Fin (onFirst row s n ω).length, Mᵀ j i * toV _ (onFirst target s n ω) i = zc row j (s i ω) * target (s i ω) := by
          intro i
          have hi : (i : ℕ) < n := lt_of_lt_of_eq i.2 hXl
          rw [Matrix.transpose_apply, hMe]
          congr 1
          unfold toV
          rw [List.getD_eq_getElem?_getD, onFirst_getElem? target s ω hi]
          rfl
        rw [Matrix.mulVec, dotProduct, Finset.sum_congr rfl fun i _ => this i, Fin.sum_univ_eq_sum_range (fun i => zc row j (s i ω) * target (s i ω)), hXl]
      have h2 : (G n).mulVec (toV _ β) = h n := by
        have h3 : (Mᵀ * M).mulVec (toV _ β) = Mᵀ.mulVec (toV _ (onFirst target s n ω)) := h1
        rw [hMM, hMy, Matrix.smul_mulVec] at h3
        exact smul_right_injective _ hn0 h3
      rw [← h2, Matrix.mulVec_mulVec, Matrix.nonsing_inv_mul _ (isUnit_iff_ne_zero.2 hdn), Matrix.one_mulVec]
    have hch : ∀ n, ∃ β : List ℝ, (∃ β : List ℝ, LinReg.train solve ⟨d, onFirst row s n ω⟩ (onFirst target s n ω) = ok ⟨some β⟩ ∧ β.length = d + 1 ∧
        toV (d + 1) β = (G n)⁻¹.mulVec (h n)) → LinReg.train solve ⟨d, onFirst row s n ω⟩ (onFirst target s n ω) = ok ⟨some β⟩ ∧ β.length = d + 1 ∧
        toV (d + 1) β = (G n)⁻¹.mulVec (h n) := by
      intro n
      by_cases hg : ∃ β : List ℝ, LinReg.train solve ⟨d, onFirst row s n ω⟩ (onFirst target s n ω) = ok ⟨some β⟩ ∧ β.length = d + 1 ∧ toV (d + 1) β = (G n)⁻¹.mulVec (h n)
      · obtain ⟨β, hβ⟩ := hg
        exact ⟨β, fun _ => hβ⟩
      · exact ⟨[], fun hh => absurd hh hg⟩
    choose B hB using hch
    have hgB := hgood.mono fun n hn => hB n hn
    have hco : ∀ j : Fin (d + 1), Tendsto (fun n => toV (d + 1) (B n) j) atTop (𝓝 (bv j)) := by
      intro j
      refine (tendsto_pi_nhds.1 hsolt j).congr' ?_
      filter_upwards [hgB] with n hn
      rw [hn.2.2]
    refine ⟨B, hgB.mono fun n hn => hn.1, fun j => ?_, fun x hx => ⟨fun n => affine (B n) x, ?_, ?_⟩⟩
    · by_cases hj : j < d + 1
      · have := hco ⟨j, hj⟩
        have e : (List.ofFn bv).getD j 0 = bv ⟨j, hj⟩ := congrFun (toV_ofFn bv) ⟨j, hj⟩
        rw [e]
        exact this
      · have e : (List.ofFn bv).getD j 0 = 0 := by rw [List.getD_eq_getElem?_getD, List.getElem?_eq_none (by simp; omega)]; rfl
        rw [e]
        refine tendsto_const_nhds.congr' ?_
        filter_upwards [hgB] with n hn
        rw [List.getD_eq_getElem?_getD, List.getElem?_eq_none (by rw [hn.2.1]; omega)]
        rfl
    · filter_upwards [hgB] with n hn
      exact C48_predict (B n) ⟨d, [x]⟩ hn.2.1
    · have e := affine_sum (d := d) (β := List.ofFn bv) (z := x) (by simp) hx
      rw [e, toV_ofFn]
      have h5 : Tendsto (fun n => (fun j : Fin (d + 1) => ((1 : ℝ) :: x).getD j 0) ⬝ᵥ toV (d + 1) (B n)) atTop (𝓝 ((fun j : Fin (d + 1) => ((1 : ℝ) :: x).getD j 0) ⬝ᵥ bv)) :=
        tendsto_finsetSum _ fun j _ => (hco j).const_mul _
      refine h5.congr' ?_
      filter_upwards [hgB] with n hn
      exact (affine_sum hn.2.1 hx).symm

end

/-! ### Means and variances of lists that grow -/

theorem lmean_sq_dev (l : List ℝ) (a : ℝ) : (l.map fun x => (x - a) ^ 2).sum = (l.map fun x => x ^ 2).sum - 2 * a * l.sum + l.length * a ^ 2 := by
  induction l with
  | nil => simp
  | cons x l ih =>
    simp only [List.map_cons, List.sum_cons, ih, List.length_cons, Nat.cast_add, Nat.cast_one]
    ring

/-- Sample variances converge if the means and the means of the squares do. -/
theorem sampleVar_tendsto {l : ℕ → List ℝ} {a q : ℝ} (hl : Tendsto (fun n => ((l n).length : ℝ)) atTop atTop) (h1 : Tendsto (fun n => (l n).sum / (l n).length) atTop (𝓝 a))
    (h2 : Tendsto (fun n => ((l n).map fun x : ℝ => x ^ 2).sum / (l n).length) atTop (𝓝 q)) : Tendsto (fun n => sampleVar (l n)) atTop (𝓝 (q - a ^ 2)) := by
  have h3 : Tendsto (fun n => (1 - ((l n).length : ℝ)⁻¹)⁻¹) atTop (𝓝 1) := by
    have h := ((tendsto_const_nhds (x := (1 : ℝ))).sub hl.inv_tendsto_atTop).inv₀ (by norm_num)
    simpa using h
  have h4 := h3.mul (h2.sub (h1.pow 2))
  rw [one_mul] at h4
  refine h4.congr' ?_
  filter_upwards [hl.eventually_gt_atTop 1] with n hn
  have hn0 : ((l n).length : ℝ) ≠ 0 := by linarith
  have hn1 : ((l n).length : ℝ) - 1 ≠ 0 := by linarith
  have e : (1 - ((l n).length : ℝ)⁻¹)⁻¹ = (l n).length / ((l n).length - 1) := by field_simp
  unfold sampleVar Spec.mean
  rw [lmean_sq_dev, e]
  field_simp
  ring

theorem nonConstant_of_var {l : List ℝ} (h : sampleVar l ≠ 0) : NonConstant l := by
  by_contra hc
  have hne : l ≠ [] := by
    rintro rfl
    simp [sampleVar] at h
  obtain ⟨x, l', rfl⟩ := List.exists_cons_of_ne_nil hne
  refine h (sampleVar_const hne (c := x) fun y hy => ?_)
  by_contra hxy
  exact hc ⟨y, hy, x, by simp, hxy⟩

theorem int_sq_dev {Ω : Type} [MeasurableSpace Ω] {μ : Measure Ω} [IsFiniteMeasure μ] {u : Ω → ℝ} (h1 : Integrable u μ) (h2 : Integrable (fun ω => u ω ^ 2) μ) (a : ℝ) :
    ∫ ω, (u ω - a) ^ 2 ∂μ = ∫ ω, u ω ^ 2 ∂μ - 2 * a * ∫ ω, u ω ∂μ + a ^ 2 * μ.real Set.univ := by
  have e : ∀ ω, (u ω - a) ^ 2 = u ω ^ 2 - 2 * a * u ω + a ^ 2 := fun ω => by ring
  have i1 : Integrable (fun ω => 2 * a * u ω) μ := h1.const_mul _
  have i2 : Integrable (fun ω => u ω ^ 2 - 2 * a * u ω) μ := h2.sub i1
  rw [integral_congr_ae (Eventually.of_forall e), integral_add i2 (integrable_const _), integral_sub h2 i1, integral_const_mul, integral_const, smul_eq_mul, mul_comm (a ^ 2)]

/-! ### Standardizer -/

section
variable {Ω S : Type} [MeasurableSpace Ω] [MeasurableSpace S] {P : Measure Ω} [IsProbabilityMeasure P] {s : ℕ → Ω → S} (hs : IsSample P s) {d : ℕ}
  {row : S → List ℝ} (hlen : ∀ x, (row x).length = d) (hrm : ∀ j < d, Measurable fun x => coord (row x) j)
  (hr2 : ∀ j < d, MemLp (fun ω => coord (row (s 0 ω)) j) 2 P)

/-- The mean of feature `j`. -/
noncomputable def Spec.featureMean (P : Measure Ω) (s : ℕ → Ω → S) (row : S → List ℝ) (j : ℕ) : ℝ := ∫ ω, coord (row (s 0 ω)) j ∂P

/-- The variance of feature `j`. -/
noncomputable def Spec.featureVar (P : Measure Ω) (s : ℕ → Ω → S) (row : S → List ℝ) (j : ℕ) : ℝ := ∫ ω, (coord (row (s 0 ω)) j - featureMean P s row j) ^ 2 ∂P

omit [MeasurableSpace Ω] [MeasurableSpace S] in
theorem onFirst_sum (f : S → ℝ) (n : ℕ) (ω : Ω) : (onFirst f s n ω).sum = ∑ i ∈ Finset.range n, f (s i ω) := lsum_range _ _

omit [MeasurableSpace Ω] [MeasurableSpace S] in
theorem col_onFirst (n : ℕ) (ω : Ω) (j : ℕ) : Spec.col ⟨d, onFirst row s n ω⟩ j = onFirst (fun x => coord (row x) j) s n ω := by
  unfold Spec.col onFirst
  simp only [List.map_map]
  rfl

include hs hlen hrm hr2 in
/-- **C115 (standardizer).** If the features have second moments then almost surely the means and variances found by the standardizer converge to the means and variances of the
features. For features of positive variance the transformed values of any row converge too. -/
theorem C115_standardizer (f : StandardizerFitter ℝ) :
    ∀ᵐ ω ∂P, ∃ t : ℕ → Standardizer ℝ, (∀ᶠ n in atTop, standardizerFit f ⟨d, onFirst row s n ω⟩ = ok (t n)) ∧
      (∀ j < d, Tendsto (fun n => (t n).means.getD j 0) atTop (𝓝 (featureMean P s row j)) ∧ Tendsto (fun n => (t n).variances.getD j 0) atTop (𝓝 (featureVar P s row j))) ∧
      ∀ x : List ℝ, x.length = d → ∃ y : ℕ → List ℝ, (∀ᶠ n in atTop, standardizerTransform (t n) ⟨d, [x]⟩ = ok ⟨d, [y n]⟩) ∧
        ∀ j < d, 0 < featureVar P s row j → Tendsto (fun n => coord (y n) j) atTop
          (𝓝 ((coord x j - featureMean P s row j) * f.scaledStdev / Real.sqrt (featureVar P s row j) + f.scaledMean)) := by
  have hvar : ∀ j < d, featureVar P s row j = ∫ ω, coord (row (s 0 ω)) j ^ 2 ∂P - featureMean P s row j ^ 2 := by
    intro j hj
    have hi := (hr2 j hj).integrable (by norm_num)
    have hi2 := (hr2 j hj).integrable_sq
    unfold featureVar
    rw [int_sq_dev hi hi2, probReal_univ]
    change _ - 2 * featureMean P s row j * featureMean P s row j + _ = _
    ring
  have h1 : ∀ᵐ ω ∂P, ∀ j, j < d → Tendsto (fun n : ℕ => (∑ i ∈ Finset.range n, coord (row (s i ω)) j) / n) atTop (𝓝 (featureMean P s row j)) := by
    rw [ae_all_iff]; intro j
    by_cases hj : j < d
    · filter_upwards [sample_limit hs (hrm j hj) ((hr2 j hj).integrable (by norm_num))] with ω hω _ using hω
    · exact Eventually.of_forall fun ω h => absurd h hj
  have h2 : ∀ᵐ ω ∂P, ∀ j, j < d → Tendsto (fun n : ℕ => (∑ i ∈ Finset.range n, coord (row (s i ω)) j ^ 2) / n) atTop (𝓝 (∫ ω, coord (row (s 0 ω)) j ^ 2 ∂P)) := by
    rw [ae_all_iff]; intro j
    by_cases hj : j < d
    · filter_upwards [sample_limit hs ((hrm j hj).pow_const 2) (hr2 j hj).integrable_sq] with ω hω _ using hω
    · exact Eventually.of_forall fun ω h => absurd h hj
  filter_upwards [h1, h2] with ω w1 w2
  have hm : ∀ j < d, Tendsto (fun n => Spec.mean (Spec.col ⟨d, onFirst row s n ω⟩ j)) atTop (𝓝 (featureMean P s row j)) := by
    intro j hj
    refine (w1 j hj).congr fun n => ?_
    rw [col_onFirst, Spec.mean, onFirst_sum, onFirst_length]
  have hv : ∀ j < d, Tendsto (fun n => sampleVar (Spec.col ⟨d, onFirst row s n ω⟩ j)) atTop (𝓝 (featureVar P s row j)) := by
    intro j hj
    rw [hvar j hj]
    refine sampleVar_tendsto (l := fun n => Spec.col ⟨d, onFirst row s n ω⟩ j) ?_ (hm j hj) ?_
    · simp only [col_onFirst, onFirst_length]
      exact tendsto_natCast_atTop_atTop
    · refine (w2 j hj).congr fun n => ?_
      rw [col_onFirst, onFirst_length]
      congr 1
      unfold onFirst
      rw [List.map_map, lsum_range]
      rfl
  refine ⟨fun n => ⟨(List.range d).map fun j => Spec.mean (Spec.col ⟨d, onFirst row s n ω⟩ j), (List.range d).map fun j => sampleVar (Spec.col ⟨d, onFirst row s n ω⟩ j),
    f.scaledMean, f.scaledStdev⟩, ?_, ?_, ?_⟩
  · filter_upwards [eventually_ge_atTop 2] with n hn
    refine standardizerFit_real f ⟨d, onFirst row s n ω⟩ ?_ (by simpa [onFirst] using hn)
    intro r hr
    obtain ⟨i, -, rfl⟩ := List.mem_map.1 hr
    exact hlen _
  · intro j hj
    refine ⟨(hm j hj).congr fun n => ?_, (hv j hj).congr fun n => ?_⟩
    · exact (getD_map_range d (fun j => Spec.mean (Spec.col ⟨d, onFirst row s n ω⟩ j)) j hj).symm
    · exact (getD_map_range d (fun j => sampleVar (Spec.col ⟨d, onFirst row s n ω⟩ j)) j hj).symm
  · intro x hx
    have hxw : (⟨d, [x]⟩ : Mat ℝ).WF := by intro r h; simp only [List.mem_singleton] at h; rw [h, hx]
    have h3 := fun n => standardizerTransform_col (⟨(List.range d).map fun j => Spec.mean (Spec.col ⟨d, onFirst row s n ω⟩ j),
      (List.range d).map fun j => sampleVar (Spec.col ⟨d, onFirst row s n ω⟩ j), f.scaledMean, f.scaledStdev⟩ : Standardizer ℝ) ⟨d, [x]⟩ hxw (by simp) (by simp)
    choose Y hY hsh hcol using h3
    have hone : ∀ n, ∃ y, Y n = ⟨d, [y]⟩ := by
      intro n
      obtain ⟨a1, a2, -⟩ := hsh n
      obtain ⟨y, hy⟩ := List.length_eq_one_iff.1 (a2.symm.trans rfl : (Y n).rows.length = 1)
      refine ⟨y, ?_⟩
      cases hYn : Y n with
      | mk c rs =>
        rw [hYn] at a1 hy
        simp only at a1 hy
        rw [← a1, hy]
    choose y hy using hone
    refine ⟨y, Eventually.of_forall fun n => by rw [hY n, hy n], fun j hj hpos => ?_⟩
    have h5 : Tendsto (fun n => (coord x j - Spec.mean (Spec.col ⟨d, onFirst row s n ω⟩ j)) * f.scaledStdev / Real.sqrt (sampleVar (Spec.col ⟨d, onFirst row s n ω⟩ j)) + f.scaledMean) atTop
        (𝓝 ((coord x j - featureMean P s row j) * f.scaledStdev / Real.sqrt (featureVar P s row j) + f.scaledMean)) :=
      (((tendsto_const_nhds.sub (hm j hj)).mul_const _).div ((Real.continuous_sqrt.tendsto _).comp (hv j hj)) (Real.sqrt_pos.2 hpos).ne').add_const _
    refine h5.congr fun n => ?_
    have h6 := hcol n j hj
    rw [hy n] at h6
    simp only [Spec.col, List.map_cons, List.map_nil, List.cons.injEq, and_true] at h6
    have h7 : coord (y n) j = _ := h6
    rw [h7, getD_map_range _ _ _ hj, getD_map_range _ _ _ hj]
    rfl

end

/-! ### Naive Bayes -/

section
variable {Ω S : Type} [MeasurableSpace Ω] [MeasurableSpace S] {P : Measure Ω} [IsProbabilityMeasure P] {s : ℕ → Ω → S} (hs : IsSample P s) {d k : ℕ}
  {row label : S → List ℝ} {cls : S → ℕ}

/-- The probability of class `c`. -/
noncomputable def Spec.classProb (P : Measure Ω) (s : ℕ → Ω → S) (cls : S → ℕ) (c : ℕ) : ℝ := P.real {ω | cls (s 0 ω) = c}

/-- The mean of `g` among the samples of class `c`. -/
noncomputable def Spec.meanGiven (P : Measure Ω) (s : ℕ → Ω → S) (cls : S → ℕ) (c : ℕ) (g : S → ℝ) : ℝ := (∫ ω in {ω | cls (s 0 ω) = c}, g (s 0 ω) ∂P) / classProb P s cls c

theorem class_sums {ι : Type} (l : List ι) (f h : ι → List ℝ) (c : ι → ℕ) (hcl : ∀ i, classOf (h i) = some (c i)) (a : ℕ) (g : List ℝ → ℝ) :
    ((classSamples (l.map f) (l.map h) a).map g).sum = (l.map fun i => if c i = a then g (f i) else 0).sum := by
  unfold classSamples
  induction l with
  | nil => rfl
  | cons i l ih =>
    by_cases hi : c i = a
    · simp [hcl, hi] at ih ⊢
      exact ih
    · simp [hcl, hi] at ih ⊢
      exact ih

theorem class_count {ι : Type} (l : List ι) (h : ι → List ℝ) (c : ι → ℕ) (hcl : ∀ i, classOf (h i) = some (c i)) (a : ℕ) :
    (classSize (l.map h) a : ℝ) = (l.map fun i => if c i = a then (1 : ℝ) else 0).sum := by
  unfold classSize
  induction l with
  | nil => simp
  | cons i l ih =>
    by_cases hi : c i = a
    · simp [hcl, hi] at ih ⊢
      rw [ih]; ring
    · simp [hcl, hi] at ih ⊢
      exact ih

include hs in
/-- The share of a class and the mean of a function over its samples converge. -/
theorem class_limits (hcm : Measurable cls) (hlab : ∀ x, IsOneHot k (cls x) (label x)) {c : ℕ} (hq : 0 < classProb P s cls c) {g : List ℝ → ℝ}
    (hg : Measurable fun x => g (row x)) (hgi : Integrable (fun ω => g (row (s 0 ω))) P) :
    ∀ᵐ ω ∂P, Tendsto (fun n : ℕ => (classSize (onFirst label s n ω) c : ℝ) / n) atTop (𝓝 (classProb P s cls c)) ∧
      Tendsto (fun n : ℕ => ((classSamples (onFirst row s n ω) (onFirst label s n ω) c).map g).sum / classSize (onFirst label s n ω) c) atTop
        (𝓝 (meanGiven P s cls c fun x => g (row x))) := by
  have hS : MeasurableSet {x | cls x = c} := hcm (measurableSet_singleton c)
  have hSω : MeasurableSet {ω | cls (s 0 ω) = c} := (hs.1 0) hS
  have i1 : Integrable ({ω | cls (s 0 ω) = c}.indicator fun _ => (1 : ℝ)) P := (integrable_const (1 : ℝ)).indicator hSω
  have i2 : Integrable ({ω | cls (s 0 ω) = c}.indicator fun ω => g (row (s 0 ω))) P := hgi.indicator hSω
  have l1 := sample_limit hs (e := fun x => if cls x = c then (1 : ℝ) else 0) (Measurable.ite hS measurable_const measurable_const)
    (i1.congr (Eventually.of_forall fun ω => by simp [Set.indicator_apply]))
  have l2 := sample_limit hs (e := fun x => if cls x = c then g (row x) else 0) (Measurable.ite hS hg measurable_const) (i2.congr (Eventually.of_forall fun ω => by simp [Set.indicator_apply]))
  have e1 : ∫ ω, (if cls (s 0 ω) = c then (1 : ℝ) else 0) ∂P = classProb P s cls c := by
    rw [classProb, ← integral_indicator_one hSω]
    exact integral_congr_ae (Eventually.of_forall fun ω => by simp [Set.indicator_apply])
  have e2 : ∫ ω, (if cls (s 0 ω) = c then g (row (s 0 ω)) else 0) ∂P = ∫ ω in {ω | cls (s 0 ω) = c}, g (row (s 0 ω)) ∂P := by
    rw [← integral_indicator hSω]
    exact integral_congr_ae (Eventually.of_forall fun ω => by simp [Set.indicator_apply])
  rw [e1] at l1
  rw [e2] at l2
  filter_upwards [l1, l2] with ω w1 w2
  have k1 : Tendsto (fun n : ℕ => (classSize (onFirst label s n ω) c : ℝ) / n) atTop (𝓝 (classProb P s cls c)) := by
    refine w1.congr fun n => ?_
    rw [onFirst, class_count _ (fun i => label (s i ω)) (fun i => cls (s i ω)) (fun i => classOf_oneHot (hlab _)), lsum_range]
  refine ⟨k1, ?_⟩
  refine (w2.div k1 hq.ne').congr' ?_
  filter_upwards [eventually_gt_atTop 0] with n hn
  have hn0 : (n : ℝ) ≠ 0 := by exact_mod_cast hn.ne'
  rw [onFirst, onFirst, class_sums _ (fun i => row (s i ω)) (fun i => label (s i ω)) (fun i => cls (s i ω)) (fun i => classOf_oneHot (hlab _)), lsum_range,
    Pi.div_apply, div_div_div_cancel_right₀ hn0]
  rfl

/-- The model with the probabilities, means and variances of the distribution of the samples. -/
noncomputable def Spec.trueGaussian (P : Measure Ω) (s : ℕ → Ω → S) (row : S → List ℝ) (cls : S → ℕ) (d : ℕ) : ℕ → List ℝ → ℝ :=
  gaussianJoint d (classProb P s cls) (fun c j => meanGiven P s cls c fun x => coord (row x) j)
    fun c j => meanGiven P s cls c fun x => (coord (row x) j - meanGiven P s cls c fun x => coord (row x) j) ^ 2

/-- The model with the probabilities of the classes and features in the distribution of the samples. -/
noncomputable def Spec.trueBernoulli (P : Measure Ω) (s : ℕ → Ω → S) (row : S → List ℝ) (cls : S → ℕ) (d : ℕ) : ℕ → List ℝ → ℝ :=
  bernoulliJoint d (classProb P s cls) fun c j => meanGiven P s cls c fun x => coord (row x) j

/-- The model with the class probabilities and the shares of the expected counts in the distribution of the samples. -/
noncomputable def Spec.trueMultinomial (P : Measure Ω) (s : ℕ → Ω → S) (row : S → List ℝ) (cls : S → ℕ) (d : ℕ) : ℕ → List ℝ → ℝ :=
  multinomialJoint d (classProb P s cls) fun c j => (meanGiven P s cls c fun x => coord (row x) j) / ∑ l ∈ Finset.range d, meanGiven P s cls c fun x => coord (row x) l

/-- What training on the first `n` samples leads to, for large `n`: it succeeds, the probabilities of the trained models at the rows in `D` tend to those of `joint`, and where `joint` has
one most probable class this class is predicted. -/
def Spec.Approaches {E : Type} (B : NBDistr E ℝ) (m : NaiveBayes E ℝ) (row label : S → List ℝ) (s : ℕ → Ω → S) (ω : Ω) (d k : ℕ) (D : List ℝ → Prop)
    (joint : ℕ → List ℝ → ℝ) : Prop :=
  ∃ (J : ℕ → ℕ → List ℝ → ℝ) (m' : ℕ → NaiveBayes E ℝ),
    (∀ᶠ n in atTop, nbTrain B m ⟨d, onFirst row s n ω⟩ ⟨k, onFirst label s n ω⟩ = (m' n, ok ()) ∧ ComputesLog B (m' n) d k (J n)) ∧
    (∀ x : List ℝ, x.length = d → D x → ∀ c < k, Tendsto (fun n => J n c x) atTop (𝓝 (joint c x))) ∧
    ∀ x : List ℝ, x.length = d → D x → ∀ a < k, (∀ c < k, c ≠ a → joint c x < joint a x) →
      ∀ᶠ n in atTop, ∃ r, nbPredict B (m' n) ⟨d, [x]⟩ = ok ⟨k, [r]⟩ ∧ IsOneHot k a r

omit [MeasurableSpace Ω] [MeasurableSpace S] in
theorem approaches_of {E : Type} {B : NBDistr E ℝ} {m : NaiveBayes E ℝ} {ω : Ω} {D : List ℝ → Prop} {joint : ℕ → List ℝ → ℝ} (J : ℕ → ℕ → List ℝ → ℝ) (hk : 0 < k)
    (h : ∀ᶠ n in atTop, ∃ m', nbTrain B m ⟨d, onFirst row s n ω⟩ ⟨k, onFirst label s n ω⟩ = (m', ok ()) ∧ m'.clusterCount = some k ∧
      ∀ x : List ℝ, x.length = d → ∃ L, nbLogProbs B m' ⟨d, [x]⟩ = ok L ∧ IsTable 1 k L ∧ ∀ c < k, Real.exp (coord (rowOf L 0) c) = J n c x)
    (hJ : ∀ x : List ℝ, x.length = d → D x → ∀ c < k, Tendsto (fun n => J n c x) atTop (𝓝 (joint c x))) : Approaches B m row label s ω d k D joint := by
  have hch : ∀ n, ∃ m', (∃ m', nbTrain B m ⟨d, onFirst row s n ω⟩ ⟨k, onFirst label s n ω⟩ = (m', ok ()) ∧ m'.clusterCount = some k ∧
      ∀ x : List ℝ, x.length = d → ∃ L, nbLogProbs B m' ⟨d, [x]⟩ = ok L ∧ IsTable 1 k L ∧ ∀ c < k, Real.exp (coord (rowOf L 0) c) = J n c x) →
      nbTrain B m ⟨d, onFirst row s n ω⟩ ⟨k, onFirst label s n ω⟩ = (m', ok ()) ∧ m'.clusterCount = some k ∧
      ∀ x : List ℝ, x.length = d → ∃ L, nbLogProbs B m' ⟨d, [x]⟩ = ok L ∧ IsTable 1 k L ∧ ∀ c < k, Real.exp (coord (rowOf L 0) c) = J n c x := by
    intro n
    by_cases hg : ∃ m', nbTrain B m ⟨d, onFirst row s n ω⟩ ⟨k, onFirst label s n ω⟩ = (m', ok ()) ∧ m'.clusterCount = some k ∧
      ∀ x : List ℝ, x.length = d → ∃ L, nbLogProbs B m' ⟨d, [x]⟩ = ok L ∧ IsTable 1 k L ∧ ∀ c < k, Real.exp (coord (rowOf L 0) c) = J n c x
    · obtain ⟨m', hm'⟩ := hg
      exact ⟨m', fun _ => hm'⟩
    · exact ⟨m, fun hh => absurd hh hg⟩
  choose m' hm' using hch
  have hgood := h.mono fun n hn => hm' n hn
  refine ⟨J, m', ?_, hJ, ?_⟩
  · filter_upwards [hgood] with n hn
    refine ⟨hn.1, fun x hx => ?_⟩
    obtain ⟨L, h1, -, h3⟩ := hn.2.2 x hx
    exact ⟨L, h1, h3⟩
  · intro x hx hD a ha hmax
    have hev : ∀ᶠ n in atTop, ∀ c ∈ Finset.range k, c ≠ a → J n c x < J n a x := by
      rw [Finset.eventually_all]
      intro c hc
      by_cases hca : c = a
      · exact Eventually.of_forall fun n h => absurd hca h
      · filter_upwards [(hJ x hx hD c (Finset.mem_range.1 hc)).eventually_lt (hJ x hx hD a ha) (hmax c (Finset.mem_range.1 hc) hca)] with n hn _ using hn
    filter_upwards [hgood, hev] with n hn hv
    obtain ⟨pred, hp, hmx⟩ := decides_of_logProbs hk hn.2.1 hn.2.2
    obtain ⟨hpk, r, hr, hone⟩ := hp x hx
    refine ⟨r, hr, ?_⟩
    by_cases hpa : pred x = a
    · rw [← hpa]; exact hone
    · exact absurd (hmx x hx a ha) (not_le.2 (hv (pred x) (Finset.mem_range.2 hpk) hpa))

variable (hlen : ∀ x, (row x).length = d) (hrm : ∀ j < d, Measurable fun x => coord (row x) j) (hcm : Measurable cls) (hlab : ∀ x, IsOneHot k (cls x) (label x))
  (hq : ∀ c < k, 0 < classProb P s cls c)

omit [MeasurableSpace Ω] [MeasurableSpace S] in
theorem ev_class_pos {ω : Ω} {q : ℝ} {c : ℕ} (hq : 0 < q) (h : Tendsto (fun n : ℕ => (classSize (onFirst label s n ω) c : ℝ) / n) atTop (𝓝 q)) :
    Tendsto (fun n => (classSize (onFirst label s n ω) c : ℝ)) atTop atTop := by
  have h1 := h.pos_mul_atTop hq tendsto_natCast_atTop_atTop
  refine h1.congr' ?_
  filter_upwards [eventually_gt_atTop 0] with n hn
  have hn0 : (n : ℝ) ≠ 0 := by exact_mod_cast hn.ne'
  exact div_mul_cancel₀ _ hn0

omit [MeasurableSpace S] in
include P s in
theorem classes_pos (hlab : ∀ x, IsOneHot k (cls x) (label x)) : 0 < k := by
  obtain ⟨ω⟩ : Nonempty Ω := nonempty_of_isProbabilityMeasure P
  exact lt_of_le_of_lt (Nat.zero_le _) (hlab (s 0 ω)).2.1

omit [MeasurableSpace Ω] [MeasurableSpace S] in
include hlab in
theorem labels_one (n : ℕ) (ω : Ω) : (⟨k, onFirst label s n ω⟩ : Mat ℝ).WF ∧ ∀ t ∈ onFirst label s n ω, ∃ v ∈ t, v = (1 : ℝ) := by
  refine ⟨fun r hr => ?_, fun r hr => ?_⟩
  · obtain ⟨i, -, rfl⟩ := List.mem_map.1 hr
    exact (hlab _).1
  · obtain ⟨i, -, rfl⟩ := List.mem_map.1 hr
    obtain ⟨a1, a2, a3⟩ := hlab (s i ω)
    have := a3 _ a2
    rw [if_pos rfl, coord, List.getD_eq_getElem?_getD, List.getElem?_eq_getElem (by rw [a1]; exact a2)] at this
    exact ⟨_, List.getElem_mem _, this⟩

include hs hrm hcm hlab hq in
theorem nb_limits (hri : ∀ j < d, Integrable (fun ω => coord (row (s 0 ω)) j) P) :
    ∀ᵐ ω ∂P, (∀ c, c < k → Tendsto (fun n : ℕ => (classSize (onFirst label s n ω) c : ℝ) / n) atTop (𝓝 (classProb P s cls c))) ∧
      ∀ c j, c < k → j < d → Tendsto (fun n : ℕ => ((classSamples (onFirst row s n ω) (onFirst label s n ω) c).map fun x => coord x j).sum /
        classSize (onFirst label s n ω) c) atTop (𝓝 (meanGiven P s cls c fun x => coord (row x) j)) := by
  have l0 : ∀ᵐ ω ∂P, ∀ c, c < k → Tendsto (fun n : ℕ => (classSize (onFirst label s n ω) c : ℝ) / n) atTop (𝓝 (classProb P s cls c)) := by
    rw [ae_all_iff]; intro c
    by_cases hc : c < k
    · filter_upwards [class_limits (row := row) hs hcm hlab (hq c hc) (g := fun _ => 0) measurable_const (integrable_const _)] with ω hω _ using hω.1
    · exact Eventually.of_forall fun ω h => absurd h hc
  have l1 : ∀ᵐ ω ∂P, ∀ c j, c < k → j < d → Tendsto (fun n : ℕ => ((classSamples (onFirst row s n ω) (onFirst label s n ω) c).map fun x => coord x j).sum /
      classSize (onFirst label s n ω) c) atTop (𝓝 (meanGiven P s cls c fun x => coord (row x) j)) := by
    rw [ae_all_iff]; intro c
    rw [ae_all_iff]; intro j
    by_cases hc : c < k
    · by_cases hj : j < d
      · filter_upwards [class_limits (row := row) hs hcm hlab (hq c hc) (g := fun x => coord x j) (hrm j hj) (hri j hj)] with ω hω _ _ using hω.2
      · exact Eventually.of_forall fun ω _ h => absurd h hj
    · exact Eventually.of_forall fun ω h => absurd h hc
  filter_upwards [l0, l1] with ω w0 w1 using ⟨w0, w1⟩

include hs hlen hrm hcm hlab hq in
/-- **C115 (Gaussian naive Bayes).** If every class has positive probability, the features have second moments and positive variance in every class, then almost surely the trained models
approach the model with the true class probabilities, means and variances. -/
theorem C115_gaussian (hr2 : ∀ j < d, MemLp (fun ω => coord (row (s 0 ω)) j) 2 P)
    (hv : ∀ c < k, ∀ j < d, 0 < meanGiven P s cls c fun x => (coord (row x) j - meanGiven P s cls c fun x => coord (row x) j) ^ 2) (m : NaiveBayes (GaussD ℝ) ℝ) :
    ∀ᵐ ω ∂P, Approaches gaussDistr m row label s ω d k (fun _ => True) (trueGaussian P s row cls d) := by
  have hk := classes_pos (P := P) (s := s) hlab
  have l1 := nb_limits hs hrm hcm hlab hq fun j hj => (hr2 j hj).integrable (by norm_num)
  have l2 : ∀ᵐ ω ∂P, ∀ c j, c < k → j < d → Tendsto (fun n : ℕ => ((classSamples (onFirst row s n ω) (onFirst label s n ω) c).map fun x => coord x j ^ 2).sum /
      classSize (onFirst label s n ω) c) atTop (𝓝 (meanGiven P s cls c fun x => coord (row x) j ^ 2)) := by
    rw [ae_all_iff]; intro c
    rw [ae_all_iff]; intro j
    by_cases hc : c < k
    · by_cases hj : j < d
      · filter_upwards [class_limits (row := row) hs hcm hlab (hq c hc) (g := fun x => coord x j ^ 2) ((hrm j hj).pow_const 2) (hr2 j hj).integrable_sq] with ω hω _ _ using hω.2
      · exact Eventually.of_forall fun ω _ h => absurd h hj
    · exact Eventually.of_forall fun ω h => absurd h hc
  have hvf : ∀ c < k, ∀ j < d, (meanGiven P s cls c fun x => (coord (row x) j - meanGiven P s cls c fun x => coord (row x) j) ^ 2) =
      (meanGiven P s cls c fun x => coord (row x) j ^ 2) - (meanGiven P s cls c fun x => coord (row x) j) ^ 2 := by
    intro c hc j hj
    have hi := (hr2 j hj).integrable (by norm_num)
    have hi2 := (hr2 j hj).integrable_sq
    have hq0 := (hq c hc).ne'
    have e : ∫ ω in {ω | cls (s 0 ω) = c}, coord (row (s 0 ω)) j ∂P = (meanGiven P s cls c fun x => coord (row x) j) * classProb P s cls c := by
      rw [meanGiven, div_mul_cancel₀ _ hq0]
    conv_lhs => rw [meanGiven]
    rw [int_sq_dev hi.restrict hi2.restrict, e, measureReal_restrict_apply_univ]
    conv_rhs => rw [meanGiven]
    change (_ - _ + _ * classProb P s cls c) / _ = _
    field_simp
    ring
  filter_upwards [l1, l2] with ω ⟨w0, w1⟩ w2
  have hinf : ∀ c < k, Tendsto (fun n => (classSize (onFirst label s n ω) c : ℝ)) atTop atTop := fun c hc => ev_class_pos (hq c hc) (w0 c hc)
  have hnl : ∀ n, (onFirst row s n ω).length = (onFirst label s n ω).length := fun n => by simp [onFirst]
  have hvt : ∀ c < k, ∀ j < d, Tendsto (fun n => sampleVar ((classSamples (onFirst row s n ω) (onFirst label s n ω) c).map fun x => coord x j)) atTop
      (𝓝 (meanGiven P s cls c fun x => (coord (row x) j - meanGiven P s cls c fun x => coord (row x) j) ^ 2)) := by
    intro c hc j hj
    rw [hvf c hc j hj]
    refine sampleVar_tendsto (l := fun n => (classSamples (onFirst row s n ω) (onFirst label s n ω) c).map fun x => coord x j) ?_ ?_ ?_
    · simpa only [List.length_map, classSamples_length (hnl _)] using hinf c hc
    · simpa only [List.length_map, classSamples_length (hnl _)] using w1 c j hc hj
    · simpa only [List.length_map, classSamples_length (hnl _), List.map_map, Function.comp_def] using w2 c j hc hj
  refine approaches_of (fun n => gaussianModel ⟨d, onFirst row s n ω⟩ ⟨k, onFirst label s n ω⟩) hk ?_ ?_
  · have e1 : ∀ᶠ n in atTop, ∀ c ∈ Finset.range k, (1 : ℝ) < classSize (onFirst label s n ω) c := by
      rw [Finset.eventually_all]
      exact fun c hc => (hinf c (Finset.mem_range.1 hc)).eventually_gt_atTop 1
    have e2 : ∀ᶠ n in atTop, ∀ c ∈ Finset.range k, ∀ j ∈ Finset.range d, 0 < sampleVar ((classSamples (onFirst row s n ω) (onFirst label s n ω) c).map fun x => coord x j) := by
      rw [Finset.eventually_all]
      intro c hc
      rw [Finset.eventually_all]
      exact fun j hj => (hvt c (Finset.mem_range.1 hc) j (Finset.mem_range.1 hj)).eventually_const_lt (hv c (Finset.mem_range.1 hc) j (Finset.mem_range.1 hj))
    filter_upwards [e1, e2] with n h1 h2
    have hX : (⟨d, onFirst row s n ω⟩ : Mat ℝ).WF := by
      intro r hr
      obtain ⟨i, -, rfl⟩ := List.mem_map.1 hr
      exact hlen _
    obtain ⟨hT, hone⟩ := labels_one (s := s) hlab n ω
    have hall : ∀ c < k, 1 < classSize (onFirst label s n ω) c := fun c hc => by exact_mod_cast h1 c (Finset.mem_range.2 hc)
    obtain ⟨m', hm'⟩ := (C35_trains_iff m ⟨d, onFirst row s n ω⟩ ⟨k, onFirst label s n ω⟩ hX hT (hnl n)).2 ⟨hone, fun c hc => (hall c hc).ne'⟩
    refine ⟨m', hm', (nb_trained_gauss (Y := ⟨d, onFirst row s n ω⟩) hT rfl hm').1, ?_⟩
    exact gauss_joint hX hT (hnl n) (fun c hc => by have := hall c hc; change 0 < classSize (onFirst label s n ω) c; omega) m m' hm'
      fun c hc j hj => nonConstant_of_var (h2 c (Finset.mem_range.2 hc) j (Finset.mem_range.2 hj)).ne'
  · intro x hx _ c hc
    unfold gaussianModel trueGaussian gaussianJoint
    refine Tendsto.mul ?_ (tendsto_finsetProd _ fun j hj => ?_)
    · refine (w0 c hc).congr fun n => ?_
      rw [proportion, onFirst_length]
    · have hj := Finset.mem_range.1 hj
      have hmt : Tendsto (fun n => classMean ⟨d, onFirst row s n ω⟩ ⟨k, onFirst label s n ω⟩ c j) atTop (𝓝 (meanGiven P s cls c fun x => coord (row x) j)) := by
        refine (w1 c j hc hj).congr fun n => ?_
        rw [classMean, Spec.mean, List.length_map, classSamples_length (hnl n)]
      have hvt' : Tendsto (fun n => classVar ⟨d, onFirst row s n ω⟩ ⟨k, onFirst label s n ω⟩ c j) atTop _ := hvt c hc j hj
      have hp := hv c hc j hj
      unfold normalPdf
      refine Tendsto.mul (((Real.continuous_sqrt.tendsto _).comp (hvt'.const_mul _)).inv₀ (Real.sqrt_pos.2 (by positivity)).ne') ?_
      refine (Real.continuous_exp.tendsto _).comp ?_
      exact ((tendsto_const_nhds.sub hmt).pow 2).neg.div (hvt'.const_mul _) (by positivity)

include hs hlen hrm hcm hlab hq in
/-- **C115 (Bernoulli naive Bayes).** If every class has positive probability and the features lie between 0 and 1, then almost surely the trained models approach the model with the true
class probabilities and the true means of the features in each class: for 0/1 features, their probabilities. -/
theorem C115_bernoulli (h01 : ∀ x, ∀ v ∈ row x, 0 ≤ v ∧ v ≤ 1) (m : NaiveBayes (LogProbsD ℝ) ℝ) :
    ∀ᵐ ω ∂P, Approaches bernDistr m row label s ω d k (fun x => ∀ v ∈ x, 0 ≤ v ∧ v ≤ 1) (trueBernoulli P s row cls d) := by
  have hk := classes_pos (P := P) (s := s) hlab
  have hc01 : ∀ x : List ℝ, (∀ v ∈ x, 0 ≤ v ∧ v ≤ 1) → ∀ j, 0 ≤ coord x j ∧ coord x j ≤ 1 := by
    intro x hx j
    unfold coord
    rw [List.getD_eq_getElem?_getD]
    by_cases hj : j < x.length
    · rw [List.getElem?_eq_getElem hj]
      exact hx _ (List.getElem_mem hj)
    · rw [List.getElem?_eq_none (by omega)]
      simp
  have hri : ∀ j < d, Integrable (fun ω => coord (row (s 0 ω)) j) P := fun j hj =>
    Integrable.of_bound ((hrm j hj).comp (hs.1 0)).aestronglyMeasurable 1 (Eventually.of_forall fun ω => by
      have := hc01 _ (h01 (s 0 ω)) j
      rw [Real.norm_eq_abs, abs_le]
      constructor <;> linarith [this.1, this.2])
  filter_upwards [nb_limits hs hrm hcm hlab hq hri] with ω ⟨w0, w1⟩
  have hinf : ∀ c < k, Tendsto (fun n => (classSize (onFirst label s n ω) c : ℝ)) atTop atTop := fun c hc => ev_class_pos (hq c hc) (w0 c hc)
  have hnl : ∀ n, (onFirst row s n ω).length = (onFirst label s n ω).length := fun n => by simp [onFirst]
  refine approaches_of (fun n => bernoulliModel ⟨d, onFirst row s n ω⟩ ⟨k, onFirst label s n ω⟩) hk ?_ ?_
  · have e1 : ∀ᶠ n in atTop, ∀ c ∈ Finset.range k, (0 : ℝ) < classSize (onFirst label s n ω) c := by
      rw [Finset.eventually_all]
      exact fun c hc => (hinf c (Finset.mem_range.1 hc)).eventually_gt_atTop 0
    filter_upwards [e1] with n h1
    have hX : (⟨d, onFirst row s n ω⟩ : Mat ℝ).WF := by
      intro r hr
      obtain ⟨i, -, rfl⟩ := List.mem_map.1 hr
      exact hlen _
    obtain ⟨hT, hone⟩ := labels_one (s := s) hlab n ω
    refine bern_joint hX hT (hnl n) hone (fun c hc => by exact_mod_cast h1 c (Finset.mem_range.2 hc)) m ?_
    intro r hr
    obtain ⟨i, -, rfl⟩ := List.mem_map.1 hr
    exact h01 _
  · intro x hx hD c hc
    unfold bernoulliModel trueBernoulli bernoulliJoint
    have hp : ∀ j < d, Tendsto (fun n => presence ⟨d, onFirst row s n ω⟩ ⟨k, onFirst label s n ω⟩ c j) atTop (𝓝 (meanGiven P s cls c fun x => coord (row x) j)) := by
      intro j hj
      have hi0 := (hinf c hc).inv_tendsto_atTop
      have h1 := ((w1 c j hc hj).add hi0).div ((tendsto_const_nhds (x := (1 : ℝ))).add (hi0.const_mul 2)) (by norm_num)
      simp only [add_zero, mul_zero, div_one] at h1
      refine h1.congr' ?_
      filter_upwards [(hinf c hc).eventually_gt_atTop 0] with n hn
      simp only [Pi.div_apply, Pi.inv_apply]
      unfold presence featureSum
      simp only
      field_simp
    refine Tendsto.mul ?_ (tendsto_finsetProd _ fun j hj => ?_)
    · refine (w0 c hc).congr fun n => ?_
      rw [proportion, onFirst_length]
    · have hx01 := hc01 x hD j
      refine Tendsto.mul ((hp j (Finset.mem_range.1 hj)).rpow_const (Or.inr hx01.1)) ?_
      exact (tendsto_const_nhds.sub (hp j (Finset.mem_range.1 hj))).rpow_const (Or.inr (by linarith [hx01.2]))

include hs hlen hrm hcm hlab hq in
/-- **C115 (multinomial naive Bayes).** If every class has positive probability, the features are nonnegative and integrable, and in no class they are all zero, then almost surely the
trained models approach the model with the true class probabilities and the shares of the features in the expected counts of the class. -/
theorem C115_multinomial (h0 : ∀ x, ∀ v ∈ row x, 0 ≤ v) (hri : ∀ j < d, Integrable (fun ω => coord (row (s 0 ω)) j) P)
    (htot : ∀ c < k, 0 < ∑ l ∈ Finset.range d, meanGiven P s cls c fun x => coord (row x) l) (m : NaiveBayes (LogProbsD ℝ) ℝ) :
    ∀ᵐ ω ∂P, Approaches multDistr m row label s ω d k (fun x => ∀ v ∈ x, 0 ≤ v) (trueMultinomial P s row cls d) := by
  have hk := classes_pos (P := P) (s := s) hlab
  filter_upwards [nb_limits hs hrm hcm hlab hq hri] with ω ⟨w0, w1⟩
  have hinf : ∀ c < k, Tendsto (fun n => (classSize (onFirst label s n ω) c : ℝ)) atTop atTop := fun c hc => ev_class_pos (hq c hc) (w0 c hc)
  have hnl : ∀ n, (onFirst row s n ω).length = (onFirst label s n ω).length := fun n => by simp [onFirst]
  refine approaches_of (fun n => multinomialModel ⟨d, onFirst row s n ω⟩ ⟨k, onFirst label s n ω⟩) hk ?_ ?_
  · have e1 : ∀ᶠ n in atTop, ∀ c ∈ Finset.range k, (0 : ℝ) < classSize (onFirst label s n ω) c := by
      rw [Finset.eventually_all]
      exact fun c hc => (hinf c (Finset.mem_range.1 hc)).eventually_gt_atTop 0
    filter_upwards [e1] with n h1
    have hX : (⟨d, onFirst row s n ω⟩ : Mat ℝ).WF := by
      intro r hr
      obtain ⟨i, -, rfl⟩ := List.mem_map.1 hr
      exact hlen _
    obtain ⟨hT, hone⟩ := labels_one (s := s) hlab n ω
    refine mult_joint hX hT (hnl n) hone (fun c hc => by exact_mod_cast h1 c (Finset.mem_range.2 hc)) m ?_
    intro r hr
    obtain ⟨i, -, rfl⟩ := List.mem_map.1 hr
    exact h0 _
  · intro x hx hD c hc
    unfold multinomialModel trueMultinomial multinomialJoint
    have hp : ∀ j < d, Tendsto (fun n => share ⟨d, onFirst row s n ω⟩ ⟨k, onFirst label s n ω⟩ c j) atTop
        (𝓝 ((meanGiven P s cls c fun x => coord (row x) j) / ∑ l ∈ Finset.range d, meanGiven P s cls c fun x => coord (row x) l)) := by
      intro j hj
      have hi0 := (hinf c hc).inv_tendsto_atTop
      have h2 := (tendsto_finsetSum (Finset.range d) fun l hl => w1 c l hc (Finset.mem_range.1 hl)).add (hi0.const_mul (d : ℝ))
      have h1 := ((w1 c j hc hj).add hi0).div h2 (by rw [mul_zero, add_zero]; exact (htot c hc).ne')
      simp only [add_zero, mul_zero] at h1
      refine h1.congr' ?_
      filter_upwards [(hinf c hc).eventually_gt_atTop 0] with n hn
      simp only [Pi.div_apply, Pi.inv_apply]
      unfold share featureSum
      simp only
      rw [← Finset.sum_div, ← div_eq_mul_inv, inv_eq_one_div, ← add_div, ← add_div, div_div_div_cancel_right₀ hn.ne']
    refine Tendsto.mul ?_ (tendsto_finsetProd _ fun j hj => ?_)
    · refine (w0 c hc).congr fun n => ?_
      rw [proportion, onFirst_length]
    · refine (hp j (Finset.mem_range.1 hj)).rpow_const (Or.inr ?_)
      unfold coord
      rw [List.getD_eq_getElem?_getD, List.getElem?_eq_getElem (by rw [hx]; exact Finset.mem_range.1 hj)]
      exact hD _ (List.getElem_mem _)

end

/-! ### Example -/

section
variable {Ω : Type} [MeasurableSpace Ω] {P : Measure Ω} [IsProbabilityMeasure P] {s : ℕ → Ω → Bool × Bool} (hs : IsSample P s)
  (hlaw : P.map (s 0) = (PMF.uniformOfFintype (Bool × Bool)).toMeasure)
include hs

theorem exCoin_memLp (g : Bool × Bool → ℝ) : MemLp (fun ω => g (s 0 ω)) 2 P :=
  MemLp.of_bound ((Measurable.of_discrete (f := g)).comp (hs.1 0)).aestronglyMeasurable (∑ p, |g p|) (Eventually.of_forall fun ω =>
    Finset.single_le_sum (f := fun p => |g p|) (fun _ _ => abs_nonneg _) (Finset.mem_univ (s 0 ω)))

include hlaw

theorem exCoin_int (g : Bool × Bool → ℝ) : ∫ ω, g (s 0 ω) ∂P = (g (false, false) + g (false, true) + g (true, false) + g (true, true)) / 4 := by
  rw [← integral_map (φ := s 0) (f := g) (hs.1 0).aemeasurable Measurable.of_discrete.aestronglyMeasurable, hlaw, PMF.integral_eq_sum, Fintype.sum_prod_type]
  simp [Fintype.sum_bool, PMF.uniformOfFintype_apply]
  ring

theorem exCoin_class (b : Bool) : classProb P s (fun p => p.2.toNat) b.toNat = 1 / 2 := by
  have hS : MeasurableSet {ω | (s 0 ω).2.toNat = b.toNat} := (hs.1 0) (Set.toFinite {p : Bool × Bool | p.2.toNat = b.toNat}).measurableSet
  have h := exCoin_int hs hlaw fun p => if p.2.toNat = b.toNat then 1 else 0
  rw [classProb, ← integral_indicator_one hS]
  refine (integral_congr_ae (Eventually.of_forall fun ω => ?_)).trans (h.trans ?_)
  · simp [Set.indicator_apply]
  · cases b <;> norm_num

theorem exCoin_given (b : Bool) (g : Bool × Bool → ℝ) : meanGiven P s (fun p => p.2.toNat) b.toNat g = (g (false, b) + g (true, b)) / 2 := by
  have hS : MeasurableSet {ω | (s 0 ω).2.toNat = b.toNat} := (hs.1 0) (Set.toFinite {p : Bool × Bool | p.2.toNat = b.toNat}).measurableSet
  have h := exCoin_int hs hlaw fun p => if p.2.toNat = b.toNat then g p else 0
  rw [meanGiven, exCoin_class hs hlaw, ← integral_indicator hS]
  have e : ∫ ω, {ω | (s 0 ω).2.toNat = b.toNat}.indicator (fun ω => g (s 0 ω)) ω ∂P = ∫ ω, (if (s 0 ω).2.toNat = b.toNat then g (s 0 ω) else 0) ∂P :=
    integral_congr_ae (Eventually.of_forall fun ω => by simp [Set.indicator_apply])
  rw [e, h]
  cases b <;> simp <;> ring

end

/-- Non-vacuity of C115: two coins are thrown again and again, the feature is the first and the class the second. Every hypothesis of the theorems about the standardizer, linear
regression and naive Bayes holds. -/
example : ∃ (Ω : Type) (_ : MeasurableSpace Ω) (P : Measure Ω) (_ : IsProbabilityMeasure P) (s : ℕ → Ω → Bool × Bool), IsSample P s ∧
    let row : Bool × Bool → List ℝ := fun p => [if p.1 then 1 else 0]
    let label : Bool × Bool → List ℝ := fun p => if p.2 then [0, 1] else [1, 0]
    let cls : Bool × Bool → ℕ := fun p => p.2.toNat
    NonDegenerate P s row 1 ∧ featureVar P s row 0 = 1 / 4 ∧ (∀ x, IsOneHot 2 (cls x) (label x)) ∧
    (∀ᵐ ω ∂P, Approaches gaussDistr (nbNew _ ℝ) row label s ω 1 2 (fun _ => True) (trueGaussian P s row cls 1)) ∧
    (∀ᵐ ω ∂P, Approaches bernDistr (nbNew _ ℝ) row label s ω 1 2 (fun x => ∀ v ∈ x, 0 ≤ v ∧ v ≤ 1) (trueBernoulli P s row cls 1)) ∧
    ∀ᵐ ω ∂P, Approaches multDistr (nbNew _ ℝ) row label s ω 1 2 (fun x => ∀ v ∈ x, 0 ≤ v) (trueMultinomial P s row cls 1) := by
  obtain ⟨Ω, mΩ, P, hP, s, hs, hlaw⟩ := sample_exists (PMF.uniformOfFintype (Bool × Bool)).toMeasure
  refine ⟨Ω, mΩ, P, hP, s, hs, ?_⟩
  intro row label cls
  have hlen : ∀ x, (row x).length = 1 := fun x => rfl
  have hrm : ∀ j < 1, Measurable fun x => coord (row x) j := fun j _ => Measurable.of_discrete
  have hcm : Measurable cls := Measurable.of_discrete
  have hlab : ∀ x, IsOneHot 2 (cls x) (label x) := by
    rintro ⟨a, b⟩
    cases b
    · refine ⟨rfl, by simp [cls], fun j hj => ?_⟩
      interval_cases j <;> simp [label, cls, coord]
    · refine ⟨rfl, by simp [cls], fun j hj => ?_⟩
      interval_cases j <;> simp [label, cls, coord]
  have hq : ∀ c < 2, 0 < classProb P s cls c := by
    intro c hc
    interval_cases c
    · have := exCoin_class hs hlaw false
      exact lt_of_lt_of_eq (by norm_num) this.symm
    · have := exCoin_class hs hlaw true
      exact lt_of_lt_of_eq (by norm_num) this.symm
  have hg : ∀ c < 2, ∀ g : Bool × Bool → ℝ, ∃ b, meanGiven P s cls c g = (g (false, b) + g (true, b)) / 2 := by
    intro c hc g
    interval_cases c
    · exact ⟨false, exCoin_given hs hlaw false g⟩
    · exact ⟨true, exCoin_given hs hlaw true g⟩
  have hmean : ∀ c < 2, meanGiven P s cls c (fun x => coord (row x) 0) = 1 / 2 := by
    intro c hc
    obtain ⟨b, hb⟩ := hg c hc fun x => coord (row x) 0
    rw [hb]
    simp [row, coord]
  refine ⟨?_, ?_, hlab, ?_, ?_, ?_⟩
  · intro γ hγ h0
    obtain ⟨a, b, rfl⟩ := List.length_eq_two.1 hγ
    have h1 : ∫ ω, (affine [a, b] (row (s 0 ω))) ^ 2 ∂P = 0 := by
      rw [integral_congr_ae (g := fun _ => (0 : ℝ)) (by filter_upwards [h0] with ω hω; rw [hω]; norm_num)]
      simp
    rw [exCoin_int hs hlaw fun p => (affine [a, b] (row p)) ^ 2] at h1
    simp [row, affine, Spec.inner] at h1
    have ha : a = 0 := pow_eq_zero_iff two_ne_zero |>.1 (le_antisymm (by nlinarith [sq_nonneg a, sq_nonneg (a + b)]) (sq_nonneg a))
    subst ha
    have hb : b = 0 := pow_eq_zero_iff two_ne_zero |>.1 (le_antisymm (by nlinarith [sq_nonneg b]) (sq_nonneg b))
    subst hb
    rfl
  · have hm : featureMean P s row 0 = 1 / 2 := by
      refine (exCoin_int hs hlaw fun p => coord (row p) 0).trans ?_
      simp [row, coord]
      norm_num
    unfold featureVar
    rw [hm]
    refine (exCoin_int hs hlaw fun p => (coord (row p) 0 - 1 / 2) ^ 2).trans ?_
    simp [row, coord]
    norm_num
  · refine C115_gaussian hs hlen hrm hcm hlab hq (fun j _ => exCoin_memLp hs fun p => coord (row p) j) (fun c hc j hj => ?_) _
    obtain rfl : j = 0 := by omega
    rw [hmean c hc]
    obtain ⟨b, hb⟩ := hg c hc fun x => (coord (row x) 0 - 1 / 2) ^ 2
    rw [hb]
    simp [row, coord]
    norm_num
  · refine C115_bernoulli hs hlen hrm hcm hlab hq (fun x v hv => ?_) _
    simp only [row, List.mem_singleton] at hv
    rw [hv]
    split <;> norm_num
  · refine C115_multinomial hs hlen hrm hcm hlab hq (fun x v hv => ?_) (fun j _ => (exCoin_memLp hs fun p => coord (row p) j).integrable (by norm_num)) (fun c hc => ?_) _
    · simp only [row, List.mem_singleton] at hv
      rw [hv]
      split <;> norm_num
    · rw [Finset.sum_range_one, hmean c hc]
      norm_num

end RM
