import Mathlib.Analysis.Calculus.LocalExtr.Basic
import Verif.Props.Glm
import Verif.Proofs.RegDescent

/-!
C67: training a generalised linear model maximises the likelihood. True for the normal family; for the others the fixed
points of a correctly fed pass are exactly the maxima, but the loop feeds its passes with adjustments computed one
pass too early and stops before it could recover: `C67_violation`.
-/

set_option linter.unusedSectionVars false

namespace RM
open Outcome Scalar Spec Matrix

theorem logistic_monotone : Monotone logistic := logistic_strictMono.monotone

theorem sampleLogLik_deriv (f : Family ℝ) (y s : ℝ) : HasDerivAt (sampleLogLik f y) (y - f.link.funcInv s) s := by
  have hb : HasDerivAt (fun s => y * Real.log (logistic s) + (1 - y) * Real.log (1 - logistic s)) (y - logitLink.funcInv s) s := by
    have := (crossEntropy_deriv y s).neg
    rw [logit_inv]
    have e : -(fun s => -(y * Real.log (logistic s) + (1 - y) * Real.log (1 - logistic s))) =
        fun s => y * Real.log (logistic s) + (1 - y) * Real.log (1 - logistic s) := by
      funext x; simp
    rw [e] at this
    exact this.congr_deriv (by ring)
  cases f with
  | bernoulli => exact hb
  | binomial ws => exact hb
  | normal =>
    have h := (((hasDerivAt_id s).const_sub y).pow 2).neg.div_const 2
    refine h.congr_deriv ?_
    simp [Family.link, identityLink]
  | poisson =>
    have h := ((hasDerivAt_id s).const_mul y).sub (Real.hasDerivAt_exp s)
    refine h.congr_deriv ?_
    simp [Family.link, logLink]

theorem funcInv_monotone (f : Family ℝ) : Monotone f.link.funcInv := by
  have hl : Monotone (logitLink : LinkFn ℝ).funcInv := by
    intro a b h; rw [logit_inv, logit_inv]; exact logistic_monotone h
  cases f with
  | bernoulli => exact hl
  | binomial ws => exact hl
  | normal => exact monotone_id
  | poisson => exact Real.exp_monotone

/-- The log-likelihood of a sample is concave in the linear predictor. -/
theorem sampleLogLik_tangent (f : Family ℝ) (y s s' : ℝ) :
    sampleLogLik f y s' ≤ sampleLogLik f y s + (y - f.link.funcInv s) * (s' - s) := by
  have hq : ∀ x, HasDerivAt (fun x => -sampleLogLik f y x) (-(y - f.link.funcInv x)) x := fun x => (sampleLogLik_deriv f y x).neg
  have hconv : ConvexOn ℝ Set.univ (fun x => -sampleLogLik f y x) := by
    apply MonotoneOn.convexOn_of_deriv convex_univ
    · exact (continuous_iff_continuousAt.mpr fun x => (hq x).continuousAt).continuousOn
    · exact fun x _ => (hq x).differentiableAt.differentiableWithinAt
    · intro a _ b _ h
      rw [(hq a).deriv, (hq b).deriv]
      have := funcInv_monotone f h
      linarith
  rcases lt_trichotomy s s' with h | h | h
  · have := hconv.le_slope_of_hasDerivAt (Set.mem_univ s) (Set.mem_univ s') h (hq s)
    rw [slope_def_field, le_div_iff₀ (by linarith)] at this
    linarith
  · subst h; simp
  · have := hconv.slope_le_of_hasDerivAt (Set.mem_univ s') (Set.mem_univ s) h (hq s)
    rw [slope_def_field, div_le_iff₀ (by linarith)] at this
    linarith

theorem logLik_eq {X : Mat ℝ} (hX : X.WF) (f : Family ℝ) {y β : List ℝ} (hy : y.length = X.rows.length) (hb : β.length = X.cols + 1) :
    logLik f X y β = ∑ i, sampleLogLik f (toV _ y i) ((toM X.rows.length (X.cols + 1) (fullOf X)).mulVec (toV _ β) i) := by
  unfold logLik
  rw [zipWith_sum_fin rfl hy]
  apply Finset.sum_congr rfl
  intro i _
  unfold fullOf
  rw [mulVec_row (withOnes_shape hX) hb, ← dot_inner, getD_map_lt _ _ [] _ _ i.2, dot_affine _ _ (by intro h; rw [h] at hb; simp at hb)]
  rfl

/-- The score equations say that the likelihood is maximal. -/
theorem maxLikelihood_iff {X : Mat ℝ} (hX : X.WF) (f : Family ℝ) {y β : List ℝ} (hy : y.length = X.rows.length) (hb : β.length = X.cols + 1) :
    MaxLikelihood f X y β ↔ (toM X.rows.length (X.cols + 1) (fullOf X))ᵀ.mulVec
      (fun i => toV _ y i - f.link.funcInv ((toM X.rows.length (X.cols + 1) (fullOf X)).mulVec (toV _ β) i)) = 0 := by
  set A := toM X.rows.length (X.cols + 1) (fullOf X) with hA
  constructor
  · intro h
    have hg := gradient_linear A (fun i => sampleLogLik f (toV _ y i)) _ (toV _ β) (fun i => sampleLogLik_deriv f _ _)
    have hm : IsLocalMax (fun v => ∑ i, sampleLogLik f (toV _ y i) (A.mulVec v i)) (toV (X.cols + 1) β) := by
      apply Filter.Eventually.of_forall
      intro v
      have := h (List.ofFn v) (by simp)
      rw [logLik_eq hX f hy hb, logLik_eq hX f hy (by simp), toV_ofFn] at this
      exact this
    have h0 := hm.hasFDerivAt_eq_zero hg
    funext k
    have h1 := congrArg (fun L => L (Pi.single k 1)) h0
    simpa [Finset.sum_apply, ContinuousLinearMap.sum_apply, Pi.single_apply] using h1
  · intro h c hc
    rw [logLik_eq hX f hy hb, logLik_eq hX f hy hc]
    have h1 : ∑ i, (toV _ y i - f.link.funcInv (A.mulVec (toV _ β) i)) * (A.mulVec (toV _ c) i - A.mulVec (toV _ β) i) = 0 := by
      have h2 : (fun i => toV _ y i - f.link.funcInv (A.mulVec (toV _ β) i)) ⬝ᵥ A.mulVec (toV _ c - toV _ β) = 0 := by
        rw [Matrix.dotProduct_mulVec, ← Matrix.mulVec_transpose, h, zero_dotProduct]
      rw [Matrix.mulVec_sub] at h2
      exact h2
    calc _ ≤ ∑ i, (sampleLogLik f (toV _ y i) (A.mulVec (toV _ β) i) +
          (toV _ y i - f.link.funcInv (A.mulVec (toV _ β) i)) * (A.mulVec (toV _ c) i - A.mulVec (toV _ β) i)) :=
          Finset.sum_le_sum fun i _ => sampleLogLik_tangent f _ _ _
      _ = _ := by rw [Finset.sum_add_distrib, h1, add_zero]

/-- **C67 (normal family).** Training maximises the likelihood. -/
theorem C67_normal {inverse : Mat ℝ → Outcome (Mat ℝ)} (hi : InvertsExactly inverse) (X : Mat ℝ) (hX : X.WF) (y : List ℝ) (q : Option (List ℝ))
    (m : Glm ℝ) (h : Glm.train inverse ⟨.normal, q⟩ X y = ok m) : ∃ β, m.parameters = some β ∧ MaxLikelihood .normal X y β := by
  obtain ⟨β, rfl, hy, hb, h1, -⟩ := normal_train hi hX h
  refine ⟨β, rfl, ?_⟩
  rw [maxLikelihood_iff hX _ hy hb]
  have : (fun i => toV X.rows.length y i - (Family.normal : Family ℝ).link.funcInv ((toM X.rows.length (X.cols + 1) (fullOf X)).mulVec (toV _ β) i)) =
      toV _ y - (toM X.rows.length (X.cols + 1) (fullOf X)).mulVec (toV _ β) := rfl
  rw [this, Matrix.mulVec_sub, Matrix.mulVec_mulVec]
  exact sub_eq_zero.mpr h1.symm

/-- The means at `β`. -/
noncomputable def Spec.meansAt (f : Family ℝ) (X : Mat ℝ) (β : List ℝ) : List ℝ := X.rows.map fun x => f.link.funcInv (affine β x)

/-- The working responses at `β`: the linear predictor plus the residual times the derivative of the link. -/
noncomputable def Spec.responsesAt (f : Family ℝ) (X : Mat ℝ) (y β : List ℝ) : List ℝ :=
  List.zipWith (fun x t => affine β x + f.link.funcGrad (f.link.funcInv (affine β x)) * (t - f.link.funcInv (affine β x))) X.rows y

/-- For the Bernoulli family: outcomes 0 and 1, and means far enough from them for the code not to replace the variances. -/
def Spec.AwayFromEnds (f : Family ℝ) (X : Mat ℝ) (y β : List ℝ) : Prop :=
  match f with
  | .bernoulli => (∀ t ∈ y, t = 0 ∨ t = 1) ∧ ∀ x ∈ X.rows, 1 / 10 ^ 5 ≤ logistic (affine β x) * (1 - logistic (affine β x))
  | .binomial _ => False
  | _ => True

theorem weight_adjust {f : Family ℝ} {X : Mat ℝ} {y β : List ℝ} (hn : y.length = X.rows.length) (ha : AwayFromEnds f X y β) {w : List ℝ}
    (hw : f.workingWeight (meansAt f X β) = ok w) (i : Fin X.rows.length) :
    toV _ w i * f.adjust (toV _ y i) (toV _ (meansAt f X β) i) = toV _ y i - toV _ (meansAt f X β) i ∧
    f.adjust (toV _ y i) (toV _ (meansAt f X β) i) = f.link.funcGrad (toV _ (meansAt f X β) i) * (toV _ y i - toV _ (meansAt f X β) i) := by
  have hl : (meansAt f X β).length = X.rows.length := by simp [meansAt]
  have hmi : toV X.rows.length (meansAt f X β) i = f.link.funcInv (affine β (X.rows.getD i [])) := by
    unfold toV meansAt
    rw [getD_map_lt _ _ [] _ _ i.2]
  have hyi : toV X.rows.length y i ∈ y := by
    have : (i : ℕ) < y.length := by rw [hn]; exact i.2
    unfold toV
    rw [List.getD_eq_getElem?_getD, List.getElem?_eq_getElem this, Option.getD_some]
    exact List.getElem_mem _
  cases f with
  | binomial ws => exact ha.elim
  | normal =>
    injection hw with hw
    subst hw
    rw [toV_map _ hl]
    simp [Family.variance, Family.link, identityLink, Family.adjust]
  | poisson =>
    injection hw with hw
    subst hw
    have hp : 0 < toV X.rows.length (meansAt .poisson X β) i := by rw [hmi]; exact Real.exp_pos _
    simp only [Family.link, logLink, Family.adjust, real_mul, real_sub, real_div, real_one]
    refine ⟨?_, trivial⟩
    field_simp
  | bernoulli =>
    injection hw with hw
    subst hw
    rw [toV_map _ hl]
    dsimp only
    obtain ⟨a1, a2⟩ := ha
    have hx : X.rows.getD i [] ∈ X.rows := by
      rw [List.getD_eq_getElem?_getD, List.getElem?_eq_getElem i.2, Option.getD_some]
      exact List.getElem_mem _
    have hv := a2 _ hx
    rw [hmi]
    have hli : (Family.bernoulli : Family ℝ).link.funcInv (affine β (X.rows.getD i [])) = logistic (affine β (X.rows.getD i [])) := logit_inv _
    rw [hli]
    set p := logistic (affine β (X.rows.getD i [])) with hp
    obtain ⟨p0, p1⟩ : 0 < p ∧ p < 1 := logistic_mem _
    set t := toV X.rows.length y i with ht
    have hvar : (Family.bernoulli : Family ℝ).variance p = p * (1 - p) := by
      simp only [Family.variance, real_mul, real_sub, real_one, real_abs, real_lt, real_ofRat, decide_eq_true_eq]
      rw [if_neg]
      rw [abs_of_nonneg (by nlinarith), not_lt]
      push_cast
      refine le_trans ?_ hv
      norm_num
    have hfl : floorWeight ((Family.bernoulli : Family ℝ).variance p) = p * (1 - p) := by
      rw [hvar]
      unfold floorWeight
      simp only [real_abs, real_lt, real_ofRat, decide_eq_true_eq]
      rw [if_neg]
      rw [abs_of_nonneg (by nlinarith), not_lt]
      push_cast
      exact hv
    have hadj : (Family.bernoulli : Family ℝ).adjust t p = (Family.bernoulli : Family ℝ).link.funcGrad p * (t - p) := by
      simp only [Family.adjust, real_mul, real_sub, real_abs, real_lt, real_ofRat, decide_eq_true_eq]
      rw [if_neg]
      rw [not_lt]
      have h5 : (1 / 10 ^ 5 : ℝ) ≤ |t - p| := by
        rcases a1 _ hyi with h | h <;> rw [h]
        · rw [abs_of_nonpos (by linarith)]; nlinarith
        · rw [abs_of_nonneg (by linarith)]; nlinarith
      refine le_trans ?_ h5
      push_cast
      norm_num
    rw [hfl, hadj]
    refine ⟨?_, rfl⟩
    simp only [Family.link, logitLink, real_mul, real_sub, real_div, real_one]
    have : 1 - p ≠ 0 := by linarith
    field_simp

/-- **C67 (partial).** For each family and independent features: the pass fed with the means and working responses at `β`
returns `β` again exactly when `β` maximises the likelihood. Missing: that training ends at such a `β`, which is false. -/
theorem C67_pass_partial {inverse : Mat ℝ → Outcome (Mat ℝ)} (hi : InvertsExactly inverse) (hr : InvertsRegular inverse) (f : Family ℝ) (X : Mat ℝ)
    (hX : X.WF) (hI : AffinelyIndependent X) (y β : List ℝ) (hy : y.length = X.rows.length) (hb : β.length = X.cols + 1)
    (ha : AwayFromEnds f X y β) :
    ∃ yb β', irlsStep inverse f (fullOf X) (fullOf X).transpose y (meansAt f X β) (responsesAt f X y β) = ok (yb, β') ∧
      (β' = β ↔ MaxLikelihood f X y β) := by
  have hS : HasShape (fullOf X) X.rows.length (X.cols + 1) := withOnes_shape hX
  have hne : β ≠ [] := by intro h; rw [h] at hb; simp at hb
  have hmu : (meansAt f X β).length = X.rows.length := by simp [meansAt]
  have hz : (responsesAt f X y β).length = X.rows.length := by simp [responsesAt, hy]
  have hmem : ∀ m ∈ meansAt f X β, m ∈ MeanRange f := by
    intro m hm
    obtain ⟨x, _, rfl⟩ := List.mem_map.mp hm
    exact funcInv_mem f _
  have hg : GoodWeights f (meansAt f X β).length := by
    cases f with
    | binomial ws => exact ha.elim
    | _ => trivial
  obtain ⟨s, hs⟩ := irlsStep_succeeds hi hr hX hI hy hmu hz hmem hg
  obtain ⟨w, w1, w2, w3⟩ := workingWeight_pos f _ hmem hg
  obtain ⟨s1, s2, s3, s4⟩ := irlsStep_ok hi hS hy hmu hz w1 (w2.trans hmu) hs
  refine ⟨s.1, s.2, hs, ?_⟩
  rw [maxLikelihood_iff hX f hy hb]
  set A := toM X.rows.length (X.cols + 1) (fullOf X) with hA
  have hAi : ∀ i, A.mulVec (toV _ β) i = affine β (X.rows.getD i []) := by
    intro i
    rw [hA, mulVec_row hS hb, ← dot_inner]
    unfold fullOf
    rw [getD_map_lt _ _ [] _ _ i.2, dot_affine _ _ hne]
  have hmi : ∀ i, toV X.rows.length (meansAt f X β) i = f.link.funcInv (A.mulVec (toV _ β) i) := by
    intro i
    unfold meansAt
    rw [hAi, toV, getD_map_lt _ _ [] _ _ i.2]
  have hzi : toV X.rows.length (responsesAt f X y β) = A.mulVec (toV _ β) +
      fun i => f.adjust (toV _ y i) (toV _ (meansAt f X β) i) := by
    funext i
    have h1 : (i : ℕ) < y.length := by rw [hy]; exact i.2
    rw [Pi.add_apply, (weight_adjust hy ha w1 i).2, hmi, hAi]
    unfold responsesAt toV
    simp [List.getD_eq_getElem?_getD, h1]
  have hd : (diagonal (toV X.rows.length w)).mulVec (fun i => f.adjust (toV _ y i) (toV _ (meansAt f X β) i)) =
      fun i => toV _ y i - f.link.funcInv (A.mulVec (toV _ β) i) := by
    funext i
    rw [Matrix.mulVec_diagonal, (weight_adjust hy ha w1 i).1, hmi]
  rw [hzi, Matrix.mulVec_add, Matrix.mulVec_mulVec, ← Matrix.mulVec_mulVec (fun i => f.adjust (toV _ y i) (toV _ (meansAt f X β) i)) Aᵀ, hd] at s3
  constructor
  · intro h
    rw [h] at s3
    exact left_eq_add.mp s3
  · intro h
    rw [h, add_zero] at s3
    apply toV_inj s2 hb
    have hu : IsUnit (Aᵀ * diagonal (toV X.rows.length w) * A).det := isUnit_iff_ne_zero.mpr s4
    have := congrArg ((Aᵀ * diagonal (toV X.rows.length w) * A)⁻¹.mulVec) s3
    rwa [Matrix.mulVec_mulVec, Matrix.mulVec_mulVec, Matrix.nonsing_inv_mul _ hu, Matrix.one_mulVec, Matrix.one_mulVec] at this

/-- Equal weights do not matter. -/
theorem equal_weights {n m : ℕ} (A : Matrix (Fin n) (Fin m) ℝ) (w : Fin n → ℝ) (c : ℝ) (hc : c ≠ 0) (hw : ∀ i, w i = c) (b : Fin m → ℝ) (z : Fin n → ℝ)
    (h : (Aᵀ * diagonal w * A).mulVec b = (Aᵀ * diagonal w).mulVec z) : (Aᵀ * A).mulVec b = Aᵀ.mulVec z := by
  have e : diagonal w = c • (1 : Matrix (Fin n) (Fin n) ℝ) := by
    rw [show w = fun _ => c from funext hw, Matrix.smul_one_eq_diagonal]
  rw [e, Matrix.mul_smul, Matrix.mul_one, Matrix.smul_mul, Matrix.smul_mulVec, Matrix.smul_mulVec] at h
  exact smul_right_injective _ hc h

/-- The data of the violation: outcome 0 at 1 and -1, and outcome 1 at 1 and -1. -/
def balanced : Mat ℝ := ⟨1, [[1], [-1], [1], [-1]]⟩

theorem balanced_WF : balanced.WF := by
  intro r hr
  simp [balanced] at hr
  rcases hr with rfl | rfl | rfl | rfl <;> rfl

theorem balanced_independent : AffinelyIndependent balanced := by
  intro β hb h
  obtain ⟨a, b, rfl⟩ := List.length_eq_two.mp hb
  have h1 := h [1] (by simp [balanced])
  have h2 := h [-1] (by simp [balanced])
  simp [affine, inner] at h1 h2
  have ha : a = 0 := by linarith
  have hb' : b = 0 := by linarith
  subst ha hb'
  rfl

/-- A pass on the balanced data with equal weights. -/
theorem balanced_pass {inverse : Mat ℝ → Outcome (Mat ℝ)} (hi : InvertsExactly inverse) (hr : InvertsRegular inverse) {y mu z : List ℝ}
    (hy : y.length = 4) (hmu : mu.length = 4) (hz : ∃ a b, z = [a, a, b, b]) (hm : ∀ m ∈ mu, m ∈ MeanRange .bernoulli)
    (hw : ∃ c, ∀ m ∈ mu, floorWeight ((Family.bernoulli : Family ℝ).variance m) = c) :
    irlsStep inverse .bernoulli (fullOf balanced) (fullOf balanced).transpose y mu z =
      ok (List.zipWith (Family.bernoulli : Family ℝ).adjust y mu, [(z.getD 0 0 + z.getD 2 0) / 2, 0]) := by
  obtain ⟨p, q, rfl⟩ := hz
  have hS : HasShape (fullOf balanced) 4 2 := withOnes_shape balanced_WF
  obtain ⟨s, hs⟩ := irlsStep_succeeds hi hr balanced_WF balanced_independent (y := y) (mu := mu) (z := [p, p, q, q]) hy hmu rfl hm trivial
  obtain ⟨w, w1, w2, w3⟩ := workingWeight_pos .bernoulli mu hm trivial
  obtain ⟨s1, s2, s3, -⟩ := irlsStep_ok hi hS hy hmu (z := [p, p, q, q]) rfl w1 (w2.trans hmu) hs
  obtain ⟨c, hc⟩ := hw
  injection w1 with w1
  have hwc : ∀ i, toV 4 w i = c := by
    intro i
    rw [← w1, toV_map _ hmu]
    apply hc
    have : (i : ℕ) < mu.length := by rw [hmu]; exact i.2
    unfold toV
    rw [List.getD_eq_getElem?_getD, List.getElem?_eq_getElem this, Option.getD_some]
    exact List.getElem_mem _
  have hcp : c ≠ 0 := by
    have h1 := hwc 0
    unfold toV at h1
    have : 0 < w.length := by rw [w2, hmu]; norm_num
    rw [← h1]
    simp only [Fin.val_zero, List.getD_eq_getElem?_getD, List.getElem?_eq_getElem this, Option.getD_some]
    exact (w3 _ (List.getElem_mem _)).ne'
  have key := equal_weights _ _ c hcp hwc _ _ s3
  rw [← Matrix.mulVec_mulVec] at key
  have e0 := congrFun key 0
  have e1 := congrFun key 1
  obtain ⟨a, b, hab⟩ := List.length_eq_two.mp s2
  rw [hab] at e0 e1
  simp [Matrix.mulVec, dotProduct, Fin.sum_univ_succ, toM_apply, ent, fullOf, balanced, toV] at e0 e1
  have ha : a = (p + q) / 2 := by linarith
  have hb : b = 0 := by linarith
  have : s = (List.zipWith (Family.bernoulli : Family ℝ).adjust y mu, [(p + q) / 2, 0]) := by
    rw [← ha, ← hb, ← hab, ← s1]
  rw [← fullOf] at hs
  rw [hs, this]
  simp

/-- **C67 (violation).** Trained on the balanced data - as many zeros as ones at each point - the Bernoulli family predicts
the probability `logistic (1/2) ≈ 0.62` everywhere, although 1/2 is more likely: the parameters do not maximise the
likelihood. -/
theorem C67_violation {inverse : Mat ℝ → Outcome (Mat ℝ)} (hi : InvertsExactly inverse) (hr : InvertsRegular inverse) :
    Glm.train inverse ⟨.bernoulli, none⟩ ⟨1, [[1], [-1], [1], [-1]]⟩ [0, 0, 1, 1] = ok ⟨.bernoulli, some [1 / 2, 0]⟩ ∧
    logLik .bernoulli ⟨1, [[1], [-1], [1], [-1]]⟩ [0, 0, 1, 1] [1 / 2, 0] < logLik .bernoulli ⟨1, [[1], [-1], [1], [-1]]⟩ [0, 0, 1, 1] [0, 0] := by
  constructor
  · have hfull : (⟨1 + 1, [[1], [-1], [1], [-1]].map ((1 : ℝ) :: ·)⟩ : Mat ℝ) = fullOf balanced := rfl
    have hst : [0, 0, 1, 1].map (Family.bernoulli : Family ℝ).startMean = [1 / 10 ^ 10, 1 / 10 ^ 10, 1 - 1 / 10 ^ 10, 1 - 1 / 10 ^ 10] := by
      have h0 : (Family.bernoulli : Family ℝ).startMean 0 = 1 / 10 ^ 10 := by
        simp only [Family.startMean, real_lt, real_ofRat, decide_eq_true_eq]
        rw [if_pos (by norm_num)]
        norm_num
      have h1 : (Family.bernoulli : Family ℝ).startMean 1 = 1 - 1 / 10 ^ 10 := by
        simp only [Family.startMean, real_lt, real_ofRat, real_sub, real_one, decide_eq_true_eq]
        rw [if_neg (by norm_num), if_pos (by norm_num)]
        norm_num
      simp only [List.map_cons, List.map_nil, h0, h1]
    unfold Glm.train
    rw [if_neg (by simp), withOnes_ok, ok_bind]
    dsimp only
    rw [hst, hfull, irlsLoop, balanced_pass hi hr rfl rfl ⟨_, _, rfl⟩ ?_ ?_, ok_bind]
    · have hz : (([1 / 10 ^ 10, 1 / 10 ^ 10, 1 - 1 / 10 ^ 10, 1 - 1 / 10 ^ 10] : List ℝ).getD 0 0 +
          ([1 / 10 ^ 10, 1 / 10 ^ 10, 1 - 1 / 10 ^ 10, 1 - 1 / 10 ^ 10] : List ℝ).getD 2 0) / 2 = 1 / 2 := by
        simp
      have ha0 : (Family.bernoulli : Family ℝ).adjust 0 (1 / 10 ^ 10) = -(1 / (1 - 1 / 10 ^ 10)) := by
        simp only [Family.adjust, Family.link, logitLink, real_lt, real_ofRat, real_abs, real_sub, real_mul, real_div, real_one, decide_eq_true_eq]
        rw [if_neg (by norm_num [abs_of_neg])]
        norm_num
      have ha1 : (Family.bernoulli : Family ℝ).adjust 1 (1 - 1 / 10 ^ 10) = 1 / (1 - 1 / 10 ^ 10) := by
        simp only [Family.adjust, Family.link, logitLink, real_lt, real_ofRat, real_abs, real_sub, real_mul, real_div, real_one, decide_eq_true_eq]
        rw [if_neg (by norm_num [abs_of_pos])]
        norm_num
      rw [hz]
      simp only [List.zipWith_cons_cons, List.zipWith_nil_left, ha0, ha1]
      have hd1 : vecZip (Scalar.sub : ℝ → ℝ → ℝ) (List.replicate (1 + 1) Scalar.zero) [1 / 2, 0] = ok [-(1 / 2), 0] := by
        simp [vecZip, List.replicate]
      rw [hd1, ok_bind, if_neg ?_]
      swap
      · simp only [List.map_cons, List.map_nil, fsum_real, real_abs, real_lt, real_ofRat, decide_eq_true_eq, not_lt]
        norm_num
      have hf : (fullOf balanced).mulVec [1 / 2, 0] = ok [1 / 2, 1 / 2, 1 / 2, 1 / 2] := by
        simp [Mat.mulVec, fullOf, balanced, dot, fsum]
      rw [hf, ok_bind]
      have hv : vecZip (Scalar.add : ℝ → ℝ → ℝ) [-(1 / (1 - 1 / 10 ^ 10)), -(1 / (1 - 1 / 10 ^ 10)), 1 / (1 - 1 / 10 ^ 10), 1 / (1 - 1 / 10 ^ 10)]
          [1 / 2, 1 / 2, 1 / 2, 1 / 2] = ok [-(1 / (1 - 1 / 10 ^ 10)) + 1 / 2, -(1 / (1 - 1 / 10 ^ 10)) + 1 / 2, 1 / (1 - 1 / 10 ^ 10) + 1 / 2,
            1 / (1 - 1 / 10 ^ 10) + 1 / 2] := by
        simp [vecZip]
      rw [hv, ok_bind, irlsLoop, balanced_pass hi hr rfl rfl ⟨_, _, rfl⟩ ?_ ?_, ok_bind]
      · have hz2 : (([-(1 / (1 - 1 / 10 ^ 10)) + 1 / 2, -(1 / (1 - 1 / 10 ^ 10)) + 1 / 2, 1 / (1 - 1 / 10 ^ 10) + 1 / 2,
            1 / (1 - 1 / 10 ^ 10) + 1 / 2] : List ℝ).getD 0 0 +
            ([-(1 / (1 - 1 / 10 ^ 10)) + 1 / 2, -(1 / (1 - 1 / 10 ^ 10)) + 1 / 2, 1 / (1 - 1 / 10 ^ 10) + 1 / 2,
            1 / (1 - 1 / 10 ^ 10) + 1 / 2] : List ℝ).getD 2 0) / 2 = 1 / 2 := by
          norm_num
        rw [hz2]
        have hd2 : vecZip (Scalar.sub : ℝ → ℝ → ℝ) [1 / 2, 0] [1 / 2, 0] = ok [0, 0] := by
          simp [vecZip]
        dsimp only
        rw [hd2, ok_bind, if_pos ?_, ok_bind]
        simp only [List.map_cons, List.map_nil, fsum_real, real_abs, real_lt, real_ofRat, decide_eq_true_eq]
        norm_num
      · intro m hm
        obtain ⟨x, _, rfl⟩ := List.mem_map.mp hm
        exact funcInv_mem _ _
      · refine ⟨floorWeight ((Family.bernoulli : Family ℝ).variance ((Family.bernoulli : Family ℝ).link.funcInv (1 / 2))), ?_⟩
        intro m hm
        simp only [List.map_cons, List.map_nil, List.mem_cons, List.not_mem_nil, or_false, or_self] at hm
        rw [hm]
    · intro m hm
      simp only [List.mem_cons, List.not_mem_nil, or_false] at hm
      rcases hm with rfl | rfl | rfl | rfl <;> norm_num [MeanRange]
    · refine ⟨1 / 10 ^ 5, ?_⟩
      have hv : ∀ m : ℝ, m * (1 - m) = 1 / 10 ^ 10 * (1 - 1 / 10 ^ 10) → floorWeight ((Family.bernoulli : Family ℝ).variance m) = 1 / 10 ^ 5 := by
        intro m h
        have h2 : (Family.bernoulli : Family ℝ).variance m = 1 / 10 ^ 10 := by
          simp only [Family.variance, real_lt, real_ofRat, real_abs, real_sub, real_mul, real_one, decide_eq_true_eq]
          rw [h, if_pos (by norm_num [abs_of_pos])]
          norm_num
        rw [h2]
        unfold floorWeight
        simp only [real_lt, real_ofRat, real_abs, decide_eq_true_eq]
        rw [if_pos (by norm_num [abs_of_pos])]
        norm_num
      intro m hm
      simp only [List.mem_cons, List.not_mem_nil, or_false] at hm
      apply hv
      rcases hm with rfl | rfl | rfl | rfl <;> norm_num
  · have hl : ∀ a : ℝ, logLik .bernoulli ⟨1, [[1], [-1], [1], [-1]]⟩ [0, 0, 1, 1] [a, 0] = 2 * (Real.log (logistic a) + Real.log (1 - logistic a)) := by
      intro a
      simp [logLik, sampleLogLik, affine, inner]
      ring
    rw [hl, hl, logistic_zero]
    have hp := logistic_mem (1 / 2)
    have hgt : 1 / 2 < logistic (1 / 2) := by
      have := logistic_strictMono (show (0 : ℝ) < 1 / 2 by norm_num)
      rwa [logistic_zero] at this
    rw [← Real.log_mul hp.1.ne' (by linarith), ← Real.log_mul (by norm_num) (by norm_num)]
    have : Real.log (logistic (1 / 2) * (1 - logistic (1 / 2))) < Real.log (1 / 2 * (1 - 1 / 2)) := by
      apply Real.log_lt_log (mul_pos hp.1 (by linarith [hp.2]))
      nlinarith
    linarith

/-- The hypotheses of the violation are met by Gaussian elimination. -/
example : Glm.train (gaussInverse (0 : ℝ)) ⟨.bernoulli, none⟩ ⟨1, [[1], [-1], [1], [-1]]⟩ [0, 0, 1, 1] = ok ⟨.bernoulli, some [1 / 2, 0]⟩ :=
  (C67_violation (gaussInverse_exact 0 le_rfl) gaussInverse_regular).1

/-- `AwayFromEnds` holds on the balanced data at the maximum of the likelihood. -/
example : AwayFromEnds .bernoulli balanced [0, 0, 1, 1] [0, 0] := by
  refine ⟨by simp, ?_⟩
  intro x hx
  have : affine [0, 0] x = 0 := by
    cases x <;> simp [affine, inner]
  rw [this, logistic_zero]
  norm_num

end RM
