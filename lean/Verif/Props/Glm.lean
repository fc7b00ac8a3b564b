import Verif.Proofs.Glm

/-!
C51: link functions. C52: validation, weights and predictions. C53: the normal family is least squares.
-/

set_option linter.unusedSectionVars false

namespace RM
open Outcome Scalar Spec Matrix

theorem logit_inv (s : ℝ) : (logitLink : LinkFn ℝ).funcInv s = logistic s := by
  simp [logitLink, logistic]

/-- **C51 (Logit).** -/
theorem C51_logit : LinkLaws logitLink (Set.Ioo 0 1) where
  inv_mem s := logistic_mem s
  inv_func m hm := by
    obtain ⟨h0, h1⟩ := hm
    have h2 : 0 < 1 - m := by linarith
    have h3 : 0 < m / (1 - m) := div_pos h0 h2
    simp only [logitLink, real_ln, real_exp, real_neg, real_div, real_sub, real_add, real_one]
    rw [Real.exp_neg, Real.exp_log h3]
    field_simp
    ring
  func_inv s := by
    have h := logistic_mem s
    have hp := Real.exp_pos (-s)
    rw [logit_inv]
    simp only [logitLink, real_ln, real_div, real_sub, real_one]
    have e : logistic s / (1 - logistic s) = Real.exp s := by
      have : 1 - logistic s ≠ 0 := by linarith [h.2]
      rw [div_eq_iff this]
      unfold logistic
      rw [Real.exp_neg]
      have := Real.exp_pos s
      field_simp
      ring
    rw [e, Real.log_exp]
  deriv m hm := by
    obtain ⟨h0, h1⟩ := hm
    have h2 : 1 - m ≠ 0 := by linarith
    have hd : HasDerivAt (fun x : ℝ => x / (1 - x)) ((1 * (1 - m) - m * -1) / (1 - m) ^ 2) m :=
      (hasDerivAt_id m).div ((hasDerivAt_id m).const_sub 1) h2
    have := hd.log (div_ne_zero h0.ne' h2)
    refine this.congr_deriv ?_
    simp only [logitLink, real_mul, real_div, real_sub, real_one]
    field_simp
    ring

/-- **C51 (Log).** -/
theorem C51_log : LinkLaws logLink (Set.Ioi 0) where
  inv_mem s := Real.exp_pos s
  inv_func m hm := Real.exp_log hm
  func_inv s := Real.log_exp s
  deriv m hm := by
    refine (Real.hasDerivAt_log (ne_of_gt hm)).congr_deriv ?_
    simp [logLink]

/-- **C51 (Identity).** -/
theorem C51_identity : LinkLaws identityLink Set.univ where
  inv_mem _ := trivial
  inv_func _ _ := rfl
  func_inv _ := rfl
  deriv m _ := hasDerivAt_id m

/-- **C51.** Every family uses the link of its mean range. -/
theorem C51_family (f : Family ℝ) : LinkLaws f.link (MeanRange f) := by
  cases f
  · exact C51_logit
  · exact C51_logit
  · exact C51_identity
  · exact C51_log

/-- **C52 (partial).** Missing: the rejection of targets outside the support, which is false (`C52_support_violation`). A different number of targets and samples is rejected with `InvalidData`, before anything else happens; no other
input makes `train` return an error. -/
theorem C52_count_partial (inverse : Mat ℝ → Outcome (Mat ℝ)) (m : Glm ℝ) (X : Mat ℝ) (y : List ℝ) :
    (X.rows.length ≠ y.length → m.train inverse X y = err .InvalidData) ∧
    ∀ k, m.train inverse X y = err k → k = .InvalidData ∧ X.rows.length ≠ y.length := by
  have hl : ∀ full xt : Mat ℝ, ∀ n mu z beta k, irlsLoop inverse m.family full xt y n mu z beta ≠ err k := by
    intro full xt n
    induction n with
    | zero => intro _ _ _ _ h; cases h
    | succ n ih =>
      intro mu z beta k h
      rw [irlsLoop] at h
      have hv : ∀ (g : ℝ → ℝ → ℝ) (u v : List ℝ), vecZip g u v ≠ err k := by
        intro g u v; unfold vecZip; split <;> exact fun h => by cases h
      have hmv : ∀ (a : Mat ℝ) (b : List ℝ), a.mulVec b ≠ err k := by
        intro a b; unfold Mat.mulVec; split <;> exact fun h => by cases h
      rcases bind_eq_err.mp h with h | ⟨s, _, h⟩
      · exact irlsStep_not_err _ _ _ _ _ _ _ h
      rcases bind_eq_err.mp h with h | ⟨d, _, h⟩
      · exact hv _ _ _ h
      split at h
      · cases h
      rcases bind_eq_err.mp h with h | ⟨t, _, h⟩
      · exact hmv _ _ h
      rcases bind_eq_err.mp h with h | ⟨z', _, h⟩
      · exact hv _ _ _ h
      exact ih _ _ _ _ h
  constructor
  · intro h
    unfold Glm.train
    rw [if_pos h]
  · intro k h
    unfold Glm.train at h
    by_cases hc : X.rows.length ≠ y.length
    · rw [if_pos hc] at h
      injection h with h
      exact ⟨h.symm, hc⟩
    · rw [if_neg hc, withOnes_ok, ok_bind] at h
      rcases bind_eq_err.mp h with h | ⟨t, _, h⟩
      · exact absurd h (hl _ _ _ _ _ _ _)
      · cases h

/-- **C52.** Predicting with a model that has not been trained fails. -/
theorem C52_untrained (f : Family ℝ) (X : Mat ℝ) : Glm.predict ⟨f, none⟩ X = err .UntrainedModel := rfl

/-- **C52.** A prediction is the inverse link of the linear predictor, one for each row, and lies in the range of means of the
family. -/
theorem C52_predictions (f : Family ℝ) (β : List ℝ) (X : Mat ℝ) (hb : β.length = X.cols + 1) :
    ∃ p, Glm.predict ⟨f, some β⟩ X = ok p ∧ p.length = X.rows.length ∧ (∀ v ∈ p, v ∈ MeanRange f) ∧
      ∀ i < X.rows.length, f.link.func (p.getD i 0) = affine β (X.rows.getD i []) := by
  have hne : β ≠ [] := by intro h; rw [h] at hb; simp at hb
  refine ⟨X.rows.map fun x => f.link.funcInv (affine β x), ?_, by simp, ?_, ?_⟩
  · unfold Glm.predict
    dsimp only
    rw [withOnes_ok, ok_bind]
    unfold Mat.mulVec
    rw [if_pos hb.symm, ok_bind, List.map_map, List.map_map]
    congr 1
    apply List.map_congr_left
    intro x _
    exact congrArg _ (dot_affine _ _ hne)
  · intro v hv
    obtain ⟨x, _, rfl⟩ := List.mem_map.mp hv
    exact funcInv_mem f _
  · intro i hi
    rw [getD_map_lt _ _ [] _ _ hi, (C51_family f).func_inv]

/-- **C52.** With a different number of columns than in training, `predict` panics. -/
theorem C52_columns (f : Family ℝ) (β : List ℝ) (X : Mat ℝ) (hb : β.length ≠ X.cols + 1) :
    Glm.predict ⟨f, some β⟩ X = Outcome.panic := by
  unfold Glm.predict
  dsimp only
  rw [withOnes_ok, ok_bind]
  unfold Mat.mulVec
  rw [if_neg fun h => hb h.symm]
  rfl

/-- **C52.** The weights of a pass are positive at all means in the range of the family: those training starts from, and every
inverse link of a linear predictor. -/
theorem C52_weights (f : Family ℝ) (mu : List ℝ) (hg : GoodWeights f mu.length) :
    ((∀ m ∈ mu, m ∈ MeanRange f) → ∃ w, f.workingWeight mu = ok w ∧ w.length = mu.length ∧ ∀ v ∈ w, 0 < v) ∧
    (∀ y : ℝ, f.startMean y ∈ MeanRange f) ∧ ∀ s : ℝ, f.link.funcInv s ∈ MeanRange f :=
  ⟨fun h => workingWeight_pos f mu h hg, startMean_mem f, funcInv_mem f⟩

/-- A pass succeeds when the weights are positive and the features independent. -/
theorem irlsStep_succeeds {inverse : Mat ℝ → Outcome (Mat ℝ)} (hi : InvertsExactly inverse) (hr : InvertsRegular inverse) {f : Family ℝ}
    {X : Mat ℝ} (hX : X.WF) (hI : AffinelyIndependent X) {y mu z : List ℝ} (hy : y.length = X.rows.length) (hmu : mu.length = X.rows.length)
    (hz : z.length = X.rows.length) (hm : ∀ m ∈ mu, m ∈ MeanRange f) (hg : GoodWeights f mu.length) :
    ∃ s, irlsStep inverse f ⟨X.cols + 1, X.rows.map ((1 : ℝ) :: ·)⟩ (Mat.transpose ⟨X.cols + 1, X.rows.map ((1 : ℝ) :: ·)⟩) y mu z = ok s := by
  have hS := withOnes_shape hX
  obtain ⟨w, w1, w2, w3⟩ := workingWeight_pos f mu hm hg
  obtain ⟨xtw, a, x2, a2, x3, a3, he⟩ := irlsStep_eq (inverse := inverse) hS hy hmu (z := z) w1 (w2.trans hmu)
  have hw : ∀ i, 0 < toV X.rows.length w i := by
    intro i
    have hi' : (i : ℕ) < w.length := by rw [w2, hmu]; exact i.2
    unfold toV
    rw [List.getD_eq_getElem?_getD, List.getElem?_eq_getElem hi', Option.getD_some]
    exact w3 _ (List.getElem_mem hi')
  have hd := weighted_det _ _ hw ((affinelyIndependent_iff hX).mp hI)
  rw [← a3] at hd
  obtain ⟨B, hB⟩ := hr a _ a2 ((fullColumnRank_det a2).mpr hd)
  obtain ⟨b1, -, -⟩ := inverse_toM hi a2 hB
  obtain ⟨t, t1, t2, t3⟩ := mul_toM b1 x2
  obtain ⟨u, u1, u2, u3⟩ := mulVec_toV t2 hz
  refine ⟨(List.zipWith f.adjust y mu, u), ?_⟩
  rw [he, hB]
  simp only [expectOk, ok_bind]
  rw [t1, ok_bind, u1, ok_bind]

theorem irlsLoop_succeeds {inverse : Mat ℝ → Outcome (Mat ℝ)} (hi : InvertsExactly inverse) (hr : InvertsRegular inverse) {f : Family ℝ}
    {X : Mat ℝ} (hX : X.WF) (hI : AffinelyIndependent X) {y : List ℝ} (hy : y.length = X.rows.length) (hg : GoodWeights f X.rows.length) :
    ∀ (n : ℕ) (mu z beta : List ℝ), mu.length = X.rows.length → z.length = X.rows.length → (∀ m ∈ mu, m ∈ MeanRange f) → beta.length = X.cols + 1 →
      ∃ b, irlsLoop inverse f ⟨X.cols + 1, X.rows.map ((1 : ℝ) :: ·)⟩ (Mat.transpose ⟨X.cols + 1, X.rows.map ((1 : ℝ) :: ·)⟩) y n mu z beta = ok b ∧
        b.length = X.cols + 1 := by
  have hS := withOnes_shape hX
  intro n
  induction n with
  | zero => intro mu z beta _ _ _ hb; exact ⟨beta, rfl, hb⟩
  | succ n ih =>
    intro mu z beta hmu hz hm hb
    rw [← hmu] at hg
    obtain ⟨s, hs⟩ := irlsStep_succeeds hi hr hX hI hy hmu hz hm hg
    obtain ⟨w, w1, w2, w3⟩ := workingWeight_pos f mu hm hg
    obtain ⟨s1, s2, -, -⟩ := irlsStep_ok hi hS hy hmu hz w1 (w2.trans hmu) hs
    rw [irlsLoop, hs, ok_bind, vecZip_ok _ hb s2, ok_bind]
    split
    · exact ⟨_, rfl, s2⟩
    · obtain ⟨u, u1, u2, u3⟩ := mulVec_toV hS s2
      rw [u1, ok_bind, vecZip_ok _ (n := X.rows.length) (by rw [s1]; simp [hy, hmu]) u2, ok_bind]
      rw [hmu] at hg
      apply ih
      · simp [u2]
      · rw [s1]; simp [hy, hmu, u2]
      · intro m hm'
        obtain ⟨q, _, rfl⟩ := List.mem_map.mp hm'
        exact funcInv_mem f q
      · exact s2

/-- **C52.** On independent features training succeeds - whatever the targets are. -/
theorem C52_train {inverse : Mat ℝ → Outcome (Mat ℝ)} (hi : InvertsExactly inverse) (hr : InvertsRegular inverse) (m : Glm ℝ) (X : Mat ℝ) (hX : X.WF)
    (hI : AffinelyIndependent X) (y : List ℝ) (hy : y.length = X.rows.length) (hg : GoodWeights m.family X.rows.length) :
    ∃ β, m.train inverse X y = ok ⟨m.family, some β⟩ ∧ β.length = X.cols + 1 := by
  unfold Glm.train
  rw [if_neg (by simp [hy]), withOnes_ok, ok_bind]
  obtain ⟨b, h1, h2⟩ := irlsLoop_succeeds hi hr hX hI hy hg 8 (y.map m.family.startMean) (y.map m.family.startMean)
    (List.replicate (X.cols + 1) Scalar.zero) (by simp [hy]) (by simp [hy]) (by
      intro v hv
      obtain ⟨q, _, rfl⟩ := List.mem_map.mp hv
      exact startMean_mem _ q) (by simp)
  exact ⟨b, by rw [h1, ok_bind], h2⟩

/-- **C52.** On dependent features training panics. -/
theorem C52_singular {inverse : Mat ℝ → Outcome (Mat ℝ)} (hi : InvertsExactly inverse) (hu : ∀ A, inverse A ≠ Outcome.ub) (m : Glm ℝ) (X : Mat ℝ)
    (hX : X.WF) (hI : ¬ AffinelyIndependent X) (y : List ℝ) (hy : y.length = X.rows.length) (hg : GoodWeights m.family X.rows.length) :
    m.train inverse X y = Outcome.panic := by
  unfold Glm.train
  rw [if_neg (by simp [hy]), withOnes_ok, ok_bind]
  have hS := withOnes_shape hX
  have hmu : (y.map m.family.startMean).length = X.rows.length := by simp [hy]
  obtain ⟨w, w1, w2, w3⟩ := workingWeight_pos m.family (y.map m.family.startMean) (by
      intro v hv
      obtain ⟨q, _, rfl⟩ := List.mem_map.mp hv
      exact startMean_mem _ q) (by rw [hmu]; exact hg)
  obtain ⟨xtw, a, x2, a2, x3, a3, he⟩ := irlsStep_eq (inverse := inverse) hS hy hmu (z := y.map m.family.startMean) w1 (w2.trans hmu)
  have : irlsStep inverse m.family ⟨X.cols + 1, X.rows.map ((1 : ℝ) :: ·)⟩ (Mat.transpose ⟨X.cols + 1, X.rows.map ((1 : ℝ) :: ·)⟩) y
      (y.map m.family.startMean) (y.map m.family.startMean) = Outcome.panic := by
    rw [he]
    cases hc : inverse a with
    | err k => rfl
    | panic => rfl
    | ub => exact absurd hc (hu a)
    | ok B =>
      exfalso
      obtain ⟨-, -, b3⟩ := inverse_toM hi a2 hc
      apply hI
      rw [affinelyIndependent_iff hX]
      intro v hv
      have h1 : (toM (X.cols + 1) (X.cols + 1) a).mulVec v = 0 := by rw [a3, ← Matrix.mulVec_mulVec, hv, Matrix.mulVec_zero]
      have h2 : (toM (X.cols + 1) (X.cols + 1) B * toM (X.cols + 1) (X.cols + 1) a).mulVec v = 0 := by rw [← Matrix.mulVec_mulVec, h1, Matrix.mulVec_zero]
      rwa [b3, Matrix.one_mulVec] at h2
  rw [irlsLoop, this]
  rfl

/-- **C52 (violation).** Targets outside the support of the family are accepted: the Bernoulli family trains on 7 and the
Poisson family on -1/2. -/
theorem C52_support_violation {inverse : Mat ℝ → Outcome (Mat ℝ)} (hi : InvertsExactly inverse) (hr : InvertsRegular inverse) :
    (7 : ℝ) ∉ Support .bernoulli ∧ (∃ m, Glm.train inverse ⟨.bernoulli, none⟩ ⟨1, [[0], [1]]⟩ [7, 1] = ok m) ∧
    (-1 / 2 : ℝ) ∉ Support .poisson ∧ ∃ m, Glm.train inverse ⟨.poisson, none⟩ ⟨1, [[0], [1]]⟩ [-1 / 2, 1] = ok m := by
  have hI : AffinelyIndependent ⟨1, [[0], [1]]⟩ := by
    intro β hb h
    obtain ⟨a, b, rfl⟩ := List.length_eq_two.mp hb
    have h1 := h [0] (by simp)
    have h2 := h [1] (by simp)
    simp [affine, inner] at h1 h2
    subst h1
    have : b = 0 := by linarith
    subst this
    rfl
  have hX : (⟨1, [[0], [1]]⟩ : Mat ℝ).WF := by intro r hr; simp at hr; rcases hr with rfl | rfl <;> rfl
  refine ⟨by norm_num [Support], ?_, ?_, ?_⟩
  · obtain ⟨β, h, -⟩ := C52_train hi hr ⟨.bernoulli, none⟩ _ hX hI [7, 1] rfl trivial
    exact ⟨_, h⟩
  · rintro ⟨n, hn⟩
    have : (0 : ℝ) ≤ n := Nat.cast_nonneg n
    linarith
  · obtain ⟨β, h, -⟩ := C52_train hi hr ⟨.poisson, none⟩ _ hX hI [-1 / 2, 1] rfl trivial
    exact ⟨_, h⟩

/-- Unit weights of the normal family. -/
theorem normal_weights (mu : List ℝ) {n : ℕ} (h : mu.length = n) : ∃ w, (Family.normal : Family ℝ).workingWeight mu = ok w ∧ w.length = n ∧ toV n w = 1 := by
  refine ⟨_, rfl, by simp [h], ?_⟩
  rw [toV_map _ h]
  funext i
  simp [Family.variance, Family.link, identityLink]

/-- What two passes of the normal family compute. -/
theorem normal_train {inverse : Mat ℝ → Outcome (Mat ℝ)} (hi : InvertsExactly inverse) {X : Mat ℝ} (hX : X.WF) {y : List ℝ} {q : Option (List ℝ)} {m : Glm ℝ}
    (h : Glm.train inverse ⟨.normal, q⟩ X y = ok m) :
    ∃ β, m = ⟨.normal, some β⟩ ∧ y.length = X.rows.length ∧ β.length = X.cols + 1 ∧
      (let A := toM X.rows.length (X.cols + 1) ⟨X.cols + 1, X.rows.map ((1 : ℝ) :: ·)⟩
       (Aᵀ * A).mulVec (toV _ β) = Aᵀ.mulVec (toV _ y) ∧ (Aᵀ * A).det ≠ 0) := by
  have hS := withOnes_shape hX
  unfold Glm.train at h
  by_cases hy : X.rows.length = y.length
  swap
  · rw [if_pos hy] at h; cases h
  rw [if_neg (by simp [hy]), withOnes_ok, ok_bind] at h
  have hmap : y.map (Family.normal : Family ℝ).startMean = y := by
    exact (List.map_congr_left fun _ _ => rfl).trans (List.map_id _)
  dsimp only at h
  rw [hmap] at h
  obtain ⟨b, hb, h⟩ := bind_eq_ok.mp h
  injection h with h
  subst h
  refine ⟨b, rfl, hy.symm, ?_⟩
  rw [irlsLoop] at hb
  obtain ⟨s, hs, hb⟩ := bind_eq_ok.mp hb
  obtain ⟨w, w1, w2, w3⟩ := normal_weights y hy.symm
  obtain ⟨s1, s2, s3, s4⟩ := irlsStep_ok hi hS hy.symm hy.symm hy.symm w1 w2 hs
  have hone : diagonal (1 : Fin X.rows.length → ℝ) = 1 := Matrix.diagonal_one
  rw [w3, hone, Matrix.mul_one] at s3 s4
  rw [vecZip_ok _ (n := X.cols + 1) (by simp) s2, ok_bind] at hb
  split at hb
  · injection hb with hb
    subst hb
    exact ⟨s2, s3, s4⟩
  · obtain ⟨u, u1, u2, u3⟩ := mulVec_toV hS s2
    have hs1 : s.1.length = X.rows.length := by rw [s1]; simp [hy]
    rw [u1, ok_bind, vecZip_ok _ hs1 u2, ok_bind] at hb
    have hz : List.zipWith (Scalar.add : ℝ → ℝ → ℝ) s.1 u = u := by
      apply toV_inj (n := X.rows.length) (by simp [hs1, u2]) u2
      rw [toV_zipWith _ hs1 u2, s1, toV_zipWith _ hy.symm hy.symm]
      funext i
      simp [Family.adjust]
    have hmu : u.map (Family.normal : Family ℝ).link.funcInv = u := by
      exact (List.map_congr_left fun _ _ => rfl).trans (List.map_id _)
    rw [hz, hmu, irlsLoop] at hb
    obtain ⟨s', hs', hb⟩ := bind_eq_ok.mp hb
    obtain ⟨w', v1, v2, v3⟩ := normal_weights u u2
    obtain ⟨r1, r2, r3, r4⟩ := irlsStep_ok hi hS hy.symm u2 u2 v1 v2 hs'
    rw [v3, hone, Matrix.mul_one, u3, Matrix.mulVec_mulVec] at r3
    have heq : s'.2 = s.2 := by
      apply toV_inj r2 s2
      have hu : IsUnit ((toM X.rows.length (X.cols + 1) ⟨X.cols + 1, X.rows.map ((1 : ℝ) :: ·)⟩)ᵀ * toM X.rows.length (X.cols + 1) ⟨X.cols + 1, X.rows.map ((1 : ℝ) :: ·)⟩).det :=
        isUnit_iff_ne_zero.mpr s4
      have := congrArg (((toM X.rows.length (X.cols + 1) ⟨X.cols + 1, X.rows.map ((1 : ℝ) :: ·)⟩)ᵀ * toM X.rows.length (X.cols + 1) ⟨X.cols + 1, X.rows.map ((1 : ℝ) :: ·)⟩)⁻¹.mulVec) r3
      rwa [Matrix.mulVec_mulVec, Matrix.mulVec_mulVec, Matrix.nonsing_inv_mul _ hu, Matrix.one_mulVec, Matrix.one_mulVec] at this
    rw [heq, vecZip_ok _ s2 s2, ok_bind, if_pos] at hb
    · injection hb with hb
      subst hb
      exact ⟨s2, s3, s4⟩
    · have : (List.zipWith (Scalar.sub : ℝ → ℝ → ℝ) s.2 s.2).map Scalar.abs = List.replicate s.2.length 0 := by
        rw [List.zipWith_self, List.map_map]
        apply List.eq_replicate_iff.mpr
        refine ⟨by simp, ?_⟩
        intro v hv
        obtain ⟨x, _, rfl⟩ := List.mem_map.mp hv
        simp
      rw [this, fsum_real]
      simp

/-- **C53.** A successfully trained model of the normal family has the parameters that strictly minimise the sum of squared
residuals. -/
theorem C53_least_squares {inverse : Mat ℝ → Outcome (Mat ℝ)} (hi : InvertsExactly inverse) (X : Mat ℝ) (hX : X.WF) (y : List ℝ) (q : Option (List ℝ))
    (m : Glm ℝ) (h : Glm.train inverse ⟨.normal, q⟩ X y = ok m) :
    ∃ β, m.parameters = some β ∧ β.length = X.cols + 1 ∧ ∀ c : List ℝ, c.length = X.cols + 1 → c ≠ β → rss X y β < rss X y c := by
  obtain ⟨β, rfl, hy, hb, h1, h2⟩ := normal_train hi hX h
  refine ⟨β, rfl, hb, ?_⟩
  intro c hc hne
  rw [rss_eq hX hy hb, rss_eq hX hy hc, least_squares _ _ _ (toV _ c) h1, lt_add_iff_pos_right]
  apply lt_of_le_of_ne (Finset.sum_nonneg fun i _ => sq_nonneg _)
  intro h0
  apply hne
  apply toV_inj hc hb
  have h3 : (toM X.rows.length (X.cols + 1) ⟨X.cols + 1, X.rows.map ((1 : ℝ) :: ·)⟩).mulVec (toV _ c - toV _ β) = 0 := by
    funext i
    have := (Finset.sum_eq_zero_iff_of_nonneg fun i _ => sq_nonneg _).mp h0.symm i (Finset.mem_univ i)
    exact pow_eq_zero_iff two_ne_zero |>.mp this
  by_contra hv
  apply h2
  apply Matrix.exists_mulVec_eq_zero_iff.mp
  exact ⟨toV _ c - toV _ β, sub_ne_zero.mpr hv, by rw [← Matrix.mulVec_mulVec, h3, Matrix.mulVec_zero]⟩

/-- **C53.** On independent features both models train, and the parameters of the normal family are those of linear
regression. -/
theorem C53_linear_regression {inverse : Mat ℝ → Outcome (Mat ℝ)} (hi : InvertsExactly inverse) (hr : InvertsRegular inverse)
    {solve : Mat ℝ → List ℝ → Outcome (List ℝ)} (hs : SolvesExactly solve) (hsr : SolvesRegular solve) (X : Mat ℝ) (hX : X.WF)
    (hI : AffinelyIndependent X) (y : List ℝ) (hy : y.length = X.rows.length) :
    ∃ β, Glm.train inverse ⟨.normal, none⟩ X y = ok ⟨.normal, some β⟩ ∧ LinReg.train solve X y = ok ⟨some β⟩ := by
  obtain ⟨β, h1, h2⟩ := C52_train hi hr ⟨.normal, none⟩ X hX hI y hy trivial
  obtain ⟨m, hm⟩ := (C48_succeeds_iff hs hsr X hX y hy).mpr hI
  obtain ⟨b, rfl, -, c1, c2, c3⟩ := linTrain_normal hs hX hm
  refine ⟨β, h1, ?_⟩
  obtain ⟨β', e, -, g1, g2, g3⟩ := normal_train hi hX h1
  have : β' = β := by
    have := congrArg Glm.parameters e
    simpa using this.symm
  subst this
  rw [hm, toV_inj g1 c1 (c3 _ g2)]

/-- The hypotheses are met: three points not on one vertical line, with Gaussian elimination. -/
example : ∃ β, Glm.train (gaussInverse (0 : ℝ)) ⟨.normal, none⟩ ⟨1, [[0], [1], [3]]⟩ [1, 2, 5] = ok ⟨.normal, some β⟩ ∧
    LinReg.train (gaussSolve 0) ⟨1, [[0], [1], [3]]⟩ [1, 2, 5] = ok ⟨some β⟩ := by
  apply C53_linear_regression (gaussInverse_exact 0 le_rfl) gaussInverse_regular (gaussSolve_exact 0 le_rfl) gaussSolve_regular
  · intro r hr
    simp at hr
    rcases hr with rfl | rfl | rfl <;> rfl
  · intro β hb h
    obtain ⟨a, b, rfl⟩ := List.length_eq_two.mp hb
    have h1 := h [0] (by simp)
    have h2 := h [1] (by simp)
    simp [affine, inner] at h1 h2
    subst h1
    have : b = 0 := by linarith
    subst this
    rfl
  · rfl

/-- The violation is about the real code path: Gaussian elimination is such an inverse. -/
example : ∃ m, Glm.train (gaussInverse (0 : ℝ)) ⟨.bernoulli, none⟩ ⟨1, [[0], [1]]⟩ [7, 1] = ok m :=
  (C52_support_violation (gaussInverse_exact 0 le_rfl) gaussInverse_regular).2.1

/-- Binomial weights which satisfy `GoodWeights`, with means that satisfy the hypothesis of `C52_weights`. -/
example : GoodWeights (.binomial [2, 3]) 2 ∧ ∀ m ∈ [(1 / 2 : ℝ), 1 / 3], m ∈ MeanRange (.binomial [2, 3]) := by
  refine ⟨⟨le_rfl, ?_⟩, ?_⟩
  · intro w hw; simp at hw; rcases hw with rfl | rfl <;> norm_num
  · intro m hm; simp at hm; rcases hm with rfl | rfl <;> norm_num [MeanRange]

/-- Points on one vertical line are dependent: `C52_singular` applies. -/
example : ¬ AffinelyIndependent ⟨1, [[2], [2]]⟩ := by
  intro h
  have := h [-2, 1] rfl (by intro x hx; simp at hx; subst hx; norm_num [affine, inner])
  simp [zeroVec, List.replicate] at this

end RM
