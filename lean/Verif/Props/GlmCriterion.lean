import Verif.Spec.GlmCriterion
import Verif.Proofs.Glm
import Verif.Proofs.KMeans
import Verif.Proofs.Safe
import Verif.Props.Glm
import Verif.Props.GlmLik

/-! C127: generalised linear models with a criterion of the user's own. -/

set_option linter.unusedSectionVars false

namespace RM
open Outcome Scalar Spec Matrix

section generic
variable {F : Type} [Scalar F]

theorem vecZip_adjust {y mu : List F} (f : F → F → F) (h : mu.length = y.length) :
    ofOption (if mu.length ≤ y.length then some (List.zipWith f y mu) else none) = vecZip f y mu := by
  rw [if_pos h.le, vecZip, if_pos h.symm]; rfl

theorem builtin_step (inverse : Mat F → Outcome (Mat F)) (f : Family F) (full xt : Mat F) (y mu z : List F) (h : mu.length = y.length) :
    f.criterion.step inverse full xt y mu z = irlsStep inverse f full xt y mu z := by
  unfold GlmCriterion.step irlsStep
  have h1 : ofOption (f.criterion.workingWeights mu) = f.workingWeight mu := by
    cases f with
    | bernoulli => rfl
    | binomial ws =>
      simp only [Family.criterion, Family.workingWeight]
      split <;> rfl
    | normal => rfl
    | poisson => rfl
  have h2 : ofOption (f.criterion.adjustments y mu) = f.yBar y mu := by
    cases f <;> exact vecZip_adjust _ h
  rw [h1, h2]

theorem builtin_loop (inverse : Mat F → Outcome (Mat F)) (f : Family F) (full xt : Mat F) (y : List F) (hf : full.rows.length = y.length) :
    ∀ (n : ℕ) (mu z beta : List F), mu.length = y.length →
      f.criterion.loop inverse full xt y n mu z beta = irlsLoop inverse f full xt y n mu z beta
  | 0, _, _, _, _ => rfl
  | n + 1, mu, z, beta, h => by
    rw [GlmCriterion.loop, irlsLoop, builtin_step _ _ _ _ _ _ _ h]
    congr 1; funext s
    congr 1; funext d
    split
    · rfl
    · have hv : ∀ v, full.mulVec s.2 = ok v → v.length = y.length := by
        intro v hv
        unfold Mat.mulVec at hv
        split at hv
        · cases hv; simpa using hf
        · cases hv
      cases e : full.mulVec s.2 with
      | ok v =>
        simp only [ok_bind]
        congr 1; funext z'
        have hi : ofOption (f.criterion.inverseLink v) = ok (v.map f.link.funcInv) := by cases f <;> rfl
        rw [hi, ok_bind]
        exact builtin_loop inverse f full xt y hf n _ _ _ (by simp [hv v e])
      | err _ => rfl
      | panic => rfl
      | ub => rfl

/-- **C127 (the built-in families).** The four families of the library, written as criteria, train and predict as they do in the other
properties: so what holds for every criterion holds for them. -/
theorem C127_builtin (inverse : Mat F → Outcome (Mat F)) (f : Family F) (q : Option (List F)) (X Z : Mat F) (y : List F) :
    Glm.train inverse ⟨f, q⟩ X y = (do let β ← f.criterion.train inverse X y; ok ⟨f, some β⟩) ∧
      Glm.predict ⟨f, q⟩ Z = f.criterion.predict q Z := by
  constructor
  · unfold Glm.train GlmCriterion.train
    split
    · rfl
    · rename_i h
      have hs : ofOption (f.criterion.startMeans y) = ok (y.map f.startMean) := by
        cases f with
        | normal =>
          have : y.map (Family.normal : Family F).startMean = y := by
            rw [show (Family.normal : Family F).startMean = id from rfl, List.map_id]
          rw [this]; rfl
        | _ => rfl
      rw [hs, ok_bind, withOnes, hcat_ones, ok_bind, ok_bind]
      dsimp only
      rw [builtin_loop inverse f _ _ y (by simpa using not_not.mp h) 8 _ _ _ (by simp)]
  · unfold Glm.predict GlmCriterion.predict
    cases q with
    | none => rfl
    | some v =>
      dsimp only
      congr 1; funext full
      congr 1; funext s
      cases f <;> rfl

/-- **C127 (validation).** A different number of samples and targets is reported before the criterion is asked anything; apart from that
`train` returns no error. -/
theorem C127_count (inverse : Mat F → Outcome (Mat F)) (c : GlmCriterion F) (X : Mat F) (y : List F) :
    (X.rows.length ≠ y.length → c.train inverse X y = err .InvalidData) ∧
      ∀ k, c.train inverse X y = err k → k = .InvalidData ∧ X.rows.length ≠ y.length := by
  have hv : ∀ (g : F → F → F) (u v : List F) k, vecZip g u v ≠ err k := by
    intro g u v k; unfold vecZip; split <;> exact fun h => by cases h
  have hm : ∀ (a b : Mat F) k, a.mul b ≠ err k := by
    intro a b k; unfold Mat.mul; split <;> exact fun h => by cases h
  have hmv : ∀ (a : Mat F) (b : List F) k, a.mulVec b ≠ err k := by
    intro a b k; unfold Mat.mulVec; split <;> exact fun h => by cases h
  have he : ∀ (o : Outcome (Mat F)) k, expectOk o ≠ err k := by
    intro o k; cases o <;> exact fun h => by cases h
  have ho : ∀ (o : Option (List F)) k, ofOption o ≠ err k := by
    intro o k; cases o <;> exact fun h => by cases h
  have hs : ∀ full xt mu z k, c.step inverse full xt y mu z ≠ err k := by
    intro full xt mu z k h
    rcases bind_eq_err.mp h with h | ⟨_, _, h⟩
    · exact ho _ _ h
    rcases bind_eq_err.mp h with h | ⟨_, _, h⟩
    · exact ho _ _ h
    rcases bind_eq_err.mp h with h | ⟨_, _, h⟩
    · exact hm _ _ _ h
    rcases bind_eq_err.mp h with h | ⟨_, _, h⟩
    · exact hm _ _ _ h
    rcases bind_eq_err.mp h with h | ⟨_, _, h⟩
    · exact he _ _ h
    rcases bind_eq_err.mp h with h | ⟨_, _, h⟩
    · exact hm _ _ _ h
    rcases bind_eq_err.mp h with h | ⟨_, _, h⟩
    · exact hmv _ _ _ h
    cases h
  have hl : ∀ full xt n mu z beta k, c.loop inverse full xt y n mu z beta ≠ err k := by
    intro full xt n
    induction n with
    | zero => intro _ _ _ _ h; cases h
    | succ n ih =>
      intro mu z beta k h
      rw [GlmCriterion.loop] at h
      rcases bind_eq_err.mp h with h | ⟨s, _, h⟩
      · exact hs _ _ _ _ _ h
      rcases bind_eq_err.mp h with h | ⟨d, _, h⟩
      · exact hv _ _ _ _ h
      split at h
      · cases h
      rcases bind_eq_err.mp h with h | ⟨t, _, h⟩
      · exact hmv _ _ _ h
      rcases bind_eq_err.mp h with h | ⟨z', _, h⟩
      · exact hv _ _ _ _ h
      rcases bind_eq_err.mp h with h | ⟨m', _, h⟩
      · exact ho _ _ h
      exact ih _ _ _ _ h
  constructor
  · intro h
    unfold GlmCriterion.train
    rw [if_pos h]
  · intro k h
    unfold GlmCriterion.train at h
    by_cases hc : X.rows.length ≠ y.length
    · rw [if_pos hc] at h
      injection h with h
      exact ⟨h.symm, hc⟩
    · rw [if_neg hc, withOnes, hcat_ones] at h
      rcases bind_eq_err.mp h with h | ⟨t, _, h⟩
      · exact absurd h (ho _ _)
      · exact absurd h (hl _ _ _ _ _ _ _)

/-- **C127 (lengths).** A criterion that answers with the wrong number of means or of weights makes `train` panic, at the first pass:
nothing is cut off or filled up. -/
theorem C127_lengths (inverse : Mat F → Outcome (Mat F)) (c : GlmCriterion F) (X : Mat F) (y mu w : List F) (hn : X.rows.length = y.length)
    (hm : c.startMeans y = some mu) (hw : c.workingWeights mu = some w) (hne : w.length ≠ y.length) :
    c.train inverse X y = Outcome.panic := by
  unfold GlmCriterion.train
  rw [if_neg (by simp [hn]), hm, ofOption_some, ok_bind, withOnes, hcat_ones, ok_bind, GlmCriterion.loop, GlmCriterion.step, hw, ofOption_some,
    ok_bind]
  cases c.adjustments y mu with
  | none => rfl
  | some yb =>
    rw [ofOption_some, ok_bind, Mat.mul, if_neg]
    · rfl
    · simp only [Mat.transpose, diagMat, List.length_map, List.length_range]
      rw [hn]
      exact fun h => hne h.symm

end generic

/-! ### A link and a variance -/

/-- A pass depends on the criterion only through the weights and the adjustments. -/
theorem step_eq_poisson {inverse : Mat ℝ → Outcome (Mat ℝ)} (c : GlmCriterion ℝ) (full xt : Mat ℝ) {y mu z w yb : List ℝ}
    (hw : c.workingWeights mu = some w) (hy : c.adjustments y mu = some yb) :
    c.step inverse full xt y mu z = (do let s ← irlsStep inverse .poisson full xt w w z; ok (yb, s.2)) := by
  unfold GlmCriterion.step irlsStep
  rw [hw, hy]
  have h1 : (Family.poisson : Family ℝ).workingWeight w = ok w := rfl
  have h2 : ∃ t, (Family.poisson : Family ℝ).yBar w w = ok t := ⟨_, vecZip_ok (n := w.length) _ rfl rfl⟩
  obtain ⟨t, h2⟩ := h2
  rw [h1, h2]
  simp only [ofOption_some, ok_bind, bind_assoc]

/-- Weighted least squares: a pass succeeds with `b` exactly when `b` is the one solution of the weighted normal equations. -/
theorem wls_iff {inverse : Mat ℝ → Outcome (Mat ℝ)} (hi : InvertsExactly inverse) (hr : InvertsRegular inverse) {full : Mat ℝ} {n m : ℕ}
    (hS : HasShape full n m) {w z : List ℝ} (hw : w.length = n) (hz : z.length = n) (b : List ℝ) :
    (∃ yb, irlsStep inverse .poisson full full.transpose w w z = ok (yb, b)) ↔ b.length = m ∧
      ((toM n m full)ᵀ * diagonal (toV n w) * toM n m full).mulVec (toV m b) = ((toM n m full)ᵀ * diagonal (toV n w)).mulVec (toV n z) ∧
      ((toM n m full)ᵀ * diagonal (toV n w) * toM n m full).det ≠ 0 := by
  constructor
  · rintro ⟨yb, h⟩
    exact (irlsStep_ok hi hS hw hw hz (f := .poisson) rfl hw h).2
  · rintro ⟨h1, h2, h3⟩
    obtain ⟨xtw, a, x2, a2, x3, a3, he⟩ := irlsStep_eq (inverse := inverse) (f := .poisson) hS hw hw (z := z) rfl hw
    have hd : (toM m m a).det ≠ 0 := by rw [a3]; exact h3
    obtain ⟨B, hB⟩ := hr a _ a2 ((fullColumnRank_det a2).mpr hd)
    obtain ⟨b1, -, b3⟩ := inverse_toM hi a2 hB
    obtain ⟨t, t1, t2, t3⟩ := mul_toM b1 x2
    obtain ⟨u, u1, u2, u3⟩ := mulVec_toV t2 hz
    refine ⟨List.zipWith (Family.poisson : Family ℝ).adjust w w, ?_⟩
    · rw [he, hB]
      simp only [expectOk, ok_bind]
      rw [t1, ok_bind, u1, ok_bind]
      have : u = b := by
        apply toV_inj u2 h1
        rw [u3, t3, ← Matrix.mulVec_mulVec, x3, ← h2, ← a3, Matrix.mulVec_mulVec, b3, Matrix.one_mulVec]
      rw [this]

/-- What a pass of a criterion does. -/
theorem step_iff {inverse : Mat ℝ → Outcome (Mat ℝ)} (hi : InvertsExactly inverse) (hr : InvertsRegular inverse) (c : GlmCriterion ℝ) {full : Mat ℝ}
    {n m : ℕ} (hS : HasShape full n m) {y mu z w yb : List ℝ} (hw : c.workingWeights mu = some w) (hy : c.adjustments y mu = some yb)
    (hwl : w.length = n) (hz : z.length = n) (s : List ℝ × List ℝ) :
    c.step inverse full full.transpose y mu z = ok s ↔ s.1 = yb ∧ s.2.length = m ∧
      ((toM n m full)ᵀ * diagonal (toV n w) * toM n m full).mulVec (toV m s.2) = ((toM n m full)ᵀ * diagonal (toV n w)).mulVec (toV n z) ∧
      ((toM n m full)ᵀ * diagonal (toV n w) * toM n m full).det ≠ 0 := by
  rw [step_eq_poisson c full _ hw hy, ← wls_iff hi hr hS hwl hz s.2, bind_eq_ok]
  constructor
  · rintro ⟨t, h1, h2⟩
    cases h2
    exact ⟨rfl, t.1, h1⟩
  · rintro ⟨rfl, t, h⟩
    exact ⟨(t, s.2), h, rfl⟩

theorem ofLink_weights (l : LinkFn ℝ) (V : ℝ → ℝ) (mu : List ℝ) : (GlmCriterion.ofLink l V).workingWeights mu =
    some (mu.map fun m => 1 / (V m * l.funcGrad m * l.funcGrad m)) := rfl

theorem ofLink_adjust (l : LinkFn ℝ) (V : ℝ → ℝ) {y mu : List ℝ} (h : mu.length = y.length) : (GlmCriterion.ofLink l V).adjustments y mu =
    some (List.zipWith (fun t m => l.funcGrad m * (t - m)) y mu) := if_pos h.le

theorem score_iff {X : Mat ℝ} (l : LinkFn ℝ) (V : ℝ → ℝ) (y β : List ℝ) :
    SolvesScore l V X y β ↔ (toM X.rows.length (X.cols + 1) (fullOf X))ᵀ.mulVec (fun i => (y.getD i 0 - meanAt l β (X.rows.getD i [])) /
      (V (meanAt l β (X.rows.getD i [])) * l.funcGrad (meanAt l β (X.rows.getD i [])))) = 0 := by
  have he : ∀ (i : Fin X.rows.length) (j : Fin (X.cols + 1)), toM X.rows.length (X.cols + 1) (fullOf X) i j = (1 :: X.rows.getD i []).getD j 0 := by
    intro i j
    change ((fullOf X).rows.getD i []).getD j 0 = _
    unfold fullOf
    rw [getD_map_lt _ _ [] _ _ i.2]
  constructor
  · intro h
    funext j
    have := h j (Nat.lt_succ_iff.mp j.2)
    rw [Matrix.mulVec, dotProduct, Pi.zero_apply]
    refine Eq.trans ?_ this
    refine Finset.sum_congr rfl fun i _ => ?_
    rw [Matrix.transpose_apply, he]
  · intro h j hj
    have := congrFun h ⟨j, Nat.lt_succ_iff.mpr hj⟩
    rw [Matrix.mulVec, dotProduct, Pi.zero_apply] at this
    refine Eq.trans ?_ this
    refine Finset.sum_congr rfl fun i _ => ?_
    rw [Matrix.transpose_apply, he]

/-- **C127 (the fit).** A user's criterion that gives a link and a variance. On independent features, the pass fed with the means and the
working responses at `β` returns `β` again exactly when `β` solves the estimating equations of that link and variance. -/
theorem C127_fixed_point {inverse : Mat ℝ → Outcome (Mat ℝ)} (hi : InvertsExactly inverse) (hr : InvertsRegular inverse) (l : LinkFn ℝ) (V : ℝ → ℝ)
    (X : Mat ℝ) (hX : X.WF) (hI : AffinelyIndependent X) (y β : List ℝ) (hy : y.length = X.rows.length) (hb : β.length = X.cols + 1)
    (hreg : ∀ x ∈ X.rows, Regular l V (meanAt l β x)) :
    ∃ yb β', (GlmCriterion.ofLink l V).step inverse (fullOf X) (fullOf X).transpose y (X.rows.map (meanAt l β))
        (List.zipWith (fun x t => affine β x + l.funcGrad (meanAt l β x) * (t - meanAt l β x)) X.rows y) = ok (yb, β') ∧
      (β' = β ↔ SolvesScore l V X y β) := by
  have hS : HasShape (fullOf X) X.rows.length (X.cols + 1) := withOnes_shape hX
  have hne : β ≠ [] := by intro h; rw [h] at hb; simp at hb
  set mu := X.rows.map (meanAt l β) with hmu
  set z := List.zipWith (fun x t => affine β x + l.funcGrad (meanAt l β x) * (t - meanAt l β x)) X.rows y with hz
  set w := mu.map fun m => 1 / (V m * l.funcGrad m * l.funcGrad m) with hw
  set A := toM X.rows.length (X.cols + 1) (fullOf X) with hA
  have hml : mu.length = X.rows.length := by simp [hmu]
  have hwl : w.length = X.rows.length := by simp [hw, hml]
  have hzl : z.length = X.rows.length := by simp [hz, hy]
  have hwi : ∀ i : Fin X.rows.length, toV X.rows.length w i =
      1 / (V (meanAt l β (X.rows.getD i [])) * l.funcGrad (meanAt l β (X.rows.getD i [])) * l.funcGrad (meanAt l β (X.rows.getD i []))) := by
    intro i
    rw [hw, hmu, List.map_map, toV, getD_map_lt _ _ [] _ _ i.2]
    rfl
  have hri : ∀ i : Fin X.rows.length, Regular l V (meanAt l β (X.rows.getD i [])) := by
    intro i
    apply hreg
    rw [List.getD_eq_getElem?_getD, List.getElem?_eq_getElem i.2, Option.getD_some]
    exact List.getElem_mem i.2
  have hwp : ∀ i, 0 < toV X.rows.length w i := by
    intro i
    rw [hwi, mul_assoc]
    exact one_div_pos.mpr (mul_pos (hri i).1 (mul_self_pos.mpr (hri i).2))
  have hd := weighted_det _ _ hwp ((affinelyIndependent_iff hX).mp hI)
  have hu : IsUnit (Aᵀ * diagonal (toV X.rows.length w) * A).det := isUnit_iff_ne_zero.mpr hd
  have hAi : ∀ i, A.mulVec (toV _ β) i = affine β (X.rows.getD i []) := by
    intro i
    rw [hA, mulVec_row hS hb, ← dot_inner]
    unfold fullOf
    rw [getD_map_lt _ _ [] _ _ i.2, dot_affine _ _ hne]
  set b := (Aᵀ * diagonal (toV X.rows.length w) * A)⁻¹.mulVec ((Aᵀ * diagonal (toV X.rows.length w)).mulVec (toV X.rows.length z)) with hbdef
  have hstep := (step_iff hi hr (GlmCriterion.ofLink l V) hS (ofLink_weights l V mu) (ofLink_adjust l V (hml.trans hy.symm)) hwl hzl
    (List.zipWith (fun t m => l.funcGrad m * (t - m)) y mu, List.ofFn b)).mpr ⟨rfl, by simp, by
      rw [toV_ofFn, hbdef, Matrix.mulVec_mulVec, Matrix.mul_nonsing_inv _ hu, Matrix.one_mulVec], hd⟩
  refine ⟨_, _, hstep, ?_⟩
  have hzv : toV X.rows.length z = A.mulVec (toV _ β) + fun i : Fin X.rows.length =>
      l.funcGrad (meanAt l β (X.rows.getD i [])) * (y.getD i 0 - meanAt l β (X.rows.getD i [])) := by
    funext i
    have h1 : (i : ℕ) < y.length := by rw [hy]; exact i.2
    rw [Pi.add_apply, hAi, hz]
    unfold toV
    simp [List.getD_eq_getElem?_getD, h1]
  have hdv : (diagonal (toV X.rows.length w)).mulVec (fun i : Fin X.rows.length =>
        l.funcGrad (meanAt l β (X.rows.getD i [])) * (y.getD i 0 - meanAt l β (X.rows.getD i []))) =
      fun i : Fin X.rows.length => (y.getD i 0 - meanAt l β (X.rows.getD i [])) /
        (V (meanAt l β (X.rows.getD i [])) * l.funcGrad (meanAt l β (X.rows.getD i []))) := by
    funext i
    have h1 := (hri i).1.ne'
    have h2 := (hri i).2
    rw [Matrix.mulVec_diagonal, hwi]
    field_simp
  have hnorm : (Aᵀ * diagonal (toV X.rows.length w)).mulVec (toV X.rows.length z) =
      (Aᵀ * diagonal (toV X.rows.length w) * A).mulVec (toV _ β) + Aᵀ.mulVec (fun i : Fin X.rows.length =>
        (y.getD i 0 - meanAt l β (X.rows.getD i [])) / (V (meanAt l β (X.rows.getD i [])) * l.funcGrad (meanAt l β (X.rows.getD i [])))) := by
    rw [hzv, Matrix.mulVec_add, Matrix.mulVec_mulVec, ← hdv, Matrix.mulVec_mulVec]
  rw [score_iff]
  constructor
  · intro h
    have h1 : (Aᵀ * diagonal (toV X.rows.length w) * A).mulVec (toV _ β) = (Aᵀ * diagonal (toV X.rows.length w)).mulVec (toV X.rows.length z) := by
      rw [← h, toV_ofFn, hbdef, Matrix.mulVec_mulVec, Matrix.mul_nonsing_inv _ hu, Matrix.one_mulVec]
    rw [hnorm] at h1
    exact left_eq_add.mp h1
  · intro h
    rw [h, add_zero] at hnorm
    apply toV_inj (by simp) hb
    rw [toV_ofFn, hbdef, hnorm, Matrix.mulVec_mulVec, Matrix.nonsing_inv_mul _ hu, Matrix.one_mulVec]

theorem loop_succeeds {inverse : Mat ℝ → Outcome (Mat ℝ)} (hi : InvertsExactly inverse) (hr : InvertsRegular inverse) (l : LinkFn ℝ) (V : ℝ → ℝ)
    {X : Mat ℝ} (hX : X.WF) (hI : AffinelyIndependent X) {y : List ℝ} (hy : y.length = X.rows.length) (hreg : ∀ s, Regular l V (l.funcInv s)) :
    ∀ (n : ℕ) (mu z beta : List ℝ), mu.length = X.rows.length → z.length = X.rows.length → (∀ m ∈ mu, Regular l V m) → beta.length = X.cols + 1 →
      ∃ b, (GlmCriterion.ofLink l V).loop inverse (fullOf X) (fullOf X).transpose y n mu z beta = ok b ∧ b.length = X.cols + 1
  | 0, _, _, beta, _, _, _, hb => ⟨beta, rfl, hb⟩
  | n + 1, mu, z, beta, hmu, hz, hm, hb => by
    have hS : HasShape (fullOf X) X.rows.length (X.cols + 1) := withOnes_shape hX
    set w := mu.map fun m => 1 / (V m * l.funcGrad m * l.funcGrad m) with hw
    have hwl : w.length = X.rows.length := by simp [hw, hmu]
    have hwp : ∀ i, 0 < toV X.rows.length w i := by
      intro i
      have hi' : (i : ℕ) < w.length := by rw [hwl]; exact i.2
      have hmem : toV X.rows.length w i ∈ w := by
        unfold toV
        rw [List.getD_eq_getElem?_getD, List.getElem?_eq_getElem hi', Option.getD_some]
        exact List.getElem_mem hi'
      obtain ⟨m, h1, h2⟩ := List.mem_map.mp hmem
      rw [← h2, mul_assoc]
      exact one_div_pos.mpr (mul_pos (hm m h1).1 (mul_self_pos.mpr (hm m h1).2))
    have hd := weighted_det _ _ hwp ((affinelyIndependent_iff hX).mp hI)
    have hu : IsUnit ((toM X.rows.length (X.cols + 1) (fullOf X))ᵀ * diagonal (toV X.rows.length w) *
      toM X.rows.length (X.cols + 1) (fullOf X)).det := isUnit_iff_ne_zero.mpr hd
    have hstep := (step_iff hi hr (GlmCriterion.ofLink l V) hS (ofLink_weights l V mu) (ofLink_adjust l V (hmu.trans hy.symm)) hwl hz
      (List.zipWith (fun t m => l.funcGrad m * (t - m)) y mu, List.ofFn (((toM X.rows.length (X.cols + 1) (fullOf X))ᵀ *
        diagonal (toV X.rows.length w) * toM X.rows.length (X.cols + 1) (fullOf X))⁻¹.mulVec
          (((toM X.rows.length (X.cols + 1) (fullOf X))ᵀ * diagonal (toV X.rows.length w)).mulVec (toV X.rows.length z))))).mpr ⟨rfl, by simp, by
        rw [toV_ofFn, Matrix.mulVec_mulVec, Matrix.mul_nonsing_inv _ hu, Matrix.one_mulVec], hd⟩
    generalize hb2 : List.ofFn (((toM X.rows.length (X.cols + 1) (fullOf X))ᵀ *
        diagonal (toV X.rows.length w) * toM X.rows.length (X.cols + 1) (fullOf X))⁻¹.mulVec
          (((toM X.rows.length (X.cols + 1) (fullOf X))ᵀ * diagonal (toV X.rows.length w)).mulVec (toV X.rows.length z))) = b at hstep
    have hbl : b.length = X.cols + 1 := by rw [← hb2]; simp
    rw [GlmCriterion.loop, hstep, ok_bind, vecZip_ok _ hb hbl, ok_bind]
    split
    · exact ⟨_, rfl, hbl⟩
    · obtain ⟨u, u1, u2, u3⟩ := mulVec_toV hS hbl
      dsimp only
      rw [u1, ok_bind, vecZip_ok _ (n := X.rows.length) (by simp [hy, hmu]) u2, ok_bind]
      change ∃ b, (ok (u.map l.funcInv) >>= _) = ok b ∧ _
      rw [ok_bind]
      apply loop_succeeds hi hr l V hX hI hy hreg n
      · simp [u2]
      · simp [hy, hmu, u2]
      · intro m hm'
        obtain ⟨q, _, rfl⟩ := List.mem_map.mp hm'
        exact hreg q
      · exact hbl

/-- **C127 (training succeeds, partial).** Missing: targets at the ends of the range, where it is false (`C127_ends_violation`). On independent features, when the variance is positive and the link has a slope at the targets, which the
means start from, and at every mean the link can give, training succeeds, and predictions are inverse links of an affine function. -/
theorem C127_trains_partial {inverse : Mat ℝ → Outcome (Mat ℝ)} (hi : InvertsExactly inverse) (hr : InvertsRegular inverse) (l : LinkFn ℝ) (V : ℝ → ℝ)
    (X : Mat ℝ) (hX : X.WF) (hI : AffinelyIndependent X) (y : List ℝ) (hy : y.length = X.rows.length) (hreg : ∀ s, Regular l V (l.funcInv s))
    (hreg' : ∀ t ∈ y, Regular l V t) :
    ∃ β, (GlmCriterion.ofLink l V).train inverse X y = ok β ∧ β.length = X.cols + 1 ∧ ∀ Z : Mat ℝ, Z.cols = X.cols →
      (GlmCriterion.ofLink l V).predict (some β) Z = ok (Z.rows.map (meanAt l β)) := by
  obtain ⟨β, h1, h2⟩ := loop_succeeds hi hr l V hX hI hy hreg 8 y y (List.replicate (X.cols + 1) Scalar.zero) hy hy hreg' (by simp)
  refine ⟨β, ?_, h2, fun Z hZ => ?_⟩
  · unfold GlmCriterion.train
    rw [if_neg (by simp [hy]), withOnes_ok]
    exact h1
  · have hne : β ≠ [] := by intro h; rw [h] at h2; simp at h2
    unfold GlmCriterion.predict
    dsimp only
    rw [withOnes_ok, ok_bind]
    unfold Mat.mulVec
    rw [if_pos (by rw [hZ, h2]), ok_bind]
    change ok _ = _
    rw [List.map_map, List.map_map]
    congr 1
    apply List.map_congr_left
    intro x _
    exact congrArg l.funcInv (dot_affine _ _ hne)

/-! ### The scale of the variance -/

theorem scaled_weights (l : LinkFn ℝ) (V : ℝ → ℝ) (c : ℝ) {mu : List ℝ} {n : ℕ} (h : mu.length = n) :
    toV n (mu.map fun m => 1 / (c * V m * l.funcGrad m * l.funcGrad m)) =
      c⁻¹ • toV n (mu.map fun m => 1 / (V m * l.funcGrad m * l.funcGrad m)) := by
  rw [toV_map _ h, toV_map _ h]
  funext i
  rw [Pi.smul_apply, smul_eq_mul, mul_assoc c, mul_assoc c, one_div, one_div, mul_inv]

theorem dispersion_step {inverse : Mat ℝ → Outcome (Mat ℝ)} (hi : InvertsExactly inverse) (hr : InvertsRegular inverse) (l : LinkFn ℝ) (V : ℝ → ℝ)
    {c : ℝ} (hc : c ≠ 0) {full : Mat ℝ} {n m : ℕ} (hS : HasShape full n m) {y mu z : List ℝ} (hy : y.length = n) (hmu : mu.length = n)
    (hz : z.length = n) {s : List ℝ × List ℝ}
    (h : (GlmCriterion.ofLink l fun t => c * V t).step inverse full full.transpose y mu z = ok s) :
    (GlmCriterion.ofLink l V).step inverse full full.transpose y mu z = ok s ∧ s.1.length = n ∧ s.2.length = m := by
  obtain ⟨h1, h2, h3, h4⟩ := (step_iff hi hr _ hS (ofLink_weights l _ mu) (ofLink_adjust l _ (hmu.trans hy.symm)) (by simp [hmu]) hz s).mp h
  have hc' : c⁻¹ ≠ 0 := inv_ne_zero hc
  have hdiag : ∀ v : Fin n → ℝ, diagonal (c⁻¹ • v) = c⁻¹ • diagonal v := fun v => Matrix.diagonal_smul c⁻¹ v
  rw [scaled_weights l V c hmu, hdiag, Matrix.mul_smul, Matrix.smul_mul, Matrix.smul_mulVec, Matrix.smul_mulVec] at h3
  rw [scaled_weights l V c hmu, hdiag, Matrix.mul_smul, Matrix.smul_mul, Matrix.det_smul] at h4
  refine ⟨(step_iff hi hr _ hS (ofLink_weights l V mu) (ofLink_adjust l V (hmu.trans hy.symm)) (by simp [hmu]) hz s).mpr
    ⟨h1, h2, ?_, ?_⟩, by rw [h1]; simp [hy, hmu], h2⟩
  · have := congrArg (fun v => c • v) h3
    simpa [smul_smul, mul_inv_cancel₀ hc] using this
  · exact fun h0 => h4 (by rw [h0, mul_zero])

theorem dispersion_loop {inverse : Mat ℝ → Outcome (Mat ℝ)} (hi : InvertsExactly inverse) (hr : InvertsRegular inverse) (l : LinkFn ℝ) (V : ℝ → ℝ)
    {c : ℝ} (hc : c ≠ 0) {full : Mat ℝ} {n m : ℕ} (hS : HasShape full n m) {y : List ℝ} (hy : y.length = n) {b : List ℝ} :
    ∀ (k : ℕ) (mu z beta : List ℝ), mu.length = n → z.length = n → beta.length = m →
      (GlmCriterion.ofLink l fun t => c * V t).loop inverse full full.transpose y k mu z beta = ok b →
      (GlmCriterion.ofLink l V).loop inverse full full.transpose y k mu z beta = ok b
  | 0, _, _, _, _, _, _, h => h
  | k + 1, mu, z, beta, hmu, hz, hb, h => by
    rw [GlmCriterion.loop] at h ⊢
    obtain ⟨s, hs, h⟩ := bind_eq_ok.mp h
    obtain ⟨h1, h2, h3⟩ := dispersion_step hi hr l V hc hS hy hmu hz hs
    rw [h1, ok_bind, vecZip_ok _ hb h3, ok_bind]
    rw [vecZip_ok _ hb h3, ok_bind] at h
    split
    · rename_i hcut; rw [if_pos hcut] at h; exact h
    · rename_i hcut
      rw [if_neg hcut] at h
      obtain ⟨u, u1, u2, u3⟩ := mulVec_toV hS h3
      rw [u1, ok_bind, vecZip_ok _ h2 u2, ok_bind] at h ⊢
      exact dispersion_loop hi hr l V hc hS hy k _ _ _ (by simp [u2]) (by simp [h2, u2]) h3 h

/-- **C127 (dispersion).** A constant factor in the variance changes nothing: training succeeds with the same parameters. -/
theorem C127_dispersion {inverse : Mat ℝ → Outcome (Mat ℝ)} (hi : InvertsExactly inverse) (hr : InvertsRegular inverse) (l : LinkFn ℝ) (V : ℝ → ℝ)
    (c : ℝ) (hc : c ≠ 0) (X : Mat ℝ) (hX : X.WF) (y β : List ℝ) :
    (GlmCriterion.ofLink l fun t => c * V t).train inverse X y = ok β ↔ (GlmCriterion.ofLink l V).train inverse X y = ok β := by
  have key : ∀ (c : ℝ) (V : ℝ → ℝ), c ≠ 0 → (GlmCriterion.ofLink l fun t => c * V t).train inverse X y = ok β →
      (GlmCriterion.ofLink l V).train inverse X y = ok β := by
    intro c V hc h
    unfold GlmCriterion.train at h ⊢
    by_cases hn : X.rows.length ≠ y.length
    · rw [if_pos hn] at h; cases h
    · rw [if_neg hn, withOnes_ok] at h ⊢
      have hn' := not_not.mp hn
      exact dispersion_loop hi hr l V hc (withOnes_shape hX) hn'.symm 8 y y _ hn'.symm hn'.symm (by simp) h
  refine ⟨key c V hc, fun h => key c⁻¹ (fun t => c * V t) (inv_ne_zero hc) ?_⟩
  have : (fun t => c⁻¹ * (c * V t)) = V := by
    funext t
    rw [← mul_assoc, inv_mul_cancel₀ hc, one_mul]
  rw [this]
  exact h

/-- **C127 (identity link).** With the identity link and a constant variance, training is least squares: it succeeds with the parameters of
the normal family, and those strictly minimise the sum of squared residuals. -/
theorem C127_identity {inverse : Mat ℝ → Outcome (Mat ℝ)} (hi : InvertsExactly inverse) (hr : InvertsRegular inverse) (v : ℝ) (hv : v ≠ 0)
    (X : Mat ℝ) (hX : X.WF) (y β : List ℝ) :
    ((GlmCriterion.ofLink identityLink fun _ => v).train inverse X y = ok β ↔ Glm.train inverse ⟨.normal, none⟩ X y = ok ⟨.normal, some β⟩) ∧
      ((GlmCriterion.ofLink identityLink fun _ => v).train inverse X y = ok β →
        ∀ b : List ℝ, b.length = X.cols + 1 → b ≠ β → rss X y β < rss X y b) := by
  have h1 : (GlmCriterion.ofLink identityLink fun _ => v).train inverse X y = ok β ↔ Glm.train inverse ⟨.normal, none⟩ X y = ok ⟨.normal, some β⟩ := by
    have h2 := C127_dispersion hi hr identityLink (fun _ => 1) v hv X hX y β
    simp only [mul_one] at h2
    rw [h2, (C127_builtin inverse .normal none X X y).1, bind_eq_ok]
    constructor
    · intro h; exact ⟨β, h, rfl⟩
    · rintro ⟨β', h, he⟩; cases he; exact h
  refine ⟨h1, fun h b hb hne => ?_⟩
  obtain ⟨β', e, -, h3⟩ := C53_least_squares hi X hX y none _ (h1.mp h)
  cases e
  exact h3 b hb hne

/-! ### The Poisson family through the defaults -/

theorem poisson_loop {inverse : Mat ℝ → Outcome (Mat ℝ)} (full xt : Mat ℝ) (y : List ℝ) : ∀ (n : ℕ) (mu z beta : List ℝ), (∀ m ∈ mu, 0 < m) →
    (GlmCriterion.ofLink logLink fun m => m).loop inverse full xt y n mu z beta =
      (Family.poisson : Family ℝ).criterion.loop inverse full xt y n mu z beta
  | 0, _, _, _, _ => rfl
  | n + 1, mu, z, beta, h => by
    rw [GlmCriterion.loop, GlmCriterion.loop]
    have hw : (GlmCriterion.ofLink logLink fun m => m).workingWeights mu = (Family.poisson : Family ℝ).criterion.workingWeights mu := by
      rw [ofLink_weights]
      change _ = some mu
      congr 1
      conv_rhs => rw [← List.map_id mu]
      apply List.map_congr_left
      intro m hm
      have := (h m hm).ne'
      simp only [logLink, real_div, real_one, id]
      field_simp
    have hs : (GlmCriterion.ofLink logLink fun m => m).step inverse full xt y mu z = (Family.poisson : Family ℝ).criterion.step inverse full xt y mu z := by
      unfold GlmCriterion.step
      rw [hw]
      rfl
    rw [hs]
    congr 1; funext s
    congr 1; funext d
    split
    · rfl
    · congr 1; funext u
      congr 1; funext z'
      change (ok (u.map Real.exp) >>= _) = (ok (u.map Real.exp) >>= _)
      rw [ok_bind, ok_bind]
      apply poisson_loop
      intro m hm
      obtain ⟨q, _, rfl⟩ := List.mem_map.mp hm
      exact Real.exp_pos q

/-- **C127 (Poisson through the defaults).** The log link with the mean as variance is the built-in Poisson family as long as all targets
are positive: the same outcome, parameters included. -/
theorem C127_poisson (inverse : Mat ℝ → Outcome (Mat ℝ)) (X : Mat ℝ) (y : List ℝ) (hy : ∀ t ∈ y, 1 / 10 ^ 10 ≤ t) :
    (GlmCriterion.ofLink logLink fun m => m).train inverse X y = (Family.poisson : Family ℝ).criterion.train inverse X y := by
  have hst : (Family.poisson : Family ℝ).criterion.startMeans y = some y := by
    change some (y.map (Family.poisson : Family ℝ).startMean) = some y
    congr 1
    conv_rhs => rw [← List.map_id y]
    apply List.map_congr_left
    intro t ht
    have := hy t ht
    simp only [Family.startMean, real_lt, real_ofRat, id]
    rw [if_neg]
    simp only [decide_eq_true_eq, not_lt]
    push_cast
    exact this
  unfold GlmCriterion.train
  rw [hst]
  split
  · rfl
  · change (ok y >>= _) = (ok y >>= _)
    rw [ok_bind, ok_bind]
    congr 1; funext full
    apply poisson_loop
    intro t ht
    have := hy t ht
    exact lt_of_lt_of_le (by positivity) this

/-! ### Targets at the ends of the range -/

theorem xr_nan_mul (a : XR) : Scalar.mul XR.nan a = XR.nan := rfl
theorem xr_mul_nan (a : XR) : Scalar.mul a XR.nan = XR.nan := by cases a <;> rfl

theorem fsum_nan_mem {l : List XR} (h : XR.nan ∈ l) : fsum l = XR.nan := by
  have : ∀ (l : List XR) (s : XR), XR.nan ∈ l → l.foldl Scalar.add s = XR.nan := by
    intro l
    induction l with
    | nil => intro s h; cases h
    | cons a l ih =>
      intro s h
      rw [List.foldl_cons]
      rcases List.mem_cons.mp h with h | h
      · rw [← h, xr_add_nan, xr_foldl_nan]
      · exact ih _ h
  exact this l _ h

theorem dot_nan_left {u v : List XR} {i : ℕ} (hu : u[i]? = some XR.nan) (hv : i < v.length) : dot u v = XR.nan := by
  apply fsum_nan_mem
  have hu' : i < u.length := (List.getElem?_eq_some_iff.mp hu).1
  rw [List.mem_iff_getElem?]
  refine ⟨i, ?_⟩
  rw [List.getElem?_zipWith, hu, List.getElem?_eq_getElem hv]
  rfl

theorem dot_nan_right {u v : List XR} {i : ℕ} (hv : v[i]? = some XR.nan) (hu : i < u.length) : dot u v = XR.nan := by
  apply fsum_nan_mem
  rw [List.mem_iff_getElem?]
  refine ⟨i, ?_⟩
  rw [List.getElem?_zipWith, hv, List.getElem?_eq_getElem hu]
  exact congrArg some (xr_mul_nan _)

/-- One working weight that is not a number makes all parameters so. -/
theorem step_nan {inverse : Mat XR → Outcome (Mat XR)} (hinv : ∀ A B, inverse A = ok B → B.WF) (c : GlmCriterion XR) {full : Mat XR}
    (hfw : full.WF) (hf : 0 < full.cols) {y mu z w : List XR} {i : ℕ} (hw : c.workingWeights mu = some w) (hi : w[i]? = some XR.nan)
    {s : List XR × List XR} (h : c.step inverse full full.transpose y mu z = ok s) : ∀ v ∈ s.2, v = XR.nan := by
  unfold GlmCriterion.step at h
  rw [hw, ofOption_some, ok_bind] at h
  obtain ⟨yb, -, h⟩ := bind_eq_ok.mp h
  obtain ⟨xtw, hx, h⟩ := bind_eq_ok.mp h
  obtain ⟨a, -, h⟩ := bind_eq_ok.mp h
  obtain ⟨B, hB, h⟩ := bind_eq_ok.mp h
  obtain ⟨t, ht, h⟩ := bind_eq_ok.mp h
  obtain ⟨b, hb, h⟩ := bind_eq_ok.mp h
  cases h
  have hBw : B.WF := by
    cases e : inverse a with
    | ok B' => rw [e] at hB; cases hB; exact hinv _ _ e
    | err _ => rw [e] at hB; cases hB
    | panic => rw [e] at hB; cases hB
    | ub => rw [e] at hB; cases hB
  have hil : i < w.length := (List.getElem?_eq_some_iff.mp hi).1
  -- rows of the transpose times the weights
  unfold Mat.mul at hx
  split at hx
  · rename_i hn
    cases hx
    have hn' : full.rows.length = w.length := by simpa [Mat.transpose, diagMat] using hn
    have hdw : (diagMat w).WF := by
      intro r hr
      obtain ⟨j, -, rfl⟩ := List.mem_map.mp hr
      simp [diagMat]
    have hrow : ∀ r ∈ (full.transpose).rows, ((List.range (diagMat w).cols).map fun j => dot r (colOf (diagMat w).rows j))[i]? = some XR.nan := by
      intro r hr
      have hrl : r.length = w.length := by
        rw [← hn']
        exact transposeRows_length _ _ hfw r hr
      rw [List.getElem?_map, List.getElem?_range (by simpa [diagMat] using hil)]
      refine congrArg some (dot_nan_right (i := i) ?_ (by rw [hrl]; exact hil))
      rw [colOf_eq (diagMat w) XR.nan hdw i (by simpa [diagMat] using hil)]
      simp only [diagMat, List.getElem?_map, List.getElem?_range hil, Option.map_some]
      rw [List.getD_eq_getElem?_getD, List.getElem?_map, List.getElem?_range hil]
      simp [List.getD_eq_getElem?_getD, hi]
    unfold Mat.mul at ht
    split at ht
    · rename_i hc
      cases ht
      unfold Mat.mulVec at hb
      split at hb
      · rename_i hz
        cases hb
        have hz' : z.length = w.length := by rw [← hz]; simp [diagMat]
        intro v hv
        obtain ⟨r, hr, rfl⟩ := List.mem_map.mp hv
        obtain ⟨q, hq, rfl⟩ := List.mem_map.mp hr
        have hql : 0 < q.length := by
          rw [hBw q hq, hc]
          simpa [Mat.transpose, transposeRows] using hf
        refine dot_nan_left (i := i) ?_ (by rw [hz']; exact hil)
        rw [List.getElem?_map, List.getElem?_range (by simpa [diagMat] using hil)]
        refine congrArg some (dot_nan_right (i := 0) ?_ hql)
        rw [colOf_eq ⟨_, _⟩ XR.nan (by intro r hr; obtain ⟨q', -, rfl⟩ := List.mem_map.mp hr; simp) i (by simpa [diagMat] using hil), List.map_map,
          List.getElem?_map]
        have h0 : 0 < (full.transpose).rows.length := by simpa [Mat.transpose, transposeRows] using hf
        rw [List.getElem?_eq_getElem h0, Option.map_some, Function.comp_apply, List.getD_eq_getElem?_getD, hrow _ (List.getElem_mem h0)]
        rfl
      · cases hb
    · cases ht
  · cases hx

/-- A link and a variance whose working weight is not a number at `NaN`. -/
theorem loop_nan {inverse : Mat XR → Outcome (Mat XR)} (hinv : ∀ A B, inverse A = ok B → B.WF) (l : LinkFn XR) (V : XR → XR)
    (hN : l.funcInv XR.nan = XR.nan) (hW : Scalar.one /. (V XR.nan *. l.funcGrad XR.nan *. l.funcGrad XR.nan) = XR.nan) {X : Mat XR} (hX : X.WF) {y : List XR}
    {i : ℕ} (hiX : i < X.rows.length) {b : List XR} : ∀ (k : ℕ) (mu z beta : List XR),
      (mu.map fun m => Scalar.one /. (V m *. l.funcGrad m *. l.funcGrad m))[i]? = some XR.nan → beta.length = X.cols + 1 →
      (k = 0 → ∀ v ∈ beta, v = XR.nan) →
      (GlmCriterion.ofLink l V).loop inverse ⟨X.cols + 1, X.rows.map (Scalar.one :: ·)⟩
        (Mat.transpose ⟨X.cols + 1, X.rows.map (Scalar.one :: ·)⟩) y k mu z beta = ok b → b.length = X.cols + 1 ∧ ∀ v ∈ b, v = XR.nan
  | 0, _, _, beta, _, hb, h0, h => by cases h; exact ⟨hb, h0 rfl⟩
  | k + 1, mu, z, beta, hmu, hb, _, h => by
    rw [GlmCriterion.loop] at h
    obtain ⟨s, hs, h⟩ := bind_eq_ok.mp h
    have hnan := step_nan hinv (GlmCriterion.ofLink l V) (by intro r hr; obtain ⟨q, hq, rfl⟩ := List.mem_map.mp hr; simp [hX q hq]) (Nat.succ_pos _) rfl hmu hs
    obtain ⟨d, hd, h⟩ := bind_eq_ok.mp h
    unfold vecZip at hd
    split at hd
    · rename_i hl
      cases hd
      have hsl : s.2.length = X.cols + 1 := by rw [← hl, hb]
      have h00 : s.2[0]? = some XR.nan := by
        have : 0 < s.2.length := by omega
        rw [List.getElem?_eq_getElem this, hnan _ (List.getElem_mem this)]
      have hfs : fsum ((List.zipWith Scalar.sub beta s.2).map Scalar.abs) = XR.nan := by
        apply fsum_nan_mem
        refine List.mem_map.mpr ⟨XR.nan, ?_, rfl⟩
        rw [List.mem_iff_getElem?]
        refine ⟨0, ?_⟩
        rw [List.getElem?_zipWith, h00, List.getElem?_eq_getElem (by omega : 0 < beta.length)]
        exact congrArg some (xr_add_nan _)
      rw [hfs, if_neg (by exact Bool.false_ne_true)] at h
      obtain ⟨u, hu, h⟩ := bind_eq_ok.mp h
      obtain ⟨z', -, h⟩ := bind_eq_ok.mp h
      have hun : u = List.replicate X.rows.length XR.nan := by
        unfold Mat.mulVec at hu
        split at hu
        · cases hu
          rw [List.map_map]
          rw [List.eq_replicate_iff]
          refine ⟨by simp, fun v hv => ?_⟩
          obtain ⟨r, -, rfl⟩ := List.mem_map.mp hv
          exact dot_nan_right h00 (by simp)
        · cases hu
      change (ok (u.map l.funcInv) >>= _) = ok b at h
      rw [ok_bind] at h
      refine loop_nan hinv l V hN hW hX hiX k _ _ _ ?_ hsl (fun _ => hnan) h
      rw [hun]
      simp only [List.map_replicate, hN, hW]
      rw [List.getElem?_replicate, if_pos hiX]
    · cases hd

/-- Training with a target at which the working weight is not a number. -/
theorem train_nan {inverse : Mat XR → Outcome (Mat XR)} (hinv : ∀ A B, inverse A = ok B → B.WF) (l : LinkFn XR) (V : XR → XR)
    (hN : l.funcInv XR.nan = XR.nan) (hW : Scalar.one /. (V XR.nan *. l.funcGrad XR.nan *. l.funcGrad XR.nan) = XR.nan) (X : Mat XR) (hX : X.WF) (y : List XR)
    {t : XR} (ht : t ∈ y) (hT : Scalar.one /. (V t *. l.funcGrad t *. l.funcGrad t) = XR.nan) {b : List XR}
    (h : (GlmCriterion.ofLink l V).train inverse X y = ok b) : b.length = X.cols + 1 ∧ ∀ v ∈ b, v = XR.nan := by
  unfold GlmCriterion.train at h
  by_cases hn : X.rows.length ≠ y.length
  · rw [if_pos hn] at h; cases h
  · rw [if_neg hn, withOnes, hcat_ones] at h
    obtain ⟨i, hi⟩ := List.mem_iff_getElem?.mp ht
    refine loop_nan hinv l V hN hW hX (i := i) ?_ 8 y y _ ?_ (by simp) (fun h => by omega) h
    · rw [not_not.mp hn]
      exact (List.getElem?_eq_some_iff.mp hi).1
    · rw [List.getElem?_map, hi, Option.map_some, hT]

/-- **C127 (exception).** The defaults start from the targets. With the log link and the mean as variance, one target that is zero, and with
the logit link and the variance `m (1 - m)`, one target that is zero or one, leaves no number in the result: `train` panics or reports
success with parameters that are all `NaN`, whatever the inverse returns. (The built-in families override the starting means.) -/
theorem C127_ends_violation {inverse : Mat XR → Outcome (Mat XR)} (hinv : ∀ A B, inverse A = ok B → B.WF) (X : Mat XR) (hX : X.WF) (y b : List XR) :
    (XR.fin 0 ∈ y → (GlmCriterion.ofLink logLink fun m => m).train inverse X y = ok b → b.length = X.cols + 1 ∧ ∀ v ∈ b, v = XR.nan) ∧
      ((XR.fin 0 ∈ y ∨ XR.fin 1 ∈ y) → (GlmCriterion.ofLink logitLink fun m => m *. (Scalar.one -. m)).train inverse X y = ok b →
        b.length = X.cols + 1 ∧ ∀ v ∈ b, v = XR.nan) := by
  refine ⟨fun ht h => train_nan hinv _ _ rfl rfl X hX y ht ?_ h, fun ht h => ?_⟩
  · simp [logLink, XR.infOf, Scalar.mul, XR.mul, Scalar.div, XR.div]
  · rcases ht with ht | ht
    · refine train_nan hinv _ _ rfl rfl X hX y ht ?_ h
      simp [logitLink, XR.infOf, Scalar.mul, XR.mul, Scalar.div, XR.div, Scalar.sub, Scalar.add, XR.add, XR.neg]
    · refine train_nan hinv _ _ rfl rfl X hX y ht ?_ h
      simp [logitLink, XR.infOf, Scalar.mul, XR.mul, Scalar.div, XR.div, Scalar.sub, Scalar.add, XR.add, XR.neg]

/-! ### The hypotheses are met -/

theorem glmPoints_independent : AffinelyIndependent ⟨1, [[0], [1], [3]]⟩ := by
  intro β hb h
  obtain ⟨a, b, rfl⟩ := List.length_eq_two.mp hb
  have h1 := h [0] (by simp)
  have h2 := h [1] (by simp)
  simp [affine, inner] at h1 h2
  subst h1
  have : b = 0 := by linarith
  subst this
  rfl

theorem glmPoints_WF : (⟨1, [[0], [1], [3]]⟩ : Mat ℝ).WF := by
  intro r hr
  simp at hr
  rcases hr with rfl | rfl | rfl <;> rfl

/-- A user's family: the log link with the square of the mean as variance (gamma regression). -/
example : ∃ β, (GlmCriterion.ofLink logLink fun m : ℝ => m * m).train (gaussInverse 0) ⟨1, [[0], [1], [3]]⟩ [1, 2, 5] = ok β ∧ β.length = 2 := by
  obtain ⟨β, h1, h2, -⟩ := C127_trains_partial (gaussInverse_exact 0 le_rfl) gaussInverse_regular logLink (fun m : ℝ => m * m) ⟨1, [[0], [1], [3]]⟩
    glmPoints_WF glmPoints_independent [1, 2, 5] rfl
    (fun s => ⟨mul_pos (Real.exp_pos s) (Real.exp_pos s), by simp [logLink, (Real.exp_pos s).ne']⟩)
    (by
      intro t ht
      simp at ht
      rcases ht with rfl | rfl | rfl <;> exact ⟨by norm_num, by simp [logLink]⟩)
  exact ⟨β, h1, h2⟩

/-- Parameters that solve the estimating equations of that family, and some that do not: the constant fit of `[2, 2, 2]` is `log 2`. -/
example : SolvesScore logLink (fun m : ℝ => m * m) ⟨1, [[0], [1], [3]]⟩ [2, 2, 2] [Real.log 2, 0] ∧
    ¬ SolvesScore logLink (fun m : ℝ => m * m) ⟨1, [[0], [1], [3]]⟩ [2, 2, 3] [Real.log 2, 0] := by
  have hm : ∀ x : List ℝ, meanAt logLink [Real.log 2, 0] x = 2 := by
    intro x
    have : affine [Real.log 2, 0] x = Real.log 2 := by cases x <;> simp [affine, inner]
    rw [meanAt, this]
    exact Real.exp_log (by norm_num)
  refine ⟨fun j hj => ?_, fun h => ?_⟩
  · simp [hm, Fin.sum_univ_three]
  · have := h 0 (Nat.zero_le _)
    simp only [hm] at this
    simp [Fin.sum_univ_three, logLink] at this
    norm_num at this

/-- Least squares with a variance of 3. -/
example : ∃ β, (GlmCriterion.ofLink identityLink fun _ : ℝ => 3).train (gaussInverse 0) ⟨1, [[0], [1], [3]]⟩ [1, 2, 5] = ok β := by
  obtain ⟨β, h1, -⟩ := C127_trains_partial (gaussInverse_exact 0 le_rfl) gaussInverse_regular identityLink (fun _ : ℝ => 3) ⟨1, [[0], [1], [3]]⟩
    glmPoints_WF glmPoints_independent [1, 2, 5] rfl (fun s => ⟨by norm_num, by simp [identityLink]⟩)
    (fun t _ => ⟨by norm_num, by simp [identityLink]⟩)
  exact ⟨β, h1⟩

/-- A criterion that drops a weight: `train` panics. -/
example : ({ GlmCriterion.ofLink identityLink (fun _ : ℝ => 1) with workingWeights := fun mu => some mu.tail } : GlmCriterion ℝ).train
    (gaussInverse 0) ⟨1, [[0], [1], [3]]⟩ [1, 2, 5] = Outcome.panic :=
  C127_lengths _ _ _ _ [1, 2, 5] [2, 5] rfl rfl rfl (by simp)

/-- The exception is reached: an inverse that returns a matrix of the right shape makes `train` succeed on a count that is zero. -/
example : ∃ b, (GlmCriterion.ofLink logLink fun m : XR => m).train (fun _ => ok ⟨1, [[XR.nan]]⟩) ⟨0, [[], []]⟩ [XR.fin 0, XR.fin 3] = ok b ∧
    b = [XR.nan] := by
  have h : ∃ b, (GlmCriterion.ofLink logLink fun m : XR => m).train (fun _ => ok ⟨1, [[XR.nan]]⟩) ⟨0, [[], []]⟩ [XR.fin 0, XR.fin 3] = ok b := by
    have hs : ∀ (n : ℕ) (mu z beta : List XR), mu.length = 2 → z.length = 2 → beta.length = 1 →
        ∃ b, (GlmCriterion.ofLink logLink fun m : XR => m).loop (fun _ => ok ⟨1, [[XR.nan]]⟩) ⟨1, [[XR.fin 1], [XR.fin 1]]⟩
          (Mat.transpose ⟨1, [[XR.fin 1], [XR.fin 1]]⟩) [XR.fin 0, XR.fin 3] n mu z beta = ok b := by
      intro n
      induction n with
      | zero => intro mu z beta _ _ _; exact ⟨beta, rfl⟩
      | succ n ih =>
        intro mu z beta h1 h2 h3
        obtain ⟨m1, m2, rfl⟩ := List.length_eq_two.mp h1
        obtain ⟨z1, z2, rfl⟩ := List.length_eq_two.mp h2
        obtain ⟨b1, rfl⟩ := List.length_eq_one_iff.mp h3
        rw [GlmCriterion.loop]
        have : ∃ p q r, (GlmCriterion.ofLink logLink fun m : XR => m).step (fun _ => ok ⟨1, [[XR.nan]]⟩) ⟨1, [[XR.fin 1], [XR.fin 1]]⟩
          (Mat.transpose ⟨1, [[XR.fin 1], [XR.fin 1]]⟩) [XR.fin 0, XR.fin 3] [m1, m2] [z1, z2] = ok ([p, q], [r]) := ⟨_, _, _, rfl⟩
        obtain ⟨p, q, r, e⟩ := this
        rw [e, ok_bind]
        have hv : vecZip Scalar.sub [b1] [r] = ok [b1 -. r] := rfl
        rw [hv, ok_bind]
        split
        · exact ⟨_, rfl⟩
        · exact ih _ _ _ rfl rfl rfl
    exact hs 8 [XR.fin 0, XR.fin 3] [XR.fin 0, XR.fin 3] [XR.fin 0] rfl rfl rfl
  obtain ⟨b, h⟩ := h
  obtain ⟨h1, h2⟩ := (C127_ends_violation (inverse := fun _ => ok ⟨1, [[XR.nan]]⟩) (by
    intro A B hB r hr
    cases hB
    simp at hr
    subst hr; rfl) ⟨0, [[], []]⟩ (by intro r hr; simp at hr; subst hr; rfl) [XR.fin 0, XR.fin 3] b).1 (by simp) h
  obtain ⟨v, rfl⟩ := List.length_eq_one_iff.mp h1
  exact ⟨[v], h, by rw [h2 v (by simp)]⟩

end RM
