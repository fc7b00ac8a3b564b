import Mathlib.Analysis.Complex.ExponentialBounds
import Verif.Props.GlmLik
import Verif.Props.AffineMaps

/-!
C67, C93: training a generalised linear model on targets which are their own starting means (positive counts for the Poisson
family, fractions strictly between 0 and 1 for the others). The working response starts at the means, not at their images under the
link; the adjustments are computed one pass late, so they are 0 in the first pass, and the second pass fits the fitted values of
the first again. Training therefore returns one weighted linear least squares fit of the targets themselves, to which `predict`
applies the inverse link.
-/

set_option linter.unusedSectionVars false

namespace RM
open Outcome Scalar Spec Matrix

theorem adjust_self (f : Family ℝ) (t : ℝ) : f.adjust t t = 0 := by
  cases f <;> simp [Family.adjust] <;> norm_num

theorem replicate_abs_sum (b : List ℝ) : fsum ((List.zipWith (Scalar.sub : ℝ → ℝ → ℝ) b b).map Scalar.abs) = 0 := by
  rw [fsum_real]
  induction b with
  | nil => simp
  | cons v b ih => rw [List.zipWith_cons_cons, List.map_cons, List.sum_cons, ih]; simp

/-- The parameters are those of the first pass. -/
theorem one_pass {inverse : Mat ℝ → Outcome (Mat ℝ)} (hi : InvertsExactly inverse) (f : Family ℝ) {X : Mat ℝ} (hX : X.WF) {y : List ℝ} {q : Option (List ℝ)}
    (hg : GoodWeights f X.rows.length) (hstart : ∀ t ∈ y, f.startMean t = t) {m : Glm ℝ} (h : Glm.train inverse ⟨f, q⟩ X y = ok m) :
    ∃ β w, m = ⟨f, some β⟩ ∧ y.length = X.rows.length ∧ β.length = X.cols + 1 ∧ f.workingWeight y = ok w ∧ w.length = X.rows.length ∧ (∀ v ∈ w, 0 < v) ∧
      (let A := toM X.rows.length (X.cols + 1) (fullOf X)
       (Aᵀ * diagonal (toV _ w) * A).mulVec (toV _ β) = (Aᵀ * diagonal (toV _ w)).mulVec (toV _ y) ∧ (Aᵀ * diagonal (toV _ w) * A).det ≠ 0) := by
  have hS := withOnes_shape hX
  unfold Glm.train at h
  by_cases hy : X.rows.length = y.length
  swap
  · rw [if_pos hy] at h; cases h
  rw [if_neg (by simp [hy]), withOnes_ok, ok_bind] at h
  have hmap : y.map f.startMean = y := (List.map_congr_left hstart).trans (List.map_id _)
  dsimp only at h
  rw [hmap] at h
  obtain ⟨b, hb, h⟩ := bind_eq_ok.mp h
  injection h with h
  subst h
  obtain ⟨w, w1, w2, w3⟩ := workingWeight_pos f y (fun t ht => by rw [← hstart t ht]; exact startMean_mem f t) (by rw [← hy]; exact hg)
  refine ⟨b, w, rfl, hy.symm, ?_⟩
  rw [irlsLoop] at hb
  obtain ⟨s, hs, hb⟩ := bind_eq_ok.mp hb
  obtain ⟨s1, s2, s3, s4⟩ := irlsStep_ok hi hS hy.symm hy.symm hy.symm w1 (w2.trans hy.symm) hs
  rw [vecZip_ok _ (n := X.cols + 1) (by simp) s2, ok_bind] at hb
  split at hb
  · injection hb with hb
    subst hb
    exact ⟨s2, w1, w2.trans hy.symm, w3, s3, s4⟩
  · obtain ⟨u, u1, u2, u3⟩ := mulVec_toV hS s2
    have hs1 : s.1.length = X.rows.length := by rw [s1]; simp [hy]
    rw [u1, ok_bind, vecZip_ok _ hs1 u2, ok_bind] at hb
    have hz : List.zipWith (Scalar.add : ℝ → ℝ → ℝ) s.1 u = u := by
      apply toV_inj (n := X.rows.length) (by simp [hs1, u2]) u2
      rw [toV_zipWith _ hs1 u2, s1, toV_zipWith _ hy.symm hy.symm]
      funext i
      show f.adjust _ _ + _ = _
      rw [adjust_self, zero_add]
    rw [hz, irlsLoop] at hb
    obtain ⟨w', x1, x2, -⟩ := workingWeight_pos f (u.map f.link.funcInv) (by
      intro v hv
      obtain ⟨t, -, rfl⟩ := List.mem_map.1 hv
      exact funcInv_mem f t) (by simpa [u2] using hg)
    obtain ⟨s', hs', hb⟩ := bind_eq_ok.mp hb
    obtain ⟨-, t2, t3, t4⟩ := irlsStep_ok hi hS hy.symm (by simpa using u2) u2 x1 (by simpa [u2] using x2) hs'
    have heq : s'.2 = s.2 := by
      apply toV_inj t2 s2
      rw [u3, Matrix.mulVec_mulVec] at t3
      have hu := isUnit_iff_ne_zero.mpr t4
      have := congrArg (((toM X.rows.length (X.cols + 1) (fullOf X))ᵀ * diagonal (toV _ w') * toM X.rows.length (X.cols + 1) (fullOf X))⁻¹.mulVec) t3
      rw [Matrix.mulVec_mulVec, Matrix.mulVec_mulVec] at this
      erw [Matrix.nonsing_inv_mul _ hu] at this
      simpa using this
    rw [vecZip_ok _ (n := X.cols + 1) s2 t2, ok_bind, heq, replicate_abs_sum, if_pos (by simp)] at hb
    injection hb with hb
    subst hb
    exact ⟨s2, w1, w2.trans hy.symm, w3, s3, s4⟩

/-- The solution of weighted normal equations is the strict minimum. -/
theorem weighted_minimum {X : Mat ℝ} (hX : X.WF) {y w β : List ℝ} (hy : y.length = X.rows.length) (hw : w.length = X.rows.length)
    (hpos : ∀ v ∈ w, 0 < v) (hb : β.length = X.cols + 1)
    (h1 : ((toM X.rows.length (X.cols + 1) (fullOf X))ᵀ * diagonal (toV _ w) * toM X.rows.length (X.cols + 1) (fullOf X)).mulVec (toV _ β) =
      ((toM X.rows.length (X.cols + 1) (fullOf X))ᵀ * diagonal (toV _ w)).mulVec (toV _ y))
    (h2 : ((toM X.rows.length (X.cols + 1) (fullOf X))ᵀ * diagonal (toV _ w) * toM X.rows.length (X.cols + 1) (fullOf X)).det ≠ 0)
    (c : List ℝ) (hc : c.length = X.cols + 1) (hne : c ≠ β) : weightedRss w X y β < weightedRss w X y c := by
  have hS : HasShape (fullOf X) X.rows.length (X.cols + 1) := withOnes_shape hX
  set A := toM X.rows.length (X.cols + 1) (fullOf X) with hA
  have hrow : ∀ (b : List ℝ), b.length = X.cols + 1 → ∀ i : Fin X.rows.length, affine b (X.rows.getD i []) = A.mulVec (toV _ b) i := by
    intro b hb i
    have hn : b ≠ [] := by intro h; rw [h] at hb; simp at hb
    rw [hA, mulVec_row hS hb, ← dot_inner]
    unfold fullOf
    rw [getD_map_lt _ _ [] _ _ i.2, dot_affine _ _ hn]
  have hwi : ∀ i : Fin X.rows.length, 0 < w.getD i 0 := by
    intro i
    have : (i : ℕ) < w.length := by rw [hw]; exact i.2
    rw [getD_lt 0 this]
    exact hpos _ (List.getElem_mem _)
  set d : Fin (X.cols + 1) → ℝ := toV _ c - toV _ β with hd
  have hcross : ∑ i : Fin X.rows.length, w.getD i 0 * (y.getD i 0 - A.mulVec (toV _ β) i) * A.mulVec d i = 0 := by
    have h0 : (Aᵀ * diagonal (toV _ w)).mulVec (toV _ y - A.mulVec (toV _ β)) = 0 := by
      rw [Matrix.mulVec_sub, Matrix.mulVec_mulVec, h1, sub_self]
    have := congrArg (fun v => d ⬝ᵥ v) h0
    rw [dotProduct_zero, ← Matrix.mulVec_mulVec, Matrix.dotProduct_mulVec, Matrix.vecMul_transpose] at this
    refine Eq.trans ?_ this
    simp only [dotProduct]
    apply Finset.sum_congr rfl
    intro i _
    rw [Matrix.mulVec_diagonal, Pi.sub_apply]
    show _ = _ * (w.getD i 0 * (y.getD i 0 - _))
    ring
  have hsplit : weightedRss w X y c = weightedRss w X y β + ∑ i : Fin X.rows.length, w.getD i 0 * (A.mulVec d i) ^ 2 := by
    unfold weightedRss
    have e : ∀ i : Fin X.rows.length, w.getD i 0 * (y.getD i 0 - affine c (X.rows.getD i [])) ^ 2 =
        w.getD i 0 * (y.getD i 0 - affine β (X.rows.getD i [])) ^ 2 + w.getD i 0 * (A.mulVec d i) ^ 2 -
          2 * (w.getD i 0 * (y.getD i 0 - A.mulVec (toV _ β) i) * A.mulVec d i) := by
      intro i
      rw [hrow c hc, hrow β hb, hd, Matrix.mulVec_sub, Pi.sub_apply]
      ring
    rw [Finset.sum_congr rfl fun i _ => e i, Finset.sum_sub_distrib, Finset.sum_add_distrib, ← Finset.mul_sum, hcross]
    ring
  rw [hsplit]
  have hnz : A.mulVec d ≠ 0 := by
    intro h0
    apply hne
    apply toV_inj hc hb
    rw [← sub_eq_zero]
    have : (Aᵀ * diagonal (toV _ w) * A).mulVec d = 0 := by rw [← Matrix.mulVec_mulVec, h0, Matrix.mulVec_zero]
    have hinj := Matrix.eq_zero_of_mulVec_eq_zero h2 this
    rw [hd] at hinj
    exact hinj
  obtain ⟨j, hj⟩ := Function.ne_iff.1 hnz
  have : 0 < ∑ i : Fin X.rows.length, w.getD i 0 * (A.mulVec d i) ^ 2 :=
    Finset.sum_pos' (fun i _ => mul_nonneg (hwi i).le (sq_nonneg _)) ⟨j, Finset.mem_univ _, mul_pos (hwi j) (by
      have : A.mulVec d j ≠ 0 := hj
      positivity)⟩
  linarith

/-- **C67 (partial).** Missing: the maximum of the likelihood, which is not what is computed. On independent features and targets
that are their own starting means - every count at least 1e-10 for Poisson, every fraction between 1e-10 and 1 - 1e-10 for Bernoulli
and Binomial - training returns exactly the weighted least squares fit of the linear predictor to the targets, whatever the link. -/
theorem C67_one_pass_partial {inverse : Mat ℝ → Outcome (Mat ℝ)} (hi : InvertsExactly inverse) (hr : InvertsRegular inverse) (f : Family ℝ) (X : Mat ℝ)
    (hX : X.WF) (hI : AffinelyIndependent X) (y : List ℝ) (hy : y.length = X.rows.length) (hg : GoodWeights f X.rows.length)
    (hstart : ∀ t ∈ y, f.startMean t = t) :
    ∃ β w, Glm.train inverse ⟨f, none⟩ X y = ok ⟨f, some β⟩ ∧ f.workingWeight y = ok w ∧ (∀ v ∈ w, 0 < v) ∧ β.length = X.cols + 1 ∧
      ∀ c : List ℝ, c.length = X.cols + 1 → c ≠ β → weightedRss w X y β < weightedRss w X y c := by
  obtain ⟨β, h1, h2⟩ := C52_train hi hr ⟨f, none⟩ X hX hI y hy hg
  obtain ⟨β', w, e, -, g1, g2, g3, g4, g5, g6⟩ := one_pass hi f hX hg hstart h1
  have : β = β' := by
    have := congrArg Glm.parameters e
    simpa using this
  subst this
  exact ⟨β, w, h1, g2, g4, h2, weighted_minimum hX hy g3 g4 g1 g5 g6⟩

/-- Positive counts are their own starting means. -/
theorem poisson_start {y : List ℝ} (h : ∀ t ∈ y, 1 / 10 ^ 10 ≤ t) : ∀ t ∈ y, (Family.poisson : Family ℝ).startMean t = t := by
  intro t ht
  have := h t ht
  simp only [Family.startMean, real_lt, real_ofRat, decide_eq_true_eq]
  rw [if_neg (by push_cast; linarith)]

/-- Fractions strictly between 0 and 1 are their own starting means. -/
theorem bernoulli_start {y : List ℝ} (h : ∀ t ∈ y, 1 / 10 ^ 10 ≤ t ∧ t ≤ 1 - 1 / 10 ^ 10) : ∀ t ∈ y, (Family.bernoulli : Family ℝ).startMean t = t := by
  intro t ht
  unfold Family.startMean
  obtain ⟨h1, h2⟩ := h t ht
  simp only [real_lt, real_ofRat, real_sub, real_one, decide_eq_true_eq]
  rw [if_neg (by push_cast; linarith), if_neg (by push_cast; linarith)]

/-- **C67 (violation, Poisson).** Counts 1 and 2 at the points 0 and 1: the parameters `[0, ln 2]` predict them exactly, but training
returns `[1, 1]`, which predicts `e` and `e²` and is less likely. -/
theorem C67_poisson_violation {inverse : Mat ℝ → Outcome (Mat ℝ)} (hi : InvertsExactly inverse) (hr : InvertsRegular inverse) :
    Glm.train inverse ⟨.poisson, none⟩ ⟨1, [[0], [1]]⟩ [1, 2] = ok ⟨.poisson, some [1, 1]⟩ ∧
    Glm.predict ⟨.poisson, some [1, 1]⟩ ⟨1, [[0], [1]]⟩ = ok [Real.exp 1, Real.exp 2] ∧
    Glm.predict ⟨.poisson, some [0, Real.log 2]⟩ ⟨1, [[0], [1]]⟩ = ok [1, 2] ∧
    logLik .poisson ⟨1, [[0], [1]]⟩ [1, 2] [1, 1] < logLik .poisson ⟨1, [[0], [1]]⟩ [1, 2] [0, Real.log 2] := by
  have hX : (⟨1, [[0], [1]]⟩ : Mat ℝ).WF := by intro r hr; simp at hr; rcases hr with rfl | rfl <;> rfl
  have hI : AffinelyIndependent (⟨1, [[0], [1]]⟩ : Mat ℝ) := by
    intro β hb h
    obtain ⟨a, b, rfl⟩ := List.length_eq_two.mp hb
    have h1 := h [0] (by simp)
    have h2 := h [1] (by simp)
    simp [affine, Spec.inner] at h1 h2
    subst h1
    have hb0 : b = 0 := by linarith
    subst hb0
    rfl
  obtain ⟨β, w, h1, h2, h3, h4, h5⟩ := C67_one_pass_partial hi hr .poisson _ hX hI [1, 2] rfl trivial (poisson_start (by
    intro t ht; simp at ht; rcases ht with rfl | rfl <;> norm_num))
  have hw : w = [1, 2] := by
    have : ok [1, 2] = ok w := h2
    injection this with this
    exact this.symm
  subst hw
  have hb : β = [1, 1] := by
    by_contra hne
    have := h5 [1, 1] rfl (fun h => hne h.symm)
    have h0 : weightedRss [1, 2] ⟨1, [[0], [1]]⟩ [1, 2] [1, 1] = 0 := by
      unfold weightedRss
      show ∑ i : Fin 2, _ = _
      rw [Fin.sum_univ_two]
      simp [affine, Spec.inner]
      norm_num
    rw [h0] at this
    have hnn : 0 ≤ weightedRss [1, 2] ⟨1, [[0], [1]]⟩ [1, 2] β := by
      unfold weightedRss
      show 0 ≤ ∑ i : Fin 2, _
      rw [Fin.sum_univ_two]
      simp
      positivity
    linarith
  subst hb
  have hp : ∀ (a b : ℝ), Glm.predict ⟨.poisson, some [a, b]⟩ ⟨1, [[0], [1]]⟩ = ok [Real.exp a, Real.exp (a + b)] := by
    intro a b
    unfold Glm.predict
    dsimp only
    rw [withOnes_ok, ok_bind]
    simp only [List.map_cons, List.map_nil]
    rw [mulVec_two, ok_bind]
    simp [Family.link, logLink]
  refine ⟨h1, ?_, ?_, ?_⟩
  · rw [hp]; norm_num
  · rw [hp, zero_add, Real.exp_zero, Real.exp_log (by norm_num)]
  · unfold logLik
    simp only [List.zipWith_cons_cons, List.zipWith_nil_left, List.sum_cons, List.sum_nil, sampleLogLik, affine, Spec.inner, List.headD_cons, List.tail_cons]
    norm_num
    have e1 : (2.7 : ℝ) < Real.exp 1 := by have := Real.exp_one_gt_d9; linarith
    have e2 : Real.exp 2 = Real.exp 1 * Real.exp 1 := by rw [← Real.exp_add]; norm_num
    have e3 : 0 < Real.log 2 := Real.log_pos (by norm_num)
    rw [e2, Real.exp_log (by norm_num)]
    nlinarith

/-- **C93 (partial).** Missing: targets at the ends of their range, for which it is false (`C93_violation`). For targets that are
their own starting means no change of the units of the features changes the predictions. -/
theorem C93_interior_partial {inverse : Mat ℝ → Outcome (Mat ℝ)} (hi : InvertsExactly inverse) (hr : InvertsRegular inverse) (f : Family ℝ) (X : Mat ℝ)
    (hX : X.WF) (hI : AffinelyIndependent X) (y : List ℝ) (hy : y.length = X.rows.length) (hg : GoodWeights f X.rows.length)
    (hstart : ∀ t ∈ y, f.startMean t = t) {φ : List ℝ → List ℝ} (hφ : InvertibleAffine X.cols φ) :
    ∃ m m', Glm.train inverse ⟨f, none⟩ X y = ok m ∧ Glm.train inverse ⟨f, none⟩ (mapRows φ X) y = ok m' ∧
      ∀ Z : Mat ℝ, Z.WF → Z.cols = X.cols → ∃ p, m.predict Z = ok p ∧ m'.predict (mapRows φ Z) = ok p := by
  obtain ⟨β, w, h1, h2, h3, h4, h5⟩ := C67_one_pass_partial hi hr f X hX hI y hy hg hstart
  obtain ⟨β', w', g1, g2, g3, g4, g5⟩ := C67_one_pass_partial hi hr f (mapRows φ X) (mapRows_wf hX hφ) (independent_mapRows hX hφ hI) y
    (by simpa [mapRows] using hy) (by simpa [mapRows] using hg) hstart
  rw [h2] at g2
  injection g2 with g2
  subst g2
  replace g4 : β'.length = X.cols + 1 := g4
  refine ⟨_, _, h1, g1, ?_⟩
  obtain ⟨pull, push, p1, p2, p3, p4⟩ := affine_pullback hφ
  have hrss : ∀ b : List ℝ, b.length = X.cols + 1 → weightedRss w (mapRows φ X) y b = weightedRss w X y (pull b) := by
    intro b hb
    unfold weightedRss
    have hl : (mapRows φ X).rows.length = X.rows.length := by simp [mapRows]
    rw [← Equiv.sum_comp (finCongr hl.symm)]
    apply Finset.sum_congr rfl
    intro i _
    show w.getD i 0 * (y.getD i 0 - affine b ((X.rows.map φ).getD i [])) ^ 2 = _
    rw [getD_map_lt _ _ [] _ _ i.2, p4 b _ hb (by rw [getD_lt _ i.2]; exact hX _ (List.getElem_mem _))]
  have heq : pull β' = β := by
    by_contra hne
    have a1 := h5 _ (p1 β') hne
    have a2 := g5 (push β) (p2 β) (fun hc => hne (by rw [← hc]; exact (p3 β h4).1))
    rw [hrss _ g4, hrss _ (p2 β), (p3 β h4).1] at a2
    exact lt_asymm a1 a2
  have hpred : ∀ (b : List ℝ) (Z : Mat ℝ), b.length = Z.cols + 1 → Z.WF → Glm.predict ⟨f, some b⟩ Z = ok (Z.rows.map fun z => f.link.funcInv (affine b z)) := by
    intro b Z hb hZ
    have := C48_predict b Z hb
    unfold LinReg.predict at this
    unfold Glm.predict
    simp only at this ⊢
    obtain ⟨u, u1, u2⟩ := bind_eq_ok.1 this
    rw [u1, ok_bind, u2, ok_bind, List.map_map]
    rfl
  intro Z hZ hc
  refine ⟨_, hpred β Z (by rw [h4, hc]) hZ, ?_⟩
  rw [hpred β' (mapRows φ Z) (by show β'.length = Z.cols + 1; rw [g4, hc]) (mapRows_wf hZ (by rw [hc]; exact hφ))]
  congr 1
  unfold mapRows
  rw [List.map_map]
  apply List.map_congr_left
  intro z hz
  rw [Function.comp, p4 β' z g4 (by rw [hZ z hz, hc]), heq]

/-- The violation with Gaussian elimination. -/
example : Glm.train (gaussInverse (0 : ℝ)) ⟨.poisson, none⟩ ⟨1, [[0], [1]]⟩ [1, 2] = ok ⟨.poisson, some [1, 1]⟩ :=
  (C67_poisson_violation (gaussInverse_exact 0 le_rfl) gaussInverse_regular).1

/-- Counts 1 and 2 at temperatures in Celsius and Fahrenheit. -/
example : ∃ m m', Glm.train (gaussInverse (0 : ℝ)) ⟨.poisson, none⟩ (unitsPair 1) [1, 2] = ok m ∧
    Glm.train (gaussInverse (0 : ℝ)) ⟨.poisson, none⟩ (mapRows (rescaleRow (fun _ => 9 / 5) (fun _ => 32)) (unitsPair 1)) [1, 2] = ok m' := by
  obtain ⟨m, m', h1, h2, -⟩ := C93_interior_partial (gaussInverse_exact 0 le_rfl) gaussInverse_regular .poisson (unitsPair 1)
    (by intro r hr; simp [unitsPair] at hr; rcases hr with rfl | rfl <;> rfl) (unitsPair_independent one_pos) [1, 2] rfl trivial
    (poisson_start (by intro t ht; simp at ht; rcases ht with rfl | rfl <;> norm_num))
    (C92_rescaling (fun _ => 9 / 5) (fun _ => 32) 1 (by intro j _; norm_num))
  exact ⟨m, m', h1, h2⟩

/-- Fractions. -/
example : ∀ t ∈ [(1 / 4 : ℝ), 1 / 2], (Family.bernoulli : Family ℝ).startMean t = t :=
  bernoulli_start (by intro t ht; simp at ht; rcases ht with rfl | rfl <;> norm_num)

end RM
