import Verif.Props.Encoding
import Verif.Props.Svm
import Verif.Props.RegDescent
import Verif.Props.GlmOnePass

/-!
C95 for the models of two classes: exchanging the two classes should exchange the predictions. Logistic regression, the Bernoulli
model and the support vector machine violate this.
-/

set_option linter.unusedSectionVars false

namespace RM
open Outcome Scalar Spec Matrix

/-! ### Logistic regression -/

theorem logistic_neg' (s : ℝ) : logistic (-s) = 1 - logistic s := by
  unfold logistic
  have h1 : 0 < Real.exp s := Real.exp_pos s
  rw [neg_neg, Real.exp_neg]
  field_simp
  ring

theorem logistic_half {s : ℝ} (h : 0 < s) : 1 / 2 < logistic s := by
  unfold logistic
  have h1 : Real.exp (-s) < 1 := by rw [Real.exp_lt_one_iff]; linarith
  rw [div_lt_div_iff₀ (by norm_num) (by positivity)]
  linarith

theorem inner_neg' (x w : List ℝ) : Spec.inner x (w.map fun v => -v) = -Spec.inner x w := by
  unfold Spec.inner
  induction x generalizing w with
  | nil => simp
  | cons a x ih =>
    cases w with
    | nil => simp
    | cons b w =>
      simp only [List.map_cons, List.zipWith_cons_cons, List.sum_cons, ih]
      ring

theorem crossEntropy_swap (X : Mat ℝ) (y w : List ℝ) :
    meanCrossEntropy X (y.map fun t => 1 - t) (w.map fun v => -v) = meanCrossEntropy X y w := by
  unfold meanCrossEntropy
  congr 1
  rw [List.zipWith_map_right]
  congr 2
  funext x t
  rw [inner_neg', logistic_neg', sub_sub_cancel, sub_sub_cancel]
  ring

theorem logGrad_swap (X : Mat ℝ) (y w : List ℝ) (hy : y.length = X.rows.length) :
    logGrad X (y.map fun t => 1 - t) (w.map fun v => -v) = (logGrad X y w).map fun v => -v := by
  unfold logGrad
  rw [List.map_ofFn]
  congr 1
  funext k
  have hw : toV X.cols (w.map fun v => -v) = -toV X.cols w := by
    funext i
    simp only [toV, Pi.neg_apply]
    by_cases hi : (i : ℕ) < w.length
    · rw [getD_lt _ (by simpa using hi), getD_lt _ hi, List.getElem_map]
    · rw [getD_ge _ (by simpa using hi), getD_ge _ (by simpa using hi), neg_zero]
  have hy' : ∀ i : Fin X.rows.length, toV X.rows.length (y.map fun t => 1 - t) i = 1 - toV X.rows.length y i := by
    intro i
    have hi : (i : ℕ) < y.length := by rw [hy]; exact i.2
    simp only [toV]
    rw [getD_lt _ (by simpa using hi), getD_lt _ hi, List.getElem_map]
  have : (fun i => logistic ((toM X.rows.length X.cols X).mulVec (toV X.cols (w.map fun v => -v)) i) - toV X.rows.length (y.map fun t => 1 - t) i) =
      -fun i => logistic ((toM X.rows.length X.cols X).mulVec (toV X.cols w) i) - toV X.rows.length y i := by
    funext i
    rw [hw, Matrix.mulVec_neg, Pi.neg_apply, logistic_neg', hy', Pi.neg_apply]
    ring
  rw [this, Matrix.mulVec_neg, Pi.neg_apply, Function.comp, neg_div]

theorem gdLoop_neg (alpha : ℝ) {g g' : List ℝ → Outcome (ℝ × List ℝ)} {len : ℕ}
    (hg : ∀ w, w.length = len → ∃ c d, g w = ok (c, d) ∧ d.length = len ∧ g' (w.map fun v => -v) = ok (c, d.map fun v => -v)) :
    ∀ (n : ℕ) (w : List ℝ) (prev : ℝ), w.length = len → ∃ r, (gdLoop alpha g n w prev).out = ok r ∧ r.length = len ∧
      (gdLoop alpha g' n (w.map fun v => -v) prev).out = ok (r.map fun v => -v)
  | 0, w, prev, hw => ⟨w, rfl, hw, rfl⟩
  | n + 1, w, prev, hw => by
    obtain ⟨c, d, h1, h2, h3⟩ := hg w hw
    rw [gdLoop, gdLoop, h1, h3]
    by_cases hs : (Scalar.abs (prev -. c) <. (learningEps : ℝ)) = true
    · refine ⟨w, ?_, hw, ?_⟩
      · show (if _ then _ else _ : Logged _ _).out = _
        simp only
        rw [if_pos hs]
        rfl
      · show (if _ then _ else _ : Logged _ _).out = _
        simp only
        rw [if_pos hs]
        rfl
    · have e1 : vecZip Scalar.sub w (vecScale d alpha) = ok (List.zipWith (fun a b => a - b * alpha) w d) := by
        unfold vecZip vecScale
        rw [if_pos (by simp [hw, h2]), List.zipWith_map_right]
        rfl
      have e2 : vecZip Scalar.sub (w.map fun v => -v) (vecScale (d.map fun v => -v) alpha) =
          ok ((List.zipWith (fun a b => a - b * alpha) w d).map fun v => -v) := by
        unfold vecZip vecScale
        rw [if_pos (by simp [hw, h2]), List.map_map, List.zipWith_map_left, List.zipWith_map_right, List.map_zipWith]
        congr 2
        funext a b
        simp only [Function.comp, real_sub, real_mul]
        ring
      obtain ⟨r, r1, r2, r3⟩ := gdLoop_neg alpha hg n (List.zipWith (fun a b => a - b * alpha) w d) c (by simp [hw, h2])
      refine ⟨r, ?_, r2, ?_⟩
      · rw [← r1]
        show (if _ then _ else _ : Logged _ _).out = _
        simp only
        rw [if_neg hs, e1]
        rfl
      · rw [← r3]
        show (if _ then _ else _ : Logged _ _).out = _
        simp only
        rw [if_neg hs, e2]
        rfl

/-- **C95 (logistic regression, partial).** Missing: the starting point of `train`, for which it is false (`C95_logistic_violation`).
Started from opposite parameters, gradient descent on the exchanged targets ends with opposite parameters, and these give the
complementary probability to every point. -/
theorem C95_logistic_partial (o : GradientDesc ℝ) (X : Mat ℝ) (hX : X.WF) (y : List ℝ) (hy : y.length = X.rows.length) (start : List ℝ)
    (hs : start.length = X.cols) :
    ∃ w, (o.optimize (fun w => logComputeGrad w X y) start).out = ok w ∧
      (o.optimize (fun w => logComputeGrad w X (y.map fun t => 1 - t)) (start.map fun v => -v)).out = ok (w.map fun v => -v) ∧
      ∀ x, logistic (Spec.inner x (w.map fun v => -v)) = 1 - logistic (Spec.inner x w) := by
  obtain ⟨w, h1, -, h3⟩ := gdLoop_neg o.alpha (g := fun w => logComputeGrad w X y) (g' := fun w => logComputeGrad w X (y.map fun t => 1 - t)) (len := X.cols) (by
    intro w hw
    refine ⟨_, _, logComputeGrad_eq X hX y w hy hw, by simp [logGrad], ?_⟩
    beta_reduce
    rw [logComputeGrad_eq X hX _ _ (by simpa using hy) (by simpa using hw), crossEntropy_swap, logGrad_swap X y w hy]) o.iters start Scalar.zero hs
  exact ⟨w, h1, h3, fun x => by rw [inner_neg', logistic_neg']⟩

/-- Two samples with a column of ones, started from the parameters `train` starts from and from their opposites. -/
example (o : GradientDesc ℝ) : ∃ w, (o.optimize (fun w => logComputeGrad w ⟨2, [[1, 3], [1, -2]]⟩ [1, 0]) [1 / 2, 1 / 2]).out = ok w ∧
    (o.optimize (fun w => logComputeGrad w ⟨2, [[1, 3], [1, -2]]⟩ ([1, 0].map fun t => 1 - t)) ([1 / 2, 1 / 2].map fun v => -v)).out = ok (w.map fun v => -v) := by
  obtain ⟨w, h1, h2, -⟩ := C95_logistic_partial o ⟨2, [[1, 3], [1, -2]]⟩ (by simp [Mat.WF]) [1, 0] rfl [1 / 2, 1 / 2] rfl
  exact ⟨w, h1, h2⟩

theorem gdLoop_inv (alpha : ℝ) {g : List ℝ → Outcome (ℝ × List ℝ)} {P : List ℝ → Prop}
    (hg : ∀ w, P w → ∃ c d w', g w = ok (c, d) ∧ vecZip Scalar.sub w (vecScale d alpha) = ok w' ∧ P w') :
    ∀ (n : ℕ) (w : List ℝ) (prev : ℝ), P w → ∃ r, (gdLoop alpha g n w prev).out = ok r ∧ P r
  | 0, w, prev, hw => ⟨w, rfl, hw⟩
  | n + 1, w, prev, hw => by
    obtain ⟨c, d, w', h1, h2, h3⟩ := hg w hw
    rw [gdLoop, h1]
    by_cases hs : (Scalar.abs (prev -. c) <. (learningEps : ℝ)) = true
    · refine ⟨w, ?_, hw⟩
      show (if _ then _ else _ : Logged _ _).out = _
      simp only
      rw [if_pos hs]
      rfl
    · obtain ⟨r, r1, r2⟩ := gdLoop_inv alpha hg n w' c h3
      refine ⟨r, ?_, r2⟩
      rw [← r1]
      show (if _ then _ else _ : Logged _ _).out = _
      simp only
      rw [if_neg hs, h2]
      rfl

/-- Training on a feature that is always 0 leaves its weight at 1/2. -/
theorem logistic_zero_feature (o : GradientDesc ℝ) (n : ℕ) (y : List ℝ) (hy : y.length = n) :
    ∃ a, LogReg.train (fun g s => (o.optimize g s).out) ⟨1, List.replicate n [0]⟩ y = ok ⟨some [a, 1 / 2]⟩ := by
  have hX : (⟨2, List.replicate n [1, 0]⟩ : Mat ℝ).WF := by
    intro r hr
    rw [List.eq_of_mem_replicate hr]
    rfl
  obtain ⟨r, r1, a, rfl⟩ := gdLoop_inv o.alpha (g := fun w => logComputeGrad w ⟨2, List.replicate n [1, 0]⟩ y) (P := fun w => ∃ a : ℝ, w = [a, 1 / 2]) (by
    rintro w ⟨a, rfl⟩
    have hz : ∃ b, logGrad ⟨2, List.replicate n [1, 0]⟩ y [a, 1 / 2] = [b, 0] := by
      unfold logGrad
      rw [List.ofFn_succ, List.ofFn_succ, List.ofFn_zero]
      refine ⟨_, List.cons_eq_cons.2 ⟨rfl, List.cons_eq_cons.2 ⟨?_, rfl⟩⟩⟩
      rw [div_eq_zero_iff]
      left
      unfold Matrix.mulVec dotProduct
      apply Finset.sum_eq_zero
      intro i _
      have hi : (i : ℕ) < n := by have := i.2; simpa using this
      simp [Matrix.transpose, toM, ent, hi]
    obtain ⟨b, hb⟩ := hz
    refine ⟨_, _, [a - b * o.alpha, 1 / 2], logComputeGrad_eq _ hX y _ (by simpa using hy) rfl, ?_, _, rfl⟩
    rw [hb]
    simp [vecZip, vecScale]) o.iters [1 / 2, 1 / 2] Scalar.zero ⟨1 / 2, rfl⟩
  refine ⟨a, ?_⟩
  unfold LogReg.train
  rw [withOnes_ok, ok_bind]
  simp only [List.map_replicate]
  have e : (List.replicate (1 + 1) (Scalar.ofRat (1 / 2)) : List ℝ) = [1 / 2, 1 / 2] := by simp [List.replicate]
  rw [e]
  have : (o.optimize (fun w => logComputeGrad w ⟨1 + 1, List.replicate n [1, 0]⟩ y) [1 / 2, 1 / 2]).out = ok [a, 1 / 2] := r1
  rw [this, ok_bind]

theorem logReg_predict_one (a b x : ℝ) : LogReg.predict ⟨some [a, b]⟩ ⟨1, [[x]]⟩ = ok [logistic (a + x * b)] := by
  unfold LogReg.predict
  dsimp only
  rw [withOnes_ok, ok_bind]
  unfold Mat.mulVec
  rw [if_pos (by rfl)]
  simp [dot_real, sigmoid, logistic]

/-- **C95 violated (logistic regression).** Training samples whose only feature is 0, with any targets and any settings of gradient
descent: the weight of the feature keeps its starting value 1/2 under both encodings, and all points from some `x` on are assigned
with more than even probability to the class called 1, whichever of the two that is. -/
theorem C95_logistic_violation (o : GradientDesc ℝ) (n : ℕ) (y : List ℝ) (hy : y.length = n) :
    ∃ m m', LogReg.train (fun g s => (o.optimize g s).out) ⟨1, List.replicate n [0]⟩ y = ok m ∧
      LogReg.train (fun g s => (o.optimize g s).out) ⟨1, List.replicate n [0]⟩ (y.map fun t => 1 - t) = ok m' ∧
      ∃ x0 : ℝ, ∀ x, x0 < x → ∃ p p', m.predict ⟨1, [[x]]⟩ = ok [p] ∧ m'.predict ⟨1, [[x]]⟩ = ok [p'] ∧ 1 / 2 < p ∧ 1 / 2 < p' := by
  obtain ⟨a, ha⟩ := logistic_zero_feature o n y hy
  obtain ⟨b, hb⟩ := logistic_zero_feature o n (y.map fun t => 1 - t) (by simpa using hy)
  refine ⟨_, _, ha, hb, 2 * max (-a) (-b), ?_⟩
  intro x hx
  have h1 := le_max_left (-a) (-b)
  have h2 := le_max_right (-a) (-b)
  exact ⟨_, _, logReg_predict_one _ _ _, logReg_predict_one _ _ _, logistic_half (by linarith), logistic_half (by linarith)⟩

/-! ### The Bernoulli model -/

theorem two_point_fit {inverse : Mat ℝ → Outcome (Mat ℝ)} (hi : InvertsExactly inverse) (hr : InvertsRegular inverse) (s t : ℝ)
    (hs : 1 / 10 ^ 10 ≤ s ∧ s ≤ 1 - 1 / 10 ^ 10) (ht : 1 / 10 ^ 10 ≤ t ∧ t ≤ 1 - 1 / 10 ^ 10) :
    Glm.train inverse ⟨.bernoulli, none⟩ ⟨1, [[0], [1]]⟩ [s, t] = ok ⟨.bernoulli, some [s, t - s]⟩ := by
  have hX : (⟨1, [[0], [1]]⟩ : Mat ℝ).WF := by intro r hr; simp at hr; rcases hr with rfl | rfl <;> rfl
  have hI : AffinelyIndependent (⟨1, [[0], [1]]⟩ : Mat ℝ) := by
    intro β hb h
    obtain ⟨a, b, rfl⟩ := List.length_eq_two.mp hb
    have h1 := h [0] (by simp)
    have h2 := h [1] (by simp)
    simp [affine, Spec.inner] at h1 h2
    subst h1
    have hb0 : b = 0 := by linarith
    subst hb0
    rfl
  obtain ⟨β, w, h1, h2, h3, h4, h5⟩ := C67_one_pass_partial hi hr .bernoulli _ hX hI [s, t] rfl trivial (bernoulli_start (by
    intro v hv
    simp only [List.mem_cons, List.not_mem_nil, or_false] at hv
    rcases hv with rfl | rfl
    · exact hs
    · exact ht))
  have hb : β = [s, t - s] := by
    by_contra hne
    have := h5 [s, t - s] rfl (fun h => hne h.symm)
    have h0 : weightedRss w ⟨1, [[0], [1]]⟩ [s, t] [s, t - s] = 0 := by
      unfold weightedRss
      show ∑ i : Fin 2, _ = _
      rw [Fin.sum_univ_two]
      simp [affine, Spec.inner]
    rw [h0] at this
    have hnn : 0 ≤ weightedRss w ⟨1, [[0], [1]]⟩ [s, t] β := by
      unfold weightedRss
      apply Finset.sum_nonneg
      intro i _
      refine mul_nonneg ?_ (sq_nonneg _)
      by_cases hl : (i : ℕ) < w.length
      · rw [getD_lt _ hl]
        exact (h3 _ (List.getElem_mem hl)).le
      · rw [getD_ge _ (by simpa using hl)]
    linarith
  rw [h1, hb]

theorem bernoulli_predict_two (a b : ℝ) : Glm.predict ⟨.bernoulli, some [a, b]⟩ ⟨1, [[0], [1]]⟩ = ok [logistic a, logistic (a + b)] := by
  unfold Glm.predict
  dsimp only
  rw [withOnes_ok, ok_bind]
  simp only [List.map_cons, List.map_nil]
  rw [mulVec_two, ok_bind]
  simp [Family.link, logitLink, logistic]

/-- **C95 violated (Bernoulli model).** Success rates 1/4 and 3/4 at the points 0 and 1. Counting successes or counting failures, the
trained model gives both points more than even odds. -/
theorem C95_glm_violation {inverse : Mat ℝ → Outcome (Mat ℝ)} (hi : InvertsExactly inverse) (hr : InvertsRegular inverse) :
    ∃ m m' p q p' q', Glm.train inverse ⟨.bernoulli, none⟩ ⟨1, [[0], [1]]⟩ [1 / 4, 3 / 4] = ok m ∧
      Glm.train inverse ⟨.bernoulli, none⟩ ⟨1, [[0], [1]]⟩ ([1 / 4, 3 / 4].map fun t => 1 - t) = ok m' ∧
      m.predict ⟨1, [[0], [1]]⟩ = ok [p, q] ∧ m'.predict ⟨1, [[0], [1]]⟩ = ok [p', q'] ∧ 1 / 2 < p ∧ 1 / 2 < q ∧ 1 / 2 < p' ∧ 1 / 2 < q' := by
  refine ⟨_, _, _, _, _, _, two_point_fit hi hr (1 / 4) (3 / 4) (by norm_num) (by norm_num),
    two_point_fit hi hr (1 - 1 / 4) (1 - 3 / 4) (by norm_num) (by norm_num), bernoulli_predict_two _ _, bernoulli_predict_two _ _,
    logistic_half (by norm_num), logistic_half (by norm_num), logistic_half (by norm_num), logistic_half (by norm_num)⟩

/-! ### The support vector machine -/

/-- **C95 violated (support vector machine).** The points 10 and 8 drawn in turn, linear kernel: whichever of the two is called 1 and
whichever -1, both are predicted -1. -/
theorem C95_svm_violation : ∃ m m' : Svm XR, badSvm.train id (finMat badX) (fins [1, -1]) = ok m ∧ badSvm.train id (finMat badX) (fins [-1, 1]) = ok m' ∧
    m.predict (finMat badX) = ok (fins [-1, -1]) ∧ m'.predict (finMat badX) = ok (fins [-1, -1]) := by
  have hX : badX.WF := by intro r hr; simp [badX] at hr; rcases hr with rfl | rfl <;> rfl
  have hk : FiniteKernel badSvm.ker (fun u v => rdot u v + 0) := C58_kernels.1 0
  have hn : badX.rows ≠ [] := by simp [badX]
  have hT : 0 < badSvm.optimIters := by change 0 < 100; norm_num
  have e0 : kernelMass (fun u v => rdot u v + 0) badX 0 = 182 := by
    simp [kernelMass, badX, lifted, rdot, Finset.sum_range_succ]; norm_num
  have e1 : kernelMass (fun u v => rdot u v + 0) badX 1 = 146 := by
    simp [kernelMass, badX, lifted, rdot, Finset.sum_range_succ]; norm_num
  -- the multipliers for any pair of targets
  have key : ∀ s t : ℝ, ∃ (m' : Svm XR) (a : ℕ → ℝ), badSvm.train id (finMat badX) (fins [s, t]) = ok m' ∧
      m'.predict (finMat badX) = ok (fins (badX.rows.map fun z => if 0 ≤ decision (fun u v => rdot u v + 0) 1 badX [s, t] a z then 1 else -1)) ∧
      (s = 1 → a 0 = 0) ∧ (t = 1 → a 1 = 0) ∧ (s = -1 → 0 < a 0) ∧ (t = -1 → 0 < a 1) := by
    intro s t
    have hy : ([s, t] : List ℝ).length = badX.rows.length := rfl
    obtain ⟨m', h1, h2, h3, h4, h5, h6⟩ := C68_multipliers_partial hk (lambda := 1) rfl one_pos hX hy hn hT id
    obtain ⟨a, ha⟩ : ∃ a : ℕ → ℝ, a = fun i => ((((Finset.range badSvm.optimIters).filter fun τ => id τ % badX.rows.length = i ∧ ([s, t] : List ℝ).getD i 0 *
        kernelMass (fun u v => rdot u v + 0) badX i < 1 * τ).card : ℝ) / badSvm.optimIters) := ⟨_, rfl⟩
    have h6' : m'.alpha = some ((List.range badX.rows.length).map fun i => XR.fin (a i)) := by rw [h6, ha]
    have hzero : ∀ i, 100 ≤ ([s, t] : List ℝ).getD i 0 * kernelMass (fun u v => rdot u v + 0) badX i → a i = 0 := by
      intro i hi
      rw [ha, div_eq_zero_iff]
      left
      rw [Nat.cast_eq_zero, Finset.card_eq_zero, Finset.filter_eq_empty_iff]
      intro τ hτ hcon
      have hτ' : τ < 100 := Finset.mem_range.mp hτ
      have htr : (τ : ℝ) < 100 := by exact_mod_cast hτ'
      have h := hcon.2
      linarith
    have hpos : ∀ i, i < 2 → ([s, t] : List ℝ).getD i 0 * kernelMass (fun u v => rdot u v + 0) badX i < 0 → 0 < a i := by
      intro i hi hneg
      rw [ha]
      apply div_pos
      · rw [Nat.cast_pos, Finset.card_pos]
        refine ⟨i, ?_⟩
        rw [Finset.mem_filter]
        refine ⟨Finset.mem_range.2 (by change i < 100; omega), ?_, ?_⟩
        · change i % 2 = i
          omega
        · have : (0 : ℝ) ≤ i := Nat.cast_nonneg i
          linarith
      · exact_mod_cast hT
    refine ⟨m', a, h1, svm_predict_fin (by rw [h2]; exact hk) h3 one_ne_zero hX hX rfl hy a h6' h4 h5, ?_, ?_, ?_, ?_⟩
    · rintro rfl; exact hzero 0 (by rw [e0]; norm_num)
    · rintro rfl; exact hzero 1 (by rw [e1]; norm_num)
    · rintro rfl; exact hpos 0 (by norm_num) (by rw [e0]; norm_num)
    · rintro rfl; exact hpos 1 (by norm_num) (by rw [e1]; norm_num)
  obtain ⟨m, a, a1, a2, a3, -, -, a6⟩ := key 1 (-1)
  obtain ⟨m', b, b1, b2, -, b4, b5, -⟩ := key (-1) 1
  replace a3 := a3 rfl
  replace a6 := a6 rfl
  replace b4 := b4 rfl
  replace b5 := b5 rfl
  refine ⟨m, m', a1, b1, ?_, ?_⟩
  · rw [a2]
    have d1 : decision (fun u v => rdot u v + 0) 1 badX [1, -1] a [10] = -81 * a 1 := by
      simp [decision, badX, lifted, rdot, Finset.sum_range_succ, a3]; ring
    have d2 : decision (fun u v => rdot u v + 0) 1 badX [1, -1] a [8] = -65 * a 1 := by
      simp [decision, badX, lifted, rdot, Finset.sum_range_succ, a3]; ring
    change ok (fins [ite _ _ _, ite _ _ _]) = _
    rw [d1, d2, if_neg (by linarith), if_neg (by linarith)]
  · rw [b2]
    have d1 : decision (fun u v => rdot u v + 0) 1 badX [-1, 1] b [10] = -101 * b 0 := by
      simp [decision, badX, lifted, rdot, Finset.sum_range_succ, b4]; ring
    have d2 : decision (fun u v => rdot u v + 0) 1 badX [-1, 1] b [8] = -81 * b 0 := by
      simp [decision, badX, lifted, rdot, Finset.sum_range_succ, b4]; ring
    change ok (fins [ite _ _ _, ite _ _ _]) = _
    rw [d1, d2, if_neg (by linarith), if_neg (by linarith)]

end RM
