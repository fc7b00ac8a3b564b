import Verif.Proofs.GmmOne
import Verif.Proofs.Transforms

/-! C54, C55, C70, C71, C72, C73: Gaussian mixture models, src/learning/gmm.rs. Exact arithmetic; the LU decomposition of the linear
algebra library is assumed to meet the contracts of Spec/Gmm, which `exactLup` meets. -/

namespace RM
open Outcome Scalar Spec Matrix

/-- A decomposition that meets the contracts. -/
noncomputable def exactLup (A : Mat ℝ) : Outcome (ℝ × Outcome (Mat ℝ)) :=
  open Classical in
  if (toM A.cols A.cols A).det = 0 then err .LinearAlgebra else ok ((toM A.cols A.cols A).det, gaussInverse 0 A)

theorem exactLup_exact : LupExact exactLup := by
  intro A n d inv hA h
  obtain rfl : A.cols = n := hA.2.1
  unfold exactLup at h
  split at h
  · cases h
  · injection h with h
    injection h with h1 h2
    refine ⟨h1.symm, fun B hB => ?_⟩
    rw [hB] at h2
    obtain ⟨h3, h4⟩ := gaussInverse_exact 0 le_rfl A B A.cols hA h2
    refine ⟨h3, ?_⟩
    obtain ⟨C, g1, g2, g3⟩ := mul_toM hA h3
    rw [g1] at h4
    injection h4 with h4
    rw [← g3, h4, toM_identity]

theorem exactLup_regular : LupRegular exactLup := by
  intro A n hA h
  obtain rfl : A.cols = n := hA.2.1
  obtain ⟨B, hB⟩ := gaussInverse_regular A A.cols hA ((fullColumnRank_det hA).mpr h)
  refine ⟨(toM A.cols A.cols A).det, B, ?_⟩
  unfold exactLup
  rw [if_neg h, hB]

theorem exactLup_singular : LupSingular exactLup := by
  intro A n hA h
  obtain rfl : A.cols = n := hA.2.1
  refine ⟨.LinearAlgebra, ?_⟩
  unfold exactLup
  rw [if_pos h]

/-! ### C54: weights -/

/-- A new model has equal weights with sum 1. -/
theorem C54_new (k : ℕ) (hk : 0 < k) :
    (Gmm.new k : Gmm ℝ).mixWeights = List.replicate k (1 / (k : ℝ)) ∧ (Gmm.new k : Gmm ℝ).mixWeights.sum = 1 ∧
      (Gmm.new k : Gmm ℝ).means = none ∧ (Gmm.new k : Gmm ℝ).covars = none ∧ (Gmm.new k : Gmm ℝ).maxIters = 100 ∧
      (Gmm.new k : Gmm ℝ).covOption = .full := by
  have hk' : (k : ℝ) ≠ 0 := by exact_mod_cast hk.ne'
  have h : (Gmm.new k : Gmm ℝ).mixWeights = List.replicate k (1 / (k : ℝ)) := by
    simp only [Gmm.new, List.map_replicate]
    rfl
  refine ⟨h, ?_, rfl, rfl, rfl, rfl⟩
  rw [h, List.sum_replicate, nsmul_eq_mul]
  field_simp

/-- `with_weights` accepts exactly `k` weights none of which is negative, and reports the others as `InvalidParameters`; a positive
total is normalised to 1 and the ratios are kept. -/
theorem C54_with_weights (k : ℕ) (ws : List ℝ) :
    ((ws.length = k ∧ ∀ w ∈ ws, 0 ≤ w) → ∃ m, Gmm.withWeights k ws = ok m ∧ m.compCount = k ∧ m.mixWeights = ws.map (· / ws.sum) ∧
      m.means = none ∧ m.covars = none ∧ m.maxIters = 100 ∧ m.covOption = .full ∧
      (0 < ws.sum → (∀ w ∈ m.mixWeights, 0 ≤ w) ∧ m.mixWeights.sum = 1)) ∧
    (¬ (ws.length = k ∧ ∀ w ∈ ws, 0 ≤ w) → Gmm.withWeights k ws = err .InvalidParameters) := by
  have hany : (ws.any fun x => Scalar.lt x Scalar.zero) = true ↔ ¬ ∀ w ∈ ws, 0 ≤ w := by
    simp only [List.any_eq_true, real_lt, real_zero, decide_eq_true_eq]
    push Not
    rfl
  constructor
  · rintro ⟨h1, h2⟩
    refine ⟨⟨k, ws.map (· / ws.sum), none, none, 0, 100, .full⟩, ?_, rfl, rfl, rfl, rfl, rfl, rfl, ?_⟩
    · unfold Gmm.withWeights
      rw [if_neg (by simpa using h1), if_neg (by rw [hany]; simpa using h2), fsum_real]
      rfl
    · intro hs
      refine ⟨?_, ?_⟩
      · intro w hw
        obtain ⟨v, hv, rfl⟩ := List.mem_map.mp hw
        exact div_nonneg (h2 v hv) hs.le
      · have : ∀ (l : List ℝ) (c : ℝ), (l.map (· / c)).sum = l.sum / c := by
          intro l c
          induction l with
          | nil => simp
          | cons a l ih => rw [List.map_cons, List.sum_cons, List.sum_cons, ih, add_div]
        show (ws.map (· / ws.sum)).sum = 1
        rw [this, div_self hs.ne']
  · intro h
    unfold Gmm.withWeights
    by_cases h1 : ws.length = k
    · rw [if_neg (by simpa using h1), if_pos (hany.mpr fun h2 => h ⟨h1, h2⟩)]
    · rw [if_pos h1]

example : ∃ m, Gmm.withWeights 3 [1, 1, (2 : ℝ)] = ok m ∧ m.mixWeights = [1 / 4, 1 / 4, 1 / 2] := by
  obtain ⟨m, h1, -, h2, -⟩ := (C54_with_weights 3 [1, 1, 2]).1 (by norm_num)
  exact ⟨m, h1, by rw [h2]; norm_num⟩

/-- With floating-point special values: weights with sum 0 are accepted, and every weight of the model is NaN. -/
theorem C54_zero_total_violation : ∃ m, Gmm.withWeights 2 [XR.fin 0, XR.fin 0] = ok m ∧ m.mixWeights = [XR.nan, XR.nan] := by
  refine ⟨⟨2, [XR.nan, XR.nan], none, none, .fin 0, 100, .full⟩, ?_, rfl⟩
  simp [Gmm.withWeights, fsum, XR.infOf, xr_div_zero]

/-- Whatever was done with a model, its weights are positive and their sum is 1. -/
theorem C54_weights {lup : Mat ℝ → Outcome (ℝ × Outcome (Mat ℝ))} (hl : LupExact lup) {m : Gmm ℝ} (h : GmmHistory lup m) :
    m.mixWeights.length = m.compCount ∧ (∀ w ∈ m.mixWeights, 0 < w) ∧ m.mixWeights.sum = 1 := by
  obtain ⟨k, w, -, h2, h3, h4, -⟩ := history_inv hl h
  rw [h2, h3]
  refine ⟨by simp, ?_, ?_⟩
  · intro v hv
    obtain ⟨j, rfl⟩ := (List.mem_ofFn' _ _).mp hv
    exact h4.1 j
  · rw [List.sum_ofFn]
    exact h4.2

/-- Whatever was done with a model, the predictions are the posterior probabilities of the components: positive, and with sum 1 for
every sample. -/
theorem C54_predict {lup : Mat ℝ → Outcome (ℝ × Outcome (Mat ℝ))} (hl : LupExact lup) {m : Gmm ℝ} (h : GmmHistory lup m) {n k d : ℕ}
    {w : Fin k → ℝ} {μ : Fin k → Fin d → ℝ} {S : Fin k → Matrix (Fin d) (Fin d) ℝ} (hm : HasParams m w μ S) {X P : Mat ℝ}
    (hX : HasShape X n d) (hp : m.predict lup X = ok P) :
    HasShape P n k ∧ (∀ j, PosDefinite (S j)) ∧ (∀ i j, toM n k P i j = posterior w μ S (toM n d X i) j) ∧
      (∀ i j, 0 < toM n k P i j) ∧ ∀ i, ∑ j, toM n k P i j = 1 := by
  obtain ⟨-, hw, hsemi⟩ := history_params hl h hm
  unfold Gmm.predict at hp
  rw [hm.2.2.1, hm.2.2.2] at hp
  simp only [] at hp
  obtain ⟨⟨P', l⟩, h1, h2⟩ := bind_eq_ok.mp hp
  injection h2 with h2
  subst h2
  rw [eq_ofM hX] at h1
  obtain ⟨h3, h4, -⟩ := memberships_ok hl hm h1
  have hS : ∀ j, PosDefinite (S j) := fun j => posSemi_posDef (hsemi j) (h3 j)
  have e : ∀ i j, toM n k P' i j = posterior w μ S (toM n d X i) j := by
    intro i j
    rw [h4, toM_ofM]
    rfl
  refine ⟨h4 ▸ ofM_shape _, hS, e, fun i j => ?_, fun i => ?_⟩
  · rw [e]
    exact (posterior_pos hw hS _).2.1 j
  · simp only [e]
    exact (posterior_pos hw hS _).2.2

/-- Predictions succeed when the covariances are regular, and an untrained model reports it. -/
theorem C54_predict_succeeds {lup : Mat ℝ → Outcome (ℝ × Outcome (Mat ℝ))} (hl : LupExact lup) (hr : LupRegular lup) {m : Gmm ℝ} {n k d : ℕ}
    {w : Fin k → ℝ} {μ : Fin k → Fin d → ℝ} {S : Fin k → Matrix (Fin d) (Fin d) ℝ} (hm : HasParams m w μ S) (hS : ∀ j, (S j).det ≠ 0)
    {X : Mat ℝ} (hX : HasShape X n d) : ∃ P, m.predict lup X = ok P := by
  refine ⟨ofM (Matrix.of fun i => posterior w μ S (toM n d X i)), ?_⟩
  unfold Gmm.predict
  rw [hm.2.2.1, hm.2.2.2]
  simp only []
  conv_lhs => rw [eq_ofM hX]
  rw [memberships_regular hl hr hm hS]
  rfl

theorem C54_untrained (lup : Mat ℝ → Outcome (ℝ × Outcome (Mat ℝ))) (k : ℕ) (X : Mat ℝ) :
    (Gmm.new k : Gmm ℝ).predict lup X = err .UntrainedModel := rfl

/-! ### C55: the iterations -/

/-- With no iterations every component starts at a different sample with the covariance of all samples. -/
theorem C55_start (lup : Mat ℝ → Outcome (ℝ × Outcome (Mat ℝ))) (draws : ℕ → ℕ) {m : Gmm ℝ} {n k d : ℕ} {w : Fin k → ℝ}
    (hk : m.compCount = k) (hw : m.mixWeights = List.ofFn w) {X : Mat ℝ} (hX : HasShape X n d) (hn : 2 ≤ n) (hkn : k ≤ n) :
    ∃ (σ : Fin k → Fin n) (m' : Gmm ℝ), Function.Injective σ ∧ (m.setMaxIters 0).train lup draws X = ok m' ∧
      HasParams m' w (fun j => toM n d X (σ j)) fun _ => startCov m.covOption (toM n d X) := by
  obtain ⟨σ, hσ, -, m0, h1, -, -, h4⟩ := train_start lup draws hk hw (toM n d X) hn hkn
  refine ⟨σ, m0.setMaxIters 0, hσ, ?_, h1⟩
  rw [eq_ofM hX, h4]
  rfl

/-- One more iteration: nothing changes because the iterations had stopped, or the weights, means and covariances are those of the
samples weighted by the predictions. -/
theorem C55_step {lup : Mat ℝ → Outcome (ℝ × Outcome (Mat ℝ))} (hl : LupExact lup) {draws : ℕ → ℕ} {m m1 m2 : Gmm ℝ} (hm : GmmHistory lup m)
    {n d t : ℕ} {X : Mat ℝ} (hX : HasShape X n d) (h1 : (m.setMaxIters t).train lup draws X = ok m1)
    (h2 : (m.setMaxIters (t + 1)).train lup draws X = ok m2) :
    ∃ (w w' : Fin m.compCount → ℝ) (μ μ' : Fin m.compCount → Fin d → ℝ) (S S' : Fin m.compCount → Matrix (Fin d) (Fin d) ℝ) (P : Mat ℝ),
      HasParams m1 w μ S ∧ HasParams m2 w' μ' S' ∧ m1.predict lup X = ok P ∧
      (w' = w ∧ μ' = μ ∧ S' = S ∨
        (∀ j, w' j = (∑ i, toM n m.compCount P i j) / n) ∧
        (∀ j, μ' j = weightedMean (toM n m.compCount P) (toM n d X) j) ∧
        ∀ j, S' j = optionCov m.covOption (toM n m.compCount P) (toM n d X) j) := by
  obtain ⟨k, w0, -, rfl, g3, g4, g5, -⟩ := history_inv hl hm
  rw [eq_ofM hX] at h1 h2 ⊢
  obtain ⟨w, μ, S, p1, -, p3, p4, p5⟩ := train_two hl rfl g3 g4 g5 h1 h2
  simp only [toM_ofM]
  rcases p5 with ⟨p5, -⟩ | ⟨p5, -⟩
  · exact ⟨w, w, μ, μ, S, S, _, p1, p5, p4, Or.inl ⟨rfl, rfl, rfl⟩⟩
  · refine ⟨w, _, μ, _, S, _, _, p1, p5, p4, Or.inr ?_⟩
    rw [toM_ofM]
    exact ⟨fun _ => rfl, fun _ => rfl, fun _ => rfl⟩

/-- The iterations stop only when the last one changed the logarithm of the likelihood by less than 1e-15. -/
theorem C55_stop {lup : Mat ℝ → Outcome (ℝ × Outcome (Mat ℝ))} (hl : LupExact lup) {draws : ℕ → ℕ} {m m0 m1 m2 : Gmm ℝ}
    (hm : GmmHistory lup m) {n d t : ℕ} {X : Mat ℝ} (hX : HasShape X n d) (h0 : (m.setMaxIters t).train lup draws X = ok m0)
    (h1 : (m.setMaxIters (t + 1)).train lup draws X = ok m1) (h2 : (m.setMaxIters (t + 2)).train lup draws X = ok m2)
    {w0 w1 w2 : Fin m.compCount → ℝ} {μ0 μ1 μ2 : Fin m.compCount → Fin d → ℝ} {S0 S1 S2 : Fin m.compCount → Matrix (Fin d) (Fin d) ℝ}
    (p0 : HasParams m0 w0 μ0 S0) (p1 : HasParams m1 w1 μ1 S1) (p2 : HasParams m2 w2 μ2 S2) :
    (∃ P, m1.predict lup X = ok P ∧ (∀ j, w2 j = (∑ i, toM n m.compCount P i j) / n) ∧
        (∀ j, μ2 j = weightedMean (toM n m.compCount P) (toM n d X) j) ∧
        ∀ j, S2 j = optionCov m.covOption (toM n m.compCount P) (toM n d X) j) ∨
      |logLikelihood w1 μ1 S1 (toM n d X) - logLikelihood w0 μ0 S0 (toM n d X)| < 1 / 10 ^ 15 := by
  obtain ⟨k, w, -, rfl, g3, g4, g5, -⟩ := history_inv hl hm
  rw [eq_ofM hX] at h0 h1 h2 ⊢
  obtain ⟨w, μ, S, q1, q2, q3, q4, q5⟩ := train_two hl rfl g3 g4 g5 h0 h1
  obtain ⟨rfl, rfl, rfl⟩ := hasParams_unique q1 p0
  obtain ⟨w', μ', S', r1, r2, r3, r4, r5⟩ := train_two hl rfl g3 g4 g5 h1 h2
  obtain ⟨rfl, rfl, rfl⟩ := hasParams_unique r1 p1
  simp only [toM_ofM]
  rcases r5 with ⟨r5, -, r6⟩ | ⟨r5, -⟩
  · right
    rcases q5 with ⟨q5, -⟩ | ⟨q5, q6⟩
    · obtain ⟨rfl, rfl, rfl⟩ := hasParams_unique q5 r1
      simp
    · have c1 := codeLik_eq (μ := μ') r2.mix r3 (toM n d X)
      have c2 := codeLik_eq (μ := μ) q2.mix q3 (toM n d X)
      have e : codeLik w' μ' S' (toM n d X) - m1.logLik = logLikelihood w' μ' S' (toM n d X) - logLikelihood w μ S (toM n d X) := by
        rw [q6]
        linarith
      rwa [e] at r6
  · left
    refine ⟨_, r4, ?_⟩
    obtain ⟨rfl, rfl, rfl⟩ := hasParams_unique r5 p2
    rw [toM_ofM]
    exact ⟨fun _ => rfl, fun _ => rfl, fun _ => rfl⟩

/-- After training, with any number of iterations, the means are within the range of the samples in every coordinate, and the
covariances are symmetric and positive semi-definite; positive definite with a positive regularisation constant. -/
theorem C55_trained {lup : Mat ℝ → Outcome (ℝ × Outcome (Mat ℝ))} (hl : LupExact lup) {draws : ℕ → ℕ} {m m' : Gmm ℝ} (hm : GmmHistory lup m)
    {n d : ℕ} {X : Mat ℝ} (hX : HasShape X n d) (h : m.train lup draws X = ok m') :
    ∃ (w : Fin m.compCount → ℝ) (μ : Fin m.compCount → Fin d → ℝ) (S : Fin m.compCount → Matrix (Fin d) (Fin d) ℝ), HasParams m' w μ S ∧
      (∀ j a, (∃ i, toM n d X i a ≤ μ j a) ∧ ∃ i, μ j a ≤ toM n d X i a) ∧ (∀ j, PosSemi (S j)) ∧
      (∀ eps, m.covOption = .regularized eps → 0 < eps → ∀ j, PosDefinite (S j)) ∧
      (m.covOption = .diagonal → ∀ j a b, a ≠ b → S j a b = 0) := by
  obtain ⟨k, w0, -, rfl, g3, g4, g5, -⟩ := history_inv hl hm
  rw [eq_ofM hX] at h ⊢
  obtain ⟨-, -, w, μ, S, p1, p2, -⟩ := train_good hl rfl g3 g4 g5 h
  simp only [toM_ofM]
  refine ⟨w, μ, S, p1, p2.range, p2.semi, p2.reg, fun ho j a b hab => ?_⟩
  obtain ⟨v, hv⟩ := p2.diag ho j
  rw [hv, Matrix.diagonal_apply_ne _ hab]

/-! ### C71: the likelihood -/

/-- With full or diagonal covariances more iterations never make the training samples less likely. -/
theorem C71_likelihood {lup : Mat ℝ → Outcome (ℝ × Outcome (Mat ℝ))} (hl : LupExact lup) {draws : ℕ → ℕ} {m m1 m2 : Gmm ℝ}
    (hm : GmmHistory lup m) (ho : m.covOption = .full ∨ m.covOption = .diagonal) {n d s t : ℕ} (hst : s ≤ t) {X P : Mat ℝ}
    (hX : HasShape X n d) (h1 : (m.setMaxIters s).train lup draws X = ok m1) (h2 : (m.setMaxIters t).train lup draws X = ok m2)
    (hp : m2.predict lup X = ok P) :
    ∃ (w w' : Fin m.compCount → ℝ) (μ μ' : Fin m.compCount → Fin d → ℝ) (S S' : Fin m.compCount → Matrix (Fin d) (Fin d) ℝ),
      HasParams m1 w μ S ∧ HasParams m2 w' μ' S' ∧ logLikelihood w μ S (toM n d X) ≤ logLikelihood w' μ' S' (toM n d X) := by
  obtain ⟨k, w0, -, rfl, g3, g4, g5, -⟩ := history_inv hl hm
  rw [eq_ofM hX] at h1 h2 hp ⊢
  simp only [toM_ofM]
  obtain ⟨r, rfl⟩ := Nat.exists_eq_add_of_le hst
  obtain ⟨hn, hkn, w, μ, S, p1, p2, p3⟩ := train_good (m := m.setMaxIters s) hl rfl g3 g4 g5 h1
  obtain ⟨-, -, w', μ', S', q1, q2, q3⟩ := train_good (m := m.setMaxIters (s + r)) hl rfl g3 g4 g5 h2
  refine ⟨w, w', μ, μ', S, S', p1, q1, ?_⟩
  obtain ⟨σ, -, -, m0, f1, f2, -, f3⟩ := train_start lup draws rfl g3 (toM n d X) hn hkn
  rw [f3] at h1 h2
  obtain ⟨a, ha, h1⟩ := bind_eq_ok.mp h1
  obtain ⟨b, hb, h2⟩ := bind_eq_ok.mp h2
  injection h1 with h1
  injection h2 with h2
  subst h1 h2
  rw [emLoop_add, ha, ok_bind] at hb
  have p3' : a.covOption = m.covOption := p3
  have p1' : HasParams a w μ S := p1
  have q1' : HasParams b w' μ' S' := q1
  exact emLoop_lik (by omega) hl (by rw [p3']; exact ho) p1' (by rw [p3']; exact p2) hb q1' (predict_ok hl q1 hp).1

/-! ### C70: degenerate data -/

/-- With a positive regularisation constant training succeeds on any data with at least two samples and as many samples as components,
and then predicting does too. -/
theorem C70_regularized {lup : Mat ℝ → Outcome (ℝ × Outcome (Mat ℝ))} (hl : LupExact lup) (hr : LupRegular lup) (draws : ℕ → ℕ) {m : Gmm ℝ}
    (hm : GmmHistory lup m) {eps : ℝ} (he : 0 < eps) (ho : m.covOption = .regularized eps) {n d : ℕ} {X : Mat ℝ} (hX : HasShape X n d)
    (hn : 2 ≤ n) (hkn : m.compCount ≤ n) :
    ∃ m', m.train lup draws X = ok m' ∧ ∀ (p : ℕ) (Z : Mat ℝ), HasShape Z p d → ∃ P, m'.predict lup Z = ok P := by
  obtain ⟨k, w0, -, rfl, g3, g4, g5, -⟩ := history_inv hl hm
  rw [eq_ofM hX]
  obtain ⟨σ, -, -, m0, f1, f2, -, f3⟩ := train_start lup draws rfl g3 (toM n d X) hn hkn
  obtain ⟨a, ha⟩ := emLoop_regularized (show 0 < n by omega) hl hr he (f2.trans ho) f1 (by rw [f2]; exact start_good g5 _ g4 σ) m.maxIters
  have h : m.train lup draws (ofM (toM n d X)) = ok (a.setMaxIters m.maxIters) := by
    have := f3 m.maxIters
    rw [ha, ok_bind] at this
    exact this
  refine ⟨_, h, fun p Z hZ => ?_⟩
  obtain ⟨-, -, w, μ, S, p1, p2, -⟩ := train_good hl rfl g3 g4 g5 h
  exact C54_predict_succeeds hl hr p1 (fun j => (posDef_det (p2.reg eps ho he j)).ne') hZ

/-- Fewer than two samples are reported. -/
theorem C70_few_samples (lup : Mat ℝ → Outcome (ℝ × Outcome (Mat ℝ))) (draws : ℕ → ℕ) (m : Gmm ℝ) (X : Mat ℝ) (h : X.rows.length < 2) :
    m.train lup draws X = err .InvalidData := train_few lup draws m X h

/-- Fewer samples than components make training panic. -/
theorem C70_few_samples_violation (lup : Mat ℝ → Outcome (ℝ × Outcome (Mat ℝ))) (draws : ℕ → ℕ) (m : Gmm ℝ) {n d : ℕ} {X : Mat ℝ}
    (hX : HasShape X n d) (hn : 2 ≤ n) (h : n < m.compCount) : m.train lup draws X = Outcome.panic := by
  rw [eq_ofM hX]
  exact train_many lup draws m _ hn h

/-- A column with one value, or no more samples than columns with full covariances, make training panic. -/
theorem C70_singular_violation {lup : Mat ℝ → Outcome (ℝ × Outcome (Mat ℝ))} (hl : LupExact lup) (hs : LupSingular lup) (draws : ℕ → ℕ)
    {m : Gmm ℝ} (hm : GmmHistory lup m) {n d : ℕ} {X : Mat ℝ} (hX : HasShape X n d) (hn : 2 ≤ n) (hkn : m.compCount ≤ n)
    (ht : 0 < m.maxIters)
    (h : (m.covOption = .full ∨ m.covOption = .diagonal) ∧ (∃ a c, ∀ i, toM n d X i a = c) ∨ m.covOption = .full ∧ n ≤ d) :
    m.train lup draws X = Outcome.panic := by
  obtain ⟨k, w0, hk, rfl, g3, g4, g5, -⟩ := history_inv hl hm
  rw [eq_ofM hX]
  apply train_singular hs draws rfl g3 _ hn hk hkn ht
  rcases h with ⟨ho | ho, a, c, h⟩ | ⟨ho, h⟩
  · rw [ho]
    exact det_zero_row _ a fun b => sampleCov_const (by omega) _ a c h b
  · rw [ho]
    refine det_zero_row _ a fun b => ?_
    simp only [startCov, Matrix.diagonal_apply]
    split
    · rw [sampleCov_const (by omega) _ a c h a, zero_mul]
    · rfl
  · rw [ho]
    exact sampleCov_few hn _ h

/-- Samples of another width make predicting panic. -/
theorem C70_width_violation {lup : Mat ℝ → Outcome (ℝ × Outcome (Mat ℝ))} (hl : LupExact lup) (hr : LupRegular lup) {m : Gmm ℝ}
    (hm : GmmHistory lup m) {k d : ℕ} {w : Fin k → ℝ} {μ : Fin k → Fin d → ℝ} {S : Fin k → Matrix (Fin d) (Fin d) ℝ}
    (hp : HasParams m w μ S) (hS : ∀ j, (S j).det ≠ 0) {X : Mat ℝ} (hX : X.WF) (hd : X.cols ≠ d) (hn : 0 < X.rows.length) :
    m.predict lup X = Outcome.panic :=
  predict_width hl hr (history_params hl hm hp).1 hp hS hX hd hn

/-! ### C72: the regularisation constant -/

/-- At the start the constant is on the diagonal; after an iteration that changed something the constant over the total weight of the
component is. -/
theorem C72_partial {lup : Mat ℝ → Outcome (ℝ × Outcome (Mat ℝ))} (hl : LupExact lup) {draws : ℕ → ℕ} {m m1 m2 : Gmm ℝ}
    (hm : GmmHistory lup m) {eps : ℝ} (ho : m.covOption = .regularized eps) {n d t : ℕ} {X : Mat ℝ} (hX : HasShape X n d)
    (h1 : (m.setMaxIters t).train lup draws X = ok m1) (h2 : (m.setMaxIters (t + 1)).train lup draws X = ok m2) :
    ∃ (w w' : Fin m.compCount → ℝ) (μ μ' : Fin m.compCount → Fin d → ℝ) (S S' : Fin m.compCount → Matrix (Fin d) (Fin d) ℝ) (P : Mat ℝ),
      HasParams m1 w μ S ∧ HasParams m2 w' μ' S' ∧ m1.predict lup X = ok P ∧
      (t = 0 → ∀ j, S j = sampleCov (toM n d X) + eps • (1 : Matrix (Fin d) (Fin d) ℝ)) ∧
      (S' = S ∨ ∀ j, S' j = weightedCov (toM n m.compCount P) (toM n d X) j +
        (eps / ∑ i, toM n m.compCount P i j) • (1 : Matrix (Fin d) (Fin d) ℝ)) := by
  obtain ⟨w, w', μ, μ', S, S', P, q1, q2, q3, q4⟩ := C55_step hl hm hX h1 h2
  refine ⟨w, w', μ, μ', S, S', P, q1, q2, q3, ?_, ?_⟩
  · intro ht j
    subst ht
    obtain ⟨k, w0, -, rfl, g3, g4, g5, -⟩ := history_inv hl hm
    have h1' := h1
    rw [eq_ofM hX] at h1'
    obtain ⟨hn, hkn, -⟩ := train_good (m := m.setMaxIters 0) hl rfl g3 g4 g5 h1'
    obtain ⟨σ, m', -, r1, r2⟩ := C55_start lup draws rfl g3 hX hn hkn
    rw [h1] at r1
    injection r1 with r1
    subst r1
    obtain ⟨-, -, rfl⟩ := hasParams_unique q1 r2
    rw [ho]
    rfl
  · rcases q4 with ⟨-, -, h⟩ | ⟨-, -, h⟩
    · exact Or.inl h
    · right
      intro j
      rw [h, ho]
      rfl

/-- The constant is not what is on the diagonal after training: on the samples 0 and 2, with one component and one iteration, the
variance is 1 and the covariance is 1 + eps / 2. -/
theorem C72_violation {lup : Mat ℝ → Outcome (ℝ × Outcome (Mat ℝ))} (hl : LupExact lup) (hr : LupRegular lup) (draws : ℕ → ℕ) {eps : ℝ}
    (he : 0 < eps) :
    ∃ m', Gmm.train lup draws { (Gmm.new 1 : Gmm ℝ).setMaxIters 1 with covOption := .regularized eps } ⟨1, [[0], [2]]⟩ = ok m' ∧
      m'.means = some ⟨1, [[1]]⟩ ∧ m'.covars = some [⟨1, [[1 + eps / 2]]⟩] ∧ (1 + eps / 2 ≠ 1 + eps) := by
  have e : ({ (Gmm.new 1 : Gmm ℝ).setMaxIters 1 with covOption := .regularized eps } : Gmm ℝ) = ⟨1, [1], none, none, 0, 1, .regularized eps⟩ := by
    simp [Gmm.new, Gmm.setMaxIters]
  obtain ⟨m1, h1, h2, -⟩ := twoPoints_train hl hr draws (.regularized eps) (2 + eps) (by linarith) (twoPoints_startReg eps)
  rw [e, ← twoPoints_mat]
  refine ⟨m1, h1, ?_, ?_, by intro h; linarith⟩
  · rw [h2.2.2.1]
    simp [matOf]
  · rw [h2.2.2.2]
    simp [matOf, optionCov, weightedCov, weightedMean, compTotal, twoPoints, Fin.sum_univ_two]
    norm_num

example (draws : ℕ → ℕ) := C72_violation exactLup_exact exactLup_regular draws (eps := 1) one_pos

/-! ### C73: training again -/

/-- Training does not depend on the means and covariances of earlier training, but keeps its weights and likelihood. -/
theorem C73_partial {F : Type} [Scalar F] (lup : Mat F → Outcome (F × Outcome (Mat F))) (draws : ℕ → ℕ) (m : Gmm F) (X : Mat F) :
    m.train lup draws X = Gmm.train lup draws { m with means := none, covars := none } X := rfl

/-- Training a model again does not give what training a new one does: one component and one iteration on the samples 0 and 2 give the
mean 1, whatever the random draws; training this model again on the same samples gives the mean 0 or 2. -/
theorem C73_violation {lup : Mat ℝ → Outcome (ℝ × Outcome (Mat ℝ))} (hl : LupExact lup) (hr : LupRegular lup) (draws draws' : ℕ → ℕ) :
    ∃ m1 m2, ((Gmm.new 1 : Gmm ℝ).setMaxIters 1).train lup draws ⟨1, [[0], [2]]⟩ = ok m1 ∧ m1.means = some ⟨1, [[1]]⟩ ∧
      m1.train lup draws' ⟨1, [[0], [2]]⟩ = ok m2 ∧ (m2.means = some ⟨1, [[0]]⟩ ∨ m2.means = some ⟨1, [[2]]⟩) := by
  have e : (Gmm.new 1 : Gmm ℝ).setMaxIters 1 = ⟨1, [1], none, none, 0, 1, .full⟩ := by
    simp [Gmm.new, Gmm.setMaxIters]
  obtain ⟨m1, h1, h2, h3, h4, h5⟩ := twoPoints_train hl hr draws .full 2 le_rfl twoPoints_start
  obtain ⟨σ, -, -, m0, f1, f2, f3, f4⟩ := train_start lup draws' h2.1 h2.2.1 twoPoints (by omega) (by omega)
  rw [h3] at f1 f2
  have hS : ∀ j : Fin 1, PosDefinite ((fun _ => startCov .full twoPoints) j) := fun _ => by
    simp only [twoPoints_start]
    exact scalar_def (by norm_num)
  have hmem := memberships_regular hl hr f1 (fun j => (posDef_det (hS j)).ne') twoPoints
  obtain ⟨e2, -⟩ := emStep_eval f1 twoPoints hmem
  have hL : codeLik (fun _ : Fin 1 => (1 : ℝ)) (fun j => twoPoints (σ j)) (fun _ => startCov .full twoPoints) twoPoints = -(2 / 2) - Real.log 2 := by
    have hσ : (fun j => twoPoints (σ j)) = fun _ : Fin 1 => twoPoints (σ 0) := by
      funext j
      rw [Subsingleton.elim j 0]
    rw [hσ, twoPoints_start]
    exact twoPoints_lik rfl (σ 0) (by norm_num)
  have hstop := e2 (by rw [hL, f3, h5]; simp)
  have h := f4 m1.maxIters
  have e' : m1.setMaxIters m1.maxIters = m1 := rfl
  rw [e', h4, Gmm.emLoop, hstop] at h
  rw [e, ← twoPoints_mat]
  refine ⟨m1, m0.setMaxIters 1, h1, ?_, h, ?_⟩
  · rw [h2.2.2.1]
    simp [matOf]
  · have hm : (m0.setMaxIters 1).means = some ⟨1, [[twoPoints (σ 0) 0]]⟩ := by
      show m0.means = _
      rw [f1.2.2.1]
      simp [matOf]
    rw [hm]
    by_cases h0 : σ 0 = 0
    · left; simp [twoPoints, h0]
    · right; simp [twoPoints, h0]

example (draws draws' : ℕ → ℕ) := C73_violation exactLup_exact exactLup_regular draws draws'

/-! ### Instances -/

example : Gmm.train exactLup (fun _ => 0) (Gmm.new 1 : Gmm ℝ) ⟨2, [[0, 1], [1, 1]]⟩ = Outcome.panic :=
  C70_singular_violation exactLup_exact exactLup_singular (fun _ => 0) (.new 1 one_pos) (n := 2) (d := 2) ⟨rfl, rfl, by simp⟩ le_rfl
    (by simp [Gmm.new]) (by simp [Gmm.new]) (Or.inr ⟨rfl, le_rfl⟩)

example : Gmm.train exactLup (fun _ => 0) (Gmm.new 3 : Gmm ℝ) ⟨1, [[0], [1]]⟩ = Outcome.panic :=
  C70_few_samples_violation exactLup (fun _ => 0) (Gmm.new 3) (n := 2) (d := 1) ⟨rfl, rfl, by simp⟩ le_rfl (by simp [Gmm.new])

/-- Two components with a regularisation constant, any number of iterations. -/
theorem gmm_regularized_history (t : ℕ) :
    GmmHistory exactLup { (Gmm.new 2 : Gmm ℝ).setMaxIters t with covOption := .regularized 1 } :=
  .setOption _ _ (by rintro _ ⟨⟩; exact zero_le_one) (.setMaxIters _ t (.new 2 two_pos))

theorem gmm_regularized_train (t : ℕ) : ∃ m', Gmm.train exactLup (fun _ => 0) { (Gmm.new 2 : Gmm ℝ).setMaxIters t with covOption := .regularized 1 }
    ⟨1, [[0], [1], [3]]⟩ = ok m' ∧ ∀ (p : ℕ) (Z : Mat ℝ), HasShape Z p 1 → ∃ P, m'.predict exactLup Z = ok P :=
  C70_regularized exactLup_exact exactLup_regular (fun _ => 0) (gmm_regularized_history t) one_pos rfl (n := 3) (d := 1)
    ⟨rfl, rfl, by simp⟩ (by norm_num) (by simp [Gmm.new, Gmm.setMaxIters])

/-- The hypotheses of `C55_step` and `C72_partial`, with 7 and 8 iterations. -/
example : ∃ m1 m2 : Gmm ℝ, Gmm.train exactLup (fun _ => 0) (Gmm.setMaxIters { (Gmm.new 2 : Gmm ℝ) with covOption := .regularized 1 } 7)
      ⟨1, [[0], [1], [3]]⟩ = ok m1 ∧
    Gmm.train exactLup (fun _ => 0) (Gmm.setMaxIters { (Gmm.new 2 : Gmm ℝ) with covOption := .regularized 1 } 8) ⟨1, [[0], [1], [3]]⟩ = ok m2 := by
  obtain ⟨m1, h1, -⟩ := gmm_regularized_train 7
  obtain ⟨m2, h2, -⟩ := gmm_regularized_train 8
  exact ⟨m1, m2, h1, h2⟩

/-- The hypotheses of `C54_predict`. -/
example : ∃ (m : Gmm ℝ) (w : Fin 2 → ℝ) (μ : Fin 2 → Fin 1 → ℝ) (S : Fin 2 → Matrix (Fin 1) (Fin 1) ℝ) (P : Mat ℝ), GmmHistory exactLup m ∧
    HasParams m w μ S ∧ m.predict exactLup ⟨1, [[4]]⟩ = ok P := by
  obtain ⟨m1, h1, h2⟩ := gmm_regularized_train 7
  obtain ⟨P, hP⟩ := h2 1 ⟨1, [[4]]⟩ ⟨rfl, rfl, by simp⟩
  obtain ⟨w, μ, S, h3, -⟩ := C55_trained exactLup_exact (gmm_regularized_history 7) (n := 3) (d := 1) ⟨rfl, rfl, by simp⟩ h1
  exact ⟨m1, w, μ, S, P, .train _ _ _ _ (by intro r hr; simp at hr; rcases hr with rfl | rfl | rfl <;> rfl) (gmm_regularized_history 7) h1, h3, hP⟩

/-- The hypotheses of `C71_likelihood`, with 0 and 1 iterations. -/
example : ∃ m1 m2 P, ((Gmm.new 1 : Gmm ℝ).setMaxIters 0).train exactLup (fun _ => 0) ⟨1, [[0], [2]]⟩ = ok m1 ∧
    ((Gmm.new 1 : Gmm ℝ).setMaxIters 1).train exactLup (fun _ => 0) ⟨1, [[0], [2]]⟩ = ok m2 ∧
    m2.predict exactLup ⟨1, [[0], [2]]⟩ = ok P := by
  have e : (Gmm.new 1 : Gmm ℝ).setMaxIters 1 = ⟨1, [1], none, none, 0, 1, .full⟩ := by
    simp [Gmm.new, Gmm.setMaxIters]
  have hX : HasShape (⟨1, [[0], [2]]⟩ : Mat ℝ) 2 1 := ⟨rfl, rfl, by simp⟩
  obtain ⟨-, m1, -, h1, -⟩ := C55_start exactLup (fun _ => 0) (m := Gmm.new 1) (k := 1) (w := fun _ => 1) rfl (by simp [Gmm.new]) hX le_rfl (by omega)
  obtain ⟨m2, h2, h3, -⟩ := twoPoints_train exactLup_exact exactLup_regular (fun _ => 0) .full 2 le_rfl twoPoints_start
  rw [← e, twoPoints_mat] at h2
  obtain ⟨P, hP⟩ := C54_predict_succeeds exactLup_exact exactLup_regular h3 (fun j => by
    simp [optionCov, weightedCov, weightedMean, compTotal, twoPoints, Fin.sum_univ_two]
    norm_num) hX
  exact ⟨m1, m2, P, h1, h2, hP⟩

/-! ### A weight of zero -/

/-- With floating-point special values: a weight of zero is accepted, and one iteration of training makes the mean of that component
NaN, whatever the random draws. -/
theorem C55_zero_weight_violation (lup : Mat XR → Outcome (XR × Outcome (Mat XR)))
    (hlup : ∀ a : ℝ, 0 < a → lup ⟨1, [[XR.fin a]]⟩ = ok (XR.fin a, ok ⟨1, [[XR.fin (1 / a)]]⟩)) (draws : ℕ → ℕ) :
    ∃ m m', Gmm.withWeights 2 [XR.fin 1, XR.fin 0] = ok m ∧ (m.setMaxIters 1).train lup draws ⟨1, [[XR.fin 0], [XR.fin 2]]⟩ = ok m' ∧
      m'.means = some ⟨1, [[XR.fin 1], [XR.nan]]⟩ := by
  refine ⟨⟨2, [XR.fin 1, XR.fin 0], none, none, .fin 0, 100, .full⟩, ?_⟩
  simp [Gmm.withWeights, fsum, xr_div, Gmm.setMaxIters, Gmm.train, Gmm.init, Gmm.initCov, scatterMat, Mat.meanRow, Mat.sumRows, colOf, List.range_succ, Mat.scaleBy, Mat.map, reservoirSample, assert, Mat.selectRows, getAt, ofOption, reservoirLoop]
  have h2 : (1 : ℝ) + (2 - 1) * (2 - 1) = 2 := by norm_num
  rw [h2]
  have hcp : covParts lup ⟨1, [[XR.fin 2]]⟩ = ok (XR.fin (Real.sqrt 2), ⟨1, [[XR.fin (1 / 2)]]⟩) := by
    unfold covParts
    rw [hlup 2 two_pos]
    simp [expectOk, fromLinalg, xr_sqrt]
  have hs : Real.sqrt 2 ≠ 0 := by positivity
  have hpdf : ∀ x μ : ℝ, compPdf [XR.fin x] [XR.fin μ] ⟨1, [[XR.fin (1 / 2)]]⟩ (XR.fin (Real.sqrt 2)) =
      ok (XR.fin (Real.exp ((x - μ) * (1 / 2) * (x - μ) * (-1 / 2)) / Real.sqrt 2)) := by
    intro x μ
    simp [compPdf, vecZip, rowMat, Mat.mul, Mat.transpose, transposeRows, List.range_succ, getAt, ofOption, Mat.scaleBy, Mat.map, Mat.data, dot,
      fsum, colOf, xr_div, hs, List.filterMap_cons]
  have hrow : ∀ x : ℝ, memberRow 2 [XR.fin 1, XR.fin 0] ⟨1, [[XR.fin 0], [XR.fin 2]]⟩
      [(XR.fin (Real.sqrt 2), ⟨1, [[XR.fin (1 / 2)]]⟩), (XR.fin (Real.sqrt 2), ⟨1, [[XR.fin (1 / 2)]]⟩)] [XR.fin x] =
      ok ([XR.fin 1, XR.fin 0], XR.fin (Real.exp (x * (1 / 2) * x * (-1 / 2)) / Real.sqrt 2)) := by
    intro x
    simp only [memberRow, compPdfs, List.range_succ, List.range_zero, List.nil_append, List.cons_append, List.mapM_cons, List.mapM_nil, getAt,
      ofOption, List.getElem?_cons_zero, List.getElem?_cons_succ, ok_bind, hpdf]
    simp [dot, fsum, List.range_succ, ofOption, xr_div, hs]
  have hmem : Gmm.memberships lup ⟨2, [XR.fin 1, XR.fin 0], some ⟨1, [[XR.fin 0], [XR.fin 2]]⟩,
      some [⟨1, [[XR.fin 2]]⟩, ⟨1, [[XR.fin 2]]⟩], XR.fin 0, 1, .full⟩ ⟨1, [[XR.fin 0], [XR.fin 2]]⟩ =
      ok (⟨2, [[XR.fin 1, XR.fin 0], [XR.fin 1, XR.fin 0]]⟩, XR.fin (Real.log (1 / Real.sqrt 2) + Real.log (Real.exp (-1) / Real.sqrt 2))) := by
    have e1 : Real.exp (2 * (1 / 2) * 2 * (-1 / 2)) = Real.exp (-1) := by norm_num
    have e0 : Real.exp (0 * (1 / 2) * 0 * (-1 / 2)) = 1 := by norm_num
    simp only [Gmm.memberships, Option.getD_some, List.mapM_cons, List.mapM_nil, hcp, ok_bind, hrow, e0, e1]
    have p1 : 0 < 1 / Real.sqrt 2 := by positivity
    have p2 : 0 < Real.exp (-1) / Real.sqrt 2 := by positivity
    simp [xr_ln _ p1, xr_ln _ p2, -one_div]
    rw [hrow 0, ok_bind, hrow 2, ok_bind, e0, e1, xr_ln _ p1, xr_ln _ p2]
    simp
  have hL : ¬ |Real.log (1 / Real.sqrt 2) + Real.log (Real.exp (-1) / Real.sqrt 2)| < 1 / 10 ^ 15 := by
    have := Real.log_pos (show (1 : ℝ) < 2 by norm_num)
    rw [Real.log_div one_ne_zero hs, Real.log_div (Real.exp_pos _).ne' hs, Real.log_exp, Real.log_one, Real.log_sqrt (by norm_num), not_lt,
      abs_of_neg (by linarith)]
    have : (1 : ℝ) / 10 ^ 15 ≤ 1 := by norm_num
    linarith
  generalize hl : Real.log (1 / Real.sqrt 2) + Real.log (Real.exp (-1) / Real.sqrt 2) = l at hmem hL
  have hstep : ∃ m', Gmm.update ⟨2, [XR.fin 1, XR.fin 0], some ⟨1, [[XR.fin 0], [XR.fin 2]]⟩,
      some [⟨1, [[XR.fin 2]]⟩, ⟨1, [[XR.fin 2]]⟩], XR.fin l, 1, .full⟩ ⟨1, [[XR.fin 0], [XR.fin 2]]⟩
      ⟨2, [[XR.fin 1, XR.fin 0], [XR.fin 1, XR.fin 0]]⟩ = ok m' ∧ m'.means = some ⟨1, [[XR.fin 1], [XR.nan]]⟩ := by
    simp [Gmm.update, Mat.transpose, transposeRows, Mat.mul, Mat.sumRows, colOf, List.range_succ, dot, fsum, xr_div, xr_div_zero, XR.infOf, newCov,
      covSum, getAt, ofOption, vecZip, computeCov, rowMat, Mat.scaleBy, Mat.map, addReg, Mat.zip, Mat.zeros, List.filterMap_cons]
    norm_num
  obtain ⟨m', h1, h3⟩ := hstep
  refine ⟨m', ?_, h3⟩
  have hc : (Scalar.lt (Scalar.abs (Scalar.sub (XR.fin l) (XR.fin 0))) (Scalar.ofRat (1 / 10 ^ 15) : XR)) = false := by
    simp only [xr_sub, xr_abs, xr_ofRat, xr_lt, sub_zero, decide_eq_false_iff_not]
    push_cast
    exact hL
  simp only [Gmm.emLoop, Gmm.emStep, hmem, ok_bind, hc, h1]
  simp

/-- A decomposition of one by one matrices as `C55_zero_weight_violation` needs it. -/
example : ∃ lup : Mat XR → Outcome (XR × Outcome (Mat XR)),
    ∀ a : ℝ, 0 < a → lup ⟨1, [[XR.fin a]]⟩ = ok (XR.fin a, ok ⟨1, [[XR.fin (1 / a)]]⟩) :=
  ⟨fun A => match A.rows with
    | [[XR.fin a]] => ok (XR.fin a, ok ⟨1, [[XR.fin (1 / a)]]⟩)
    | _ => Outcome.panic, fun _ _ => rfl⟩

end RM
