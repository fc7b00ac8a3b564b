import Verif.Props.Gmm
import Verif.Proofs.GmmMoves
import Mathlib.LinearAlgebra.Matrix.Permutation

/-! C101, C97: Gaussian mixture models do not depend on the coordinates of the features, src/learning/gmm.rs. Exact arithmetic; the LU
decomposition of the linear algebra library is assumed to meet the contracts of Spec/Gmm, which `exactLup` meets. -/

namespace RM
open Outcome Scalar Spec Matrix

/-- A change of the features divides all densities by the change of volume: the likelihoods of all mixtures differ by the same
constant. -/
theorem C101_likelihood {n k d : ℕ} {M : Matrix (Fin d) (Fin d) ℝ} (hM : M.det ≠ 0) (c : Fin d → ℝ) {w : Fin k → ℝ} (hw : IsMixture w)
    (μ : Fin k → Fin d → ℝ) {S : Fin k → Matrix (Fin d) (Fin d) ℝ} (hS : ∀ j, PosDefinite (S j)) (x : Fin n → Fin d → ℝ) :
    logLikelihood w (fun j => M *ᵥ μ j + c) (fun j => M * S j * Mᵀ) (movedRows M c x) = logLikelihood w μ S x - n * Real.log |M.det| :=
  logLikelihood_moved hM c hw μ hS x

/-- A model in the changed coordinates gives changed samples the predictions the model gives the samples, and fails when it does. -/
theorem C101_predict {lup : Mat ℝ → Outcome (ℝ × Outcome (Mat ℝ))} (hl : LupExact lup) (hr : LupRegular lup) {d : ℕ}
    {M : Matrix (Fin d) (Fin d) ℝ} (hM : M.det ≠ 0) (c : Fin d → ℝ) {m m' : Gmm ℝ} (h : IsMoved M c m m') {p : ℕ}
    (z : Matrix (Fin p) (Fin d) ℝ) (P : Mat ℝ) : m.predict lup (ofM z) = ok P ↔ m'.predict lup (ofM (movedRows M c z)) = ok P := by
  obtain ⟨k, w, μ, S, h1, h2, -⟩ := h
  have hp : (Matrix.of fun i => posterior w (fun j => M *ᵥ μ j + c) (fun j => M * S j * Mᵀ) (movedRows M c z i)) =
      Matrix.of fun i => posterior w μ S (z i) := by
    ext i j
    exact congrFun (posterior_moved hM c w μ S (z i)) j
  constructor
  · intro h
    obtain ⟨g1, rfl⟩ := predict_ok hl h1 h
    rw [predict_eval (n := p) h2 (memberships_regular hl hr h2 (fun j => (det_moved hM (S j)).mpr (g1 j)) (movedRows M c z)), hp]
  · intro h
    obtain ⟨g1, rfl⟩ := predict_ok hl h2 h
    rw [predict_eval (n := p) h1 (memberships_regular hl hr h1 (fun j => (det_moved hM (S j)).mp (g1 j)) z), hp]

/-- The states after the initialisation, on both sides. -/
theorem train_start_moved {n d k : ℕ} (lup : Mat ℝ → Outcome (ℝ × Outcome (Mat ℝ))) (draws : ℕ → ℕ) {m : Gmm ℝ} {w : Fin k → ℝ}
    {M : Matrix (Fin d) (Fin d) ℝ} (hs : Suits m.covOption M) (c : Fin d → ℝ)
    (hk : m.compCount = k) (hw : m.mixWeights = List.ofFn w) (x : Matrix (Fin n) (Fin d) ℝ) (hn : 2 ≤ n) (hkn : k ≤ n) :
    ∃ (σ : Fin k → Fin n) (m0 m0' : Gmm ℝ), reservoirSample draws (List.range n) k = ok (List.ofFn fun j => (σ j : ℕ)) ∧
      HasParams m0 w (fun j => x (σ j)) (fun _ => startCov m.covOption x) ∧
      HasParams m0' w (fun j => M *ᵥ x (σ j) + c) (fun _ => M * startCov m.covOption x * Mᵀ) ∧
      m0.covOption = m.covOption ∧ m0'.covOption = m.covOption ∧ m0.logLik = m.logLik ∧ m0'.logLik = m.logLik ∧
      m0.maxIters = m.maxIters ∧ m0'.maxIters = m.maxIters ∧
      m.train lup draws (ofM x) = m0.emLoop lup (ofM x) m.maxIters ∧
      m.train lup draws (ofM (movedRows M c x)) = m0'.emLoop lup (ofM (movedRows M c x)) m.maxIters := by
  obtain ⟨σ, -, hs1, m0, h1, h2, h3, h4, h5⟩ := init_ofM draws hk hw x hn hkn
  obtain ⟨σ', -, hs2, m0', h1', h2', h3', h4', h5'⟩ := init_ofM draws hk hw (movedRows M c x) hn hkn
  have hσ : σ' = σ := by
    rw [hs1] at hs2
    injection hs2 with hs2
    funext j
    exact Fin.ext (congrFun (List.ofFn_injective hs2) j).symm
  subst hσ
  have e := startCov_moved (by omega) hs c x
  rw [e] at h2'
  exact ⟨σ', m0, m0', hs1, h2, h2', h3, h3', h5, h5', h4, h4', by unfold Gmm.train; rw [h1, ok_bind], by unfold Gmm.train; rw [h1', ok_bind]⟩

/-- Whatever was done with a model: a change of the features that keeps volumes (moving the origin, turning, mirroring, shearing,
reordering) and suits the covariance option does not matter. With the same random draws training succeeds on the changed data if and
only if it succeeds on the data; the trained model is the changed model, and its predictions of changed samples are the same. -/
theorem C101_same_volume {lup : Mat ℝ → Outcome (ℝ × Outcome (Mat ℝ))} (hl : LupExact lup) (hr : LupRegular lup) (draws : ℕ → ℕ) {m : Gmm ℝ}
    (hm : GmmHistory lup m) {n d : ℕ} (x : Matrix (Fin n) (Fin d) ℝ) {M : Matrix (Fin d) (Fin d) ℝ} (hM : |M.det| = 1)
    (hs : Suits m.covOption M) (c : Fin d → ℝ) :
    ((∃ m1, m.train lup draws (ofM x) = ok m1) ↔ ∃ m2, m.train lup draws (ofM (movedRows M c x)) = ok m2) ∧
    ∀ m1 m2, m.train lup draws (ofM x) = ok m1 → m.train lup draws (ofM (movedRows M c x)) = ok m2 →
      IsMoved M c m1 m2 ∧ ∀ (p : ℕ) (z : Matrix (Fin p) (Fin d) ℝ) (P : Mat ℝ),
        m1.predict lup (ofM z) = ok P ↔ m2.predict lup (ofM (movedRows M c z)) = ok P := by
  have hM0 : M.det ≠ 0 := by
    intro h
    rw [h] at hM
    simp at hM
  obtain ⟨k, w, -, h2, h3, h4, h5, -⟩ := history_inv hl hm
  by_cases hn : 2 ≤ n
  swap
  · rw [train_few lup draws m (ofM x) (by simp [ofM_rows]; omega), train_few lup draws m (ofM (movedRows M c x)) (by simp [ofM_rows]; omega)]
    exact ⟨by simp, by rintro _ _ ⟨⟩⟩
  by_cases hkn : k ≤ n
  swap
  · rw [train_many lup draws m x hn (by omega), train_many lup draws m (movedRows M c x) hn (by omega)]
    exact ⟨by simp, by rintro _ _ ⟨⟩⟩
  obtain ⟨σ, m0, m0', -, a1, a2, a3, a4, a5, a6, a7, a8, a9, a10⟩ := train_start_moved lup draws hs c h2 h3 x hn hkn
  rw [a9, a10]
  have hg := start_good h5 x h4 σ
  have hn0 : 0 < n := by omega
  rcases emLoop_moved hn0 hl hr hM0 c (by rw [a3]; exact h5) (by rw [a3]; exact hs) (a4.trans a3.symm) (a8.trans a7.symm)
    (by rw [a5, a6, hM]; simp) a1 a2 (by rw [a3]; exact hg) m.maxIters with ⟨b1, b2⟩ | ⟨m1, m1', b1, b2, b3, -⟩
  · refine ⟨⟨fun ⟨r, h⟩ => absurd h (b1 r), fun ⟨r, h⟩ => absurd h (b2 r)⟩, fun r _ h => absurd h (b1 r)⟩
  · refine ⟨⟨fun _ => ⟨m1', b2⟩, fun _ => ⟨m1, b1⟩⟩, ?_⟩
    intro r r' g g'
    rw [b1] at g
    rw [b2] at g'
    cases g
    cases g'
    exact ⟨b3, fun p z P => C101_predict hl hr hM0 c b3 z P⟩

/-- The same for all invertible changes of the features, when neither training stops before its first step: the code compares the
likelihood of the start, which depends on the units, with the one stored in the model, which is 0 for a new one. -/
theorem C101_units_partial {lup : Mat ℝ → Outcome (ℝ × Outcome (Mat ℝ))} (hl : LupExact lup) (hr : LupRegular lup) (draws : ℕ → ℕ) {m : Gmm ℝ}
    (hm : GmmHistory lup m) {n d : ℕ} (x : Matrix (Fin n) (Fin d) ℝ) {M : Matrix (Fin d) (Fin d) ℝ} (hM : M.det ≠ 0)
    (hs : Suits m.covOption M) (c : Fin d → ℝ)
    (hstart : ∀ (w : Fin m.compCount → ℝ) (σ : Fin m.compCount → Fin n), m.mixWeights = List.ofFn w →
      reservoirSample draws (List.range n) m.compCount = ok (List.ofFn fun j => (σ j : ℕ)) →
      ∀ L, L = logLikelihood w (fun j => x (σ j)) (fun _ => startCov m.covOption x) x + n * Real.log (Real.sqrt ((2 * Real.pi) ^ d)) →
      1 / 10 ^ 15 ≤ |L - m.logLik| ∧ 1 / 10 ^ 15 ≤ |L - n * Real.log |M.det| - m.logLik|) :
    ((∃ m1, m.train lup draws (ofM x) = ok m1) ↔ ∃ m2, m.train lup draws (ofM (movedRows M c x)) = ok m2) ∧
    ∀ m1 m2, m.train lup draws (ofM x) = ok m1 → m.train lup draws (ofM (movedRows M c x)) = ok m2 →
      IsMoved M c m1 m2 ∧ ∀ (p : ℕ) (z : Matrix (Fin p) (Fin d) ℝ) (P : Mat ℝ),
        m1.predict lup (ofM z) = ok P ↔ m2.predict lup (ofM (movedRows M c z)) = ok P := by
  obtain ⟨k, w, -, h2, h3, h4, h5, -⟩ := history_inv hl hm
  subst h2
  by_cases hn : 2 ≤ n
  swap
  · rw [train_few lup draws m (ofM x) (by simp [ofM_rows]; omega), train_few lup draws m (ofM (movedRows M c x)) (by simp [ofM_rows]; omega)]
    exact ⟨by simp, by rintro _ _ ⟨⟩⟩
  by_cases hkn : m.compCount ≤ n
  swap
  · rw [train_many lup draws m x hn (by omega), train_many lup draws m (movedRows M c x) hn (by omega)]
    exact ⟨by simp, by rintro _ _ ⟨⟩⟩
  obtain ⟨σ, m0, m0', a0, a1, a2, a3, a4, a5, a6, a7, a8, a9, a10⟩ := train_start_moved lup draws hs c rfl h3 x hn hkn
  rw [a9, a10]
  have hg := start_good h5 x h4 σ
  have hn0 : 0 < n := by omega
  have key : ((∀ r, m0.emLoop lup (ofM x) m.maxIters ≠ ok r) ∧ ∀ r, m0'.emLoop lup (ofM (movedRows M c x)) m.maxIters ≠ ok r) ∨
      ∃ m1 m1', m0.emLoop lup (ofM x) m.maxIters = ok m1 ∧ m0'.emLoop lup (ofM (movedRows M c x)) m.maxIters = ok m1' ∧ IsMoved M c m1 m1' := by
    cases m.maxIters with
    | zero => exact Or.inr ⟨m0, m0', rfl, rfl, ⟨_, _, _, _, a1, a2, a4.trans a3.symm, a8.trans a7.symm⟩⟩
    | succ t =>
      rcases emStep_moved hn0 hl hr hM c (by rw [a3]; exact h5) (by rw [a3]; exact hs) (a4.trans a3.symm) (a8.trans a7.symm) a1 a2
        (by rw [a3]; exact hg) with ⟨b1, b2⟩ | ⟨hS, -, -, b3⟩
      · left
        refine ⟨fun r h => ?_, fun r h => ?_⟩
        · rw [Gmm.emLoop] at h
          obtain ⟨o, h, -⟩ := bind_eq_ok.mp h
          exact b1 o h
        · rw [Gmm.emLoop] at h
          obtain ⟨o, h, -⟩ := bind_eq_ok.mp h
          exact b2 o h
      · obtain ⟨g1, g2⟩ := hstart w σ h3 a0 _ rfl
        have e := codeLik_eq h4 hS (μ := fun j => x (σ j)) x
        rw [← e] at g1 g2
        rw [a5, a6] at b3
        obtain ⟨m1, m1', w1, μ1, S1, c1, c2, c3, c4, c5, c6, c7, c8, c9, c10, c11⟩ := b3 (not_lt.mpr g1) (not_lt.mpr g2)
        rw [Gmm.emLoop, Gmm.emLoop, c1, c2]
        rcases emLoop_moved hn0 hl hr hM c (by rw [c6, a3]; exact h5) (by rw [c6, a3]; exact hs) (c7.trans c6.symm) (c9.trans c8.symm)
          (by rw [c10, c11]) c3 c4 (by rw [c6]; exact c5) t with f | ⟨r, r', f1, f2, f3, -⟩
        · exact Or.inl f
        · exact Or.inr ⟨r, r', f1, f2, f3⟩
  rcases key with ⟨b1, b2⟩ | ⟨m1, m1', b1, b2, b3⟩
  · refine ⟨⟨fun ⟨r, h⟩ => absurd h (b1 r), fun ⟨r, h⟩ => absurd h (b2 r)⟩, fun r _ h => absurd h (b1 r)⟩
  · refine ⟨⟨fun _ => ⟨m1', b2⟩, fun _ => ⟨m1, b1⟩⟩, ?_⟩
    intro r r' g g'
    rw [b1] at g
    rw [b2] at g'
    cases g
    cases g'
    exact ⟨b3, fun p z P => C101_predict hl hr hM c b3 z P⟩

/-- The code violates the property for changes of the units: there is a unit in which the likelihood of the start is 0, and training
on the same data in this unit stops before its first step, after any allowed number of iterations. The mean of the only component is
one of the two samples, not their average. -/
theorem C101_violation {lup : Mat ℝ → Outcome (ℝ × Outcome (Mat ℝ))} (hl : LupExact lup) (hr : LupRegular lup) (draws : ℕ → ℕ) :
    ∃ a : ℝ, 0 < a ∧
      (∃ m1, ((Gmm.new 1 : Gmm ℝ).setMaxIters 1).train lup draws ⟨1, [[0], [2]]⟩ = ok m1 ∧ m1.means = some ⟨1, [[1]]⟩) ∧
      ∀ t, ∃ m2, ((Gmm.new 1 : Gmm ℝ).setMaxIters t).train lup draws ⟨1, [[a * 0], [a * 2]]⟩ = ok m2 ∧
        (m2.means = some ⟨1, [[a * 0]]⟩ ∨ m2.means = some ⟨1, [[a * 2]]⟩) := by
  have e : ∀ t, (Gmm.new 1 : Gmm ℝ).setMaxIters t = ⟨1, [1], none, none, 0, t, .full⟩ := fun t => by
    simp [Gmm.new, Gmm.setMaxIters]
  refine ⟨Real.exp (-(1 + Real.log 2) / 2), Real.exp_pos _, ?_, fun t => ?_⟩
  · obtain ⟨m1, h1, h2, -⟩ := twoPoints_train hl hr draws .full 2 le_rfl twoPoints_start
    refine ⟨m1, by rw [e, ← twoPoints_mat, h1], ?_⟩
    rw [h2.2.2.1]
    simp [matOf]
  · generalize ha : Real.exp (-(1 + Real.log 2) / 2) = a
    have ha0 : 0 < a := ha ▸ Real.exp_pos _
    have hla : Real.log a = -(1 + Real.log 2) / 2 := by rw [← ha, Real.log_exp]
    have hdet : (Matrix.of fun (_ _ : Fin 1) => a).det = a := scalar_det a
    have hX : ofM (movedRows (Matrix.of fun (_ _ : Fin 1) => a) 0 twoPoints) = ⟨1, [[a * 0], [a * 2]]⟩ := by
      simp [ofM, matOf, movedRows, twoPoints, Matrix.mulVec, dotProduct]
    obtain ⟨σ, m0, m0', -, a1, a2, a3, a4, a5, a6, -, -, -, a10⟩ := train_start_moved (m := ⟨1, [1], none, none, 0, t, .full⟩)
      (w := fun _ : Fin 1 => (1 : ℝ)) (M := Matrix.of fun (_ _ : Fin 1) => a) lup draws trivial 0 rfl (by simp) twoPoints (by omega) (by omega)
    have hw : IsMixture (fun _ : Fin 1 => (1 : ℝ)) := ⟨fun _ => one_pos, by simp⟩
    rw [hX] at a10
    have hmeans : m0'.means = some ⟨1, [[a * 0]]⟩ ∨ m0'.means = some ⟨1, [[a * 2]]⟩ := by
      rw [a2.2.2.1]
      by_cases h0 : σ 0 = 0
      · left; simp [matOf, Matrix.mulVec, dotProduct, twoPoints, h0]
      · right; simp [matOf, Matrix.mulVec, dotProduct, twoPoints, h0]
    cases t with
    | zero => exact ⟨m0', by rw [e, a10]; rfl, hmeans⟩
    | succ t =>
      have hS : ∀ j : Fin 1, PosDefinite ((fun _ => startCov .full twoPoints) j) := fun _ => by
        simp only [twoPoints_start]
        exact scalar_def (by norm_num)
      have hd : (Matrix.of fun (_ _ : Fin 1) => a).det ≠ 0 := by rw [hdet]; exact ha0.ne'
      have hmem := memberships_regular hl hr a2 (fun j => (det_moved hd _).mpr (posDef_det (hS j)).ne')
        (movedRows (Matrix.of fun (_ _ : Fin 1) => a) 0 twoPoints)
      obtain ⟨e2, -⟩ := emStep_eval a2 _ hmem
      have hL : codeLik (fun _ : Fin 1 => (1 : ℝ)) (fun j => twoPoints (σ j)) (fun _ => startCov .full twoPoints) twoPoints =
          -(2 / 2) - Real.log 2 := by
        have hσ : (fun j => twoPoints (σ j)) = fun _ : Fin 1 => twoPoints (σ 0) := by
          funext j
          rw [Subsingleton.elim j 0]
        rw [hσ, twoPoints_start]
        exact twoPoints_lik rfl (σ 0) (by norm_num)
      have hc := codeLik_moved hd 0 hw (fun j => twoPoints (σ j)) hS twoPoints
      have hz : codeLik (fun _ : Fin 1 => (1 : ℝ)) (fun j => (Matrix.of fun (_ _ : Fin 1) => a) *ᵥ twoPoints (σ j) + 0)
          (fun _ => (Matrix.of fun (_ _ : Fin 1) => a) * startCov .full twoPoints * (Matrix.of fun (_ _ : Fin 1) => a)ᵀ)
          (movedRows (Matrix.of fun (_ _ : Fin 1) => a) 0 twoPoints) = 0 := by
        rw [hc, hL, hdet, abs_of_pos ha0, hla]
        push_cast
        ring
      have hstop := e2 (by
        have h6 : m0'.logLik = 0 := a6
        rw [hz, h6]
        norm_num)
      rw [hX] at hstop
      refine ⟨m0', ?_, hmeans⟩
      rw [e, a10, Gmm.emLoop, hstop]
      rfl

example (draws : ℕ → ℕ) := C101_violation exactLup_exact exactLup_regular draws

/-- The hypotheses of `C101_same_volume`: two components with regularised covariances, and a quarter turn of the plane. -/
example : ∃ m1 m2 : Gmm ℝ, Gmm.train exactLup (fun _ => 0) { (Gmm.new 2 : Gmm ℝ).setMaxIters 7 with covOption := .regularized 1 }
      (ofM !![0, 1; 1, 5; 3, 2]) = ok m1 ∧
    Gmm.train exactLup (fun _ => 0) { (Gmm.new 2 : Gmm ℝ).setMaxIters 7 with covOption := .regularized 1 }
      (ofM (movedRows !![0, -1; 1, 0] ![3, 4] !![0, 1; 1, 5; 3, 2])) = ok m2 ∧ IsMoved !![0, -1; 1, 0] ![3, 4] m1 m2 := by
  obtain ⟨m1, h1, -⟩ := C70_regularized exactLup_exact exactLup_regular (fun _ => 0) (gmm_regularized_history 7) one_pos rfl (n := 3) (d := 2)
    (ofM_shape !![0, 1; 1, 5; 3, 2]) (by norm_num) (by simp [Gmm.new, Gmm.setMaxIters])
  obtain ⟨g1, g2⟩ := C101_same_volume exactLup_exact exactLup_regular (fun _ => 0) (gmm_regularized_history 7) !![0, 1; 1, 5; 3, 2]
    (M := !![0, -1; 1, 0]) (by norm_num [Matrix.det_fin_two]) (by
      show !![0, -1; 1, 0] * !![(0 : ℝ), -1; 1, 0]ᵀ = 1
      ext a b
      fin_cases a <;> fin_cases b <;> simp [Matrix.mul_apply, Fin.sum_univ_two]) ![3, 4]
  obtain ⟨m2, h2⟩ := g1.mp ⟨m1, h1⟩
  exact ⟨m1, m2, h1, h2, (g2 m1 m2 h1 h2).1⟩

/-- Exchanging two features and changing the unit of one of them suits diagonal covariances, and shearing does not. -/
example : Suits .diagonal !![0, 2; 1, (0 : ℝ)] ∧ ¬ Suits .diagonal !![1, 2; 0, (1 : ℝ)] := by
  refine ⟨⟨?_, ?_⟩, fun h => ?_⟩
  · intro a b b' h
    fin_cases a <;> fin_cases b <;> fin_cases b' <;> simp at h ⊢
  · intro a a' b h
    fin_cases a <;> fin_cases a' <;> fin_cases b <;> simp at h ⊢
  · have := h.1 0 0 1 (by decide)
    simp at this

/-- The likelihood of the start on the samples 0 and 2. -/
theorem twoPoints_startLik (w : Fin 1 → ℝ) (σ : Fin 1 → Fin 2) (hw : [1] = List.ofFn w) :
    logLikelihood w (fun j => twoPoints (σ j)) (fun _ => startCov .full twoPoints) twoPoints +
      (2 : ℕ) * Real.log (Real.sqrt ((2 * Real.pi) ^ 1)) = -1 - Real.log 2 := by
  have hw0 : w 0 = 1 := by
    have : [(1 : ℝ)] = [w 0] := by simpa using hw
    injection this with this
    exact this.symm
  have hmix : IsMixture w := by
    refine ⟨fun j => ?_, ?_⟩
    · rw [Subsingleton.elim j (0 : Fin 1)]
      exact hw0 ▸ one_pos
    · rw [Fin.sum_univ_one]
      exact hw0
  have hS : ∀ j : Fin 1, PosDefinite ((fun _ => startCov .full twoPoints) j) := fun _ => by
    simp only [twoPoints_start]
    exact scalar_def (by norm_num)
  have h3 : codeLik w (fun j => twoPoints (σ j)) (fun _ => startCov .full twoPoints) twoPoints = -(2 / 2) - Real.log 2 := by
    have hσ : (fun j => twoPoints (σ j)) = fun _ : Fin 1 => twoPoints (σ 0) := by
      funext j
      rw [Subsingleton.elim j (0 : Fin 1)]
    rw [hσ, twoPoints_start]
    exact twoPoints_lik hw0 (σ 0) (by norm_num)
  have h4 := codeLik_eq hmix hS (μ := fun j => twoPoints (σ j)) twoPoints
  rw [h3] at h4
  rw [← h4]
  norm_num

/-- The hypotheses of `C101_units_partial`: the samples 0 and 2 in a unit of half the size. -/
example (draws : ℕ → ℕ) : ∃ m1 m2 : Gmm ℝ, ((Gmm.new 1 : Gmm ℝ).setMaxIters 1).train exactLup draws (ofM twoPoints) = ok m1 ∧
    ((Gmm.new 1 : Gmm ℝ).setMaxIters 1).train exactLup draws (ofM (movedRows (Matrix.of fun _ _ => 2) 0 twoPoints)) = ok m2 ∧
    IsMoved (Matrix.of fun (_ _ : Fin 1) => 2) 0 m1 m2 := by
  have e : (Gmm.new 1 : Gmm ℝ).setMaxIters 1 = ⟨1, [1], none, none, 0, 1, .full⟩ := by
    simp [Gmm.new, Gmm.setMaxIters]
  have hdet : (Matrix.of fun (_ _ : Fin 1) => (2 : ℝ)).det = 2 := scalar_det 2
  obtain ⟨m1, h1, -⟩ := twoPoints_train exactLup_exact exactLup_regular draws .full 2 le_rfl twoPoints_start
  rw [← e] at h1
  obtain ⟨g1, g2⟩ := C101_units_partial exactLup_exact exactLup_regular draws (m := (Gmm.new 1 : Gmm ℝ).setMaxIters 1)
    (.setMaxIters _ 1 (.new 1 one_pos)) twoPoints (M := Matrix.of fun _ _ => 2) (by rw [hdet]; norm_num) trivial 0 (by
      intro w σ hw hσ L hL
      have hL' : L = -1 - Real.log 2 := hL.trans (twoPoints_startLik w σ ((congrArg Gmm.mixWeights e).symm.trans hw))
      have hlog := Real.log_pos (show (1 : ℝ) < 2 by norm_num)
      have h0 : ((Gmm.new 1 : Gmm ℝ).setMaxIters 1).logLik = 0 := rfl
      rw [hL', hdet, h0, abs_of_pos (show (0 : ℝ) < 2 by norm_num), abs_of_neg (by linarith), abs_of_neg (by push_cast; linarith)]
      constructor
      · norm_num; linarith
      · norm_num; linarith)
  obtain ⟨m2, h2⟩ := g1.mp ⟨m1, h1⟩
  exact ⟨m1, m2, h1, h2, (g2 m1 m2 h1 h2).1⟩

/-! ### The order of the features -/

theorem perm_entry {d : ℕ} (σ : Equiv.Perm (Fin d)) (a b : Fin d) : σ.permMatrix ℝ a b = if b = σ a then 1 else 0 := by
  simp [Equiv.Perm.permMatrix, PEquiv.toMatrix_apply, eq_comm]

theorem perm_suits {d : ℕ} (σ : Equiv.Perm (Fin d)) (opt : CovOption ℝ) : Suits opt (σ.permMatrix ℝ) := by
  cases opt with
  | full => trivial
  | diagonal =>
    refine ⟨fun a b b' h => ?_, fun a a' b h => ?_⟩
    · rw [perm_entry, perm_entry]
      by_cases h1 : b = σ a
      · right
        rw [if_neg fun h2 => h (h1.trans h2.symm)]
      · left
        rw [if_neg h1]
    · rw [perm_entry, perm_entry]
      by_cases h1 : b = σ a
      · right
        rw [if_neg fun h2 => h (σ.injective (h1.symm.trans h2))]
      · left
        rw [if_neg h1]
  | regularized e =>
    show σ.permMatrix ℝ * (σ.permMatrix ℝ)ᵀ = 1
    ext a b
    rw [Matrix.mul_apply]
    simp only [Matrix.transpose_apply, perm_entry, mul_ite, mul_one, mul_zero, Matrix.one_apply]
    rw [Finset.sum_ite_eq' Finset.univ (σ b)]
    simp only [Finset.mem_univ, if_true]
    by_cases h : a = b
    · simp [h]
    · rw [if_neg h, if_neg fun h2 => h (σ.injective h2.symm)]

theorem perm_mulVec {d : ℕ} (σ : Equiv.Perm (Fin d)) (v : Fin d → ℝ) : σ.permMatrix ℝ *ᵥ v + 0 = fun a => v (σ a) := by
  rw [add_zero, Matrix.permMatrix_mulVec]
  rfl

theorem perm_rows {n d : ℕ} (σ : Equiv.Perm (Fin d)) (x : Matrix (Fin n) (Fin d) ℝ) :
    movedRows (σ.permMatrix ℝ) 0 x = Matrix.of fun i a => x i (σ a) := by
  ext i a
  exact congrFun (perm_mulVec σ (x i)) a

theorem perm_conj {d : ℕ} (σ : Equiv.Perm (Fin d)) (S : Matrix (Fin d) (Fin d) ℝ) :
    σ.permMatrix ℝ * S * (σ.permMatrix ℝ)ᵀ = Matrix.of fun a b => S (σ a) (σ b) := by
  ext a b
  rw [Matrix.mul_apply]
  simp only [Matrix.transpose_apply, perm_entry, mul_ite, mul_one, mul_zero]
  rw [Finset.sum_ite_eq' Finset.univ (σ b)]
  simp only [Finset.mem_univ, if_true, Matrix.mul_apply, perm_entry, ite_mul, one_mul, zero_mul, Matrix.of_apply]
  rw [Finset.sum_ite_eq' Finset.univ (σ a)]
  simp

/-- The order of the features does not matter to a mixture model, whatever its covariance option and whatever was done with it before:
training succeeds on the reordered data if and only if it succeeds on the data; the weights are the same, the means and covariances
are reordered, and the predictions of reordered samples are the same. -/
theorem C97_mixture {lup : Mat ℝ → Outcome (ℝ × Outcome (Mat ℝ))} (hl : LupExact lup) (hr : LupRegular lup) (draws : ℕ → ℕ) {m : Gmm ℝ}
    (hm : GmmHistory lup m) {n d : ℕ} (x : Matrix (Fin n) (Fin d) ℝ) (σ : Equiv.Perm (Fin d)) :
    ((∃ m1, m.train lup draws (ofM x) = ok m1) ↔ ∃ m2, m.train lup draws (ofM (Matrix.of fun i a => x i (σ a))) = ok m2) ∧
    ∀ m1 m2, m.train lup draws (ofM x) = ok m1 → m.train lup draws (ofM (Matrix.of fun i a => x i (σ a))) = ok m2 →
      (∃ (k : ℕ) (w : Fin k → ℝ) (μ : Fin k → Fin d → ℝ) (S : Fin k → Matrix (Fin d) (Fin d) ℝ), HasParams m1 w μ S ∧
        HasParams m2 w (fun j a => μ j (σ a)) (fun j => Matrix.of fun a b => S j (σ a) (σ b))) ∧
      ∀ (p : ℕ) (z : Matrix (Fin p) (Fin d) ℝ) (P : Mat ℝ),
        m1.predict lup (ofM z) = ok P ↔ m2.predict lup (ofM (Matrix.of fun i a => z i (σ a))) = ok P := by
  have hdet : |(σ.permMatrix ℝ).det| = 1 := by
    rw [Matrix.det_permutation]
    rcases Int.units_eq_one_or (Equiv.Perm.sign σ) with h | h <;> simp [h]
  obtain ⟨h1, h2⟩ := C101_same_volume hl hr draws hm x hdet (perm_suits σ m.covOption) 0
  rw [perm_rows] at h1 h2
  refine ⟨h1, fun m1 m2 g1 g2 => ?_⟩
  obtain ⟨⟨k, w, μ, S, a1, a2, -⟩, h3⟩ := h2 m1 m2 g1 g2
  refine ⟨⟨k, w, μ, S, a1, ?_⟩, fun p z P => ?_⟩
  · simp only [perm_mulVec, perm_conj] at a2
    exact a2
  · rw [h3 p z P, perm_rows]

/-- The hypotheses of `C97_mixture`, with regularised covariances and two exchanged features. -/
example : ∃ m1 m2 : Gmm ℝ, Gmm.train exactLup (fun _ => 0) { (Gmm.new 2 : Gmm ℝ).setMaxIters 7 with covOption := .regularized 1 }
      (ofM !![0, 1; 1, 5; 3, 2]) = ok m1 ∧
    Gmm.train exactLup (fun _ => 0) { (Gmm.new 2 : Gmm ℝ).setMaxIters 7 with covOption := .regularized 1 }
      (ofM (Matrix.of fun i a => !![0, 1; 1, 5; 3, (2 : ℝ)] i (Equiv.swap 0 1 a))) = ok m2 := by
  obtain ⟨m1, h1, -⟩ := C70_regularized exactLup_exact exactLup_regular (fun _ => 0) (gmm_regularized_history 7) one_pos rfl (n := 3) (d := 2)
    (ofM_shape !![0, 1; 1, 5; 3, 2]) (by norm_num) (by simp [Gmm.new, Gmm.setMaxIters])
  obtain ⟨g1, -⟩ := C97_mixture exactLup_exact exactLup_regular (fun _ => 0) (gmm_regularized_history 7) !![0, 1; 1, 5; 3, 2] (Equiv.swap 0 1)
  obtain ⟨m2, h2⟩ := g1.mp ⟨m1, h1⟩
  exact ⟨m1, m2, h1, h2⟩

end RM
