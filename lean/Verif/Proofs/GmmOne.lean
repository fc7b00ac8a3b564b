import Verif.Proofs.GmmHist

/-! One component, on the samples 0 and 2. -/

namespace RM
open Outcome Scalar Spec Matrix

theorem posterior_one {d : ℕ} {w : Fin 1 → ℝ} (hw : IsMixture w) {μ : Fin 1 → Fin d → ℝ} {S : Fin 1 → Matrix (Fin d) (Fin d) ℝ}
    (hS : ∀ j, PosDefinite (S j)) (x : Fin d → ℝ) (j : Fin 1) : posterior w μ S x j = 1 := by
  have := (posterior_pos (μ := μ) hw hS x).2.2
  rw [Fin.sum_univ_one] at this
  rw [Subsingleton.elim j 0]
  exact this

theorem scalar_det (s : ℝ) : (Matrix.of fun (_ _ : Fin 1) => s).det = s := by simp

theorem scalar_inv {s : ℝ} (hs : s ≠ 0) : (Matrix.of fun (_ _ : Fin 1) => s)⁻¹ = Matrix.of fun _ _ => s⁻¹ := by
  apply Matrix.inv_eq_right_inv
  ext i j
  rw [Subsingleton.elim i 0, Subsingleton.elim j 0]
  simp [Matrix.mul_apply, hs]

theorem scalar_def {s : ℝ} (hs : 0 < s) : PosDefinite (Matrix.of fun (_ _ : Fin 1) => s) := by
  refine ⟨rfl, fun v hv => ?_⟩
  have h0 : v 0 ≠ 0 := fun h => hv (by funext i; rw [Subsingleton.elim i 0, h]; rfl)
  simp only [dotProduct, Matrix.mulVec, Finset.univ_unique, Finset.sum_singleton, Matrix.of_apply, Fin.default_eq_zero]
  nlinarith [mul_self_pos.mpr h0]

theorem codeLik_one {n : ℕ} {w : Fin 1 → ℝ} (hw : w 0 = 1) (μ : Fin 1 → Fin 1 → ℝ) {s : ℝ} (hs : 0 < s) (x : Fin n → Fin 1 → ℝ) :
    codeLik w μ (fun _ => Matrix.of fun _ _ => s) x = ∑ i, (-(1 / 2) * ((x i 0 - μ 0 0) ^ 2 / s) - 1 / 2 * Real.log s) := by
  unfold codeLik
  refine Finset.sum_congr rfl fun i _ => ?_
  have e : Real.sqrt ((2 * Real.pi) ^ 1) * mixDensity w μ (fun _ => Matrix.of fun _ _ => s) (x i) =
      rawDensity (μ 0) (Matrix.of fun _ _ => s) (x i) := by
    rw [rawDensity_eq, mixDensity, Fin.sum_univ_one, hw, one_mul]
  rw [e, rawDensity, scalar_det, scalar_inv hs.ne', Real.log_div (Real.exp_pos _).ne' (Real.sqrt_pos.mpr hs).ne', Real.log_exp,
    Real.log_sqrt hs.le]
  simp only [dotProduct, Matrix.mulVec, Finset.univ_unique, Finset.sum_singleton, Matrix.of_apply, Fin.default_eq_zero, Pi.sub_apply]
  ring

/-- The samples 0 and 2. -/
def twoPoints : Matrix (Fin 2) (Fin 1) ℝ := Matrix.of fun i _ => if i = 0 then 0 else 2

theorem twoPoints_mat : ofM twoPoints = ⟨1, [[0], [2]]⟩ := by
  unfold ofM matOf twoPoints
  simp

theorem twoPoints_start : startCov (n := 2) (d := 1) .full twoPoints = Matrix.of fun _ _ => 2 := by
  ext a b
  rw [Subsingleton.elim a 0, Subsingleton.elim b 0]
  simp [startCov, sampleCov, twoPoints, Fin.sum_univ_two]
  norm_num

theorem twoPoints_startReg (e : ℝ) : startCov (n := 2) (d := 1) (.regularized e) twoPoints = Matrix.of fun _ _ => 2 + e := by
  have := twoPoints_start
  simp only [startCov] at this ⊢
  rw [this]
  ext a b
  rw [Subsingleton.elim a 0, Subsingleton.elim b 0]
  simp

theorem twoPoints_lik {w : Fin 1 → ℝ} (hw : w 0 = 1) (i : Fin 2) {s : ℝ} (hs : 0 < s) :
    codeLik w (fun _ : Fin 1 => twoPoints i) (fun _ => Matrix.of fun _ _ => s) twoPoints = -(2 / s) - Real.log s := by
  have h := codeLik_one hw (fun _ : Fin 1 => twoPoints i) hs twoPoints
  rw [h, Fin.sum_univ_two]
  fin_cases i <;> simp [twoPoints] <;> field_simp <;> ring

theorem two_lik_far {s : ℝ} (hs : 2 ≤ s) : ¬ |-(2 / s) - Real.log s - 0| < 1 / 10 ^ 15 := by
  have h1 : 0 < Real.log 2 := Real.log_pos (by norm_num)
  have h2 : Real.log 2 ≤ Real.log s := Real.log_le_log (by norm_num) hs
  have h3 : 0 < 2 / s := by positivity
  have h4 : (1 : ℝ) / 2 ≤ Real.log 2 := by
    have := Real.one_sub_inv_le_log_of_pos (show (0 : ℝ) < 2 by norm_num)
    norm_num at this ⊢
    linarith
  rw [not_lt, sub_zero, abs_of_neg (by linarith)]
  norm_num
  linarith

/-- One iteration on the two samples. -/
theorem twoPoints_train {lup : Mat ℝ → Outcome (ℝ × Outcome (Mat ℝ))} (hl : LupExact lup) (hr : LupRegular lup) (draws : ℕ → ℕ)
    (opt : CovOption ℝ) (s : ℝ) (hs : 2 ≤ s) (hopt : startCov (n := 2) (d := 1) opt twoPoints = Matrix.of fun _ _ => s) :
    ∃ m1, Gmm.train lup draws ⟨1, [1], none, none, 0, 1, opt⟩ (ofM twoPoints) = ok m1 ∧
      HasParams m1 (fun _ : Fin 1 => 1) (fun _ _ => 1) (optionCov opt (fun (_ : Fin 2) (_ : Fin 1) => 1) twoPoints) ∧
      m1.covOption = opt ∧ m1.maxIters = 1 ∧ m1.logLik = -(2 / s) - Real.log s := by
  have hw : IsMixture (fun _ : Fin 1 => (1 : ℝ)) := ⟨fun _ => one_pos, by simp⟩
  obtain ⟨σ, -, -, m0, f1, f2, f3, f4⟩ := train_start (m := ⟨1, [1], none, none, 0, 1, opt⟩) (w := fun _ : Fin 1 => (1 : ℝ)) lup draws rfl
    (by simp) twoPoints (by omega) (by omega)
  have h := f4 1
  have e : Gmm.setMaxIters ⟨1, [(1 : ℝ)], none, none, 0, 1, opt⟩ 1 = ⟨1, [1], none, none, 0, 1, opt⟩ := rfl
  rw [e] at h
  have hs0 : 0 < s := by linarith
  have hS : ∀ j : Fin 1, PosDefinite ((fun _ => startCov opt twoPoints) j) := fun _ => by
    simp only [hopt]
    exact scalar_def hs0
  have hmem := memberships_regular hl hr f1 (fun j => (posDef_det (hS j)).ne') twoPoints
  obtain ⟨-, e2⟩ := emStep_eval f1 twoPoints hmem
  have hL : codeLik (fun _ : Fin 1 => (1 : ℝ)) (fun j => twoPoints (σ j)) (fun _ => startCov opt twoPoints) twoPoints = -(2 / s) - Real.log s := by
    have hσ : (fun j => twoPoints (σ j)) = fun _ : Fin 1 => twoPoints (σ 0) := by
      funext j
      rw [Subsingleton.elim j 0]
    rw [hσ, hopt]
    exact twoPoints_lik rfl (σ 0) hs0
  simp only [hL, f3] at e2
  obtain ⟨m', g1, g2, g3, g4, g5⟩ := e2 (two_lik_far hs)
  refine ⟨m'.setMaxIters 1, ?_, ?_, g3.trans f2, rfl, g5⟩
  · rw [h, Gmm.emLoop, g1]
    rfl
  · have hp : (fun i => posterior (fun _ : Fin 1 => (1 : ℝ)) (fun j => twoPoints (σ j)) (fun _ => startCov opt twoPoints) (twoPoints i)) =
        fun (_ : Fin 2) (_ : Fin 1) => (1 : ℝ) := by
      funext i j
      exact posterior_one hw hS _ j
    rw [hp, f2] at g2
    have a1 : (fun j : Fin 1 => compTotal (fun (_ : Fin 2) (_ : Fin 1) => (1 : ℝ)) j / ((2 : ℕ) : ℝ)) = fun _ => 1 := by
      funext j
      simp [compTotal]
    have a2 : weightedMean (fun (_ : Fin 2) (_ : Fin 1) => (1 : ℝ)) twoPoints = fun _ _ => 1 := by
      funext j a
      simp [weightedMean, compTotal, twoPoints, Fin.sum_univ_two]
    rw [a1, a2] at g2
    exact g2

end RM
