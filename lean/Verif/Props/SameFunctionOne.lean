import Verif.Props.SameFunction
import Verif.Props.Gmm
import Verif.Proofs.KMeans

/-!
C102: one cluster or one component is the average of the samples.
-/

set_option linter.unusedSectionVars false

namespace RM
open Outcome Scalar Spec Matrix

/-! ### k-means -/

section anyScalar
variable {F : Type} [Scalar F]

theorem closest_one {X : Mat F} {C : Mat F} (hc : C.cols = X.cols) (h1 : C.rows.length = 1) :
    ∃ ds, findClosest C X = ok (List.replicate X.rows.length 0, ds) := by
  obtain ⟨c, rows⟩ := C
  obtain ⟨r, rfl⟩ := List.length_eq_one_iff.1 h1
  simp only at hc
  subst hc
  unfold findClosest
  rw [mapM_ok_map _ (fun row => (0, kmDist row r))]
  · refine ⟨X.rows.map fun row => kmDist row r, ?_⟩
    rw [ok_bind, List.map_map, List.map_map]
    simp only [Function.comp_def, List.map_const']
  · intro row _
    rw [closestTo_eq ⟨X.cols, [r]⟩ row]
    rfl

theorem labelled_zero {α : Type} (X : List α) : labelled 0 X (List.replicate X.length 0) = X := by
  induction X with
  | nil => rfl
  | cons x X ih =>
    unfold labelled at ih ⊢
    simpa [List.replicate_succ] using ih

theorem update_one (X : Mat F) : updateCentroids 1 X (List.replicate X.rows.length 0) = ok ⟨X.cols, [X.meanRow]⟩ := by
  rw [updateCentroids_eq 1 X _ (by simp)]
  simp only [List.range_one, List.map_cons, List.map_nil, labelled_zero]

/-- **C102 (one cluster).** k-means with one cluster and at least one iteration finds the average of the samples, whatever the initialisation
chooses and however often it iterates, in any arithmetic; and it predicts cluster 0 for everything. -/
theorem C102_one_cluster (init : ℕ → Mat F → Outcome (Mat F)) (iters : ℕ) (ht : 0 < iters) (X : Mat F) (m' : KMeans F)
    (h : kmTrain init (kmNew 1 iters) X = (m', ok ())) :
    m'.centroids = some ⟨X.cols, [X.meanRow]⟩ ∧
      ∀ Z : Mat F, Z.cols = X.cols → kmPredict m' Z = ok (List.replicate Z.rows.length 0) := by
  have loop : ∀ (t : ℕ) (cost : F) (C c : Mat F), C.cols = X.cols → C.rows.length = 1 → kmLoop 1 X (t + 1) cost C = ok c → c = ⟨X.cols, [X.meanRow]⟩ := by
    intro t
    induction t with
    | zero =>
      intro cost C c h1 h2 hr
      obtain ⟨ds, hd⟩ := closest_one h1 h2
      unfold kmLoop at hr
      rw [hd, ok_bind] at hr
      simp only [update_one, ok_bind] at hr
      split at hr
      · injection hr with hr; exact hr.symm
      · unfold kmLoop at hr
        injection hr with hr; exact hr.symm
    | succ t ih =>
      intro cost C c h1 h2 hr
      obtain ⟨ds, hd⟩ := closest_one h1 h2
      unfold kmLoop at hr
      rw [hd, ok_bind] at hr
      simp only [update_one, ok_bind] at hr
      split at hr
      · injection hr with hr; exact hr.symm
      · exact ih _ ⟨X.cols, [X.meanRow]⟩ _ rfl rfl hr
  have hc : m'.centroids = some ⟨X.cols, [X.meanRow]⟩ := by
    obtain ⟨t, rfl⟩ : ∃ t, iters = t + 1 := ⟨iters - 1, by omega⟩
    unfold kmTrain at h
    simp only [kmNew] at h
    cases hi : kmInit init 1 X with
    | ok c0 =>
      rw [hi] at h
      simp only at h
      have hs : c0.rows.length = 1 ∧ c0.cols = X.cols := by
        unfold kmInit at hi
        split at hi
        · cases hi
        · obtain ⟨c, -, hi⟩ := bind_eq_ok.1 hi
          split at hi
          · cases hi
          · rename_i e1
            split at hi
            · cases hi
            · rename_i e2
              injection hi with hi
              subst hi
              exact ⟨not_not.1 e1, not_not.1 e2⟩
      cases hl : kmLoop 1 X (t + 1) Scalar.zero c0 with
      | ok c =>
        rw [hl] at h
        simp only at h
        rw [← (Prod.mk.inj h).1, loop t _ _ _ hs.2 hs.1 hl]
      | err e => rw [hl] at h; exact absurd (Prod.mk.inj h).2 (by simp)
      | panic => rw [hl] at h; exact absurd (Prod.mk.inj h).2 (by simp)
      | ub => rw [hl] at h; exact absurd (Prod.mk.inj h).2 (by simp)
    | err e => rw [hi] at h; exact absurd (Prod.mk.inj h).2 (by simp)
    | panic => rw [hi] at h; exact absurd (Prod.mk.inj h).2 (by simp)
    | ub => rw [hi] at h; exact absurd (Prod.mk.inj h).2 (by simp)
  refine ⟨hc, ?_⟩
  intro Z hZ
  obtain ⟨ds, hd⟩ := closest_one (X := Z) (C := ⟨X.cols, [X.meanRow]⟩) hZ.symm rfl
  unfold kmPredict
  rw [hc]
  simp only [hd, ok_bind]

end anyScalar

/-! ### Mixtures -/

/-- **C102 (one component).** A mixture with one component, trained with at least one iteration, has weight 1, the average of the samples as its
mean, and as its covariance the covariance of the samples with divisor `n` (its diagonal, or with the regularisation), unless
the iterations stopped at once, when it is still what training with no iterations gives. -/
theorem C102_one_component {lup : Mat ℝ → Outcome (ℝ × Outcome (Mat ℝ))} (hl : LupExact lup) {draws : ℕ → ℕ} {m : Gmm ℝ} (hm : GmmHistory lup m)
    (h1 : m.compCount = 1) {n d : ℕ} {X : Mat ℝ} (hX : HasShape X n d) (t : ℕ) (m' : Gmm ℝ) (h : (m.setMaxIters (t + 1)).train lup draws X = ok m') :
    HasParams m' (fun _ : Fin 1 => 1) (fun _ a => (∑ i, toM n d X i a) / n) (fun _ => optionCov m.covOption (fun _ (_ : Fin 1) => 1) (toM n d X) 0) ∨
    ∃ m0, (m.setMaxIters 0).train lup draws X = ok m0 ∧ m'.mixWeights = m0.mixWeights ∧ m'.means = m0.means ∧ m'.covars = m0.covars := by
  obtain ⟨k, w0, -, hk, g3, g4, g5, -⟩ := history_inv hl hm
  obtain rfl : k = 1 := hk.symm.trans h1
  rw [eq_ofM hX] at h ⊢
  simp only [toM_ofM]
  set x := toM n d X with hx
  obtain ⟨hn, hkn, -⟩ := train_good (m := m.setMaxIters (t + 1)) hl hk g3 g4 g5 h
  obtain ⟨σ, -, -, m0, -, -, -, f3⟩ := train_start lup draws hk g3 x hn hkn
  have pre : ∀ (t : ℕ) (r : Gmm ℝ), (m.setMaxIters (t + 1)).train lup draws (ofM x) = ok r → ∃ r', (m.setMaxIters t).train lup draws (ofM x) = ok r' := by
    intro t r hr
    rw [f3, emLoop_succ] at hr
    obtain ⟨a, ha, -⟩ := bind_eq_ok.1 hr
    obtain ⟨b, hb, -⟩ := bind_eq_ok.1 ha
    exact ⟨_, by rw [f3, hb]; rfl⟩
  have hmean : ∀ a, weightedMean (fun _ (_ : Fin 1) => 1) x 0 a = (∑ i, x i a) / n := by
    intro a
    simp [weightedMean, compTotal]
  have step : ∀ (t : ℕ) (m1 m2 : Gmm ℝ), (m.setMaxIters t).train lup draws (ofM x) = ok m1 → (m.setMaxIters (t + 1)).train lup draws (ofM x) = ok m2 →
      HasParams m2 (fun _ : Fin 1 => 1) (fun _ a => (∑ i, x i a) / n) (fun _ => optionCov m.covOption (fun _ (_ : Fin 1) => 1) x 0) ∨
      m2.mixWeights = m1.mixWeights ∧ m2.means = m1.means ∧ m2.covars = m1.covars ∧ m2.compCount = m1.compCount := by
    intro t m1 m2 e1 e2
    obtain ⟨w, μ, S, p1, p2, p3, -, p5⟩ := train_two hl hk g3 g4 g5 e1 e2
    rcases p5 with ⟨p5, -⟩ | ⟨p5, -⟩
    · right
      exact ⟨by rw [p5.2.1, p1.2.1], by rw [p5.2.2.1, p1.2.2.1], by rw [p5.2.2.2, p1.2.2.2], by rw [p5.1, p1.1]⟩
    · left
      have hpost : (fun i => posterior w μ S (x i)) = fun _ (_ : Fin 1) => (1 : ℝ) := by
        funext i j
        exact posterior_one p2.mix p3 (x i) j
      rw [hpost] at p5
      have hn0 : (n : ℝ) ≠ 0 := by
        have : n ≠ 0 := by omega
        exact_mod_cast this
      have e1 : (fun j => compTotal (fun (_ : Fin n) (_ : Fin 1) => (1 : ℝ)) j / n) = fun _ => 1 := by
        funext j
        simp [compTotal, hn0]
      have e2 : weightedMean (fun (_ : Fin n) (_ : Fin 1) => (1 : ℝ)) x = fun _ a => (∑ i, x i a) / n := by
        funext j a
        rw [Subsingleton.elim j 0, hmean]
      have e3 : optionCov m.covOption (fun (_ : Fin n) (_ : Fin 1) => (1 : ℝ)) x = fun _ => optionCov m.covOption (fun _ (_ : Fin 1) => 1) x 0 := by
        funext j
        rw [Subsingleton.elim j 0]
      rw [e1, e2, e3] at p5
      exact p5
  induction t generalizing m' with
  | zero =>
    obtain ⟨m1, hm1⟩ := pre 0 m' h
    rcases step 0 m1 m' hm1 h with h2 | ⟨a, b, c, -⟩
    · exact Or.inl h2
    · exact Or.inr ⟨m1, hm1, a, b, c⟩
  | succ t ih =>
    obtain ⟨m1, hm1⟩ := pre (t + 1) m' h
    rcases step (t + 1) m1 m' hm1 h with h2 | ⟨a, b, c, e⟩
    · exact Or.inl h2
    · rcases ih m1 hm1 with h3 | ⟨m2, q1, q2, q3, q4⟩
      · left
        exact ⟨e.trans h3.1, a.trans h3.2.1, b.trans h3.2.2.1, c.trans h3.2.2.2⟩
      · exact Or.inr ⟨m2, q1, a.trans q2, b.trans q3, c.trans q4⟩

/-- The covariance with all weights equal to one, written out. -/
theorem C102_one_covariance {n d : ℕ} (x : Fin n → Fin d → ℝ) (a b : Fin d) :
    optionCov .full (fun _ (_ : Fin 1) => 1) x 0 a b = (∑ i, (x i a - (∑ l, x l a) / n) * (x i b - (∑ l, x l b) / n)) / n := by
  simp [optionCov, weightedCov, weightedMean, compTotal]

/-! ### The hypotheses can be met -/

/-- k-means on three samples, starting at the first. -/
example : ∃ m', kmTrain (fun _ X => X.selectRows [0]) (kmNew 1 5) (⟨1, [[0], [1], [5]]⟩ : Mat ℝ) = (m', ok ()) := by
  have hi : kmInit (fun _ X => X.selectRows [0]) 1 (⟨1, [[0], [1], [5]]⟩ : Mat ℝ) = ok ⟨1, [[0]]⟩ := by
    simp [kmInit, Mat.selectRows, getAt]
  have hl : ∀ (t : ℕ) (cost : ℝ) (C : Mat ℝ), C.cols = 1 → C.rows.length = 1 → ∃ c, kmLoop 1 (⟨1, [[0], [1], [5]]⟩ : Mat ℝ) t cost C = ok c := by
    intro t
    induction t with
    | zero => intro _ C _ _; exact ⟨C, rfl⟩
    | succ t ih =>
      intro cost C h1 h2
      obtain ⟨ds, hd⟩ := closest_one (X := ⟨1, [[0], [1], [5]]⟩) h1 h2
      unfold kmLoop
      rw [hd, ok_bind]
      simp only [update_one, ok_bind]
      split
      · exact ⟨_, rfl⟩
      · exact ih _ _ rfl rfl
  obtain ⟨c, hc⟩ := hl 5 Scalar.zero ⟨1, [[0]]⟩ rfl rfl
  refine ⟨{ (kmNew 1 5 : KMeans ℝ) with centroids := some c }, ?_⟩
  unfold kmTrain
  simp only [kmNew, hi, hc]

/-- A mixture of one component with regularised covariances can be trained on every data set with two samples or more. -/
example (draws : ℕ → ℕ) : ∃ m', (({ (Gmm.new 1 : Gmm ℝ) with covOption := .regularized 1 } : Gmm ℝ).setMaxIters (4 + 1)).train exactLup draws
    ⟨1, [[0], [1], [5]]⟩ = ok m' := by
  have hm : GmmHistory exactLup (({ (Gmm.new 1 : Gmm ℝ) with covOption := .regularized 1 } : Gmm ℝ).setMaxIters (4 + 1)) :=
    .setMaxIters _ _ (.setOption _ _ (by intro e h; cases h; exact zero_le_one) (.new 1 one_pos))
  obtain ⟨m', h, -⟩ := C70_regularized exactLup_exact exactLup_regular draws hm one_pos rfl (n := 3) (d := 1) (X := ⟨1, [[0], [1], [5]]⟩)
    ⟨rfl, rfl, by simp⟩ (by norm_num) (by simp [Gmm.new, Gmm.setMaxIters])
  exact ⟨m', h⟩

end RM
