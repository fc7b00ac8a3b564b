import Verif.Props.FeatureOrderNet
import Verif.Props.FeatureOrderMore
import Verif.Props.Glm
import Verif.Props.GdRate
import Verif.Props.Gp
import Verif.Props.Backprop
import Verif.Props.NaiveBayes

/-!
Concrete cases that meet the hypotheses of the C97 theorems: data with two features, and the two features swapped.
-/

namespace RM
open Outcome Scalar Spec

/-- Two features. -/
def twoFeatures : Mat ℝ := ⟨2, [[0, 0], [1, 0], [0, 1], [1, 2]]⟩

theorem twoFeatures_wf : twoFeatures.WF := by intro r hr; simp [twoFeatures] at hr; rcases hr with rfl | rfl | rfl | rfl <;> rfl

theorem swapped : IsOrder 2 [1, 0] := List.Perm.swap _ _ _

/-- The swapped data. -/
theorem twoFeatures_swapped : reorderCols [1, 0] twoFeatures = ⟨2, [[0, 0], [0, 1], [1, 0], [2, 1]]⟩ := by simp [reorderCols, reorder, twoFeatures]

theorem twoFeatures_independent : AffinelyIndependent twoFeatures := by
  intro β hb h
  obtain ⟨a, b, c, rfl⟩ := List.length_eq_three.mp hb
  have h0 := h [0, 0] (by simp [twoFeatures])
  have h1 := h [1, 0] (by simp [twoFeatures])
  have h2 := h [0, 1] (by simp [twoFeatures])
  simp [affine, Spec.inner] at h0 h1 h2
  subst h0
  simp only [zero_add] at h1 h2
  subst h1 h2
  rfl

/-- Linear regression, directly. -/
example : ∃ m m' p, LinReg.train (gaussSolve (0 : ℝ)) twoFeatures [1, 2, 0, 5] = ok m ∧ LinReg.train (gaussSolve (0 : ℝ)) (reorderCols [1, 0] twoFeatures) [1, 2, 0, 5] = ok m' ∧
    m.predict ⟨2, [[3, 4]]⟩ = ok p ∧ m'.predict ⟨2, [[4, 3]]⟩ = ok p := by
  obtain ⟨m, hm⟩ := (C48_succeeds_iff (gaussSolve_exact 0 le_rfl) gaussSolve_regular twoFeatures twoFeatures_wf [1, 2, 0, 5] rfl).2 twoFeatures_independent
  obtain ⟨m', h1, h2⟩ := C97_lin_reg (gaussSolve_exact 0 le_rfl) gaussSolve_regular _ twoFeatures_wf swapped _ m hm
  obtain ⟨p, h3, h4⟩ := h2 ⟨2, [[3, 4]]⟩ (by intro r hr; simp at hr; subst hr; rfl) rfl
  refine ⟨m, m', p, hm, h1, h3, ?_⟩
  simpa [reorderCols, reorder] using h4

/-- Linear regression by gradient descent. -/
example : ∃ a b c, LinReg.trainWithOptimization twoFeatures [1, 2, 0, 5] = ok ⟨some [a, b, c]⟩ ∧
    LinReg.trainWithOptimization (reorderCols [1, 0] twoFeatures) [1, 2, 0, 5] = ok ⟨some [a, c, b]⟩ := by
  obtain ⟨β, hβ, _⟩ := C83_linear twoFeatures twoFeatures_wf [1, 2, 0, 5] rfl (by simp [twoFeatures]) (by norm_num [totalSquares, twoFeatures, Spec.inner])
  obtain ⟨a, w, hw, hl, hs⟩ := (C97_lin_reg_descent twoFeatures_wf swapped [1, 2, 0, 5]).1 _ hβ
  obtain ⟨b, c, rfl⟩ := List.length_eq_two.mp hl
  cases hw
  refine ⟨a, b, c, hβ, ?_⟩
  simpa [reorder] using hs

/-- Logistic regression by gradient descent. -/
example : ∃ a b c, LogReg.train (fun g s => ((⟨1, 50⟩ : GradientDesc ℝ).optimize g s).out) twoFeatures [1, 0, 0, 1] = ok ⟨some [a, b, c]⟩ ∧
    LogReg.train (fun g s => ((⟨1, 50⟩ : GradientDesc ℝ).optimize g s).out) (reorderCols [1, 0] twoFeatures) [1, 0, 0, 1] = ok ⟨some [a, c, b]⟩ := by
  obtain ⟨β, hβ, _⟩ := C83_logistic ⟨1, 50⟩ one_pos (by norm_num) twoFeatures twoFeatures_wf [1, 0, 0, 1] rfl (by simp) (by
    norm_num [totalSquares, twoFeatures, Spec.inner])
  obtain ⟨a, w, hw, hl, hs⟩ := (C97_logistic ⟨1, 50⟩ twoFeatures_wf swapped [1, 0, 0, 1]).1 _ hβ
  obtain ⟨b, c, rfl⟩ := List.length_eq_two.mp hl
  cases hw
  refine ⟨a, b, c, hβ, ?_⟩
  simpa [reorder] using hs

/-- A generalised linear model. -/
example : ∃ a b c, (⟨.normal, none⟩ : Glm ℝ).train (gaussInverse 0) twoFeatures [1, 2, 0, 5] = ok ⟨.normal, some [a, b, c]⟩ ∧
    (⟨.normal, none⟩ : Glm ℝ).train (gaussInverse 0) (reorderCols [1, 0] twoFeatures) [1, 2, 0, 5] = ok ⟨.normal, some [a, c, b]⟩ := by
  obtain ⟨β, h1, _⟩ := C53_linear_regression (gaussInverse_exact 0 le_rfl) gaussInverse_regular (gaussSolve_exact 0 le_rfl) gaussSolve_regular
    twoFeatures twoFeatures_wf twoFeatures_independent [1, 2, 0, 5] rfl
  obtain ⟨a, w, hw, hl, hs⟩ := C97_glm (gaussInverse_exact 0 le_rfl) gaussInverse_regular _ _ twoFeatures_wf swapped _ h1
  obtain ⟨b, c, rfl⟩ := List.length_eq_two.mp hl
  cases hw
  refine ⟨a, b, c, h1, ?_⟩
  simpa [reorder] using hs

/-- A standardiser and a scaler are fitted. -/
example (f : StandardizerFitter ℝ) (g : MinMaxFitter ℝ) : (∃ t, standardizerFit f twoFeatures = ok t) ∧ ∃ t, minmaxFit g twoFeatures = ok t :=
  ⟨⟨_, standardizerFit_real f _ twoFeatures_wf (by simp [twoFeatures])⟩, (minmaxFit_real g _ twoFeatures_wf).imp fun _ h => h.1⟩

/-- A Gaussian process is trained. -/
example (a b c d : ℝ) : ∃ g', Gp.train exactLib ⟨sqExpKernel 1 1, constMean 0, 1 / 10, none, none, none⟩ twoFeatures [a, b, c, d] = ok g' ∧ OrderFree (sqExpKernel 1 1) := by
  obtain ⟨g', hg⟩ := C59_train_psd (g := ⟨sqExpKernel 1 1, constMean 0, 1 / 10, none, none, none⟩) (X := twoFeatures) (y := [a, b, c, d]) exactLib_ok (C59_kernels (Built.sqExp 1 1)) (C59_mean 0).1
    twoFeatures_wf (C61_gram (PSDBuilt.sqExp one_ne_zero zero_le_one) 2) (by norm_num) rfl
  exact ⟨g', hg, (C97_kernels 0 0 0 1 1).2.2.2.1⟩

/-- The weights of a network with two inputs, two hidden units and one output, with the inputs swapped: the row of the bias stays. -/
example : weightOrder (firstOrder true [1, 0]) 2 9 = [0, 1, 4, 5, 2, 3, 6, 7, 8] := by decide

/-- A network. -/
noncomputable def twoInputs : BaseNet ℝ := ⟨[.new 2 2, .activ sigmoid, .new 2 1], [1, 2, 3, 4, 5, 6, 7, 8, 9], ⟨.mse, .none⟩⟩

example (r : ℕ → ℕ → ℕ) (o : StochasticGD ℝ) : ∃ w, twoInputs.train (fun g s X T => (o.optimize g r s X T).out) twoFeatures ⟨1, [[0], [1], [1], [0]]⟩ = ok (withWeights twoInputs w) ∧
    w.length = 9 ∧ (withWeights twoInputs [1, 2, 5, 6, 3, 4, 7, 8, 9]).train (fun g s X T => (o.optimize g r s X T).out) (reorderCols [1, 0] twoFeatures) ⟨1, [[0], [1], [1], [0]]⟩ =
      ok (withWeights twoInputs (reorder [0, 1, 4, 5, 2, 3, 6, 7, 8] w)) := by
  obtain ⟨f, df, _, h, _⟩ := C40_training twoInputs rfl rfl (by simp [twoInputs]) (.linear true rfl (.activ _ (.linear true rfl (.nil 1)))) (C40_activations _ (by
    intro A hA
    simp [twoInputs, NetLayer.new] at hA
    rw [hA]
    exact Or.inl rfl)) (by intro h; cases h) twoFeatures ⟨1, [[0], [1], [1], [0]]⟩ rfl rfl twoFeatures_wf (by intro r hr; simp at hr; rcases hr with rfl | rfl | rfl <;> rfl)
    (by simp [twoFeatures]) r
  obtain ⟨w, _, hw, hl, _⟩ := h o
  have := C97_network [.activ sigmoid, .new 2 1] [1, 2, 3, 4, 5, 6, 7, 8, 9] ⟨.mse, .none⟩ true (o := 2) swapped rfl (X := twoFeatures) (T := ⟨1, [[0], [1], [1], [0]]⟩) twoFeatures_wf rfl rfl
    _ (Or.inr (Or.inl ⟨o, r, rfl⟩)) _ hw
  refine ⟨w, hw, hl, ?_⟩
  have h2 := this.2.1
  rw [show weightOrder (firstOrder true [1, 0]) 2 [(1 : ℝ), 2, 3, 4, 5, 6, 7, 8, 9].length = [0, 1, 4, 5, 2, 3, 6, 7, 8] from by decide] at h2
  simpa [reorder, withWeights, twoInputs, NetLayer.new] using h2

/-- Naive Bayes is trained. -/
example : ∃ m, nbTrain bernDistr (nbNew _ ℝ) twoFeatures ⟨2, [[1, 0], [1, 0], [0, 1], [0, 1]]⟩ = (m, ok ()) := by
  have hT : (⟨2, [[1, 0], [1, 0], [0, 1], [0, 1]]⟩ : Mat ℝ).WF := by intro r hr; simp at hr; rcases hr with rfl | rfl <;> rfl
  obtain ⟨m, _, h, _⟩ := nb_trained_bern (m := nbNew _ ℝ) (X := twoFeatures) hT (by
    intro t ht
    simp at ht
    rcases ht with rfl | rfl <;> simp [classOf]) rfl
  exact ⟨m, h⟩

/-- k-means, started from the same two points in both orders. -/
example (m : KMeans XR) (hk : 0 < m.k) := C97_kmeans twoFeatures_wf two_pos swapped m hk (fun _ _ => ok (finMat ⟨2, [[0, 0], [1, 2]]⟩))
  (fun _ _ => ok (finMat (reorderCols [1, 0] ⟨2, [[0, 0], [1, 2]]⟩))) ⟨2, [[0, 0], [1, 2]]⟩ (by intro r hr; simp at hr; rcases hr with rfl | rfl <;> rfl) rfl rfl rfl

end RM
