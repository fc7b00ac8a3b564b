import Verif.Model.Defaults
import Verif.Props.Noiseless
import Verif.Props.Dist
import Verif.Props.DistSample
import Verif.Props.Optim
import Verif.Props.Fmincg
import Verif.Props.Backprop
import Verif.Props.Transforms
import Verif.Props.KNNTree
import Verif.Props.Kernel
import Verif.Props.Dbscan

/-! C91: objects built by `default()` or with the short constructors behave as documented. -/

namespace RM
open Outcome Scalar Spec

/-- **C91 (kernels).** The default linear and polynomial kernels are the inner product, the default squared exponential kernel is
`exp(-|x-y|²/2)`, the default exponential one `exp(-|x-y|/2)`, the hyperbolic tangent one `tanh ⟨x, y⟩`, the multiquadric one
the Euclidean distance and the rational quadratic one `1/(1 + |x-y|²/2)`. -/
theorem C91_kernels (x y : List ℝ) (h : x.length = y.length) :
    linearDefault x y = ok (innerProd x y) ∧ polyDefault x y = ok (innerProd x y) ∧
    sqExpDefault x y = ok (Real.exp (-(sqDist x y / 2))) ∧ expDefault x y = ok (Real.exp (-(Real.sqrt (sqDist x y) / 2))) ∧
    hyperTanDefault x y = ok (Real.tanh (innerProd x y)) ∧ multiquadricDefault x y = ok (Real.sqrt (sqDist x y)) ∧
    rationalQuadraticDefault x y = ok (1 / (1 + sqDist x y / 2)) := by
  refine ⟨?_, ?_, ?_, ?_, ?_, ?_, ?_⟩
  · exact ((C60_values x y h 0 0 0 0 0).1).trans (by rw [add_zero])
  · exact ((C60_values x y h 1 0 1 0 0).2.1).trans (by rw [one_mul, add_zero, Real.rpow_one])
  · exact ((C60_values x y h 0 0 0 1 1).2.2.2.1).trans (by rw [one_mul]; congr 2; ring)
  · exact ((C60_values x y h 0 0 0 1 1).2.2.2.2.1).trans (by rw [one_mul]; congr 2; ring)
  · exact ((C60_values x y h 1 0 0 0 0).2.2.1).trans (by rw [one_mul, add_zero])
  · exact ((C60_values x y h 0 0 0 0 0).2.2.2.2.2.1).trans (by norm_num)
  · exact ((C60_values x y h 1 0 0 1 0).2.2.2.2.2.2).trans (by rw [Real.rpow_neg_one, one_div]; norm_num)

example : sqExpDefault [1, 2] [0, (4 : ℝ)] = ok (Real.exp (-(5 / 2))) := by
  rw [(C91_kernels [1, 2] [0, 4] rfl).2.2.1]
  norm_num [sqDist]

/-- **C91 (distributions).** The default Gaussian is the standard normal, with mean 0 and variance 1: its density is
`exp(-x²/2)` divided by the constant of the library, it integrates to 1 up to `10⁻²⁰`, and a draw is the draw of the standard
normal unchanged. The default exponential distribution has density `exp(-x)`, distribution function `1 - exp(-x)` and returns
the draw of the source unchanged. -/
theorem C91_distributions (x n : ℝ) :
    (GaussDist.default : GaussDist ℝ) = GaussDist.new 0 1 ∧ (GaussDist.default : GaussDist ℝ) = GaussDist.fromStdDev 0 1 ∧
    (GaussDist.default : GaussDist ℝ).pdf x = Real.exp (-(x ^ 2 / 2)) / sqrt2Pi ∧
    |(∫ t, (GaussDist.default : GaussDist ℝ).pdf t) - 1| ≤ 1 / 10 ^ 20 ∧ (GaussDist.default : GaussDist ℝ).sample n = n ∧
    (0 ≤ x → (ExpDist.default : ExpDist ℝ).pdf x = ok (Real.exp (-x)) ∧ (ExpDist.default : ExpDist ℝ).cdf x = ok (1 - Real.exp (-x))) ∧
    (ExpDist.default : ExpDist ℝ).sample n = n := by
  have h1 : (GaussDist.default : GaussDist ℝ) = GaussDist.new 0 1 := by
    simp [GaussDist.default, GaussDist.new]
  refine ⟨h1, ?_, ?_, ?_, ?_, ?_, ?_⟩
  · simp [GaussDist.default, GaussDist.fromStdDev]
  · rw [h1, gauss_pdf]
    simp
  · rw [h1]
    exact C63_pdf_integral 0 1 one_pos
  · simp [GaussDist.default, GaussDist.sample]
  · intro hx
    constructor
    · simp [ExpDist.default, ExpDist.pdf, hx]
    · simp [ExpDist.default, ExpDist.cdf, hx]
  · simp [ExpDist.default, ExpDist.sample]

/-- **C91 (optimisers).** The default parameters of the gradient methods are accepted by the constructors (so they satisfy the
hypotheses of C45 and C46). -/
theorem C91_optimisers :
    GradientDesc.new (3 / 10 : ℝ) 100 = ok GradientDesc.default ∧ StochasticGD.new (1 / 10 : ℝ) (1 / 10) 20 = ok StochasticGD.default ∧
    AdaGrad.new (1 : ℝ) 3 100 = ok AdaGrad.default ∧ RMSProp.new (1 / 100 : ℝ) (9 / 10) (1 / 10 ^ 5) 50 = ok RMSProp.default := by
  refine ⟨?_, ?_, ?_, ?_⟩
  · norm_num [GradientDesc.new, GradientDesc.default]
  · rw [(C46_constructors _ _ 0 _).2.2, if_pos (by norm_num)]
    norm_num [StochasticGD.default]
  · rw [(C46_constructors _ _ 0 _).1, if_pos (by norm_num)]
    norm_num [AdaGrad.default]
  · rw [(C46_constructors _ _ _ _).2.1, if_pos (by norm_num)]
    norm_num [RMSProp.default]

/-- **C91 (conjugate gradient).** With the default settings the conjugate gradient minimiser returns, for every model with finite
costs and gradients, parameters of cost at most that of the start, after at most 2101 evaluations. -/
theorem C91_conjugate_gradient (g : List XR → Outcome (XR × List XR)) (f : List ℝ → ℝ) (df : List ℝ → List ℝ) (start : List ℝ)
    (hg : FiniteModel g f df start.length) :
    ∃ y : List ℝ, (ConjugateGD.default.optimize g (fins start)).out = ok (fins y) ∧ y.length = start.length ∧ f y ≤ f start ∧
      (ConjugateGD.default.optimize g (fins start)).log.length ≤ 2101 := by
  obtain ⟨y, h1, h2, h3⟩ := C47_never_worse ConjugateGD.default _ _ _ _ _ rfl (by norm_num) rfl rfl (by norm_num) (by norm_num) rfl
    (by norm_num) rfl (by norm_num) g f df start hg
  exact ⟨y, h1, h2, h3, C47_calls ConjugateGD.default g (fins start)⟩

/-- **C91 (transformers).** The default min-max scaler maps every non-constant column onto [0, 1] with both ends attained; the
default standardizer gives every non-constant column mean 0 and standard deviation 1; the default normalizer scales every row
that is not zero to Euclidean length 1. -/
theorem C91_transformers (X : Mat ℝ) (hw : X.WF) (h2 : 2 ≤ X.rows.length) (hrep : ∀ r ∈ X.rows, ∀ x ∈ r, |x| ≤ 2 ^ 1024 - 2 ^ 971)
    (hnc : ∀ j, j < X.cols → NonConstant (col X j)) :
    (∃ t Y, minmaxFit MinMaxFitter.default X = ok t ∧ minmaxTransform t X = ok Y ∧ SameShape X Y ∧
      ∀ j < X.cols, (∀ y ∈ col Y j, 0 ≤ y ∧ y ≤ 1) ∧ 0 ∈ col Y j ∧ 1 ∈ col Y j) ∧
    (∃ t Y, standardizerFit StandardizerFitter.default X = ok t ∧ standardizerTransform t X = ok Y ∧ SameShape X Y ∧
      ∀ j < X.cols, mean (col Y j) = 0 ∧ Real.sqrt (sampleVar (col Y j)) = 1) ∧
    ∃ Y, normalizerTransform normalizerDefault X = ok Y ∧ Y.cols = X.cols ∧
      List.Forall₂ (fun r r' => (∃ x ∈ r, x ≠ 0) → (r'.map fun x => x ^ 2).sum = 1) X.rows Y.rows := by
  refine ⟨?_, ?_, ?_⟩
  · obtain ⟨t, Y, h1, h3, h4, h5⟩ := C13_minmax_range MinMaxFitter.default X hw (by simp [MinMaxFitter.default]) hrep hnc
    exact ⟨t, Y, h1, h3, h4, fun j hj => ⟨(h5 j hj).1, (h5 j hj).2.1, (h5 j hj).2.2.1⟩⟩
  · obtain ⟨t, Y, h1, h3, h4, h5⟩ := C16_standardizer_moments StandardizerFitter.default X hw h2 hnc
    refine ⟨t, Y, h1, h3, h4, fun j hj => ⟨(h5 j hj).1, (h5 j hj).2.trans ?_⟩⟩
    simp [StandardizerFitter.default]
  · obtain ⟨Y, h1, h3, h4, -⟩ := C18_euclidean X
    exact ⟨Y, h1, h3, h4.imp fun r r' h => fun hx => (h.2.2 hx).1⟩

/-- **C91 (Gaussian process).** The default Gaussian process is untrained; it is trained exactly by data without repeated rows,
and then returns the training targets with variance 0. -/
theorem C91_gp {lib : TriLib ℝ} (hl : TriLibOk lib) {X : Mat ℝ} (hX : X.WF) {y : List ℝ} (hy : y.length = X.rows.length) :
    (Gp.default : Gp ℝ).predict X = err .UntrainedModel ∧
    ((∃ g', Gp.train lib Gp.default X y = ok g') ↔ X.rows.Nodup) ∧
    ∀ g', Gp.train lib Gp.default X y = ok g' →
      g'.predict X = ok y ∧ ∃ S, g'.posterior lib X = ok (y, S) ∧ toM X.rows.length X.rows.length S = 0 := by
  have h : StrictBuilt (sqExpDefault : Kernel ℝ) := StrictBuilt.sqExp (by norm_num) (by norm_num)
  have := C90_gp_interpolates hl h (C59_mean 0).1 hX hy
  exact ⟨rfl, this⟩

/-! ### Nearest neighbours -/

theorem treeBuild_small {F B : Type} [Scalar F] (K : SplitKind F B) (fuel : ℕ) (t : BinaryTree F B) (X : Mat F) (h0 : 0 < X.rows.length)
    (h : X.rows.length < t.leafsize) :
    treeBuild K (fuel + 1) t X = some (ok { t with data := some X, root := some (.leaf (List.range X.rows.length)) }) := by
  obtain ⟨a, ha⟩ : ∃ a, minRows X = ok a := by
    unfold minRows
    cases hr : X.rows with
    | nil => simp [hr] at h0
    | cons r rs => exact ⟨_, rfl⟩
  obtain ⟨b, hb⟩ : ∃ b, maxRows X = ok b := by
    unfold maxRows
    cases hr : X.rows with
    | nil => simp [hr] at h0
    | cons r rs => exact ⟨_, rfl⟩
  unfold treeBuild
  rw [ha, hb]
  simp [splitNode, h]

/-- **C91 (nearest neighbours).** `new(k)` and `default()` (which is `new(5)`) build a kd-tree of leaves of fewer than 30 rows. A
fresh classifier is untrained; training on fewer than `k` rows gives `InvalidData`; training on `k` to 29 rows succeeds, and the
label of each query is then the majority label among its `k` nearest rows (distances below the largest float). -/
theorem C91_knn (k fuel : ℕ) (hk : 1 ≤ k) (X : Mat ℝ) (hX : X.WF) (hc : 0 < X.cols) (y : List ℕ) (hy : X.rows.length = y.length) :
    (KNNClassifier.default : KNNClassifier (BinaryTree ℝ (List ℝ × List ℝ))) = KNNClassifier.new 5 ∧
    (∀ Z : Mat ℝ, knnPredict (kdSearcher (fuel + 1)) (KNNClassifier.new k) Z = err .UntrainedModel) ∧
    (X.rows.length < k → (knnTrain (kdSearcher (fuel + 1)) (KNNClassifier.new k) X y).2 = err .InvalidData) ∧
    (k ≤ X.rows.length → X.rows.length < 30 →
      ∃ c, knnTrain (kdSearcher (fuel + 1)) (KNNClassifier.new k) X y = (c, ok ()) ∧
        ∀ Z : Mat ℝ, Z.WF → Z.cols = X.cols → (∀ u ∈ Z.rows, ∀ v ∈ X.rows, eucl u v < 2 ^ 1024 - 2 ^ 971) →
          ∃ out, knnPredict (kdSearcher (fuel + 1)) c Z = ok out ∧
            List.Forall₂ (fun z l => ∃ idx ds, KNearestOf X.rows.length (fun i => eucl z (X.rows.getD i [])) k (idx, ds) ∧
              MajorityLabel (idx.filterMap fun i => y[i]?) l) Z.rows out) := by
  refine ⟨rfl, fun Z => rfl, ?_, ?_⟩
  · intro h
    unfold knnTrain
    rw [if_neg (by simpa using hy), if_pos (show X.rows.length < (KNNClassifier.new k).k from h)]
  · intro h1 h2
    have hb := treeBuild_small (kdKind (F := ℝ)) fuel BinaryTree.default X (by omega) h2
    have htr : knnTrain (kdSearcher (fuel + 1)) (KNNClassifier.new k) X y =
        (⟨k, ⟨30, some X, some (.leaf (List.range X.rows.length))⟩, some y⟩, ok ()) := by
      unfold knnTrain
      rw [if_neg (by simpa using hy), if_neg (by show ¬ X.rows.length < k; omega)]
      simp only [kdSearcher, KNNClassifier.new, hb, Option.getD_some]
      rfl
    refine ⟨_, htr, fun Z hZ hcZ hmax => ?_⟩
    have hs : ∀ z ∈ Z.rows, ∃ r, treeSearch kdKind ⟨30, some X, some (.leaf (List.range X.rows.length))⟩ z k = ok r ∧
        KNearestOf X.rows.length (fun i => eucl z (X.rows.getD i [])) k r := by
      intro z hz
      have := C21_kd_search_exact_partial BinaryTree.default X hX hc (fuel + 1) _ hb z (by rw [hZ z hz, hcZ]) k hk h1
        (fun i hi => by
          rw [C19_C21_C22_distance_is_euclidean, getD_lt [] hi]
          exact hmax z hz _ (List.getElem_mem _)) _ rfl (by simp [Node.homeLeaf]; omega)
      simpa only [C19_C21_C22_distance_is_euclidean, BinaryTree.default] using this
    obtain ⟨out, h3, h4⟩ := C24_predict_is_majority (kdSearcher (fuel + 1))
      (⟨k, ⟨30, some X, some (.leaf (List.range X.rows.length))⟩, some y⟩ : KNNClassifier (BinaryTree ℝ (List ℝ × List ℝ))) y rfl Z
      (fun z hz => by
        obtain ⟨⟨idx, ds⟩, h5, h6⟩ := hs z hz
        refine ⟨idx, ds, h5, ?_, fun i hi => by rw [← hy]; exact h6.rows i hi⟩
        rintro rfl
        have := h6.count
        simp at this
        omega)
    refine ⟨out, h3, ?_⟩
    have : ∀ (rows : List (List ℝ)) (out : List ℕ), (∀ z ∈ rows, z ∈ Z.rows) →
        List.Forall₂ (fun row l => ∃ idx ds, treeSearch kdKind ⟨30, some X, some (.leaf (List.range X.rows.length))⟩ row k = ok (idx, ds) ∧
          MajorityLabel (idx.filterMap fun i => y[i]?) l) rows out →
        List.Forall₂ (fun z l => ∃ idx ds, KNearestOf X.rows.length (fun i => eucl z (X.rows.getD i [])) k (idx, ds) ∧
          MajorityLabel (idx.filterMap fun i => y[i]?) l) rows out := by
      intro rows out hsub hf
      induction hf with
      | nil => exact .nil
      | cons h _ ih =>
        refine .cons ?_ (ih fun z hz => hsub z (List.mem_cons_of_mem _ hz))
        obtain ⟨idx, ds, h5, h6⟩ := h
        obtain ⟨r, h7, h8⟩ := hs _ (hsub _ List.mem_cons_self)
        rw [h5] at h7
        injection h7 with h7
        exact ⟨idx, ds, h7 ▸ h8, h6⟩
    exact this Z.rows out (fun _ h => h) h4

/-- The default classifier on five points of the line. -/
example (fuel : ℕ) : ∃ c, knnTrain (kdSearcher (fuel + 1)) KNNClassifier.default (⟨1, [[0], [1], [2], [3], [4]]⟩ : Mat ℝ) [7, 7, 2, 2, 2] = (c, ok ()) := by
  obtain ⟨c, h, -⟩ := (C91_knn 5 fuel (by norm_num) (⟨1, [[0], [1], [2], [3], [4]]⟩ : Mat ℝ) (by unfold Mat.WF; simp) (by norm_num) [7, 7, 2, 2, 2] rfl).2.2.2
    (by simp) (by simp)
  exact ⟨c, h⟩

/-! ### Clustering, networks and logistic regression -/

/-- **C91 (k-means).** `new(k)` is untrained, runs at most 100 iterations, and `set_iters` changes only that number. -/
theorem C91_kmeans {F : Type} [Scalar F] (k n : ℕ) (X : Mat F) :
    kmPredict (KMeans.new k) X = err .UntrainedModel ∧ (KMeans.new k : KMeans F) = kmNew k 100 ∧
    (KMeans.new k : KMeans F).setIters n = kmNew k n := ⟨rfl, rfl, rfl⟩

/-- **C91 (DBSCAN).** The default model trains on every data set and its labels are the density clustering for the radius 1/2 and
5 points; it is not predictive, so it refuses to predict before and after training. -/
theorem C91_dbscan (X : Mat ℝ) (hX : X.WF) (Q : Mat ℝ) :
    dbPredict dbscanDefault Q = err .InvalidState ∧
    (∃ labels, IsDensityClustering X.rows.length 5 (NearR (1 / 2) X) labels ∧
      (∃ fuel₀, ∀ fuel, fuel₀ ≤ fuel → ∃ m', dbTrain fuel dbscanDefault X = some (ok m')) ∧
      ∀ fuel r, dbTrain fuel dbscanDefault X = some r → ∃ m', r = ok m' ∧ m'.clusters = some labels ∧ dbPredict m' Q = err .InvalidState) := by
  refine ⟨(C28_predict_errors dbscanDefault Q).1 rfl, ?_⟩
  obtain ⟨labels, h1, h2, h3⟩ := C26_train dbscanDefault X hX
  have he : (dbscanDefault : Dbscan ℝ).eps = 1 / 2 := by simp [dbscanDefault]
  rw [he] at h1
  refine ⟨labels, h1, h2, ?_⟩
  intro fuel r hr
  obtain ⟨m', h4, h5⟩ := h3 fuel r hr
  refine ⟨m', h4, h5, (C28_predict_errors m' Q).1 ?_⟩
  obtain ⟨l, v, h, -⟩ := dbTrain_finished dbD_comm_real hX hr
  rw [h4] at h
  injection h with h
  rw [h]
  rfl

/-- **C91 (choosing the searcher).** `new_specified(k, BruteForce)` is untrained; trained on at least `k` rows, one label for each, it
predicts the majority label of `k` nearest rows for every input. -/
theorem C91_knn_specified (k : ℕ) (hk : 1 ≤ k) (X : Mat ℝ) (y : List ℕ) (hy : X.rows.length = y.length) (hX : k ≤ X.rows.length) :
    (∀ Z : Mat ℝ, knnPredict bruteSearcher (KNNClassifier.newSpecified k none) Z = err .UntrainedModel) ∧
    ∃ c, knnTrain bruteSearcher (KNNClassifier.newSpecified k none) X y = (c, ok ()) ∧
      ∀ Z : Mat ℝ, ∃ out, knnPredict bruteSearcher c Z = ok out ∧
        List.Forall₂ (fun z l => ∃ r, KNearestOf X.rows.length (fun i => eucl z (X.rows.getD i [])) k r ∧
          MajorityLabel (r.1.filterMap fun i => y[i]?) l) Z.rows out := by
  refine ⟨fun Z => rfl, ?_⟩
  have hacc : lastAccepted k [KnnCall.train X y] = some (X, y) := by
    simp [lastAccepted, hy.symm, hX]
  have ht : (knnTrain bruteSearcher (KNNClassifier.newSpecified k none) X y).2 = ok () :=
    (C25_train_error_iff bruteSearcher (KNNClassifier.newSpecified k none) X y (fun _ => ⟨_, rfl⟩)).2.2 ⟨hy, hX⟩
  refine ⟨_, Prod.ext rfl ht, fun Z => ?_⟩
  have := C25_brute_history [KnnCall.train X y] k hk X y hacc Z
  simpa only [C19_C21_C22_distance_is_euclidean, knnRun, KNNClassifier.newSpecified] using this

example : ∃ c, knnTrain bruteSearcher (KNNClassifier.newSpecified 2 none) (⟨1, [[0], [1], [5]]⟩ : Mat ℝ) [7, 7, 2] = (c, ok ()) := by
  obtain ⟨-, c, h, -⟩ := C91_knn_specified 2 (by norm_num) (⟨1, [[0], [1], [5]]⟩ : Mat ℝ) [7, 7, 2] rfl (by simp)
  exact ⟨c, h⟩

/-- **C91 (mean squared error).** A multilayer perceptron with the default mean squared error criterion and any of the provided
activations reports, for every weight vector, the mean squared error of its outputs and the exact gradient. -/
theorem C91_network_mse (A : Activ ℝ) (hA : A = sigmoid ∨ A = linearActiv ∨ A = expActiv ∨ A = tanhActiv) (s₀ s₁ : ℕ) (sizes : List ℕ)
    (r : ℕ → ℕ → ℝ) {n : ℕ} (hn : 0 < n) (X T : Mat ℝ) (hX : HasShape X n s₀) (hT : HasShape T n ((s₀ :: s₁ :: sizes).getLast (by simp))) :
    ∃ net, BaseNet.mlp (s₀ :: s₁ :: sizes) Criterion.mseDefault A r = ok net ∧ ∀ w : List ℝ, w.length = net.weights.length →
      ∃ Y cost grad, (withWeights net w).forwardProp X = ok Y ∧ mseCost Y T = ok cost ∧ net.computeGrad w X T = ok (cost, grad) ∧
        ListGradientAt (scaledCost n net X T) grad w := by
  obtain ⟨-, net, h1, hc, hlay, hl, hw, -⟩ := C38_mlp s₀ (s₁ :: sizes) (Criterion.mseDefault : Criterion ℝ) A r
  refine ⟨net, h1, fun w hwl => ?_⟩
  obtain ⟨cost, grad, g1, g2, g3⟩ := C40_backprop net (by rw [hc]; rfl) hn X T hX hT (by rw [hlay]; simp) hl
    (C40_activations net (by
      intro B hB
      rw [hlay] at hB
      simp only [List.mem_flatMap, List.mem_cons, NetLayer.activ.injEq, List.not_mem_nil, or_false] at hB
      obtain ⟨_, _, hB⟩ := hB
      rcases hB with hB | rfl
      · cases hB
      · exact hA)) w (hwl.trans hw) (by rw [hc]; intro h; cases h)
  unfold costOfWeights at g2
  obtain ⟨Y, y1, y2⟩ := bind_eq_ok.1 g2
  rw [hc] at y2
  exact ⟨Y, cost, grad, y1, y2, g1, g3⟩

example : ∃ net, BaseNet.mlp [2, 3, 1] Criterion.mseDefault tanhActiv (fun _ _ => (1 / 2 : ℝ)) = ok net := by
  obtain ⟨net, h, -⟩ := C91_network_mse tanhActiv (by simp) 2 3 [1] (fun _ _ => (1 / 2 : ℝ)) (n := 2) (by norm_num) ⟨2, [[1, 0], [0, 1]]⟩ ⟨1, [[1], [0]]⟩
    ⟨rfl, rfl, by intro r hr; simp at hr; rcases hr with rfl | rfl <;> rfl⟩ ⟨rfl, rfl, by intro r hr; simp at hr; rcases hr with rfl | rfl <;> rfl⟩
  exact ⟨net, h⟩

/-- **C91 (networks).** The default network for sizes `s₀, s₁, …` gives, for every input of width `s₀`, outputs of the width of
the last size, all strictly between 0 and 1; and for every weight vector it reports the cross entropy cost and its exact gradient. -/
theorem C91_network (s₀ s₁ : ℕ) (sizes : List ℕ) (r : ℕ → ℕ → ℝ) {n : ℕ} (hn : 0 < n) (X T : Mat ℝ) (hX : HasShape X n s₀)
    (hT : HasShape T n ((s₀ :: s₁ :: sizes).getLast (by simp))) :
    ∃ net, BaseNet.default (s₀ :: s₁ :: sizes) r = ok net ∧
      (∃ Y, net.forwardProp X = ok Y ∧ HasShape Y n ((s₀ :: s₁ :: sizes).getLast (by simp)) ∧ ∀ row ∈ Y.rows, ∀ v ∈ row, 0 < v ∧ v < 1) ∧
      ∀ w : List ℝ, w.length = net.weights.length →
        ∃ cost grad, net.computeGrad w X T = ok (cost, grad) ∧ costOfWeights net X T w = ok cost ∧
          ListGradientAt (scaledCost n net X T) grad w := by
  obtain ⟨net, h1, h2⟩ := C40_default s₀ s₁ sizes r hn X T hX hT
  obtain ⟨-, net', h1', -, hlay, hl, hw, -⟩ := C38_mlp s₀ (s₁ :: sizes) (⟨.bce, .none⟩ : Criterion ℝ) sigmoid r
  rw [h1] at h1'
  injection h1' with h1'
  subst h1'
  refine ⟨net, h1, ?_, h2⟩
  obtain ⟨Y, hY, hs, hrows⟩ := C39_forward net X hX hl hw
  refine ⟨Y, hY, hs, ?_⟩
  have hlast : ∀ l : List (ℕ × ℕ), l ≠ [] →
      ∃ pre, l.flatMap (fun p => [NetLayer.new p.1 p.2, .activ (sigmoid : Activ ℝ)]) = pre ++ [.activ sigmoid] := by
    intro l hl'
    obtain ⟨a, b, rfl⟩ : ∃ a b, l = a ++ [b] := ⟨l.dropLast, l.getLast hl', (List.dropLast_append_getLast hl').symm⟩
    exact ⟨a.flatMap (fun p => [NetLayer.new p.1 p.2, .activ (sigmoid : Activ ℝ)]) ++ [NetLayer.new b.1 b.2], by simp⟩
  obtain ⟨pre, hpre⟩ := hlast (List.zip (s₀ :: s₁ :: sizes) (s₁ :: sizes)) (by simp)
  intro row hrow v hv
  rw [hrows, List.mem_map] at hrow
  obtain ⟨x, hx, rfl⟩ := hrow
  exact C40_sigmoid_outputs net pre (hlay.trans hpre) X net.weights x hx v hv

example : ∃ net, BaseNet.default [2, 3, 1] (fun _ _ => (1 / 2 : ℝ)) = ok net ∧
    ∃ Y, net.forwardProp ⟨2, [[1, 0], [0, 1]]⟩ = ok Y ∧ HasShape Y 2 1 ∧ ∀ row ∈ Y.rows, ∀ v ∈ row, 0 < v ∧ v < 1 := by
  obtain ⟨net, h1, h2, -⟩ := C91_network 2 3 [1] (fun _ _ => (1 / 2 : ℝ)) (n := 2) (by norm_num) ⟨2, [[1, 0], [0, 1]]⟩ ⟨1, [[1], [0]]⟩
    ⟨rfl, rfl, by simp [Mat.WF]⟩ ⟨rfl, rfl, by simp [Mat.WF]⟩
  exact ⟨net, h1, h2⟩

/-- **C91 (logistic regression).** Training the default model succeeds for every data set with one target per row, with one
parameter per column and an intercept. -/
theorem C91_logistic (X : Mat ℝ) (hX : X.WF) (y : List ℝ) (hy : y.length = X.rows.length) :
    ∃ β, LogReg.trainDefault X y = ok ⟨some β⟩ ∧ β.length = X.cols + 1 :=
  C50_train GradientDesc.default X hX y hy

end RM
