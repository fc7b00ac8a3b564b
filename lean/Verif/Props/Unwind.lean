import Verif.Spec.Unwind
import Verif.Model.Unwind
import Verif.Model.Calls
import Verif.Proofs.NoErr
import Verif.Proofs.Dbscan
import Verif.Props.NoPanic
import Verif.Props.NoPanicModels
import Verif.Props.Memory

/-! C126: the model after a `train` call that panicked, for a caller who catches the panic. -/

set_option linter.unusedSectionVars false

namespace RM
open Outcome Scalar Spec

variable {F : Type} [Scalar F]

theorem assignLast_kept {M D : Type} (f : M → D → Outcome M) : KeptOnPanic fun m d => assignLast m (f m d) := by
  intro m d h
  dsimp only at h ⊢
  cases e : f m d with
  | ok a => rw [e] at h; cases h
  | err _ => rfl
  | panic => rfl
  | ub => rfl

/-- **C126 (models that are kept).** Linear, logistic and generalised linear regression, Gaussian processes, support vector machines,
networks and nearest neighbours with any search structure are as they were before a `train` call that panicked, whatever caused the panic:
the solver, the optimiser, the kernel, the search structure or the shapes. -/
theorem C126_kept :
    (∀ solve, KeptOnPanic fun (m : LinReg F) (d : Mat F × List F) => m.trainCall solve d.1 d.2) ∧
    (KeptOnPanic fun (m : LinReg F) (d : Mat F × List F) => m.optCall d.1 d.2) ∧
    (∀ opt, KeptOnPanic fun (m : LogReg F) (d : Mat F × List F) => m.trainCall opt d.1 d.2) ∧
    (∀ inverse, KeptOnPanic fun (m : Glm F) (d : Mat F × List F) => m.trainCall inverse d.1 d.2) ∧
    (∀ lib, KeptOnPanic fun (m : Gp F) (d : Mat F × List F) => m.trainCall lib d.1 d.2) ∧
    (∀ draws, KeptOnPanic fun (m : Svm F) (d : Mat F × List F) => m.trainCall draws d.1 d.2) ∧
    (∀ opt, KeptOnPanic fun (m : BaseNet F) (d : Mat F × Mat F) => m.trainCall opt d.1 d.2) ∧
    ∀ (S : Type) (R : Searcher F S), KeptOnPanic fun (c : KNNClassifier S) (d : Mat F × List ℕ) => knnTrain R c d.1 d.2 := by
  refine ⟨fun _ => assignLast_kept _, assignLast_kept _, fun _ => assignLast_kept _, fun _ => assignLast_kept _, fun _ => assignLast_kept _,
    fun _ => assignLast_kept _, fun _ => assignLast_kept _, fun S R c d h => ?_⟩
  dsimp only at h ⊢
  unfold knnTrain at h ⊢
  split
  · rfl
  · rename_i h1
    rw [if_neg h1] at h
    split
    · rfl
    · rename_i h2
      rw [if_neg h2] at h
      cases e : R.build c.searcher d.1 with
      | ok s => rw [e] at h; cases h
      | err _ => rfl
      | panic => rfl
      | ub => rfl

/-! ### k-means -/

theorem kmLoopUnwind_snd (k : ℕ) (X : Mat F) : ∀ (n : ℕ) (cost : F) (c : Mat F),
    (kmLoopUnwind k X n cost c).2 = (do let _ ← kmLoop k X n cost c; ok ()) ∧
      ∀ c', kmLoop k X n cost c = ok c' → (kmLoopUnwind k X n cost c).1 = c'
  | 0, _, c => ⟨rfl, fun c' h => by cases h; rfl⟩
  | n + 1, cost, c => by
    unfold kmLoopUnwind kmLoop
    cases e : findClosest c X with
    | ok r =>
      obtain ⟨idx, ds⟩ := r
      simp only [ok_bind]
      cases e2 : updateCentroids k X idx with
      | ok c2 =>
        simp only [ok_bind]
        split
        · exact ⟨rfl, fun c' h => by cases h; rfl⟩
        · exact kmLoopUnwind_snd k X n _ c2
      | err _ => exact ⟨rfl, fun c' h => by cases h⟩
      | panic => exact ⟨rfl, fun c' h => by cases h⟩
      | ub => exact ⟨rfl, fun c' h => by cases h⟩
    | err _ => exact ⟨rfl, fun c' h => by cases h⟩
    | panic => exact ⟨rfl, fun c' h => by cases h⟩
    | ub => exact ⟨rfl, fun c' h => by cases h⟩

/-- A call that returns is the one that the other properties speak of; and the result is always the same. -/
theorem C126_kmeans_same (init : ℕ → Mat F → Outcome (Mat F)) (m : KMeans F) (X : Mat F) :
    (kmTrainUnwind init m X).2 = (kmTrain init m X).2 ∧
      ((kmTrain init m X).2 ≠ Outcome.panic → (kmTrain init m X).2 ≠ Outcome.ub → kmTrainUnwind init m X = kmTrain init m X) := by
  unfold kmTrainUnwind kmTrain
  cases e : kmInit init m.k X with
  | ok c0 =>
    dsimp only
    have h := kmLoopUnwind_snd m.k X m.iters Scalar.zero c0
    have hne := noErr_kmLoop m.k X m.iters Scalar.zero c0
    cases e2 : kmLoop m.k X m.iters Scalar.zero c0 with
    | ok c =>
      rw [e2] at h
      refine ⟨h.1, fun _ _ => ?_⟩
      rw [h.1, h.2 c rfl]
      rfl
    | err e' => exact absurd e2 (hne e')
    | panic => rw [e2] at h; exact ⟨h.1, fun h' => absurd rfl h'⟩
    | ub => rw [e2] at h; exact ⟨h.1, fun _ h' => absurd rfl h'⟩
  | err _ => exact ⟨rfl, fun _ _ => rfl⟩
  | panic => exact ⟨rfl, fun _ _ => rfl⟩
  | ub => exact ⟨rfl, fun _ _ => rfl⟩

/-- **C126 (k-means).** With at least one cluster, a `train` call that panics leaves the model as it was: only the initialiser can panic,
and the centroids are assigned afterwards. -/
theorem C126_kmeans (init : ℕ → Mat F → Outcome (Mat F)) (m : KMeans F) (hk : 0 < m.k) (X : Mat F) (hX : X.WF)
    (hinit : ∀ C, init m.k X = ok C → C.WF) (h : (kmTrainUnwind init m X).2 = Outcome.panic) : (kmTrainUnwind init m X).1 = m := by
  unfold kmTrainUnwind at h ⊢
  cases e : kmInit init m.k X with
  | ok c0 =>
    exfalso
    rw [e] at h
    dsimp only at h
    rw [(kmLoopUnwind_snd m.k X m.iters Scalar.zero c0).1] at h
    have hc : HasShape c0 m.k X.cols := by
      unfold kmInit at e
      split at e
      · cases e
      · cases e2 : init m.k X with
        | ok C =>
          rw [e2, ok_bind] at e
          split at e
          · cases e
          · rename_i h1
            split at e
            · cases e
            · rename_i h2
              cases e
              refine ⟨not_not.mp h1, not_not.mp h2, fun r hr => ?_⟩
              rw [hinit _ e2 r hr]
              exact not_not.mp h2
        | err _ => rw [e2] at e; cases e
        | panic => rw [e2] at e; cases e
        | ub => rw [e2] at e; cases e
    have hs := kmLoop_safe hk (X := X) ⟨rfl, rfl, hX⟩ m.iters Scalar.zero c0 hc
    cases e3 : kmLoop m.k X m.iters Scalar.zero c0 with
    | ok C => rw [e3] at h; cases h
    | err _ => rw [e3] at h; cases h
    | panic => rw [e3] at hs; exact hs
    | ub => rw [e3] at h; cases h
  | err _ => rfl
  | panic => rfl
  | ub => rfl

/-- **C126 (exception).** With no clusters, training a new model panics, and a caller who catches the panic finds a model that takes itself
for trained: the next prediction panics too, where before it reported `UntrainedModel`. -/
theorem C126_kmeans_violation (init : ℕ → Mat F → Outcome (Mat F)) (iters : ℕ) (X Q : Mat F) (hX : X.rows ≠ []) (hQ : Q.rows ≠ [])
    (hi : init 0 X = ok ⟨X.cols, []⟩) :
    kmPredict (kmNew 0 (iters + 1) : KMeans F) Q = err .UntrainedModel ∧
      (kmTrainUnwind init (kmNew 0 (iters + 1)) X).2 = Outcome.panic ∧
      kmPredict (kmTrainUnwind init (kmNew 0 (iters + 1)) X).1 Q = Outcome.panic := by
  have hf : ∀ Z : Mat F, Z.rows ≠ [] → findClosest (⟨X.cols, []⟩ : Mat F) Z = Outcome.panic := by
    intro Z hZ
    have := C87_kmeans_predict_panics (⟨0, 0, some ⟨X.cols, []⟩⟩ : KMeans F) rfl hZ (Or.inr rfl)
    unfold kmPredict at this
    dsimp only at this
    cases e : findClosest (⟨X.cols, []⟩ : Mat F) Z with
    | ok r => rw [e] at this; cases this
    | err _ => rw [e] at this; cases this
    | panic => rfl
    | ub => rw [e] at this; cases this
  have h0 : kmInit init 0 X = ok ⟨X.cols, []⟩ := by
    unfold kmInit
    rw [if_neg (by omega), hi]
    simp
  have h1 : kmTrainUnwind init (kmNew 0 (iters + 1)) X = (⟨iters + 1, 0, some ⟨X.cols, []⟩⟩, Outcome.panic) := by
    unfold kmTrainUnwind kmNew
    dsimp only
    rw [h0]
    dsimp only
    unfold kmLoopUnwind
    rw [hf X hX]
  rw [h1]
  refine ⟨rfl, rfl, ?_⟩
  unfold kmPredict
  dsimp only
  rw [hf Q hQ]
  rfl

/-! ### Mixture models -/

theorem emUnwind_same (lup : Mat F → Outcome (F × Outcome (Mat F))) (X : Mat F) : ∀ (n : ℕ) (m : Gmm F),
    (Gmm.emUnwind lup X n m).2 = (Gmm.emCalls lup X n m).2 ∧ ((Gmm.emCalls lup X n m).2 ≠ Outcome.panic →
      (Gmm.emCalls lup X n m).2 ≠ Outcome.ub → Gmm.emUnwind lup X n m = Gmm.emCalls lup X n m)
  | 0, m => ⟨rfl, fun _ _ => rfl⟩
  | n + 1, m => by
    unfold Gmm.emUnwind Gmm.emCalls
    cases e : m.memberships lup X with
    | ok r =>
      obtain ⟨w, l⟩ := r
      dsimp only
      split
      · exact ⟨rfl, fun _ _ => rfl⟩
      · cases e2 : Gmm.update { m with logLik := l } X w with
        | ok m' => exact emUnwind_same lup X n m'
        | err e' => exact absurd e2 (noErr_update _ _ _ e')
        | panic => exact ⟨rfl, fun h => absurd rfl h⟩
        | ub => exact ⟨rfl, fun _ h => absurd rfl h⟩
    | err _ => exact ⟨rfl, fun _ _ => rfl⟩
    | panic => exact ⟨rfl, fun _ _ => rfl⟩
    | ub => exact ⟨rfl, fun _ _ => rfl⟩

/-- A call that returns is the one that the other properties speak of; and the result is always the same. -/
theorem C126_gmm_same (lup : Mat F → Outcome (F × Outcome (Mat F))) (draws : ℕ → ℕ) (m : Gmm F) (X : Mat F) :
    (m.trainUnwind lup draws X).2 = (m.trainCall lup draws X).2 ∧ ((m.trainCall lup draws X).2 ≠ Outcome.panic →
      (m.trainCall lup draws X).2 ≠ Outcome.ub → m.trainUnwind lup draws X = m.trainCall lup draws X) := by
  unfold Gmm.trainUnwind Gmm.trainCall
  split
  · cases m.initCov X (Scalar.one /. Scalar.ofNat (X.rows.length - 1)) with
    | ok cov =>
      dsimp only
      cases reservoirSample draws (List.range X.rows.length) m.compCount with
      | ok rows =>
        dsimp only
        cases X.selectRows rows with
        | ok means => exact emUnwind_same lup X _ _
        | err _ => exact ⟨rfl, fun _ _ => rfl⟩
        | panic => exact ⟨rfl, fun h => absurd rfl h⟩
        | ub => exact ⟨rfl, fun _ h => absurd rfl h⟩
      | err _ => exact ⟨rfl, fun _ _ => rfl⟩
      | panic => exact ⟨rfl, fun h => absurd rfl h⟩
      | ub => exact ⟨rfl, fun _ h => absurd rfl h⟩
    | err _ => exact ⟨rfl, fun _ _ => rfl⟩
    | panic => exact ⟨rfl, fun _ _ => rfl⟩
    | ub => exact ⟨rfl, fun _ _ => rfl⟩
  · exact ⟨rfl, fun _ _ => rfl⟩

/-- **C126 (exception).** A mixture model that is trained on fewer rows than it has components, but at least two, panics; its covariances
are then those of the new data, while its means and mixture weights are still those of the old. -/
theorem C126_gmm_rows_violation (lup : Mat F → Outcome (F × Outcome (Mat F))) (draws : ℕ → ℕ) (m : Gmm F) (X : Mat F) (cov : Mat F)
    (h1 : 1 < X.rows.length) (hk : X.rows.length < m.compCount)
    (hc : m.initCov X (Scalar.one /. Scalar.ofNat (X.rows.length - 1)) = ok cov) :
    (m.trainUnwind lup draws X).2 = Outcome.panic ∧ (m.trainUnwind lup draws X).1.covars = some (List.replicate m.compCount cov) ∧
      (m.trainUnwind lup draws X).1.means = m.means ∧ (m.trainUnwind lup draws X).1.mixWeights = m.mixWeights := by
  have hr : reservoirSample draws (List.range X.rows.length) m.compCount = Outcome.panic := by
    unfold reservoirSample
    rw [show decide (m.compCount ≤ (List.range X.rows.length).length) = false by simp; omega]
    rfl
  unfold Gmm.trainUnwind
  rw [if_pos h1, hc]
  dsimp only
  rw [hr]
  exact ⟨rfl, rfl, rfl, rfl⟩

/-- **C126 (exception).** When the covariance matrix of the data has no decomposition, training panics; the covariances are then those of
the data, and the means are rows of the data chosen at random. -/
theorem C126_gmm_singular_violation (lup : Mat F → Outcome (F × Outcome (Mat F))) (draws : ℕ → ℕ) (m : Gmm F) (X : Mat F) (cov : Mat F)
    (h1 : 1 < X.rows.length) (hk : m.compCount ≤ X.rows.length) (hk0 : 0 < m.compCount) (hi : 0 < m.maxIters)
    (hc : m.initCov X (Scalar.one /. Scalar.ofNat (X.rows.length - 1)) = ok cov) (hl : ∃ e, lup cov = err e) :
    (m.trainUnwind lup draws X).2 = Outcome.panic ∧ (m.trainUnwind lup draws X).1.covars = some (List.replicate m.compCount cov) ∧
      ∃ M, (m.trainUnwind lup draws X).1.means = some M ∧ M.rows.length = m.compCount ∧ ∀ r ∈ M.rows, r ∈ X.rows := by
  obtain ⟨rows, hr, hlen, hsub⟩ := C06_sample_without_replacement draws (List.range X.rows.length) m.compCount (by simpa using hk)
  have hsel : ∀ l : List ℕ, (∀ i ∈ l, i < X.rows.length) → ∃ rs, l.mapM (getAt X.rows) = ok rs ∧ rs.length = l.length ∧ ∀ r ∈ rs, r ∈ X.rows := by
    intro l
    induction l with
    | nil => intro _; exact ⟨[], rfl, rfl, by simp⟩
    | cons i l ih =>
      intro h
      have hi := h i List.mem_cons_self
      obtain ⟨rs, e, hl, hm⟩ := ih fun j hj => h j (List.mem_cons_of_mem _ hj)
      refine ⟨X.rows[i] :: rs, ?_, by simp [hl], ?_⟩
      · rw [List.mapM_cons, e]
        unfold getAt
        rw [List.getElem?_eq_getElem hi]
        rfl
      · intro r hr
        rcases List.mem_cons.mp hr with rfl | hr
        · exact List.getElem_mem hi
        · exact hm r hr
  obtain ⟨rs, e, hl2, hm⟩ := hsel rows fun i hi => List.mem_range.mp (hsub.subset hi)
  have hsl : X.selectRows rows = ok ⟨X.cols, rs⟩ := by
    unfold Mat.selectRows
    rw [e]
    rfl
  obtain ⟨i, hi'⟩ : ∃ i, m.maxIters = i + 1 := ⟨m.maxIters - 1, by omega⟩
  obtain ⟨j, hj⟩ : ∃ j, m.compCount = j + 1 := ⟨m.compCount - 1, by omega⟩
  obtain ⟨e', hl⟩ := hl
  have hmem : ∀ m' : Gmm F, m'.covars = some (List.replicate m.compCount cov) → m'.memberships lup X = Outcome.panic := by
    intro m' hm'
    unfold Gmm.memberships
    rw [hm', hj, Option.getD_some, List.replicate_succ, List.mapM_cons]
    unfold covParts
    rw [hl]
    rfl
  unfold Gmm.trainUnwind
  rw [if_pos h1, hc]
  dsimp only
  rw [hr]
  dsimp only
  rw [hsl]
  dsimp only
  rw [hi']
  unfold Gmm.emUnwind
  rw [hmem _ rfl]
  exact ⟨rfl, rfl, ⟨X.cols, rs⟩, rfl, by rw [hl2, hlen], hm⟩

/-! ### Naive Bayes -/

/-- **C126 (naive Bayes).** With as many target rows as input rows training does not panic. -/
theorem C126_naive_bayes {D : Type} (B : NBDistr D F) (S : D → ℕ → ℕ → Prop) (hB : SafeDistr B S) (m : NaiveBayes D F) {X T : Mat F}
    {n c k : ℕ} (hX : HasShape X n c) (hT : HasShape T n k) : (nbTrain B m X T).2 ≠ Outcome.panic := by
  have := C87_naive_bayes_train B S hB m hX hT
  intro h
  rw [h] at this
  exact this

theorem nbScan_total : ∀ (rows : List (List F)) (i : ℕ) (counts : List ℕ) (data : List (List ℕ)),
    (∀ r ∈ rows, ∃ j, findClass 0 r = ok j ∧ j < data.length) →
    ∃ counts' data', nbScan i rows counts data = (counts', ok data') ∧ data'.length = data.length ∧
      (∀ v ∈ data', ∀ x ∈ v, (∃ w ∈ data, x ∈ w) ∨ i ≤ x) ∧ (rows ≠ [] ∨ (∃ v ∈ data, v ≠ []) → ∃ v ∈ data', v ≠ [])
  | [], i, counts, data, _ => ⟨counts, data, rfl, rfl, fun v hv x hx => Or.inl ⟨v, hv, hx⟩, fun h => h.resolve_left (by simp)⟩
  | r :: rows, i, counts, data, h => by
    obtain ⟨j, hj, hlt⟩ := h r List.mem_cons_self
    unfold nbScan
    rw [hj]
    dsimp only
    rw [if_pos hlt]
    obtain ⟨c', d', h1, h2, h3, h4⟩ := nbScan_total rows (i + 1) (counts.modify j (· + 1)) (data.modify j fun v => v ++ [i])
      (fun r' hr' => by simpa using h r' (List.mem_cons_of_mem _ hr'))
    refine ⟨c', d', h1, by simpa using h2, fun v hv x hx => ?_, fun _ => h4 (Or.inr ⟨data[j] ++ [i], ?_, by simp⟩)⟩
    · rcases h3 v hv x hx with ⟨w, hw, hxw⟩ | hge
      · obtain ⟨q, hq, rfl⟩ := List.mem_iff_getElem.mp hw
        rw [List.getElem_modify] at hxw
        have hq' : q < data.length := by simpa using hq
        split at hxw
        · rcases List.mem_append.mp hxw with hxw | hxw
          · exact Or.inl ⟨data[q], List.getElem_mem _, hxw⟩
          · rw [List.mem_singleton] at hxw; exact Or.inr (by omega)
        · exact Or.inl ⟨data[q], List.getElem_mem _, hxw⟩
      · exact Or.inr (by omega)
    · refine List.mem_iff_getElem.mpr ⟨j, by simpa using hlt, ?_⟩
      rw [List.getElem_modify, if_pos rfl]

theorem nbFit_noRows {D : Type} (B : NBDistr D F) (X : Mat F) (hX : X.rows = []) (d : D) : ∀ (data : List (List ℕ)) (i : ℕ),
    (∃ v ∈ data, v ≠ []) → nbFit B X i data d = (d, Outcome.panic)
  | [], _, h => by obtain ⟨v, hv, _⟩ := h; cases hv
  | v :: data, i, h => by
    unfold nbFit
    cases v with
    | nil =>
      simp only [List.isEmpty_nil, if_true]
      refine nbFit_noRows B X hX d data (i + 1) ?_
      obtain ⟨w, hw, hne⟩ := h
      rcases List.mem_cons.mp hw with rfl | hw
      · exact absurd rfl hne
      · exact ⟨w, hw, hne⟩
    | cons x v =>
      have : X.selectRows (x :: v) = Outcome.panic := by
        unfold Mat.selectRows
        rw [hX, List.mapM_cons]
        rfl
      simp only [List.isEmpty_cons, this]
      rfl

/-- **C126 (exception).** Training a naive Bayes model with targets but without inputs panics. Afterwards the distributions learnt before
are gone, while the class priors are still there, so that predictions go on without an error. -/
theorem C126_naive_bayes_violation {D : Type} (B : NBDistr D F) (m : NaiveBayes D F) (X T : Mat F) (hX : X.rows = []) (hT : T.rows ≠ [])
    (hone : ∀ r ∈ T.rows, ∃ j, findClass 0 r = ok j ∧ j < T.cols) :
    (nbTrain B m X T).2 = Outcome.panic ∧ (nbTrain B m X T).1.distr = some (B.fromParams T.cols X.cols) ∧
      (nbTrain B m X T).1.classPrior = m.classPrior ∧ (nbTrain B m X T).1.clusterCount = m.clusterCount := by
  obtain ⟨c', d', h1, h2, h3, h4⟩ := nbScan_total T.rows 0 (List.replicate T.cols 0) (List.replicate T.cols [])
    (fun r hr => by simpa using hone r hr)
  have h5 := nbFit_noRows B X hX (B.fromParams T.cols X.cols) d' 0 (h4 (Or.inl hT))
  unfold nbTrain
  simp only [h1, h5]
  exact ⟨trivial, trivial, trivial, trivial⟩

/-! ### DBSCAN -/

/-- **C126 (DBSCAN).** Training does not panic. -/
theorem C126_dbscan (m : Dbscan F) (X : Mat F) (hX : X.WF) (fuel : ℕ) : dbTrain fuel m X ≠ some Outcome.panic := by
  intro h
  obtain ⟨o, h1, _, m', h2⟩ := C87_dbscan_train m (X := X) ⟨rfl, rfl, hX⟩ (fuel + (X.rows.length + 1) * (X.rows.length + 1)) (by omega)
  rw [dbTrain_mono h] at h1
  cases h1
  cases h2

/-! ### Principal components -/

/-- **C126 (exception).** A centring PCA model whose `train` panics, because the decomposition fails, has the centers of the new data and
the components of the old. -/
theorem C126_pca_violation (svd : Mat F → Outcome (Mat F × Mat F × Mat F)) (m : Pca F) (hcen : m.center = true) (X : Mat F)
    (hn : tooManyComponents m.n X.cols = false) (hs : ∀ M, expectOk (svd M) = Outcome.panic) :
    (m.trainUnwind svd X).2 = Outcome.panic ∧ (m.trainUnwind svd X).1 = { m with centers := some X.meanRow } := by
  obtain ⟨d, hd⟩ := prepare_total m X
  unfold Pca.trainUnwind
  rw [hn, hd, hcen]
  simp [hs]

/-! ### The hypotheses can be met -/

/-- Forgy's choice of no rows. -/
example (X Q : Mat ℝ) (hX : X.rows ≠ []) (hQ : Q.rows ≠ []) :
    kmPredict (kmTrainUnwind (fun _ X => (forgyInit [] 0 X).getD Outcome.panic) (kmNew 0 1) X).1 Q = Outcome.panic :=
  (C126_kmeans_violation _ 0 X Q hX hQ (by simp [forgyInit, forgyLoop, Mat.selectRows])).2.2

/-- An initialiser that panics: the trained model is kept. -/
example (C : Mat ℝ) : (kmTrainUnwind (fun _ _ => Outcome.panic) (⟨10, 2, some C⟩ : KMeans ℝ) ⟨1, [[1], [2], [3]]⟩).1 = ⟨10, 2, some C⟩ :=
  C126_kmeans _ _ (by simp) _ (by simp [Mat.WF]) (fun C h => by cases h) (by simp [kmTrainUnwind, kmInit])

/-- Three components, two rows. -/
example (lup : Mat ℝ → Outcome (ℝ × Outcome (Mat ℝ))) (draws : ℕ → ℕ) (M C : Mat ℝ) :
    ((⟨3, [1 / 3, 1 / 3, 1 / 3], some M, some [C, C, C], 0, 100, .full⟩ : Gmm ℝ).trainUnwind lup draws ⟨1, [[1], [2]]⟩).2 = Outcome.panic :=
  (C126_gmm_rows_violation lup draws _ _ _ (by simp) (by simp) rfl).1

/-- Two equal rows: the covariance matrix is zero. -/
example (draws : ℕ → ℕ) :
    ((Gmm.new 1 : Gmm ℝ).trainUnwind (fun A : Mat ℝ => match A.rows with
      | [[a]] => if a = 0 then err .LinearAlgebra else ok (a, ok ⟨1, [[1 / a]]⟩)
      | _ => err .LinearAlgebra) draws ⟨1, [[5], [5]]⟩).2 = Outcome.panic := by
  refine (C126_gmm_singular_violation _ draws _ _ _ (by simp) (by simp [Gmm.new]) (by simp [Gmm.new]) (by simp [Gmm.new]) rfl ?_).1
  exact ⟨.LinearAlgebra, by simp [scatterMat, Mat.scaleBy, Mat.map, Mat.meanRow, Mat.sumRows, fsum, colOf]⟩

/-- Two classes, no inputs. -/
example (m : NaiveBayes (LogProbsD ℝ) ℝ) : (nbTrain multDistr m ⟨3, []⟩ ⟨2, [[1, 0], [0, 1]]⟩).2 = Outcome.panic :=
  (C126_naive_bayes_violation multDistr m _ _ rfl (by simp) (by
    intro r hr
    simp only [List.mem_cons, List.not_mem_nil, or_false] at hr
    rcases hr with rfl | rfl
    · exact ⟨0, by simp [findClass], by simp⟩
    · exact ⟨1, by simp [findClass], by simp⟩)).1

end RM
