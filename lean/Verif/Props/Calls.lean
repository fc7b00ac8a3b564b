import Verif.Model.Calls
import Verif.Proofs.NoErr
import Verif.Model.KNN
import Verif.Model.BinaryTree
import Verif.Spec.Calls

/-! C76: what a model remembers of the training calls it has seen. -/

namespace RM
open Outcome Scalar Spec
variable {F : Type} [Scalar F]

theorem lastSuccess_core {M D K : Type} {train : M → D → M × Outcome Unit} (key : M → K) (core : K → D → Outcome M)
    (ht : ∀ m d, train m d = assignLast m (core (key m) d)) (hk : ∀ k d m', core k d = ok m' → key m' = k) :
    ∀ (ds : List D) (m : M), match lastSuccess train m ds with
      | none => afterCalls train m ds = m
      | some d => d ∈ ds ∧ core (key m) d = ok (afterCalls train m ds) := by
  intro ds
  induction ds with
  | nil => intro m; rfl
  | cons d ds ih =>
    intro m
    have h := ih (train m d).1
    rw [lastSuccess, afterCalls]
    have key_eq : key (train m d).1 = key m := by
      rw [ht]
      cases e : core (key m) d with
      | ok m' => exact hk _ _ _ e
      | err _ => rfl
      | panic => rfl
      | ub => rfl
    cases e : lastSuccess train (train m d).1 ds with
    | some d' =>
      rw [e] at h
      rw [key_eq] at h
      exact ⟨List.mem_cons_of_mem _ h.1, h.2⟩
    | none =>
      rw [e] at h
      simp only [Option.none_or]
      simp only at h
      rw [h, ht]
      cases e' : core (key m) d with
      | ok m' => simp [assignLast, e']
      | err x => simp [assignLast]
      | panic => simp [assignLast]
      | ub => simp [assignLast]

theorem onlyLastSuccess_core {M D K Q A : Type} {train : M → D → M × Outcome Unit} (ask : M → Q → A) (key : M → K)
    (core : K → D → Outcome M)
    (ht : ∀ m d, train m d = assignLast m (core (key m) d)) (hk : ∀ k d m', core k d = ok m' → key m' = k) (m : M) :
    OnlyLastSuccess train ask m := by
  intro ds _ q
  have h := lastSuccess_core key core ht hk ds m
  cases e : lastSuccess train m ds with
  | none => rw [e] at h; simp only at h ⊢; rw [h]
  | some d =>
    rw [e] at h
    simp only at h ⊢
    refine ⟨h.1, ?_, ?_⟩ <;> rw [ht, h.2] <;> rfl

/-! ### Regression models -/

/-- The two training calls of a linear regression model. -/
inductive LinCall (F : Type)
  | train (inputs : Mat F) (targets : List F)
  | trainWithOptimization (inputs : Mat F) (targets : List F)

/-- A linear regression model under either of its training calls. -/
def LinReg.call (solve : Mat F → List F → Outcome (List F)) (m : LinReg F) : LinCall F → LinReg F × Outcome Unit
  | .train X y => m.trainCall solve X y
  | .trainWithOptimization X y => m.optCall X y

/-- Linear regression: only the last successful call of `train` or `train_with_optimization` counts. -/
theorem C76_lin_reg (solve : Mat F → List F → Outcome (List F)) (m : LinReg F) :
    OnlyLastSuccess (LinReg.call solve) LinReg.predict m :=
  onlyLastSuccess_core _ (fun _ => ()) (fun _ d => match d with
    | .train X y => LinReg.train solve X y
    | .trainWithOptimization X y => LinReg.trainWithOptimization X y)
    (by intro m d; cases d <;> rfl) (fun _ _ _ _ => rfl) m

/-- Logistic regression, for any optimisation algorithm. -/
theorem C76_logistic (opt : (List F → Outcome (F × List F)) → List F → Outcome (List F)) (m : LogReg F) :
    OnlyLastSuccess (fun m (d : Mat F × List F) => LogReg.trainCall opt m d.1 d.2) LogReg.predict m :=
  onlyLastSuccess_core _ (fun _ => ()) (fun _ (d : Mat F × List F) => LogReg.train opt d.1 d.2) (fun _ _ => rfl) (fun _ _ _ _ => rfl) m

/-- Generalised linear models. -/
theorem C76_glm (inverse : Mat F → Outcome (Mat F)) (m : Glm F) :
    OnlyLastSuccess (fun m (d : Mat F × List F) => Glm.trainCall inverse m d.1 d.2) Glm.predict m := by
  refine onlyLastSuccess_core _ Glm.family (fun f d => Glm.train inverse ⟨f, none⟩ d.1 d.2) (fun m d => ?_) (fun f d m' h => ?_) m
  · rfl
  · unfold Glm.train at h
    split at h
    · cases h
    · obtain ⟨full, -, h⟩ := Outcome.bind_eq_ok.mp h
      obtain ⟨b, -, h⟩ := Outcome.bind_eq_ok.mp h
      cases h
      rfl

/-- Gaussian processes: prediction and posterior. -/
theorem C76_gp (lib : TriLib F) (g : Gp F) :
    OnlyLastSuccess (fun g (d : Mat F × List F) => Gp.trainCall lib g d.1 d.2)
      (fun g Z => (g.predict Z, g.posterior lib Z)) g := by
  refine onlyLastSuccess_core _ (fun g => (g.ker, g.mean, g.noise))
    (fun c (d : Mat F × List F) => Gp.train lib ⟨c.1, c.2.1, c.2.2, none, none, none⟩ d.1 d.2) (fun g d => rfl) (fun c d g' h => ?_) g
  unfold Gp.train at h
  obtain ⟨k, -, h⟩ := bind_eq_ok.mp h
  obtain ⟨a, -, h⟩ := bind_eq_ok.mp h
  obtain ⟨l, -, h⟩ := bind_eq_ok.mp h
  obtain ⟨r, -, h⟩ := bind_eq_ok.mp h
  obtain ⟨x, -, h⟩ := bind_eq_ok.mp h
  obtain ⟨alpha, -, h⟩ := bind_eq_ok.mp h
  cases h
  rfl

/-- Support vector machines; each call has its own random draws. -/
theorem C76_svm (m : Svm F) :
    OnlyLastSuccess (fun m (d : (ℕ → ℕ) × Mat F × List F) => Svm.trainCall d.1 m d.2.1 d.2.2) Svm.predict m := by
  refine onlyLastSuccess_core _ (fun m => (m.ker, m.lambda, m.optimIters))
    (fun c (d : (ℕ → ℕ) × Mat F × List F) => Svm.train d.1 ⟨c.1, c.2.1, c.2.2, none, none, none⟩ d.2.1 d.2.2) (fun m d => ?_) (fun c d m' h => ?_) m
  · simp only [Svm.trainCall, Svm.train]
  · unfold Svm.train at h
    obtain ⟨full, -, h⟩ := bind_eq_ok.mp h
    obtain ⟨alpha, -, h⟩ := bind_eq_ok.mp h
    cases h
    rfl

/-! ### k-means and nearest neighbours -/

/-- k-means, for any initialiser; each call has its own, and so its own random draws. -/
theorem C76_kmeans (m : KMeans F) :
    OnlyLastSuccess (fun m (d : (ℕ → Mat F → Outcome (Mat F)) × Mat F) => kmTrain d.1 m d.2)
      (fun m Z => (kmPredict m Z, m.centroids)) m := by
  refine onlyLastSuccess_core _ (fun m => (m.k, m.iters)) (fun c d => do
    let c0 ← kmInit d.1 c.1 d.2
    let c' ← kmLoop c.1 d.2 c.2 Scalar.zero c0
    ok ⟨c.2, c.1, some c'⟩) (fun m d => ?_) (fun c d m' h => ?_) m
  · unfold kmTrain
    cases e : kmInit d.1 m.k d.2 with
    | ok c0 =>
      simp only [ok_bind]
      cases e' : kmLoop m.k d.2 m.iters Scalar.zero c0 with
      | ok c => rfl
      | err x => exact absurd e' (noErr_kmLoop _ _ _ _ _ _)
      | panic => rfl
      | ub => rfl
    | err x => rfl
    | panic => rfl
    | ub => rfl
  · obtain ⟨c0, -, h⟩ := bind_eq_ok.mp h
    obtain ⟨c', -, h⟩ := bind_eq_ok.mp h
    cases h
    rfl

omit [Scalar F] in
/-- Nearest neighbours, for a searcher whose `build` depends on fixed settings only. -/
theorem knn_onlyLast {S C : Type} (R : Searcher F S) (cfg : S → C) (make : C → Mat F → Outcome S)
    (h1 : ∀ s X, R.build s X = make (cfg s) X) (h2 : ∀ c X s, make c X = ok s → cfg s = c) (c : KNNClassifier S) :
    OnlyLastSuccess (fun c (d : Mat F × List ℕ) => knnTrain R c d.1 d.2) (knnPredict R) c := by
  refine onlyLastSuccess_core _ (fun c => (c.k, cfg c.searcher)) (fun g d =>
    if d.1.rows.length ≠ d.2.length then err .InvalidData
    else if d.1.rows.length < g.1 then err .InvalidData
    else make g.2 d.1 >>= fun s => ok ⟨g.1, s, some d.2⟩) (fun c d => ?_) (fun g d c' h => ?_) c
  · unfold knnTrain
    split
    · rfl
    · split
      · rfl
      · rw [h1]
        cases make (cfg c.searcher) d.1 <;> rfl
  · split at h
    · cases h
    · split at h
      · cases h
      · obtain ⟨s, hs, h⟩ := bind_eq_ok.mp h
        cases h
        exact Prod.ext rfl (h2 _ _ _ hs)

/-- Nearest neighbours by brute force. -/
theorem C76_knn_brute (c : KNNClassifier (Option (Mat F))) :
    OnlyLastSuccess (fun c (d : Mat F × List ℕ) => knnTrain bruteSearcher c d.1 d.2) (knnPredict bruteSearcher) c :=
  knn_onlyLast bruteSearcher (fun _ => ()) (fun _ X => ok (some X)) (fun _ _ => rfl) (fun _ _ _ _ => rfl) c

/-- The searcher of a tree, src/learning/knn/binary_tree.rs lines 386-430, whose `build` ends within `fuel` steps; it counts as a panic
when it does not. -/
def treeSearcher {B : Type} (K : SplitKind F B) (fuel : ℕ) : Searcher F (BinaryTree F B) :=
  ⟨fun t X => (treeBuild K fuel t X).getD panic, treeSearch K⟩

/-- Nearest neighbours with any kind of tree: a new `build` replaces the tree. -/
theorem C76_knn_tree {B : Type} (K : SplitKind F B) (fuel : ℕ) (c : KNNClassifier (BinaryTree F B)) :
    OnlyLastSuccess (fun c (d : Mat F × List ℕ) => knnTrain (treeSearcher K fuel) c d.1 d.2) (knnPredict (treeSearcher K fuel)) c := by
  refine knn_onlyLast (treeSearcher K fuel) BinaryTree.leafsize (fun l X => (treeBuild K fuel ⟨l, none, none⟩ X).getD panic)
    (fun t X => ?_) (fun l X t h => ?_) c
  · show (treeBuild K fuel t X).getD panic = _
    unfold treeBuild
    rfl
  · unfold treeBuild at h
    split at h
    · split at h
      · cases h
      · cases h; rfl
      · cases h
      · cases h
      · cases h
    · cases h

/-! ### Before the first success -/

/-- A model on which no call of `train` has succeeded answers `UntrainedModel`, if it does so when new. -/
theorem C76_never_trained {M D Q A : Type} {train : M → D → M × Outcome Unit} {ask : M → Q → Outcome A} {m : M}
    (h : OnlyLastSuccess train ask m) (h0 : ∀ q, ask m q = err .UntrainedModel) (ds : List D)
    (hf : ∀ r ∈ callResults train m ds, ∃ e, r = err e) (q : Q) : ask (afterCalls train m ds) q = err .UntrainedModel := by
  have hn : ∀ (ds : List D) (m : M), (∀ r ∈ callResults train m ds, ∃ e, r = err e) → lastSuccess train m ds = none := by
    intro ds
    induction ds with
    | nil => intros; rfl
    | cons d ds ih =>
      intro m hf
      obtain ⟨e, he⟩ := hf _ (List.mem_cons_self ..)
      rw [lastSuccess, ih _ fun r hr => hf r (List.mem_cons_of_mem _ hr), he]
      rfl
  have h := h ds (fun r hr => by obtain ⟨e, rfl⟩ := hf r hr; exact ⟨nofun, nofun⟩) q
  rw [hn ds m hf] at h
  exact h.trans (h0 q)

/-- Two calls with too few targets, on a new generalised linear model. -/
example (inverse : Mat ℝ → Outcome (Mat ℝ)) (f : Family ℝ) (Z : Mat ℝ) :
    (afterCalls (fun m (d : Mat ℝ × List ℝ) => Glm.trainCall inverse m d.1 d.2) ⟨f, none⟩ [(⟨1, [[1], [2]]⟩, [3]), (⟨1, [[1]]⟩, [])]).predict Z =
      err .UntrainedModel :=
  C76_never_trained (C76_glm inverse ⟨f, none⟩) (fun _ => rfl) _ (by
    simp [callResults, Glm.trainCall, Glm.train, assignLast]) Z

/-- Two rows for three neighbours; four; one. The second call counts. -/
example : lastSuccess (fun c (d : Mat ℝ × List ℕ) => knnTrain bruteSearcher c d.1 d.2) ⟨3, none, none⟩
    [(⟨1, [[1], [2]]⟩, [0, 1]), (⟨1, [[1], [2], [3], [4]]⟩, [0, 1, 1, 0]), (⟨1, [[7]]⟩, [5])] =
      some (⟨1, [[1], [2], [3], [4]]⟩, [0, 1, 1, 0]) ∧
    ∀ r ∈ callResults (fun c (d : Mat ℝ × List ℕ) => knnTrain bruteSearcher c d.1 d.2) ⟨3, none, none⟩
      [(⟨1, [[1], [2]]⟩, [0, 1]), (⟨1, [[1], [2], [3], [4]]⟩, [0, 1, 1, 0]), (⟨1, [[7]]⟩, [5])], r ≠ panic ∧ r ≠ ub := by
  simp [lastSuccess, callResults, knnTrain, bruteSearcher, bruteBuild]

/-- A Gaussian process whose second matrix cannot be decomposed keeps its first training. -/
example : lastSuccess (fun g (d : Mat ℝ × List ℝ) => Gp.trainCall ⟨fun A => if A.cols = 1 then ok A else err .InvalidData,
      fun _ b => ok b, fun _ b => ok b⟩ g d.1 d.2) ⟨fun _ _ => ok 1, constMean 0, 0, none, none, none⟩
    [(⟨1, [[5]]⟩, [3]), (⟨1, [[5], [5]]⟩, [3, 4])] = some (⟨1, [[5]]⟩, [3]) := by
  simp [lastSuccess, Gp.trainCall, Gp.train, assignLast, kerMat, scaledIdentity, Mat.zip, constMean, vecZip, orInvalidState, expectOk]

/-! ### Principal components and mixtures: the calls that fail -/

/-- PCA: a call of `train` that reports an error leaves the model as it was. (C57 has the calls that succeed.) -/
theorem C76_pca_failed (svd : Mat F → Outcome (Mat F × Mat F × Mat F)) (m : Pca F) (X : Mat F) (e : ErrorKind)
    (h : (m.trainCall svd X).2 = err e) : (m.trainCall svd X).1 = m ∧ e = .InvalidData ∧ ∃ n, m.n = some n ∧ X.cols < n := by
  unfold Pca.trainCall at h ⊢
  cases ht : m.train svd X with
  | ok m' => rw [ht] at h; cases h
  | panic => rw [ht] at h; cases h
  | ub => rw [ht] at h; cases h
  | err e' =>
    rw [ht] at h
    cases h
    refine ⟨rfl, ?_⟩
    unfold Pca.train at ht
    split at ht
    · rename_i hn
      cases ht
      refine ⟨rfl, ?_⟩
      unfold tooManyComponents at hn
      split at hn
      · cases hn
      · rename_i n hn'
        exact ⟨n, hn', by simpa using hn⟩
    · refine absurd ht (NoErr.bind ?_ (fun p _ => (noErr_expectOk _).bind fun v _ => NoErr.bind ?_ fun _ _ => .ok _) _)
      · unfold Pca.prepare
        split
        · refine NoErr.bind (.ite .ub (.ok _)) fun _ _ => .ok _
        · exact .ok _
      · unfold selectComponents
        split
        · exact .ite (.ok _) .panic
        · exact .ok _

/-- Mixture models: `trainCall` is `train` when it succeeds. -/
theorem C76_gmm_success (lup : Mat F → Outcome (F × Outcome (Mat F))) (draws : ℕ → ℕ) (m m' : Gmm F) (X : Mat F) :
    m.trainCall lup draws X = (m', ok ()) ↔ m.train lup draws X = ok m' := by
  unfold Gmm.trainCall Gmm.train Gmm.init
  split
  · cases e1 : m.initCov X (Scalar.one /. Scalar.ofNat (X.rows.length - 1)) with
    | ok cov =>
      simp only [ok_bind]
      cases e2 : reservoirSample draws (List.range X.rows.length) m.compCount with
      | ok rows =>
        simp only [ok_bind]
        cases e3 : X.selectRows rows with
        | ok means => exact emCalls_ok lup X _ _ _
        | err _ => simp
        | panic => simp
        | ub => simp
      | err _ => simp
      | panic => simp
      | ub => simp
    | err _ => simp
    | panic => simp
    | ub => simp
  · simp

/-- Mixture models: a call of `train` that reports an error leaves the model as it was, as long as the inverse of a matrix that could be
decomposed does not fail. -/
theorem C76_gmm_failed (lup : Mat F → Outcome (F × Outcome (Mat F))) (hl : ∀ A d r, lup A = ok (d, r) → ∃ B, r = ok B) (draws : ℕ → ℕ)
    (m : Gmm F) (X : Mat F) (e : ErrorKind) (h : (m.trainCall lup draws X).2 = err e) : (m.trainCall lup draws X).1 = m := by
  have hl' : ∀ A d r, lup A = ok (d, r) → NoErr r := fun A d r h => by
    obtain ⟨B, rfl⟩ := hl A d r h
    exact .ok _
  unfold Gmm.trainCall at h ⊢
  split
  · rename_i hn
    rw [if_pos hn] at h
    cases e1 : m.initCov X (Scalar.one /. Scalar.ofNat (X.rows.length - 1)) with
    | ok cov =>
      rw [e1] at h
      simp only at h ⊢
      cases e2 : reservoirSample draws (List.range X.rows.length) m.compCount with
      | ok rows =>
        rw [e2] at h
        simp only at h ⊢
        cases e3 : X.selectRows rows with
        | ok means =>
          rw [e3] at h
          exact absurd h (emCalls_err hl' X _ _ _)
        | err _ => exact absurd e3 (noErr_selectRows _ _ _)
        | panic => rfl
        | ub => rfl
      | err _ => exact absurd e2 (noErr_reservoirSample _ _ _ _)
      | panic => rfl
      | ub => rfl
    | err _ => rfl
    | panic => rfl
    | ub => rfl
  · rfl

/-- The errors of `membership_weights` come from the covariances, whatever the data. -/
theorem memberships_err {lup : Mat F → Outcome (F × Outcome (Mat F))} {m : Gmm F} {X : Mat F} {e : ErrorKind} (h : m.memberships lup X = err e) (Z : Mat F) :
    m.memberships lup Z = err e := by
  unfold Gmm.memberships at h ⊢
  cases hp : (m.covars.getD []).mapM (covParts lup) with
  | err e' => rw [hp] at h; exact h
  | panic => rw [hp] at h; cases h
  | ub => rw [hp] at h; cases h
  | ok parts =>
    rw [hp, ok_bind] at h
    refine absurd h ?_
    have : NoErr (match m.means with
      | none => if X.rows.length * m.compCount = 0 then ok (⟨m.compCount, X.rows.map fun _ => []⟩, Scalar.zero) else Outcome.panic
      | some means => do
        let rs ← X.rows.mapM (memberRow m.compCount m.mixWeights means parts)
        ok ((⟨m.compCount, rs.map Prod.fst⟩ : Mat F), (rs.map fun r => Scalar.ln r.2).foldl Scalar.add Scalar.zero)) := by
      split
      · exact .ite (.ok _) .panic
      · refine NoErr.bind (.mapM fun x _ => ?_) fun _ _ => .ok _
        refine NoErr.bind (.mapM fun j _ => ?_) fun pdfs _ => NoErr.bind (.mapM fun i _ => ?_) fun _ _ => .ok _
        · exact (noErr_getAt _ _).bind fun mu _ => (noErr_getAt _ _).bind fun p _ => (noErr_vecZip _ _ _).bind fun _ _ =>
            (noErr_mul _ _).bind fun _ _ => (noErr_mul _ _).bind fun _ _ => (noErr_getAt _ _).bind fun _ _ => .ok _
        · exact (noErr_getAt _ _).bind fun _ _ => (noErr_getAt _ _).bind fun _ _ => .ok _
    exact this e

theorem emCalls_failed {lup : Mat F → Outcome (F × Outcome (Mat F))} (X : Mat F) {e : ErrorKind} :
    ∀ (n : ℕ) (m : Gmm F), m.means.isSome → m.covars.isSome → (m.emCalls lup X n).2 = err e → ∀ Z, (m.emCalls lup X n).1.predict lup Z = err e
  | 0, m, _, _, h => by cases h
  | n + 1, m, h1, h2, h => by
    rw [Gmm.emCalls] at h ⊢
    cases hm : m.memberships lup X with
    | err e' =>
      rw [hm] at h
      cases h
      intro Z
      simp only
      obtain ⟨a, ha⟩ := Option.isSome_iff_exists.mp h1
      obtain ⟨b, hb⟩ := Option.isSome_iff_exists.mp h2
      unfold Gmm.predict
      rw [ha, hb]
      simp only
      rw [memberships_err hm Z]
      rfl
    | panic => rw [hm] at h; cases h
    | ub => rw [hm] at h; cases h
    | ok wl =>
      obtain ⟨w, l⟩ := wl
      rw [hm] at h
      simp only at h ⊢
      split at h
      · cases h
      · rename_i hc
        rw [if_neg hc]
        cases hu : Gmm.update { m with logLik := l } X w with
        | err e' => exact absurd hu (noErr_update _ _ _ _)
        | panic => rw [hu] at h; cases h
        | ub => rw [hu] at h; cases h
        | ok m' =>
          rw [hu] at h
          simp only at h ⊢
          have hs : m'.means.isSome ∧ m'.covars.isSome := by
            unfold Gmm.update at hu
            obtain ⟨a, -, hu⟩ := bind_eq_ok.1 hu
            obtain ⟨b, -, hu⟩ := bind_eq_ok.1 hu
            cases hu
            exact ⟨rfl, rfl⟩
          exact emCalls_failed X n m' hs.1 hs.2 h

/-- Mixture models, whatever the inverse does: after a call of `train` that reports an error, the model is as it was or every prediction reports the same
error. In no case does a half-trained model make predictions. -/
theorem C76_gmm_failed_any (lup : Mat F → Outcome (F × Outcome (Mat F))) (draws : ℕ → ℕ) (m : Gmm F) (X : Mat F) (e : ErrorKind)
    (h : (m.trainCall lup draws X).2 = err e) :
    (m.trainCall lup draws X).1 = m ∨ ∀ Z, (m.trainCall lup draws X).1.predict lup Z = err e := by
  unfold Gmm.trainCall at h ⊢
  split
  · rename_i hn
    rw [if_pos hn] at h
    cases e1 : m.initCov X (Scalar.one /. Scalar.ofNat (X.rows.length - 1)) with
    | ok cov =>
      rw [e1] at h
      simp only at h ⊢
      cases e2 : reservoirSample draws (List.range X.rows.length) m.compCount with
      | ok rows =>
        rw [e2] at h
        simp only at h ⊢
        cases e3 : X.selectRows rows with
        | ok means =>
          rw [e3] at h
          exact Or.inr (emCalls_failed X _ _ rfl rfl h)
        | err _ => exact absurd e3 (noErr_selectRows _ _ _)
        | panic => exact Or.inl rfl
        | ub => exact Or.inl rfl
      | err _ => exact absurd e2 (noErr_reservoirSample _ _ _ _)
      | panic => exact Or.inl rfl
      | ub => exact Or.inl rfl
    | err _ => exact Or.inl rfl
    | panic => exact Or.inl rfl
    | ub => exact Or.inl rfl
  · exact Or.inl rfl

/-- With an inverse that fails, training fails after the start of the model was stored, and so does every prediction. -/
example : (Gmm.trainCall (fun _ : Mat ℝ => ok ((0 : ℝ), err .LinearAlgebra)) (fun _ => 0) (Gmm.new 1) (⟨1, [[1], [3]]⟩ : Mat ℝ)).2 = err .LinearAlgebra ∧
    (Gmm.trainCall (fun _ : Mat ℝ => ok ((0 : ℝ), err .LinearAlgebra)) (fun _ => 0) (Gmm.new 1) (⟨1, [[1], [3]]⟩ : Mat ℝ)).1.means ≠ none := by
  simp [Gmm.trainCall, Gmm.new, Gmm.initCov, reservoirSample, reservoirLoop, genRange, assert, Mat.selectRows, Gmm.emCalls, Gmm.memberships, covParts,
    expectOk, fromLinalg, List.range_succ, getAt, setAt]

/-- The hypotheses of `C76_pca_failed` and `C76_gmm_failed`: three components of two columns, one row of data. -/
example (svd : Mat ℝ → Outcome (Mat ℝ × Mat ℝ × Mat ℝ)) : ((Pca.new 3 true).trainCall svd (⟨2, [[1, 2], [3, 4]]⟩ : Mat ℝ)).2 = err .InvalidData := by
  simp [Pca.trainCall, Pca.train, tooManyComponents, Pca.new, assignLast]

example : (∀ A d r, (fun A : Mat ℝ => (ok ((1 : ℝ), ok A) : Outcome (ℝ × Outcome (Mat ℝ)))) A = ok (d, r) → ∃ B, r = ok B) ∧
    ((Gmm.new 2).trainCall (fun A : Mat ℝ => ok ((1 : ℝ), ok A)) (fun _ => 0) (⟨1, [[3]]⟩ : Mat ℝ)).2 = err .InvalidData := by
  refine ⟨fun A d r h => ?_, by simp [Gmm.trainCall]⟩
  cases h
  exact ⟨_, rfl⟩

end RM
