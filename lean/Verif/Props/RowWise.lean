import Verif.Proofs.RowWise
import Verif.Proofs.NaiveBayesLik

/-!
# C75: predictions and transformations work row by row

Over any arithmetic, with rounding, infinities and NaN.
-/

namespace RM
open Outcome Scalar Spec
variable {F : Type} [Scalar F]

theorem rowWise_never {β : Type} {f : Mat F → Outcome (List β)} (h : ∀ X Y, f X ≠ ok Y) : RowWise f := by
  intro X r _ hne
  constructor
  · intro hX; exact absurd hX (h X r)
  · intro hX
    cases hr : X.rows with
    | nil => exact absurd hr hne
    | cons a l =>
      rw [hr] at hX
      cases hX with
      | cons h1 _ => exact absurd h1 (h _ _)

theorem perRowMat_never {f : Mat F → Outcome (Mat F)} (h : ∀ X Y, f X ≠ ok Y) (κ : ℕ → ℕ) :
    ∃ h, PerRowMat f κ h ∧ ∀ c x y, x.length = c → h c x = ok y → y.length = κ c := by
  obtain ⟨k, hk, _⟩ := perRowMat_of_if (f := f) (κ := κ) (fun _ => False) (fun c _ => List.replicate (κ c) Scalar.zero)
    (fun _ _ _ h => h.elim) fun X _ _ _ Y => h X Y
  refine ⟨k, hk, ?_⟩
  intro c x y hx hy
  have := (hk ⟨c, [x]⟩ ⟨κ c, [y]⟩ (by intro r hr; simp only [List.mem_singleton] at hr; rw [hr, hx]) (by simp)).mpr
    ⟨rfl, mapM_singleton_ok.mpr hy⟩
  exact absurd this (h _ _)

theorem withOnes_eq (X : Mat F) : withOnes X = ok ⟨X.cols + 1, X.rows.map (Scalar.one :: ·)⟩ := hcat_ones X

/-! ### Linear models -/

theorem linear_rowWise (v : List F) (post : F → F) :
    RowWise (fun X => do let full ← withOnes X; let s ← full.mulVec v; ok (s.map post)) := by
  apply perRow_of_if (fun c => c + 1 = v.length) fun _ x => post (dot (Scalar.one :: x) v)
  · intro X _ _ hp
    simp [withOnes_eq, Mat.mulVec, hp, Function.comp_def]
  · intro X _ _ hp Y
    simp [withOnes_eq, Mat.mulVec, hp]

/-- **C75 (linear regression).** -/
theorem C75_lin_reg (m : LinReg F) : RowWise m.predict := by
  cases h : m.parameters with
  | none => exact rowWise_never (by intro X Y; simp [LinReg.predict, h])
  | some v =>
    have := linear_rowWise v id
    convert this using 2 with X
    simp only [LinReg.predict, h]
    cases withOnes X <;> simp
    rename_i full
    cases full.mulVec v <;> simp

/-- **C75 (logistic regression).** -/
theorem C75_logistic (m : LogReg F) : RowWise m.predict := by
  cases h : m.parameters with
  | none => exact rowWise_never (by intro X Y; simp [LogReg.predict, h])
  | some v =>
    have := linear_rowWise v sigmoid.func
    convert this using 2 with X
    simp only [LogReg.predict, h]

/-- **C75 (generalised linear models).** -/
theorem C75_glm (m : Glm F) : RowWise m.predict := by
  cases h : m.parameters with
  | none => exact rowWise_never (by intro X Y; simp [Glm.predict, h])
  | some v =>
    have := linear_rowWise v m.family.link.funcInv
    convert this using 2 with X
    simp only [Glm.predict, h]

/-! ### Kernel models -/

theorem kernel_perRow (ker : Kernel F) (train : Mat F) (v : List F) (pre : List F → List F) (e : ℕ) (post : List F → F → F) :
    PerRow (fun X => do
      let k ← kerMat ker ⟨X.cols + e, X.rows.map pre⟩ train
      let d ← k.mulVec v
      ok (List.zipWith post X.rows d)) fun c x =>
        (if c + e ≠ train.cols then .panic else train.rows.mapM (ker (pre x))) >>= fun ks =>
          if train.rows.length = v.length then ok (post x (dot ks v)) else .panic := by
  intro X r hX hne
  simp only [kerMat, Mat.mulVec]
  by_cases h1 : X.cols + e ≠ train.cols
  · simp only [h1, if_true, ne_eq, not_false_eq_true, err_bind, reduceCtorEq, panic_bind, false_iff]
    intro h
    cases hr : X.rows with
    | nil => exact absurd hr hne
    | cons a l => rw [hr] at h; simp [List.mapM_cons] at h
  · simp only [h1, if_false]
    by_cases h2 : train.rows.length = v.length
    · simp only [h2, if_true]
      have key : ∀ (l : List (List F)) (r : List F), ((do
          let rows ← (l.map pre).mapM fun r1 => train.rows.mapM fun r2 => ker r1 r2
          ok (List.zipWith post l (rows.map fun r => dot r v))) = ok r) ↔
          (l.mapM fun x => train.rows.mapM (ker (pre x)) >>= fun ks => ok (post x (dot ks v))) = ok r := by
        intro l
        induction l with
        | nil => intro r; simp
        | cons a l ih =>
          intro r
          simp only [List.map_cons, List.mapM_cons, bind_eq_ok, pure_eq, ok.injEq, bind_assoc, ok_bind]
          constructor
          · rintro ⟨ks, hks, rows, hrows, rfl⟩
            have := (ih (List.zipWith post l (rows.map fun r => dot r v))).mp (by rw [hrows]; rfl)
            exact ⟨ks, hks, _, this, by simp⟩
          · rintro ⟨ks, hks, r', hr', rfl⟩
            have := (ih r').mpr hr'
            rw [bind_eq_ok] at this
            obtain ⟨rows, hrows, h⟩ := this
            simp only [ok.injEq] at h
            exact ⟨ks, hks, rows, hrows, by simp [h]⟩
      rw [← key X.rows r]
      cases (X.rows.map pre).mapM fun r1 => train.rows.mapM fun r2 => ker r1 r2 <;> simp [h2]
    · simp only [h2, if_false]
      constructor
      · intro h
        rw [bind_eq_ok] at h
        obtain ⟨k, hk, h⟩ := h
        rw [bind_eq_ok] at hk
        obtain ⟨rows, _, hk⟩ := hk
        simp only [ok.injEq] at hk
        subst hk
        simp [h2] at h
      · intro h
        cases hr : X.rows with
        | nil => exact absurd hr hne
        | cons a l =>
          rw [hr] at h
          simp only [List.mapM_cons, bind_eq_ok] at h
          obtain ⟨_, ⟨_, _, h⟩, _⟩ := h
          cases h

theorem kerMat_length {ker : Kernel F} {A B K : Mat F} (h : kerMat ker A B = ok K) : K.rows.length = A.rows.length := by
  unfold kerMat at h
  split at h
  · cases h
  · rw [bind_eq_ok] at h
    obtain ⟨rows, hr, h⟩ := h
    cases h
    exact mapM_length hr

theorem mulVec_length {A : Mat F} {v d : List F} (h : A.mulVec v = ok d) : d.length = A.rows.length := by
  unfold Mat.mulVec at h
  split at h
  · cases h; simp
  · cases h

theorem zipWith_snd {α β γ : Type} {l : List α} {d : List β} (f : β → γ) (h : d.length = l.length) :
    List.zipWith (fun _ => f) l d = d.map f := by
  induction l generalizing d with
  | nil => cases d with
    | nil => rfl
    | cons _ _ => simp at h
  | cons a l ih => cases d with
    | nil => simp at h
    | cons b d => simp [ih (by simpa using h)]

/-- **C75 (support vector machine).** For every kernel, also one that may panic. -/
theorem C75_svm (m : Svm F) : RowWise m.predict := by
  cases h1 : m.alpha with
  | none => exact rowWise_never (by intro X Y; simp [Svm.predict, h1, withOnes_eq])
  | some alpha =>
    cases h2 : m.trainInputs with
    | none => exact rowWise_never (by intro X Y; simp [Svm.predict, h1, h2, withOnes_eq])
    | some tr =>
      cases h3 : m.trainTargets with
      | none => exact rowWise_never (by intro X Y; simp [Svm.predict, h1, h2, h3, withOnes_eq])
      | some ta =>
        cases h4 : vecZip Scalar.mul alpha ta with
        | ok w =>
          have := kernel_perRow m.ker tr (w.map fun x => x /. m.lambda) (Scalar.one :: ·) 1 fun _ => signum
          apply this.congr
          intro X r _ _
          simp only [Svm.predict, withOnes_eq, ok_bind, h1, h2, h3, h4]
          rw [bind_eq_ok, bind_eq_ok]
          apply exists_congr
          intro k
          apply and_congr_right
          intro hk
          rw [bind_eq_ok, bind_eq_ok]
          apply exists_congr
          intro d
          apply and_congr_right
          intro hd
          have := (mulVec_length hd).trans (kerMat_length hk)
          rw [zipWith_snd _ (by simpa using this)]
        | err e =>
          exact rowWise_never (by
            intro X Y
            simp only [Svm.predict, withOnes_eq, ok_bind, h1, h2, h3, h4]
            cases kerMat m.ker ⟨X.cols + 1, X.rows.map (Scalar.one :: ·)⟩ tr <;> simp)
        | panic =>
          exact rowWise_never (by
            intro X Y
            simp only [Svm.predict, withOnes_eq, ok_bind, h1, h2, h3, h4]
            cases kerMat m.ker ⟨X.cols + 1, X.rows.map (Scalar.one :: ·)⟩ tr <;> simp)
        | ub =>
          exact rowWise_never (by
            intro X Y
            simp only [Svm.predict, withOnes_eq, ok_bind, h1, h2, h3, h4]
            cases kerMat m.ker ⟨X.cols + 1, X.rows.map (Scalar.one :: ·)⟩ tr <;> simp)

/-- **C75 (Gaussian process).** For every kernel, also one that may panic, and every mean function of single samples. -/
theorem C75_gp (g : Gp F) (mu : List F → F) (hmu : ∀ X, g.mean X = X.rows.map mu) : RowWise g.predict := by
  cases h1 : g.alpha with
  | none => exact rowWise_never (by intro X Y; simp [Gp.predict, h1])
  | some alpha =>
    cases h2 : g.trainData with
    | none => exact rowWise_never (by intro X Y; simp [Gp.predict, h1, h2])
    | some tr =>
      have := kernel_perRow g.ker tr alpha id 0 fun x y => mu x +. y
      apply this.congr
      intro X r _ _
      simp only [Gp.predict, h1, h2, List.map_id, Nat.add_zero]
      rw [bind_eq_ok, bind_eq_ok]
      apply exists_congr
      intro k
      apply and_congr_right
      intro hk
      rw [bind_eq_ok, bind_eq_ok]
      apply exists_congr
      intro d
      apply and_congr_right
      intro hd
      have := (mulVec_length hd).trans (kerMat_length hk)
      rw [hmu]
      simp only [vecZip, List.length_map, this, if_true, List.zipWith_map_left]

/-- The constant mean function is one of single samples. -/
theorem C75_const_mean (a : F) (X : Mat F) : constMean a X = X.rows.map fun _ => Scalar.zero +. a := by
  simp [constMean, List.map_const']

/-! ### Neighbours, clusters -/

/-- **C75 (k nearest neighbours).** For every search structure. -/
theorem C75_knn {S : Type} (R : Searcher F S) (c : KNNClassifier S) : RowWise (knnPredict R c) := by
  cases h : c.target with
  | none => exact rowWise_never (by intro X Y; simp [knnPredict, h])
  | some t =>
    refine PerRow.rowWise (h := fun _ row => do
      let (idx, _) ← R.search c.searcher row c.k
      knnVote t idx) ?_
    intro X r _ _
    simp only [knnPredict, h]

/-- **C75 (k-means).** -/
theorem C75_kmeans (m : KMeans F) : RowWise (kmPredict m) := by
  cases h : m.centroids with
  | none => exact rowWise_never (by intro X Y; simp [kmPredict, h])
  | some C =>
    refine PerRow.rowWise (h := fun c row => closestTo C c row >>= fun p => ok p.1) ?_
    intro X r _ _
    rw [mapM_comp]
    simp only [kmPredict, h, findClosest, mapM_pure, bind_eq_ok]
    constructor
    · rintro ⟨_, ⟨rs, h1, h⟩, h2⟩; cases h; exact ⟨rs, h1, h2⟩
    · rintro ⟨rs, h1, h2⟩; exact ⟨_, ⟨rs, h1, rfl⟩, h2⟩

/-- **C75 (DBSCAN).** -/
theorem C75_dbscan (m : Dbscan F) : RowWise (dbPredict m) := by
  cases hp : m.predictive with
  | false => exact rowWise_never (by intro X Y; simp [dbPredict, hp])
  | true =>
    cases h1 : m.clusterData with
    | none => exact rowWise_never (by intro X Y; simp [dbPredict, hp, h1])
    | some data =>
      cases h2 : m.clusters with
      | none => exact rowWise_never (by intro X Y; simp [dbPredict, hp, h1, h2])
      | some cl =>
        refine PerRow.rowWise (h := fun _ row => dbClassify m.eps data cl row) ?_
        intro X r _ _
        simp [dbPredict, hp, h1, h2]

/-! ### Transformations -/

/-- **C75 (MinMaxScaler).** -/
theorem C75_minmax (t : MinMaxScaler F) : RowWiseMat (minmaxTransform t) := by
  obtain ⟨h, H, _⟩ := perRowMat_of_if (f := minmaxTransform t) (κ := id) (fun c => t.scale.length = c)
    (fun _ row => List.zipWith Scalar.add (List.zipWith Scalar.mul row t.scale) t.const)
    (by intro X _ _ hp; simp [minmaxTransform, hp]) (by intro X _ _ hp Y; simp [minmaxTransform, hp])
  exact H.rowWise

/-- **C75 (inverse of MinMaxScaler).** -/
theorem C75_minmax_inv (t : MinMaxScaler F) : RowWiseMat (minmaxInv t) := by
  obtain ⟨h, H, _⟩ := perRowMat_of_if (f := minmaxInv t) (κ := id) (fun c => c = t.scale.length)
    (fun _ row => List.zipWith Scalar.div (List.zipWith Scalar.sub row t.const) t.scale)
    (by intro X _ _ hp; simp [minmaxInv, hp]) (by intro X _ _ hp Y; simp [minmaxInv, hp])
  exact H.rowWise

/-- **C75 (Standardizer).** -/
theorem C75_standardizer (t : Standardizer F) : RowWiseMat (standardizerTransform t) := by
  obtain ⟨h, H, _⟩ := perRowMat_of_if (f := standardizerTransform t) (κ := id) (fun c => t.means.length = c)
    (fun _ row => List.zipWith (fun x y => x *. t.scaledStdev /. Scalar.sqrt y +. t.scaledMean)
      (List.zipWith Scalar.sub row t.means) t.variances)
    (by intro X _ _ hp; simp [standardizerTransform, hp]) (by intro X _ _ hp Y; simp [standardizerTransform, hp])
  exact H.rowWise

/-- **C75 (inverse of Standardizer).** -/
theorem C75_standardizer_inv (t : Standardizer F) : RowWiseMat (standardizerInv t) := by
  obtain ⟨h, H, _⟩ := perRowMat_of_if (f := standardizerInv t) (κ := id) (fun c => c = t.means.length)
    (fun _ row => List.zipWith Scalar.add
      (List.zipWith (fun x y => (x -. t.scaledMean) *. Scalar.sqrt y /. t.scaledStdev) row t.variances) t.means)
    (by intro X _ _ hp; simp [standardizerInv, hp]) (by intro X _ _ hp Y; simp [standardizerInv, hp])
  exact H.rowWise

/-- **C75 (Normalizer).** For every norm. -/
theorem C75_normalizer (norm : List F → F) : RowWiseMat (normalizerTransform norm) := by
  let h : ℕ → List F → Outcome (List F) := fun _ row =>
    if !Scalar.isFinite (norm row) then err .InvalidData
    else ok (if norm row ==. Scalar.zero then row else row.map fun x => x /. norm row)
  have key : ∀ (c : ℕ) (l : List (List F)), normalizeLoop (l.zip (l.map norm)) = l.mapM (h c) := by
    intro c l
    induction l with
    | nil => rfl
    | cons a l ih =>
      simp only [List.map_cons, List.zip_cons_cons, normalizeLoop, List.mapM_cons, h]
      split
      · rfl
      · rw [ih]; rfl
  apply PerRowMat.rowWise (κ := id) (h := h)
  intro X Y _ _
  simp only [normalizerTransform]
  rw [key X.cols, bind_eq_ok]
  constructor
  · rintro ⟨rows, h1, h2⟩
    cases h2
    exact ⟨rfl, h1⟩
  · rintro ⟨h1, h2⟩
    exact ⟨Y.rows, h2, by cases Y; simp_all⟩

/-- **C75 (principal components).** -/
theorem C75_pca (m : Pca F) : RowWiseMat m.predict := by
  cases h1 : m.nFeatures with
  | none =>
    obtain ⟨h, H, _⟩ := perRowMat_never (f := m.predict) (by intro X Y; simp [Pca.predict, h1]) id
    exact H.rowWise
  | some f =>
    cases h2 : m.components with
    | none =>
      obtain ⟨h, H, _⟩ := perRowMat_never (f := m.predict) (by intro X Y; simp only [Pca.predict, h1, h2]; split <;> simp) id
      exact H.rowWise
    | some comp =>
      let C := if m.inv then comp.transpose else comp
      have hproj : ∀ X, m.project comp X = X.mul C := by
        intro X
        simp only [Pca.project, C]
        split <;> rfl
      by_cases hc : m.center = true
      · cases h3 : m.centers with
        | none =>
          obtain ⟨h, H, _⟩ := perRowMat_never (f := m.predict) (by intro X Y; simp only [Pca.predict, h1, h2, h3, hc, if_true]; split <;> simp) id
          exact H.rowWise
        | some centers =>
          obtain ⟨h, H, _⟩ := perRowMat_of_if (f := m.predict) (κ := fun _ => C.cols)
            (fun c => f = c ∧ ¬ centers.length < c ∧ c = C.rows.length)
            (fun _ row => (List.range C.cols).map fun j => dot (List.zipWith Scalar.sub row centers) (colOf C.rows j))
            (by
              intro X _ _ ⟨a, b, c⟩
              simp only [Pca.predict, h1, h2, h3, hc, if_true, a, ne_eq, not_true_eq_false, if_false, centering, b, false_and, ok_bind, hproj, Mat.mul]
              rw [if_pos c]
              simp [Function.comp_def])
            (by
              intro X _ hne hp Y
              simp only [Pca.predict, h1, h2, h3, hc, if_true, centering, hproj, Mat.mul]
              by_cases a : f = X.cols
              · by_cases b : centers.length < X.cols
                · simp [a, b, hne]
                · have : X.cols ≠ C.rows.length := fun c => hp ⟨a, b, c⟩
                  simp [a, b, this]
              · simp [a])
          exact H.rowWise
      · obtain ⟨h, H, _⟩ := perRowMat_of_if (f := m.predict) (κ := fun _ => C.cols) (fun c => f = c ∧ c = C.rows.length)
          (fun _ row => (List.range C.cols).map fun j => dot row (colOf C.rows j))
          (by
            intro X _ _ ⟨a, c⟩
            simp only [Pca.predict, h1, h2, hc, a, ne_eq, not_true_eq_false, if_false, hproj, Mat.mul]
            rw [if_pos c]
            simp)
          (by
            intro X _ hne hp Y
            simp only [Pca.predict, h1, h2, hc, hproj, Mat.mul]
            by_cases a : f = X.cols
            · have : X.cols ≠ C.rows.length := fun c => hp ⟨a, c⟩
              simp [a, this]
            · simp [a])
        exact H.rowWise

/-- **C75 (mixture model).** -/
theorem C75_gmm (lup : Mat F → Outcome (F × Outcome (Mat F))) (m : Gmm F) : RowWiseMat (m.predict lup) := by
  have never : (∀ X Y, m.predict lup X ≠ ok Y) → RowWiseMat (m.predict lup) := by
    intro h
    obtain ⟨_, H, _⟩ := perRowMat_never h id
    exact H.rowWise
  cases h1 : m.means with
  | none => exact never (by intro X Y; simp [Gmm.predict, h1])
  | some means =>
    cases h2 : m.covars with
    | none => exact never (by intro X Y; simp [Gmm.predict, h1, h2])
    | some covs =>
      cases h3 : covs.mapM (covParts lup) with
      | ok parts =>
        apply PerRowMat.rowWise (κ := fun _ => m.compCount)
          (h := fun _ row => memberRow m.compCount m.mixWeights means parts row >>= fun p => ok p.1)
        intro X Y _ _
        rw [mapM_comp]
        simp only [Gmm.predict, h1, h2, Gmm.memberships, Option.getD_some, h3, ok_bind, mapM_pure, bind_eq_ok]
        constructor
        · rintro ⟨_, ⟨rs, h4, h⟩, h5⟩
          cases h
          cases h5
          exact ⟨rfl, rs, h4, rfl⟩
        · rintro ⟨h4, rs, h5, h6⟩
          refine ⟨_, ⟨rs, h5, rfl⟩, ?_⟩
          cases Y
          simp_all
      | err e => exact never (by intro X Y; simp [Gmm.predict, h1, h2, Gmm.memberships, h3])
      | panic => exact never (by intro X Y; simp [Gmm.predict, h1, h2, Gmm.memberships, h3])
      | ub => exact never (by intro X Y; simp [Gmm.predict, h1, h2, Gmm.memberships, h3])

/-! ### Neural networks -/

theorem forward_perRow (l : NetLayer F) (P : Mat F) :
    ∃ κ h, PerRowMat (fun X => l.forward X P) κ h ∧ ∀ c x y, x.length = c → h c x = ok y → y.length = κ c := by
  cases l with
  | activ A =>
    obtain ⟨h, H, hh⟩ := perRowMat_of_if (f := fun X => (NetLayer.activ A).forward X P) (κ := id) (fun _ => True) (fun _ row => row.map A.func)
      (by
        intro X hX _ _
        simp only [NetLayer.forward, Mat.data]
        exact new_map A.func X.cols X.rows hX)
      (by intro X _ _ h; exact absurd trivial h)
    exact ⟨id, h, H, fun c x y hx hy => by rw [hh c x y hy]; simpa using hx⟩
  | linear i o bias =>
    cases bias with
    | true =>
      obtain ⟨h, H, hh⟩ := perRowMat_of_if (f := fun X => (NetLayer.linear i o true).forward X P) (κ := fun _ => P.cols)
        (fun c => c + 1 = P.rows.length) (fun _ row => (List.range P.cols).map fun j => dot (Scalar.one :: row) (colOf P.rows j))
        (by
          intro X _ _ hp
          simp only [NetLayer.forward, if_true, hp, ne_eq, not_true_eq_false, if_false]
          rw [hcat_ones]
          simp [Mat.mul, hp, Function.comp_def])
        (by intro X _ _ hp Y; simp [NetLayer.forward, hp])
      exact ⟨_, h, H, fun c x y _ hy => by rw [hh c x y hy]; simp⟩
    | false =>
      obtain ⟨h, H, hh⟩ := perRowMat_of_if (f := fun X => (NetLayer.linear i o false).forward X P) (κ := fun _ => P.cols)
        (fun c => c = P.rows.length) (fun _ row => (List.range P.cols).map fun j => dot row (colOf P.rows j))
        (by
          intro X _ _ hp
          simp [NetLayer.forward, hp, Mat.mul])
        (by intro X _ _ hp Y; simp [NetLayer.forward, hp])
      exact ⟨_, h, H, fun c x y _ hy => by rw [hh c x y hy]; simp⟩

theorem PerRowMat.of_eq {f g : Mat F → Outcome (Mat F)} {κ : ℕ → ℕ} {h : ℕ → List F → Outcome (List F)} (H : PerRowMat f κ h)
    (e : ∀ X Y, g X = ok Y ↔ f X = ok Y) : PerRowMat g κ h := by
  intro X Y hX hne
  rw [e, H X Y hX hne]

theorem forwardRest_perRow (w : List F) : ∀ (ls : List (NetLayer F)) (index : ℕ),
    ∃ κ h, PerRowMat (forwardRest w ls index) κ h ∧ ∀ c x y, x.length = c → h c x = ok y → y.length = κ c
  | [], index => by
    obtain ⟨h, H, hh⟩ := perRowMat_of_if (f := forwardRest w [] index) (κ := id) (fun _ => True) (fun _ row => row)
      (by intro X _ _ _; simp [forwardRest]) (by intro X _ _ h; exact absurd trivial h)
    exact ⟨id, h, H, fun c x y hx hy => by rw [hh c x y hy]; exact hx⟩
  | l :: ls, index => by
    cases hs : sliceAt w index l.paramShape with
    | ok P =>
      obtain ⟨κ, h, H, hh⟩ := forward_perRow l P
      obtain ⟨μ, k, K, hk⟩ := forwardRest_perRow w ls (index + l.numParams)
      refine ⟨_, _, (H.comp hh K).of_eq ?_, ?_⟩
      · intro X Y
        simp only [forwardRest, hs, ok_bind]
        cases l.forward X P <;> simp
      · intro c x y hx hy
        rw [bind_eq_ok] at hy
        obtain ⟨z, hz, hy⟩ := hy
        exact hk _ z y (hh c x z hx hz) hy
    | err e =>
      obtain ⟨h, H, hh⟩ := perRowMat_never (f := forwardRest w (l :: ls) index) (by intro X Y; simp [forwardRest, hs]) id
      exact ⟨id, h, H, hh⟩
    | panic =>
      obtain ⟨h, H, hh⟩ := perRowMat_never (f := forwardRest w (l :: ls) index) (by intro X Y; simp [forwardRest, hs]) id
      exact ⟨id, h, H, hh⟩
    | ub =>
      obtain ⟨h, H, hh⟩ := perRowMat_never (f := forwardRest w (l :: ls) index) (by intro X Y; simp [forwardRest, hs]) id
      exact ⟨id, h, H, hh⟩

/-- **C75 (neural networks).** For every list of layers and every weights. -/
theorem C75_nnet (net : BaseNet F) : RowWiseMat net.forwardProp := by
  obtain ⟨κ, h, H, _⟩ := forwardRest_perRow net.weights net.layers 0
  refine (H.of_eq (g := net.forwardProp) ?_).rowWise
  intro X Y
  obtain ⟨ls, w, cr⟩ := net
  cases ls with
  | nil => simp [BaseNet.forwardProp, forwardRest]
  | cons l ls =>
    simp only [BaseNet.forwardProp, forwardRest]
    cases sliceAt w 0 l.paramShape with
    | ok P =>
      simp only [ok_bind, Nat.zero_add]
      cases l.forward X P <;> simp
    | err e => simp
    | panic => simp
    | ub => simp

/-! ### Naive Bayes -/

theorem addClassRow_eq (k : ℕ) (R : List (List F)) (per : List F) :
    addClassRow ⟨k, R⟩ R.length per = if k = per.length then ok ⟨k, R.map fun r => List.zipWith Scalar.add r per⟩ else .panic := by
  unfold addClassRow
  have h1 : (Mat.new 1 per.length per : Outcome (Mat F)) = ok ⟨per.length, [per]⟩ := by
    simp [Mat.new, chunk]
  rw [h1, ok_bind, selectRows_replicate (v := per) _ (by simp), ok_bind]
  unfold Mat.zip
  by_cases h : k = per.length
  · rw [if_pos h, if_pos ⟨by simp, h⟩]
    simp only
    rw [zipWith_replicate_right']
  · rw [if_neg h, if_neg (fun hh => h hh.2)]

/-- The row function of a class of the Gaussian distribution. -/
def gaussRow [ScalarPi F] (d : GaussD F) (i : ℕ) (prior : F) (row : List F) : F :=
  ((Scalar.neg (fsum (List.zipWith Scalar.div ((List.zipWith Scalar.sub row (d.theta.rows.getD i [])).map fun x => x *. x)
    (d.sigma.rows.getD i []))) *. Scalar.ofRat (1 / 2)) +.
    (Scalar.ofRat (-1 / 2) *. fsum ((d.sigma.rows.getD i []).map fun x => Scalar.ln ((x *. Scalar.ofRat 2) *. ScalarPi.pi)))) +.
    Scalar.ln prior

/-- When the likelihoods of a class can be computed for samples with `c` features. -/
def GaussFits (d : GaussD F) (c i : ℕ) : Prop :=
  i < d.sigma.rows.length ∧ i < d.theta.rows.length ∧ c = d.theta.cols ∧ c = d.sigma.cols

theorem selectRows_out (M : Mat F) {i : ℕ} (h : ¬ i < M.rows.length) {n : ℕ} (hn : n ≠ 0) : M.selectRows (List.replicate n i) = .panic := by
  unfold Mat.selectRows
  obtain ⟨n, rfl⟩ := Nat.exists_eq_succ_of_ne_zero hn
  rw [List.replicate_succ, List.mapM_cons]
  have : getAt M.rows i = .panic := by
    unfold getAt
    rw [List.getElem?_eq_none (by omega)]
    rfl
  rw [this]
  rfl

theorem gaussClassLik_fits [ScalarPi F] (d : GaussD F) (X : Mat F) (i : ℕ) (p : F) (h : GaussFits d X.cols i) :
    gaussClassLik d X i p = ok (X.rows.map (gaussRow d i p)) := by
  obtain ⟨h1, h2, h3, h4⟩ := h
  have e1 : d.theta.rows[i]? = some (d.theta.rows.getD i []) := by
    rw [List.getD_eq_getElem?_getD, List.getElem?_eq_getElem h2]; rfl
  have e2 : d.sigma.rows[i]? = some (d.sigma.rows.getD i []) := by
    rw [List.getD_eq_getElem?_getD, List.getElem?_eq_getElem h1]; rfl
  unfold gaussClassLik
  have e3 := selectRows_replicate d.sigma e2 1
  simp only [List.replicate_one] at e3
  rw [e3]
  simp only [ok_bind]
  rw [selectRows_replicate d.theta e1, selectRows_replicate d.sigma e2]
  simp only [ok_bind]
  rw [← h3, ← h4, Mat.zip_replicate]
  simp only [ok_bind]
  have e4 := Mat.zip_replicate Scalar.div (Mat.map (fun x : F => x *. x) ⟨X.cols, X.rows.map fun r => List.zipWith Scalar.sub r (d.theta.rows.getD i [])⟩)
    (d.sigma.rows.getD i [])
  simp only [Mat.map, List.length_map] at e4
  simp only [Mat.map]
  rw [e4]
  simp [Mat.sumCols, Mat.sum, Mat.data, Function.comp_def, gaussRow]

theorem gaussClassLik_misfit [ScalarPi F] (d : GaussD F) (X : Mat F) (hne : X.rows ≠ []) (i : ℕ) (p : F) (h : ¬ GaussFits d X.cols i) :
    gaussClassLik d X i p = .panic := by
  unfold gaussClassLik
  have hn : X.rows.length ≠ 0 := by simpa using hne
  by_cases h1 : i < d.sigma.rows.length
  · have e2 : d.sigma.rows[i]? = some (d.sigma.rows.getD i []) := by
      rw [List.getD_eq_getElem?_getD, List.getElem?_eq_getElem h1]; rfl
    have e3 := selectRows_replicate d.sigma e2 1
    simp only [List.replicate_one] at e3
    rw [e3]
    simp only [ok_bind]
    by_cases h2 : i < d.theta.rows.length
    · have e1 : d.theta.rows[i]? = some (d.theta.rows.getD i []) := by
        rw [List.getD_eq_getElem?_getD, List.getElem?_eq_getElem h2]; rfl
      rw [selectRows_replicate d.theta e1, selectRows_replicate d.sigma e2]
      simp only [ok_bind]
      by_cases h3 : X.cols = d.theta.cols
      · have h4 : X.cols ≠ d.sigma.cols := fun h4 => h ⟨h1, h2, h3, h4⟩
        simp [Mat.zip, ← h3, Mat.map, h4]
      · simp [Mat.zip, h3]
    · rw [selectRows_out _ h2 hn]; rfl
  · have := selectRows_out d.sigma h1 (n := 1) (by simp)
    rw [List.replicate_one] at this
    rw [this]; rfl

theorem new_transpose (R : List (List F)) {α : Type} (l : List α) (g : α → List F → F) :
    (do
      let m ← Mat.new l.length R.length (l.map fun a => R.map (g a)).flatten
      ok m.transpose) = ok (⟨l.length, R.map fun r => l.map fun a => g a r⟩ : Mat F) := by
  have hlen : ∀ r ∈ (l.map fun a => R.map (g a)), r.length = R.length := by
    intro r hr
    obtain ⟨c, _, rfl⟩ := List.mem_map.1 hr
    simp
  rw [Mat.new_flatten (k := l.length) (by simp) hlen, ok_bind]
  simp only [Mat.transpose, transposeRows, List.length_map]
  congr 2
  apply List.ext_getElem (by simp)
  intro j h1 h2
  have hj : j < R.length := by simpa using h1
  simp only [List.getElem_map, List.getElem_range]
  rw [List.filterMap_map]
  have : ((fun r : List F => r[j]?) ∘ fun a => R.map (g a)) = fun a => some (g a R[j]) := by
    funext a
    simp [hj]
  rw [this, List.filterMap_eq_map']

theorem gaussJoint_perRow [ScalarPi F] (d : GaussD F) (prior : List F) :
    ∃ h, PerRowMat (fun X => (gaussDistr : NBDistr (GaussD F) F).jointLogLik d X prior) (fun _ => prior.length) h ∧
      ∀ c x y, x.length = c → h c x = ok y → y.length = prior.length := by
  obtain ⟨h, H, hh⟩ := perRowMat_of_if (f := fun X => (gaussDistr : NBDistr (GaussD F) F).jointLogLik d X prior) (κ := fun _ => prior.length)
    (fun c => ∀ p ∈ prior.zipIdx, GaussFits d c p.2) (fun _ row => prior.zipIdx.map fun p => gaussRow d p.2 p.1 row)
    (by
      intro X _ _ hp
      simp only [gaussDistr]
      rw [mapM_ok_map _ (fun p : F × ℕ => X.rows.map (gaussRow d p.2 p.1)) prior.zipIdx fun p hpm => gaussClassLik_fits d X p.2 p.1 (hp p hpm)]
      have := new_transpose X.rows prior.zipIdx fun p row => gaussRow d p.2 p.1 row
      rw [List.length_zipIdx] at this
      exact this)
    (by
      intro X _ hne hp Y hY
      apply hp
      intro p hpm
      by_contra hf
      simp only [gaussDistr] at hY
      rw [bind_eq_ok] at hY
      obtain ⟨liks, hl, _⟩ := hY
      have h2 := mapM_eq_ok.mp hl
      obtain ⟨b, hb⟩ : ∃ b, gaussClassLik d X p.2 p.1 = ok b := by
        obtain ⟨i, hi, rfl⟩ := List.mem_iff_getElem.mp hpm
        exact ⟨_, (List.forall₂_iff_get.mp h2).2 i hi (by rw [← h2.length_eq]; exact hi)⟩
      rw [gaussClassLik_misfit d X hne _ _ hf] at hb
      cases hb)
  exact ⟨h, H, fun c x y _ hy => by rw [hh c x y hy]; simp⟩

theorem linearLik_perRow (C : Mat F) (per : List F) :
    ∃ h, PerRowMat (fun X => X.mul C >>= fun res => addClassRow res X.rows.length per) (fun _ => C.cols) h ∧
      ∀ c x y, x.length = c → h c x = ok y → y.length ≤ C.cols := by
  obtain ⟨h, H, hh⟩ := perRowMat_of_if (f := fun X => X.mul C >>= fun res => addClassRow res X.rows.length per) (κ := fun _ => C.cols)
    (fun c => c = C.rows.length ∧ C.cols = per.length)
    (fun _ row => List.zipWith Scalar.add ((List.range C.cols).map fun j => dot row (colOf C.rows j)) per)
    (by
      intro X _ _ ⟨a, b⟩
      simp only [Mat.mul, a, if_true, ok_bind]
      have := addClassRow_eq C.cols (X.rows.map fun r => (List.range C.cols).map fun j => dot r (colOf C.rows j)) per
      rw [List.length_map] at this
      rw [this, if_pos b, List.map_map]
      rfl)
    (by
      intro X _ _ hp Y
      simp only [Mat.mul]
      by_cases a : X.cols = C.rows.length
      · have b : C.cols ≠ per.length := fun b => hp ⟨a, b⟩
        simp only [a, if_true, ok_bind]
        have := addClassRow_eq C.cols (X.rows.map fun r => (List.range C.cols).map fun j => dot r (colOf C.rows j)) per
        rw [List.length_map] at this
        rw [this, if_neg b]
        simp
      · simp [a])
  exact ⟨h, H, fun c x y _ hy => by rw [hh c x y hy]; simp⟩

theorem nbPredict_rowWise {D : Type} (B : NBDistr D F) (m : NaiveBayes D F)
    (hB : ∀ d prior, ∃ κ h, PerRowMat (fun X => B.jointLogLik d X prior) κ h) : RowWiseMat (nbPredict B m) := by
  have never : (∀ X Y, nbPredict B m X ≠ ok Y) → RowWiseMat (nbPredict B m) := by
    intro h
    obtain ⟨_, H, _⟩ := perRowMat_never h id
    exact H.rowWise
  cases h1 : m.distr with
  | none => exact never (by intro X Y; simp [nbPredict, nbLogProbs, h1])
  | some d =>
    cases h2 : m.classPrior with
    | none => exact never (by intro X Y; simp [nbPredict, nbLogProbs, h1, h2])
    | some prior =>
      obtain ⟨κ, h, H⟩ := hB d prior
      cases h3 : m.clusterCount with
      | none =>
        exact never (by
          intro X Y
          simp only [nbPredict, nbLogProbs, h1, h2, h3]
          cases B.jointLogLik d X prior with
          | ok L =>
            simp only [ok_bind]
            cases L.rows.mapM (fun row => do
              let r ← argmaxBy Scalar.lt row
              ok r.1) <;> simp
          | err e => simp
          | panic => simp
          | ub => simp)
      | some k =>
        apply PerRowMat.rowWise (κ := fun _ => k) (h := fun c row => h c row >>= fun lik =>
          (argmaxBy Scalar.lt lik >>= fun r => ok r.1) >>= fun cl => setAt (List.replicate k Scalar.zero) cl Scalar.one)
        intro X Y hX hne
        rw [mapM_comp]
        simp only [nbPredict, nbLogProbs, h1, h2, h3]
        rw [bind_eq_ok]
        have hrow : ∀ (cl : List ℕ) rows, cl.mapM (fun c => setAt (List.replicate k (Scalar.zero : F)) c Scalar.one) = ok rows →
            ∀ r ∈ rows, r.length = k := by
          intro cl rows hr r hrm
          have f2 := mapM_eq_ok.mp hr
          obtain ⟨i, hi, rfl⟩ := List.mem_iff_getElem.mp hrm
          have := (List.forall₂_iff_get.mp f2).2 i (by rw [f2.length_eq]; exact hi) hi
          simp only [setAt] at this
          split at this
          · simp only [ok.injEq] at this
            simp only [List.get_eq_getElem] at this
            rw [← this]
            simp
          · cases this
        constructor
        · rintro ⟨L, hL, hY⟩
          obtain ⟨hc, hr⟩ := (H X L hX hne).mp hL
          rw [bind_eq_ok] at hY
          obtain ⟨cl, hcl, hY⟩ := hY
          rw [bind_eq_ok] at hY
          obtain ⟨rows, hrows, hY⟩ := hY
          have hlen : rows.length = X.rows.length := by
            rw [mapM_length hrows, mapM_length hcl, mapM_length hr]
          rw [Mat.new_flatten hlen (hrow _ _ hrows)] at hY
          cases hY
          exact ⟨rfl, L.rows, hr, mapM_comp.mpr ⟨cl, hcl, hrows⟩⟩
        · rintro ⟨hk, L, hL, hY⟩
          obtain ⟨cl, hcl, hrows⟩ := mapM_comp.mp hY
          refine ⟨⟨κ X.cols, L⟩, (H X _ hX hne).mpr ⟨rfl, hL⟩, ?_⟩
          rw [bind_eq_ok]
          refine ⟨cl, hcl, ?_⟩
          rw [bind_eq_ok]
          refine ⟨Y.rows, hrows, ?_⟩
          have hlen : Y.rows.length = X.rows.length := by
            rw [mapM_length hrows, mapM_length hcl, mapM_length hL]
          rw [Mat.new_flatten hlen (hrow _ _ hrows), ← hk]

/-- **C75 (naive Bayes, Gaussian).** -/
theorem C75_nb_gaussian [ScalarPi F] (m : NaiveBayes (GaussD F) F) : RowWiseMat (nbPredict gaussDistr m) :=
  nbPredict_rowWise _ m fun d prior => by
    obtain ⟨h, H, _⟩ := gaussJoint_perRow d prior
    exact ⟨_, h, H⟩

/-- **C75 (naive Bayes, multinomial).** -/
theorem C75_nb_multinomial (m : NaiveBayes (LogProbsD F) F) : RowWiseMat (nbPredict multDistr m) :=
  nbPredict_rowWise _ m fun d prior => by
    obtain ⟨h, H, _⟩ := linearLik_perRow d.logProbs.transpose (prior.map Scalar.ln)
    exact ⟨_, h, H⟩

/-- **C75 (naive Bayes, Bernoulli).** -/
theorem C75_nb_bernoulli (m : NaiveBayes (LogProbsD F) F) : RowWiseMat (nbPredict bernDistr m) :=
  nbPredict_rowWise _ m fun d prior => by
    cases h1 : Mat.zip Scalar.sub d.logProbs (d.logProbs.map fun x => Scalar.ln (Scalar.one -. Scalar.exp x)) with
    | ok diff =>
      cases h2 : (prior.zipIdx.mapM fun p : F × ℕ => do
          let s ← getAt (d.logProbs.map fun x => Scalar.ln (Scalar.one -. Scalar.exp x)).sumCols p.2
          ok (Scalar.ln p.1 +. s)) with
      | ok per =>
        obtain ⟨h, H, _⟩ := linearLik_perRow diff.transpose per
        refine ⟨_, h, H.of_eq ?_⟩
        intro X Y
        simp only [bernDistr, h1, ok_bind, h2]
      | err e =>
        obtain ⟨h, H, _⟩ := perRowMat_never (f := fun X => (bernDistr : NBDistr (LogProbsD F) F).jointLogLik d X prior) (by
          intro X Y
          simp only [bernDistr, h1, ok_bind, h2]
          cases X.mul diff.transpose <;> simp) id
        exact ⟨_, h, H⟩
      | panic =>
        obtain ⟨h, H, _⟩ := perRowMat_never (f := fun X => (bernDistr : NBDistr (LogProbsD F) F).jointLogLik d X prior) (by
          intro X Y
          simp only [bernDistr, h1, ok_bind, h2]
          cases X.mul diff.transpose <;> simp) id
        exact ⟨_, h, H⟩
      | ub =>
        obtain ⟨h, H, _⟩ := perRowMat_never (f := fun X => (bernDistr : NBDistr (LogProbsD F) F).jointLogLik d X prior) (by
          intro X Y
          simp only [bernDistr, h1, ok_bind, h2]
          cases X.mul diff.transpose <;> simp) id
        exact ⟨_, h, H⟩
    | err e =>
      obtain ⟨h, H, _⟩ := perRowMat_never (f := fun X => (bernDistr : NBDistr (LogProbsD F) F).jointLogLik d X prior)
        (by intro X Y; simp [bernDistr, h1]) id
      exact ⟨_, h, H⟩
    | panic =>
      obtain ⟨h, H, _⟩ := perRowMat_never (f := fun X => (bernDistr : NBDistr (LogProbsD F) F).jointLogLik d X prior)
        (by intro X Y; simp [bernDistr, h1]) id
      exact ⟨_, h, H⟩
    | ub =>
      obtain ⟨h, H, _⟩ := perRowMat_never (f := fun X => (bernDistr : NBDistr (LogProbsD F) F).jointLogLik d X prior)
        (by intro X Y; simp [bernDistr, h1]) id
      exact ⟨_, h, H⟩

/-- A model, a batch of two rows and its answers: the two sides of the equivalence are met. -/
example : (⟨some [1, 2]⟩ : LinReg ℝ).predict ⟨1, [[3], [4]]⟩ = ok [7, 9] ∧ (⟨1, [[3], [4]]⟩ : Mat ℝ).WF ∧
    List.Forall₂ (fun row y => (⟨some [1, 2]⟩ : LinReg ℝ).predict ⟨1, [row]⟩ = ok [y]) [[3], [4]] [7, 9] := by
  have h : (⟨some [1, 2]⟩ : LinReg ℝ).predict ⟨1, [[3], [4]]⟩ = ok [7, 9] := by
    simp [LinReg.predict, withOnes_eq, Mat.mulVec, dot, fsum]
    norm_num
  have hw : (⟨1, [[3], [4]]⟩ : Mat ℝ).WF := by intro r hr; fin_cases hr <;> rfl
  exact ⟨h, hw, (C75_lin_reg ⟨some [1, 2]⟩ ⟨1, [[3], [4]]⟩ _ hw (by simp)).mp h⟩

/-! ### What it means for batches -/

/-- **C75 (splitting).** Whatever works row by row can be applied to two batches separately: the joint batch succeeds exactly
when both do, and gives their answers one after the other. -/
theorem C75_split {β : Type} {f : Mat F → Outcome (List β)} (h : RowWise f) (c : ℕ) (xs ys : List (List F)) (hx : xs ≠ []) (hy : ys ≠ [])
    (hw : ∀ r ∈ xs ++ ys, r.length = c) (r : List β) :
    f ⟨c, xs ++ ys⟩ = ok r ↔ ∃ a b, f ⟨c, xs⟩ = ok a ∧ f ⟨c, ys⟩ = ok b ∧ r = a ++ b := by
  rw [h ⟨c, xs ++ ys⟩ r hw (by simp [hx])]
  constructor
  · intro h2
    have ha := List.forall₂_take xs.length h2
    have hb := List.forall₂_drop xs.length h2
    simp only [List.take_left, List.drop_left] at ha hb
    exact ⟨_, _, (h ⟨c, xs⟩ _ (fun r hr => hw r (by simp [hr])) hx).mpr ha, (h ⟨c, ys⟩ _ (fun r hr => hw r (by simp [hr])) hy).mpr hb,
      (List.take_append_drop _ _).symm⟩
  · rintro ⟨a, b, ha, hb, rfl⟩
    exact List.rel_append ((h ⟨c, xs⟩ a (fun r hr => hw r (by simp [hr])) hx).mp ha) ((h ⟨c, ys⟩ b (fun r hr => hw r (by simp [hr])) hy).mp hb)

/-- **C75 (order).** Whatever works row by row gives the reordered answers for a reordered batch. -/
theorem C75_order {β : Type} {f : Mat F → Outcome (List β)} (h : RowWise f) (c : ℕ) (xs : List (List F)) (r : List β) (idx : List ℕ)
    (hw : ∀ r ∈ xs, r.length = c) (hne : idx ≠ []) (hi : ∀ i ∈ idx, i < xs.length) (hf : f ⟨c, xs⟩ = ok r) :
    ∃ ys s, idx.mapM (getAt xs) = ok ys ∧ idx.mapM (getAt r) = ok s ∧ f ⟨c, ys⟩ = ok s := by
  have hx : xs ≠ [] := by
    obtain ⟨i, is, rfl⟩ := List.exists_cons_of_ne_nil hne
    have := hi i (by simp)
    intro h0
    rw [h0] at this
    simp at this
  have h2 := (h ⟨c, xs⟩ r hw hx).mp hf
  have hlen := h2.length_eq
  simp only at h2 hlen
  have key : ∀ is : List ℕ, (∀ i ∈ is, i < xs.length) → ∃ ys s, is.mapM (getAt xs) = ok ys ∧ is.mapM (getAt r) = ok s ∧
      List.Forall₂ (fun row y => f ⟨c, [row]⟩ = ok [y]) ys s ∧ (∀ row ∈ ys, row.length = c) ∧ ys.length = is.length := by
    intro is
    induction is with
    | nil => intro _; exact ⟨[], [], rfl, rfl, .nil, by simp, rfl⟩
    | cons i is ih =>
      intro hi
      obtain ⟨ys, s, h1, h3, h4, h5, h6⟩ := ih fun j hj => hi j (by simp [hj])
      have hi' := hi i (by simp)
      refine ⟨xs[i] :: ys, r[i]'(by omega) :: s, ?_, ?_, .cons ?_ h4, ?_, by simp [h6]⟩
      · simp [List.mapM_cons, getAt, h1, hi']
      · simp [List.mapM_cons, getAt, h3, show i < r.length by omega]
      · exact (List.forall₂_iff_get.mp h2).2 i hi' (by omega)
      · intro row hr
        rcases List.mem_cons.mp hr with rfl | hr
        · exact hw _ (List.getElem_mem hi')
        · exact h5 row hr
  obtain ⟨ys, s, h1, h3, h4, h5, h6⟩ := key idx hi
  refine ⟨ys, s, h1, h3, (h ⟨c, ys⟩ s h5 ?_).mpr h4⟩
  intro h0
  simp only at h0
  rw [h0] at h6
  exact hne (List.eq_nil_of_length_eq_zero h6.symm)

end RM
