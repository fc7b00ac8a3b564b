import Verif.Proofs.Safe
import Verif.Proofs.KMeansInit
import Verif.Proofs.Dbscan
import Verif.Proofs.RandUtils
import Verif.Model.Svm
import Verif.Model.Gp
import Verif.Model.Glm
import Verif.Model.Fmincg
import Verif.Model.Transforms
import Verif.Model.KNN
import Verif.Model.Pca
import Verif.Model.NaiveBayes

/-! C87: calls on data of fitting shapes do not crash, whatever the numbers are (NaN and infinities included: the number type is
arbitrary, no law of arithmetic is used). -/

namespace RM
open Outcome Scalar Spec

variable {F : Type} [Scalar F]

/-! ### k-means -/

theorem closestTo_safe {C : Mat F} {k c : ℕ} (hC : HasShape C k c) (hk : 0 < k) (row : List F) :
    Safe (fun r => r.1 < k) (closestTo C c row) := by
  have : c = C.cols := hC.2.1.symm
  rw [this, closestTo_eq]
  refine (Safe.argminBy ?_).mono fun r hr => ?_
  · intro h
    have := congrArg List.length h
    simp [hC.1] at this
    omega
  · simpa [hC.1] using hr

theorem findClosest_safe {C X : Mat F} {k n c : ℕ} (hC : HasShape C k c) (hX : HasShape X n c) (hk : 0 < k) :
    Safe (fun r => r.1.length = n ∧ r.2.length = n ∧ ∀ j ∈ r.1, j < k) (findClosest C X) := by
  unfold findClosest
  refine Safe.bind (Safe.mapM (Q := fun r : ℕ × F => r.1 < k) fun row _ => ?_) fun r hr => ?_
  · rw [hX.2.1]; exact closestTo_safe hC hk row
  · refine ⟨by simp [hr.1, hX.1], by simp [hr.1, hX.1], ?_⟩
    intro j hj
    obtain ⟨p, hp, rfl⟩ := List.mem_map.mp hj
    exact hr.2 p hp

theorem updateCentroids_safe (k : ℕ) {X : Mat F} {n c : ℕ} (hX : HasShape X n c) {cs : List ℕ} (hcs : cs.length = n) :
    Safe (fun C => HasShape C k c) (updateCentroids k X cs) := by
  refine Safe.of_eq (updateCentroids_eq k X cs (by rw [hX.1, hcs])) ⟨by simp, hX.2.1, ?_⟩
  intro r hr
  obtain ⟨j, _, rfl⟩ := List.mem_map.mp hr
  rw [meanRow_length, hX.2.1]

theorem kmLoop_safe {k : ℕ} (hk : 0 < k) {X : Mat F} {n c : ℕ} (hX : HasShape X n c) : ∀ (iters : ℕ) (cost : F) (C : Mat F), HasShape C k c →
    Safe (fun C => HasShape C k c) (kmLoop k X iters cost C)
  | 0, _, C, hC => hC
  | iters + 1, cost, C, hC => by
    rw [kmLoop]
    refine Safe.bind (findClosest_safe hC hX hk) fun r hr => Safe.bind (updateCentroids_safe k hX hr.1) fun C' hC' => ?_
    dsimp only
    split
    · exact hC'
    · exact kmLoop_safe hk hX iters _ C' hC'

/-- **C87 (k-means, training).** With at least one cluster, training on any matrix, with an initialiser that does not crash, does
not crash; and when it succeeds there are `k` centroids of the width of the data. -/
theorem C87_kmeans_train (init : ℕ → Mat F → Outcome (Mat F)) (m : KMeans F) {X : Mat F} {n c : ℕ} (hX : HasShape X n c) (hk : 0 < m.k)
    (hinit : m.k ≤ n → Safe (fun C => HasShape C m.k c) (init m.k X)) :
    Safe (fun _ => ∃ C, (kmTrain init m X).1.centroids = some C ∧ HasShape C m.k c) (kmTrain init m X).2 := by
  have h0 : Safe (fun C => HasShape C m.k c) (kmInit init m.k X) := by
    unfold kmInit
    split
    · trivial
    · rename_i h
      refine Safe.bind (hinit (by rw [← hX.1]; omega)) fun C hC => ?_
      split
      · trivial
      · split
        · trivial
        · exact hC
  unfold kmTrain
  cases e : kmInit init m.k X with
  | ok c0 =>
    have hc0 := h0.of_ok e
    have h1 := kmLoop_safe hk hX m.iters Scalar.zero c0 hc0
    simp only
    cases e' : kmLoop m.k X m.iters Scalar.zero c0 with
    | ok C => exact ⟨C, rfl, h1.of_ok e'⟩
    | err _ => trivial
    | panic => rw [e'] at h1; exact h1.elim
    | ub => rw [e'] at h1; exact h1.elim
  | err _ => trivial
  | panic => rw [e] at h0; exact h0.elim
  | ub => rw [e] at h0; exact h0.elim

/-- **C87 (k-means, Forgy).** Choosing rows as centroids does not crash when there are at least as many rows as clusters. -/
theorem C87_forgy (raws : List ℕ) (k : ℕ) {X : Mat F} {n c : ℕ} (hX : HasShape X n c) (hk : 0 < k) (hkn : k ≤ n) (o : Outcome (Mat F))
    (h : forgyInit raws k X = some o) : Safe (fun C => HasShape C k c) o := by
  unfold forgyInit at h
  rcases forgyLoop_inv k X.rows.length (.inl (by rw [hX.1]; omega)) raws [] (by simp) (by simp) (by simp) with e | ⟨r, e, -, hl, hr⟩
  · rw [e] at h; cases h
  · rw [e] at h
    simp only [Option.some.injEq] at h
    subst h
    rw [← hl]
    exact Safe.selectRows hX (by rw [← hX.1]; exact hr)

/-- **C87 (k-means, random partition).** Averaging over a random partition does not crash. -/
theorem C87_random_partition (raws : List ℕ) (k : ℕ) {X : Mat F} {n c : ℕ} (hX : HasShape X n c) (hk : 0 < k) (hkn : k ≤ n) :
    Safe (fun C => HasShape C k c) (partitionInit raws k X) := by
  unfold partitionInit
  obtain ⟨g, e, hl, -, hp⟩ := partitionLoop_spec k hk (raws.take (X.rows.length - k)) k ((List.range k).map fun i => [i]) (by simp)
    (by simp) (by rw [← List.flatMap_def]; simp)
  rw [e, ok_bind]
  refine Safe.bind (Safe.mapM (Q := fun r : List F => r.length = c) fun v hv => ?_) fun means hm => ?_
  · refine Safe.bind (Safe.selectRows hX (idx := v) ?_) fun M hM => ?_
    · intro i hi
      have h1 : i ∈ g.flatten := List.mem_flatten.mpr ⟨v, hv, hi⟩
      have h2 := hp.mem_iff.mp h1
      rw [List.mem_range, List.length_take, hX.1] at h2
      omega
    · show M.meanRow.length = c
      rw [meanRow_length, hM.2.1]
  · rw [hX.2.1]
    exact Safe.new_flatten (by rw [hm.1, hl]) hm.2

/-- **C87 (k-means, prediction).** With `k ≥ 1` centroids of the width of the data, prediction does not crash and gives every row
the number of a centroid. -/
theorem C87_kmeans_predict (m : KMeans F) {C X : Mat F} {k n c : ℕ} (hm : m.centroids = some C) (hC : HasShape C k c) (hX : HasShape X n c)
    (hk : 0 < k) : Safe (fun r => r.length = n ∧ ∀ j ∈ r, j < k) (kmPredict m X) := by
  unfold kmPredict
  rw [hm]
  exact Safe.bind (findClosest_safe hC hX hk) fun r hr => ⟨hr.1, hr.2.2⟩

/-- **C87 (k-means, exceptions).** Prediction of at least one row panics when the widths differ, and when there are no
centroids. -/
theorem C87_kmeans_predict_panics (m : KMeans F) {C X : Mat F} (hm : m.centroids = some C) (hX : X.rows ≠ [])
    (h : C.cols ≠ X.cols ∨ C.rows = []) : kmPredict m X = Outcome.panic := by
  unfold kmPredict findClosest
  rw [hm]
  obtain ⟨x, xs, e⟩ := List.exists_cons_of_ne_nil hX
  have : closestTo C X.cols x = Outcome.panic := by
    by_cases hc : C.cols = X.cols
    · rcases h with h | h
      · exact absurd hc h
      · rw [← hc, closestTo_eq, h]; rfl
    · exact closestTo_mismatch _ _ _ hc
  simp only [e, List.mapM_cons, this, panic_bind]

/-! ### DBSCAN -/

theorem dbTrainLoop_safe {eps : F} {mp n : ℕ} {X : Mat F} {nb : ℕ → List ℕ} (hN : NbrOf eps X n nb) (fuel : ℕ) :
    ∀ (l : List ℕ) (c : ℕ) (st : DbState), (∀ i ∈ l, i < n) → DOk n st → (n + 1) * (n + 1) ≤ fuel →
      ∃ st', dbTrainLoop eps mp X fuel l c st = some (ok st') ∧ DOk n st'
  | [], c, st, _, hok, _ => ⟨st, rfl, hok⟩
  | i :: l, c, st, hl, hok, hf => by
    have hi : i < n := hl i List.mem_cons_self
    have hl' : ∀ j ∈ l, j < n := fun j hj => hl j (List.mem_cons_of_mem _ hj)
    rw [dbTrainLoop]
    by_cases hv : DV st i
    · rw [visitPoint_visited hv]
      exact dbTrainLoop_safe hN fuel l c st hl' hok hf
    · rw [visitPoint_new hN hok hi hv]
      simp only
      split
      · unfold expandCluster
        rw [labelPoint_ok (by simpa [hok.2] using hi)]
        simp only
        have hok2 : DOk n ⟨st.visited.set i true, st.clusters.set i (some c)⟩ := ⟨by simp [hok.1], by simp [hok.2]⟩
        have hu : unv n ⟨st.visited.set i true, st.clusters.set i (some c)⟩ ≤ n := by
          classical
          unfold unv
          exact (Finset.card_filter_le _ _).trans (by simp)
        obtain ⟨st3, e3, hg, -⟩ := expandLoop_spec (mp := mp) hN c fuel (nb i) _ hok2 (hN.lt i hi) (by
          have h1 := hN.len i hi
          have h2 : unv n ⟨st.visited.set i true, st.clusters.set i (some c)⟩ * (n + 1) ≤ n * (n + 1) := Nat.mul_le_mul_right _ hu
          have h3 : (n + 1) * (n + 1) = n * (n + 1) + (n + 1) := by ring
          omega)
        rw [e3]
        exact dbTrainLoop_safe hN fuel l (c + 1) st3 hl' hg.ok' hf
      · exact dbTrainLoop_safe hN fuel l c _ hl' ⟨by simp [hok.1], by simpa using hok.2⟩ hf

/-- **C87 (DBSCAN, training).** Training on any matrix ends, succeeds and gives every row a label or marks it as noise. -/
theorem C87_dbscan_train (m : Dbscan F) {X : Mat F} {n c : ℕ} (hX : HasShape X n c) (fuel : ℕ) (hf : (n + 1) * (n + 1) ≤ fuel) :
    ∃ o, dbTrain fuel m X = some o ∧ Safe (fun m' => ∃ cl, m'.clusters = some cl ∧ cl.length = n) o ∧ ∃ m', o = ok m' := by
  have hn := hX.1
  subst hn
  obtain ⟨st, e, hok⟩ := dbTrainLoop_safe (mp := m.minPoints) (nbrOf m.eps X (HasShape.wf hX)) fuel (List.range X.rows.length) 0
    ⟨List.replicate X.rows.length false, List.replicate X.rows.length none⟩ (by simp) ⟨by simp, by simp⟩ hf
  unfold dbTrain
  simp only [e]
  exact ⟨_, rfl, ⟨_, rfl, hok.2⟩, _, rfl⟩

theorem dbDist_safe {u v : List F} (h : u.length = v.length) : Safe (fun _ => True) (dbDist u v) := by
  rw [dbDist_eq h]; trivial

/-- **C87 (DBSCAN, prediction).** A predictive model that holds at least one row, one label for every row, predicts rows of the
same width without crashing. -/
theorem C87_dbscan_predict (m : Dbscan F) {D X : Mat F} {cl : List (Option ℕ)} {k n c : ℕ} (hD : HasShape D k c) (hX : HasShape X n c)
    (hk : 0 < k) (hcl : cl.length = k) (hmd : m.clusterData = some D) (hmc : m.clusters = some cl) :
    Safe (fun r => r.length = n) (dbPredict m X) := by
  unfold dbPredict
  split
  · rw [hmd, hmc]
    simp only
    refine (Safe.mapM (Q := fun _ => True) fun p hp => ?_).mono fun r hr => by rw [hr.1, hX.1]
    unfold dbClassify
    refine Safe.bind (Safe.mapM (Q := fun _ => True) fun q hq => dbDist_safe (by rw [hX.2.2 p hp, hD.2.2 q hq])) fun ds hds => ?_
    have hne : ds ≠ [] := by
      intro h
      rw [h] at hds
      have := hds.1
      rw [hD.1] at this
      simp at this
      omega
    have := Safe.argminBy (lt := Scalar.lt) hne
    cases e : argminBy Scalar.lt ds with
    | ok r =>
      rw [e] at this
      simp only
      split
      · refine (Safe.getAt ?_).mono fun _ _ => trivial
        rw [hcl, ← hD.1, ← hds.1]
        exact this
      · trivial
    | err _ => trivial
    | panic => rw [e] at this; exact this.elim
    | ub => rw [e] at this; exact this.elim
  · trivial

/-! ### Linear models and optimisers -/

/-- **C87 (linear regression, training).** Training with as many targets as rows does not crash if the solver does not. -/
theorem C87_lin_reg_train (solve : Mat F → List F → Outcome (List F)) (hs : SafeSolver solve) {X : Mat F} {y : List F} {n c : ℕ}
    (hX : HasShape X n c) (hy : y.length = n) :
    Safe (fun m => ∃ p, m.parameters = some p ∧ p.length = c + 1) (LinReg.train solve X y) := by
  unfold LinReg.train
  refine Safe.bind (Safe.withOnes hX) fun full hF => Safe.bind (Safe.mul (HasShape.transpose hF) hF) fun A hA =>
    Safe.bind (Safe.mulVec (HasShape.transpose hF) hy) fun b hb => Safe.bind (Safe.fromLinalg (hs A b _ hA hb)) fun p hp => ⟨p, rfl, hp⟩

/-- **C87 (linear regression, prediction).** Prediction does not crash for rows one narrower than the parameters. -/
theorem C87_lin_reg_predict (p : List F) {X : Mat F} {n c : ℕ} (hX : HasShape X n c) (hp : p.length = c + 1) :
    Safe (fun r => r.length = n) ((⟨some p⟩ : LinReg F).predict X) :=
  Safe.bind (Safe.withOnes hX) fun _ hF => Safe.mulVec hF hp

/-- **C87 (exception).** Prediction with linear or logistic regression panics for rows of any other width. -/
theorem C87_lin_reg_predict_panics (p : List F) {X : Mat F} (hp : p.length ≠ X.cols + 1) :
    (⟨some p⟩ : LinReg F).predict X = Outcome.panic ∧ (⟨some p⟩ : LogReg F).predict X = Outcome.panic := by
  have : (⟨X.cols + 1, X.rows.map (Scalar.one :: ·)⟩ : Mat F).mulVec p = Outcome.panic := by
    unfold Mat.mulVec
    rw [if_neg (by simpa using hp.symm)]
  constructor
  · simp [LinReg.predict, withOnes, hcat_ones, this]
  · simp [LogReg.predict, withOnes, hcat_ones, this]

theorem mseCostVec_safe {u v : List F} {n : ℕ} (hu : u.length = n) (hv : v.length = n) : Safe (fun _ => True) (mseCostVec u v) :=
  Safe.bind (Safe.vecZip hu hv) fun _ h => Safe.bind (Safe.vecZip h h) fun _ _ => trivial

theorem ceCostVec_safe {u v : List F} {n : ℕ} (hu : u.length = n) (hv : v.length = n) : Safe (fun _ => True) (ceCostVec u v) :=
  Safe.bind (Safe.vecZip hv (by simpa using hu)) fun _ h => Safe.bind (Safe.vecZip (n := n) (by simpa using hv) (by simpa using hu)) fun _ h' =>
    Safe.bind (Safe.vecZip h h') fun _ _ => trivial

theorem linComputeGrad_safe {X : Mat F} {y : List F} {n c : ℕ} (hX : HasShape X n c) (hy : y.length = n) :
    SafeGrad c fun w => linComputeGrad w X y := fun _ hw =>
  Safe.bind (Safe.mulVec hX hw) fun _ ho => Safe.bind (mseCostVec_safe ho hy) fun _ _ => Safe.bind (Safe.vecZip ho hy) fun _ hd =>
    Safe.bind (Safe.mulVec (HasShape.transpose hX) hd) fun _ hg => by
      show (List.map _ _).length = c
      simpa using hg

theorem logComputeGrad_safe {X : Mat F} {y : List F} {n c : ℕ} (hX : HasShape X n c) (hy : y.length = n) :
    SafeGrad c fun w => logComputeGrad w X y := fun _ hw =>
  Safe.bind (Safe.mulVec hX hw) fun _ ho => Safe.bind (ceCostVec_safe (n := n) (by simpa using ho) hy) fun _ _ =>
    Safe.bind (Safe.vecZip (n := n) (by simpa using ho) hy) fun _ hd =>
    Safe.bind (Safe.mulVec (HasShape.transpose hX) hd) fun _ hg => by
      show (List.map _ _).length = c
      simpa using hg

theorem gdLoop_safe (alpha : F) {d : ℕ} {g : List F → Outcome (F × List F)} (hg : SafeGrad d g) : ∀ (iters : ℕ) (w : List F) (prev : F), w.length = d →
    Safe (fun w => w.length = d) (gdLoop alpha g iters w prev).out
  | 0, w, _, hw => hw
  | iters + 1, w, prev, hw => by
    rw [gdLoop]
    refine SafeLog.bind (P := fun r : F × List F => r.2.length = d) (hg w hw) fun r hr => ?_
    split
    · exact hw
    · exact SafeLog.bind (P := fun w : List F => w.length = d) (Safe.vecZip hw (by simpa [vecScale] using hr)) fun w' hw' =>
        gdLoop_safe alpha hg iters w' _ hw'

/-- **C87 (gradient descent).** Gradient descent does not crash if the model it is given does not. -/
theorem C87_gradient_desc (o : GradientDesc F) : SafeOpt fun g start => (o.optimize g start).out :=
  fun _ _ _ hs hg => gdLoop_safe _ hg _ _ _ hs

theorem stepAlong_safe {x s : List F} {d : ℕ} (hx : x.length = d) (hs : s.length = d) (z : F) : Safe (fun r => r.length = d) (stepAlong x s z) :=
  Safe.vecZip hx (by simpa [vecScale] using hs)

theorem lineSearch_safe (o : ConjugateGD F) {d : ℕ} {g : List F → Outcome (F × List F)} (hg : SafeGrad d g) (f1 d1 : F) {s : List F}
    (hs : s.length = d) : ∀ (m : ℕ) (st : LineState F), st.x.length = d → st.df2.length = d →
      Safe (fun r => r.1.x.length = d ∧ r.1.df2.length = d) (lineSearch o g f1 d1 s m st).out
  | 0, st, hx, hd => by
    rw [lineSearch]
    split
    · exact ⟨hx, hd⟩
    · split
      · exact ⟨hx, hd⟩
      · exact ⟨hx, hd⟩
  | m + 1, st, hx, hd => by
    rw [lineSearch]
    split
    · refine SafeLog.bind (P := fun w : List F => w.length = d) (stepAlong_safe hx hs _) fun x hx' =>
        SafeLog.bind (P := fun r : F × List F => r.2.length = d) (hg x hx') fun r hr => ?_
      exact lineSearch_safe o hg f1 d1 hs m _ hx' hr
    · split
      · exact ⟨hx, hd⟩
      · refine SafeLog.bind (P := fun w : List F => w.length = d) (stepAlong_safe hx hs _) fun x hx' =>
          SafeLog.bind (P := fun r : F × List F => r.2.length = d) (hg x hx') fun r hr => ?_
        exact lineSearch_safe o hg f1 d1 hs m _ hx' hr

theorem cgLoop_safe (o : ConjugateGD F) {d : ℕ} {g : List F → Outcome (F × List F)} (hg : SafeGrad d g) : ∀ (n : ℕ) (c : CGState F),
    c.x.length = d → c.df1.length = d → c.s.length = d → Safe (fun w => w.length = d) (cgLoop o g n c).out
  | 0, c, hx, _, _ => hx
  | n + 1, c, hx, hd, hs => by
    rw [cgLoop]
    refine SafeLog.bind (P := fun w : List F => w.length = d) (stepAlong_safe hx hs _) fun x hx' =>
      SafeLog.bind (P := fun r : F × List F => r.2.length = d) (hg x hx') fun r hr =>
      SafeLog.bind (lineSearch_safe o hg c.f1 c.d1 hs o.max _ hx' hr) fun res hres => ?_
    split
    · refine SafeLog.bind (P := fun c : CGState F => c.x.length = d ∧ c.df1.length = d ∧ c.s.length = d) ?_ fun c' hc' =>
        cgLoop_safe o hg n c' hc'.1 hc'.2.1 hc'.2.2
      refine Safe.bind (Safe.vecZip hres.2 hd) fun diff _ => Safe.bind (Safe.vecZip (n := d) (by simpa [vecScale] using hs) hres.2) fun s hs' =>
        ⟨hres.1, hres.2, ?_⟩
      show (if _ then _ else _ : List F).length = d
      split
      · simpa [vecNeg] using hres.2
      · exact hs'
    · split
      · exact hx
      · exact cgLoop_safe o hg n _ hx hres.2 (by simpa [cgRestart, vecNeg] using hres.2)

/-- **C87 (conjugate gradient).** The conjugate gradient optimiser does not crash if the model it is given does not. -/
theorem C87_conjugate_gd (o : ConjugateGD F) : SafeOpt fun g start => (o.optimize g start).out := by
  intro d g start hs hg
  refine SafeLog.bind (P := fun r : F × List F => r.2.length = d) (hg start hs) fun r hr => ?_
  exact cgLoop_safe o hg o.iters _ hs hr (by simpa [vecNeg] using hr)

/-- **C87 (linear regression by gradient descent).** -/
theorem C87_lin_reg_optimization {X : Mat F} {y : List F} {n c : ℕ} (hX : HasShape X n c) (hy : y.length = n) :
    Safe (fun m => ∃ p, m.parameters = some p ∧ p.length = c + 1) (LinReg.trainWithOptimization X y) := by
  unfold LinReg.trainWithOptimization
  refine Safe.bind (Safe.withOnes hX) fun full hF => Safe.bind
    (C87_gradient_desc GradientDesc.default (c + 1) _ _ (by simp [hF.2.1]) (linComputeGrad_safe hF hy)) fun w hw => ⟨w, rfl, hw⟩

/-- **C87 (logistic regression, training).** Training with as many targets as rows does not crash, with every optimiser that does
not crash: gradient descent and conjugate gradients are such. -/
theorem C87_log_reg_train (opt : (List F → Outcome (F × List F)) → List F → Outcome (List F)) (ho : SafeOpt opt) {X : Mat F} {y : List F}
    {n c : ℕ} (hX : HasShape X n c) (hy : y.length = n) :
    Safe (fun m => ∃ p, m.parameters = some p ∧ p.length = c + 1) (LogReg.train opt X y) := by
  unfold LogReg.train
  exact Safe.bind (Safe.withOnes hX) fun full hF => Safe.bind
    (ho (c + 1) _ _ (by simp [hF.2.1]) (logComputeGrad_safe hF hy)) fun w hw => ⟨w, rfl, hw⟩

/-- **C87 (logistic regression, prediction).** -/
theorem C87_log_reg_predict (p : List F) {X : Mat F} {n c : ℕ} (hX : HasShape X n c) (hp : p.length = c + 1) :
    Safe (fun r => r.length = n) ((⟨some p⟩ : LogReg F).predict X) :=
  Safe.bind (Safe.withOnes hX) fun _ hF => Safe.bind (Safe.mulVec hF hp) fun s hs => by
    show (s.map _).length = n
    simpa using hs

/-- **C87 (exception).** Training linear regression with a different number of targets panics, whatever the solver. -/
theorem C87_lin_reg_train_panics (solve : Mat F → List F → Outcome (List F)) {X : Mat F} {y : List F} (h : y.length ≠ X.rows.length) :
    LinReg.train solve X y = Outcome.panic := by
  unfold LinReg.train withOnes
  rw [hcat_ones]
  simp only [ok_bind]
  have h1 : (⟨X.cols + 1, X.rows.map (Scalar.one :: ·)⟩ : Mat F).transpose.mulVec y = Outcome.panic := by
    unfold Mat.mulVec Mat.transpose
    rw [if_neg (by simpa using h.symm)]
  rw [h1]
  unfold Mat.mul
  rw [if_pos (by simp [Mat.transpose])]
  simp

/-! ### Optimisers on samples -/

/-- An update rule of an optimiser that keeps the lengths. -/
def SafeUpd (upd : List F → List F → List F → Outcome (List F × List F)) : Prop :=
  ∀ (d : ℕ) (w a g : List F), w.length = d → a.length = d → g.length = d → Safe (fun r => r.1.length = d ∧ r.2.length = d) (upd w a g)

theorem stochPass_safe {upd : List F → List F → List F → Outcome (List F × List F)} (hu : SafeUpd upd) {d n c t : ℕ} {g : ComputeGrad F}
    (hg : SafeDataGrad d c t g) {X Y : Mat F} (hX : HasShape X n c) (hY : HasShape Y n t) : ∀ (is : List ℕ) (s : List F × List F × F), (∀ i ∈ is, i < n) →
      s.1.length = d → s.2.1.length = d → Safe (fun s => s.1.length = d ∧ s.2.1.length = d) (stochPass upd g X Y is s).out
  | [], s, _, h1, h2 => ⟨h1, h2⟩
  | i :: is, s, hi, h1, h2 => by
    rw [stochPass]
    have hin : ∀ j ∈ [i], j < n := by
      intro j hj
      rw [List.mem_singleton] at hj
      subst hj
      exact hi _ List.mem_cons_self
    refine SafeLog.bind (P := fun M : Mat F => HasShape M 1 c) (Safe.selectRows hX hin) fun x hx =>
      SafeLog.bind (P := fun M : Mat F => HasShape M 1 t) (Safe.selectRows hY hin) fun y hy =>
      SafeLog.bind (P := fun r : F × List F => r.2.length = d) (hg _ 1 x y h1 hx hy) fun r hr =>
      SafeLog.bind (P := fun r : List F × List F => r.1.length = d ∧ r.2.length = d) (hu d _ _ _ h1 h2 hr) fun u hu' =>
      stochPass_safe hu hg hX hY is _ (fun j hj => hi j (List.mem_cons_of_mem _ hj)) hu'.1 hu'.2

theorem stochLoop_safe {upd : List F → List F → List F → Outcome (List F × List F)} (hu : SafeUpd upd) {d n c t : ℕ} {g : ComputeGrad F}
    (hg : SafeDataGrad d c t g) {X Y : Mat F} (hX : HasShape X n c) (hY : HasShape Y n t) (r : ℕ → ℕ → ℕ) : ∀ (iters e : ℕ) (perm : List ℕ)
      (w aux : List F) (prev : F), (∀ i ∈ perm, i < n) → w.length = d → aux.length = d →
      Safe (fun w => w.length = d) (stochLoop upd g X Y r iters e perm w aux prev).out
  | 0, _, _, w, _, _, _, hw, _ => hw
  | iters + 1, e, perm, w, aux, prev, hp, hw, ha => by
    rw [stochLoop]
    have hp' : ∀ i ∈ fyRec (r e) 0 perm, i < n := fun i hi => hp i ((fyRec_perm (r e) _ 0 perm rfl).mem_iff.mp hi)
    refine SafeLog.bind (P := fun p : List ℕ => ∀ i ∈ p, i < n) (by rw [inPlaceFisherYates_eq]; exact hp') fun p hp =>
      SafeLog.bind (stochPass_safe hu hg hX hY p (w, aux, Scalar.zero) hp hw ha) fun s hs => ?_
    dsimp only
    split
    · exact hs.1
    · exact stochLoop_safe hu hg hX hY r iters _ p _ _ _ hp hs.1 hs.2

theorem stochOptimize_safe {upd : List F → List F → List F → Outcome (List F × List F)} (hu : SafeUpd upd) (iters : ℕ) (r : ℕ → ℕ → ℕ) :
    SafeDataOpt fun g start X Y => (stochOptimize upd iters g r start X Y).out := by
  intro d n c t g start X Y hs hX hY hg
  exact stochLoop_safe hu hg hX hY r _ _ _ _ _ _ (by rw [hX.1]; simp) hs (by simpa using hs)

theorem inPlaceBin_length (f : F → F → F) (u v : List F) : (inPlaceBin f u v).length = u.length := by
  simp only [inPlaceBin, List.length_append, List.length_zipWith, List.length_drop]
  omega

theorem sgdUpdate_safe (alpha mu : F) : SafeUpd (sgdUpdate alpha mu) := fun d _ _ _ hw ha hg => by
  unfold sgdUpdate
  exact Safe.bind (Safe.vecZip (n := d) (by simpa [vecScale] using hg) (by simpa [vecScale] using ha)) fun _ h1 =>
    Safe.bind (Safe.vecZip (n := d) (by simpa [vecScale] using ha) (by simpa [vecScale] using h1)) fun _ h2 =>
    Safe.bind (Safe.vecZip hw h2) fun _ h3 => ⟨h3, h1⟩

theorem adaUpdate_safe (alpha tau : F) : SafeUpd (adaUpdate alpha tau) := fun d _ _ _ hw ha hg => by
  unfold adaUpdate
  exact Safe.bind (Safe.vecZip (n := d) hw (by rw [inPlaceBin_length]; exact hg)) fun _ h3 => ⟨h3, by rw [inPlaceBin_length]; exact ha⟩

theorem rmsUpdate_safe (lr decay eps : F) : SafeUpd (rmsUpdate lr decay eps) := fun d _ _ _ hw ha hg => by
  unfold rmsUpdate
  exact Safe.bind (Safe.vecZip (n := d) (by simpa [vecScale] using ha) (by simpa [vecScale] using hg)) fun _ h1 =>
    Safe.bind (Safe.vecZip (n := d) hw (by rw [inPlaceBin_length]; exact hg)) fun _ h3 => ⟨h3, h1⟩

/-- **C87 (stochastic gradient descent).** It does not crash if the model it is given does not. -/
theorem C87_stochastic_gd (o : StochasticGD F) (r : ℕ → ℕ → ℕ) : SafeDataOpt fun g start X Y => (o.optimize g r start X Y).out :=
  stochOptimize_safe (sgdUpdate_safe _ _) _ _

/-- **C87 (AdaGrad).** It does not crash if the model it is given does not. -/
theorem C87_adagrad (o : AdaGrad F) (r : ℕ → ℕ → ℕ) : SafeDataOpt fun g start X Y => (o.optimize g r start X Y).out :=
  stochOptimize_safe (adaUpdate_safe _ _) _ _

/-- **C87 (RMSProp).** It does not crash if the model it is given does not. -/
theorem C87_rmsprop (o : RMSProp F) (r : ℕ → ℕ → ℕ) : SafeDataOpt fun g start X Y => (o.optimize g r start X Y).out :=
  stochOptimize_safe (rmsUpdate_safe _ _ _) _ _

omit [Scalar F] in
/-- The optimisers that see all data at once. -/
theorem SafeOpt.data {opt : (List F → Outcome (F × List F)) → List F → Outcome (List F)} (h : SafeOpt opt) :
    SafeDataOpt fun g start X Y => opt (fun w => g w X Y) start :=
  fun d n _ _ _ _ X Y hs hX hY hg => h d _ _ hs fun w hw => hg w n X Y hw hX hY

end RM
