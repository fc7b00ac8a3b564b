import Mathlib.Algebra.BigOperators.Field
import Verif.Proofs.NaiveBayesTrain

/-! Properties C34-C37: naive Bayes. -/

namespace RM
open Outcome Scalar Spec

variable {D : Type}

/-! ### C34 -/

/-- C34: after a successful train, with any class distribution, every target row has a class and the class priors are the class sizes
divided by the number of samples. -/
theorem C34_priors (B : NBDistr D ℝ) (m m' : NaiveBayes D ℝ) (X T : Mat ℝ) (hT : T.WF) (h : nbTrain B m X T = (m', ok ())) :
    (∀ t ∈ T.rows, ∃ c, classOf t = some c) ∧
    m'.classPrior = some ((List.range T.cols).map fun c => (classSize T.rows c : ℝ) / X.rows.length) := by
  obtain ⟨hc, d, _, rfl⟩ := (nbTrain_ok_iff B m m' X T hT).1 h
  exact ⟨fun t ht => Option.ne_none_iff_exists'.1 (hc t ht), rfl⟩

/-- C34: the priors are non-negative and sum to (number of target rows) / (number of samples). -/
theorem C34_priors_sum (B : NBDistr D ℝ) (m m' : NaiveBayes D ℝ) (X T : Mat ℝ) (hT : T.WF) (h : nbTrain B m X T = (m', ok ())) :
    ∃ p, m'.classPrior = some p ∧ p.length = T.cols ∧ (∀ q ∈ p, 0 ≤ q) ∧ p.sum = (T.rows.length : ℝ) / X.rows.length := by
  obtain ⟨hc, d, _, rfl⟩ := (nbTrain_ok_iff B m m' X T hT).1 h
  refine ⟨_, rfl, by simp, ?_, ?_⟩
  · intro q hq
    obtain ⟨c, _, rfl⟩ := List.mem_map.1 hq
    positivity
  · have h1 := sum_count T.cols (classesOf T.rows) (classesOf_lt hT)
    rw [classesOf_length hc] at h1
    have h2 : ((List.range T.cols).map fun c => (classSize T.rows c : ℝ) / X.rows.length).sum =
        (((List.range T.cols).map fun j => (classesOf T.rows).count j).sum : ℕ) / (X.rows.length : ℝ) := by
      rw [lsum_range, ← Finset.sum_div]
      congr 1
      induction T.cols with
      | zero => simp
      | succ n ih => rw [Finset.sum_range_succ, ih, List.range_succ, List.map_append, List.sum_append]; simp [count_classesOf]
    rw [h2, h1]

/-- C34: the priors form a probability distribution when there is one target row per sample. -/
theorem C34_priors_distribution (B : NBDistr D ℝ) (m m' : NaiveBayes D ℝ) (X T : Mat ℝ) (hT : T.WF) (hn : X.rows.length = T.rows.length)
    (hpos : 0 < X.rows.length) (h : nbTrain B m X T = (m', ok ())) :
    ∃ p, m'.classPrior = some p ∧ p.length = T.cols ∧ (∀ q ∈ p, 0 ≤ q) ∧ p.sum = 1 := by
  obtain ⟨p, h1, h2, h3, h4⟩ := C34_priors_sum B m m' X T hT h
  refine ⟨p, h1, h2, h3, ?_⟩
  rw [h4, ← hn]
  exact div_self (by positivity)

/-- C34: nothing checks the number of target rows. With fewer target rows than samples training can succeed, and the priors then sum to
less than 1. -/
theorem C34_fewer_targets : ∃ (X T : Mat ℝ) (m' : NaiveBayes (LogProbsD ℝ) ℝ), X.WF ∧ T.WF ∧ T.rows.length < X.rows.length ∧
    nbTrain bernDistr (nbNew _ ℝ) X T = (m', ok ()) ∧ ∃ p, m'.classPrior = some p ∧ p.sum < 1 := by
  have hT : (⟨1, [[1]]⟩ : Mat ℝ).WF := by simp [Mat.WF]
  have hcls : classOf [(1 : ℝ)] = some 0 := by simp [classOf, List.findIdx?_cons]
  have h : ∃ m', nbTrain bernDistr (nbNew _ ℝ) ⟨1, [[0], [1]]⟩ ⟨1, [[1]]⟩ = (m', ok ()) := by
    have hd : ∃ d, nbFit bernDistr (⟨1, [[0], [1]]⟩ : Mat ℝ) 0 ((List.range 1).map fun j => members j 0 (classesOf [[1]]))
        ((bernDistr : NBDistr (LogProbsD ℝ) ℝ).fromParams 1 1) = (d, ok ()) := by
      rw [show (List.range 1) = [0] from rfl]
      simp [classesOf, hcls, members, nbFit, bernDistr, Mat.selectRows, getAt, bernUpdate, setAt, Mat.zeros, ofOption]
    obtain ⟨d, hd⟩ := hd
    exact ⟨_, (nbTrain_ok_iff _ _ _ _ _ hT).2 ⟨by simp [hcls], d, hd, rfl⟩⟩
  obtain ⟨m', hm⟩ := h
  refine ⟨_, _, m', by simp [Mat.WF], hT, by simp, hm, ?_⟩
  obtain ⟨p, h1, _, _, h4⟩ := C34_priors_sum _ _ _ _ _ hT hm
  exact ⟨p, h1, by rw [h4]; norm_num⟩

/-- C34: a target row without an entry equal to 1 makes training fail with `InvalidState`. -/
theorem C34_bad_target (B : NBDistr D ℝ) (m : NaiveBayes D ℝ) (X T : Mat ℝ) (hT : T.WF) (h : ∃ t ∈ T.rows, ∀ v ∈ t, v ≠ 1) :
    (nbTrain B m X T).2 = err .InvalidState := by
  obtain ⟨t, ht, hv⟩ := h
  have hnone : classOf t = none := by
    unfold classOf
    rw [List.findIdx?_eq_none_iff]
    simpa using hv
  obtain ⟨counts', hs⟩ := nbScan_err T.rows 0 T.cols (List.replicate T.cols 0) (List.replicate T.cols []) (by simp) hT ⟨t, ht, hnone⟩
  unfold nbTrain
  simp only
  rw [hs]

/-- C34: prediction before training fails. -/
theorem C34_untrained (B : NBDistr D ℝ) (X : Mat ℝ) : nbPredict B (nbNew D ℝ) X = err .UntrainedModel := rfl

theorem nb_trained_gauss {m m' : NaiveBayes (GaussD ℝ) ℝ} {X T Y : Mat ℝ} (hT : T.WF) (hf : Y.cols = X.cols)
    (h : nbTrain gaussDistr m X T = (m', ok ())) :
    m'.clusterCount = some T.cols ∧ ∃ L, nbLogProbs gaussDistr m' Y = ok L ∧ IsTable Y.rows.length T.cols L := by
  obtain ⟨hc, d, hd, rfl⟩ := (nbTrain_ok_iff _ m m' X T hT).1 h
  obtain ⟨h1, h2⟩ := gauss_tables hd
  refine ⟨rfl, _, gaussJoint_real d Y (by rw [hf]; exact h1) (by rw [hf]; exact h2) _ (by simp), rfl, by simp, ?_⟩
  intro r hr
  simp only [List.mem_map] at hr
  obtain ⟨x, _, rfl⟩ := hr
  simp

/-- C34: predictions of a trained Gaussian model are one-hot rows marking the first class of maximal joint log likelihood. -/
theorem C34_predict_gaussian (m m' : NaiveBayes (GaussD ℝ) ℝ) (X T Y : Mat ℝ) (hT : T.WF) (hk : 0 < T.cols) (hf : Y.cols = X.cols)
    (h : nbTrain gaussDistr m X T = (m', ok ())) :
    ∃ L P, nbLogProbs gaussDistr m' Y = ok L ∧ nbPredict gaussDistr m' Y = ok P ∧ L.rows.length = Y.rows.length ∧ P.cols = T.cols ∧
      List.Forall₂ (fun lik row => lik.length = T.cols ∧ ∃ i, IsFirstMax lik i ∧ IsOneHot T.cols i row) L.rows P.rows := by
  obtain ⟨hk', L, hL, hLt⟩ := nb_trained_gauss (Y := Y) hT hf h
  obtain ⟨P, hP, h1, h2⟩ := nbPredict_real _ m' Y L hk hk' hL hLt
  refine ⟨L, P, hL, hP, hLt.2.1, h1, ?_⟩
  have : List.Forall₂ (fun lik (_ : List ℝ) => lik.length = T.cols) L.rows P.rows := by
    rw [List.forall₂_iff_zip]
    exact ⟨h2.length_eq, fun {a b} hab => by rw [hLt.2.2 a (List.of_mem_zip hab).1, hLt.1]⟩
  rw [List.forall₂_iff_zip] at *
  exact ⟨h2.1, fun {a b} hab => ⟨this.2 hab, h2.2 hab⟩⟩

theorem nb_trained_bern {m : NaiveBayes (LogProbsD ℝ) ℝ} {X T : Mat ℝ} (hT : T.WF)
    (hc : ∀ t ∈ T.rows, classOf t ≠ none) (hn : X.rows.length = T.rows.length) :
    ∃ m' d, nbTrain bernDistr m X T = (m', ok ()) ∧ m'.distr = some d ∧ m'.clusterCount = some T.cols ∧
      m'.classPrior = some ((List.range T.cols).map fun c => (classSize T.rows c : ℝ) / X.rows.length) ∧
      IsTable T.cols X.cols d.logProbs ∧
      ∀ c < T.cols, rowOf d.logProbs c = if 0 < classSize T.rows c then bernRow ⟨X.cols, classSamples X.rows T.rows c⟩ else List.replicate X.cols 0 := by
  obtain ⟨d, hd, ht, hr⟩ := lp_fit hT hc hn (B := bernDistr) bernRow_length rfl (fun d M c hp => bernUpdate_eq d hp M c)
  exact ⟨_, d, (nbTrain_ok_iff _ m _ X T hT).2 ⟨hc, d, hd, rfl⟩, rfl, rfl, rfl, ht, hr⟩

theorem nb_trained_mult {m : NaiveBayes (LogProbsD ℝ) ℝ} {X T : Mat ℝ} (hT : T.WF)
    (hc : ∀ t ∈ T.rows, classOf t ≠ none) (hn : X.rows.length = T.rows.length) :
    ∃ m' d, nbTrain multDistr m X T = (m', ok ()) ∧ m'.distr = some d ∧ m'.clusterCount = some T.cols ∧
      m'.classPrior = some ((List.range T.cols).map fun c => (classSize T.rows c : ℝ) / X.rows.length) ∧
      IsTable T.cols X.cols d.logProbs ∧
      ∀ c < T.cols, rowOf d.logProbs c = if 0 < classSize T.rows c then multRow ⟨X.cols, classSamples X.rows T.rows c⟩ else List.replicate X.cols 0 := by
  obtain ⟨d, hd, ht, hr⟩ := lp_fit hT hc hn (B := multDistr) multRow_length rfl (fun d M c hp => multUpdate_eq d hp M c)
  exact ⟨_, d, (nbTrain_ok_iff _ m _ X T hT).2 ⟨hc, d, hd, rfl⟩, rfl, rfl, rfl, ht, hr⟩

theorem bern_logProbs {m : NaiveBayes (LogProbsD ℝ) ℝ} {d : LogProbsD ℝ} {p : List ℝ} {k : ℕ} {Y : Mat ℝ} (hY : Y.WF) (h1 : m.distr = some d)
    (h2 : m.classPrior = some p) (hp : p.length = k) (ht : IsTable k Y.cols d.logProbs) :
    nbLogProbs bernDistr m Y = ok ⟨k, Y.rows.map fun x => (List.range k).map fun c => bernLik Y.cols (rowOf d.logProbs c) (coord p c) x⟩ := by
  unfold nbLogProbs
  rw [h1, h2]
  exact bernJoint_real d Y hY ht p hp

theorem mult_logProbs {m : NaiveBayes (LogProbsD ℝ) ℝ} {d : LogProbsD ℝ} {p : List ℝ} {k : ℕ} {Y : Mat ℝ} (hY : Y.WF) (h1 : m.distr = some d)
    (h2 : m.classPrior = some p) (hp : p.length = k) (ht : IsTable k Y.cols d.logProbs) :
    nbLogProbs multDistr m Y = ok ⟨k, Y.rows.map fun x => (List.range k).map fun c => multLik Y.cols (rowOf d.logProbs c) (coord p c) x⟩ := by
  unfold nbLogProbs
  rw [h1, h2]
  exact multJoint_real d Y hY ht p hp

theorem lik_table (k : ℕ) (rows : List (List ℝ)) (g : ℕ → List ℝ → ℝ) :
    IsTable rows.length k (⟨k, rows.map fun x => (List.range k).map fun c => g c x⟩ : Mat ℝ) := by
  refine ⟨rfl, by simp, ?_⟩
  intro r hr
  simp only [List.mem_map] at hr
  obtain ⟨x, _, rfl⟩ := hr
  simp

/-- C34: the same for Bernoulli models; training never fails on well-formed targets. -/
theorem C34_predict_bernoulli (m : NaiveBayes (LogProbsD ℝ) ℝ) (X T Y : Mat ℝ) (hT : T.WF) (hY : Y.WF) (hk : 0 < T.cols) (hf : Y.cols = X.cols)
    (hc : ∀ t ∈ T.rows, ∃ v ∈ t, v = 1) (hn : X.rows.length = T.rows.length) :
    ∃ m', nbTrain bernDistr m X T = (m', ok ()) ∧
    ∃ L P, nbLogProbs bernDistr m' Y = ok L ∧ nbPredict bernDistr m' Y = ok P ∧ L.cols = T.cols ∧ L.rows.length = Y.rows.length ∧ P.cols = T.cols ∧
      List.Forall₂ (fun lik row => ∃ i, IsFirstMax lik i ∧ IsOneHot T.cols i row) L.rows P.rows := by
  have hc' : ∀ t ∈ T.rows, classOf t ≠ none := by
    intro t ht h
    unfold classOf at h
    rw [List.findIdx?_eq_none_iff] at h
    obtain ⟨v, hv, h1⟩ := hc t ht
    simpa [h1] using h v hv
  obtain ⟨m', d, h1, h2, h3, h4, h5, _⟩ := nb_trained_bern (m := m) hT hc' hn
  have hL := bern_logProbs hY h2 h4 (k := T.cols) (by simp) (by rw [hf]; exact h5)
  obtain ⟨P, hP, h6, h7⟩ := nbPredict_real _ m' Y _ hk h3 hL (lik_table _ _ _)
  exact ⟨m', h1, _, P, hL, hP, rfl, by simp, h6, h7⟩

/-- C34: the same for multinomial models. -/
theorem C34_predict_multinomial (m : NaiveBayes (LogProbsD ℝ) ℝ) (X T Y : Mat ℝ) (hT : T.WF) (hY : Y.WF) (hk : 0 < T.cols) (hf : Y.cols = X.cols)
    (hc : ∀ t ∈ T.rows, ∃ v ∈ t, v = 1) (hn : X.rows.length = T.rows.length) :
    ∃ m', nbTrain multDistr m X T = (m', ok ()) ∧
    ∃ L P, nbLogProbs multDistr m' Y = ok L ∧ nbPredict multDistr m' Y = ok P ∧ L.cols = T.cols ∧ L.rows.length = Y.rows.length ∧ P.cols = T.cols ∧
      List.Forall₂ (fun lik row => ∃ i, IsFirstMax lik i ∧ IsOneHot T.cols i row) L.rows P.rows := by
  have hc' : ∀ t ∈ T.rows, classOf t ≠ none := by
    intro t ht h
    unfold classOf at h
    rw [List.findIdx?_eq_none_iff] at h
    obtain ⟨v, hv, h1⟩ := hc t ht
    simpa [h1] using h v hv
  obtain ⟨m', d, h1, h2, h3, h4, h5, _⟩ := nb_trained_mult (m := m) hT hc' hn
  have hL := mult_logProbs hY h2 h4 (k := T.cols) (by simp) (by rw [hf]; exact h5)
  obtain ⟨P, hP, h6, h7⟩ := nbPredict_real _ m' Y _ hk h3 hL (lik_table _ _ _)
  exact ⟨m', h1, _, P, hL, hP, rfl, by simp, h6, h7⟩

/-- A two-class, two-feature training set. -/
def exX : Mat ℝ := ⟨2, [[1, 0], [0, 1]]⟩
/-- Its targets. -/
def exT : Mat ℝ := ⟨2, [[1, 0], [0, 1]]⟩

theorem ex_class0 : classOf [(1 : ℝ), 0] = some 0 := by simp [classOf, List.findIdx?_cons]
theorem ex_class1 : classOf [(0 : ℝ), 1] = some 1 := by simp [classOf, List.findIdx?_cons]
theorem ex_wf : exT.WF := by simp [Mat.WF, exT]

/-- Non-vacuity of the C34 prediction theorems. -/
example : exT.WF ∧ 0 < exT.cols ∧ (∀ t ∈ exT.rows, ∃ v ∈ t, v = 1) ∧ exX.rows.length = exT.rows.length ∧
    ∃ m', nbTrain multDistr (nbNew _ ℝ) exX exT = (m', ok ()) := by
  refine ⟨ex_wf, by simp [exT], by simp [exT], rfl, ?_⟩
  obtain ⟨m', h, _⟩ := C34_predict_multinomial (nbNew _ ℝ) exX exT exX ex_wf ex_wf (by simp [exT]) rfl (by simp [exT]) rfl
  exact ⟨m', h⟩

/-! ### C35 -/

/-- C35: the fitted parameters and the joint likelihood of a Gaussian model. -/
theorem C35_gaussian (m m' : NaiveBayes (GaussD ℝ) ℝ) (X T Y : Mat ℝ) (hX : X.WF) (hT : T.WF) (hY : Y.WF) (hf : Y.cols = X.cols)
    (hn : X.rows.length = T.rows.length) (h : nbTrain gaussDistr m X T = (m', ok ())) :
    ∃ L, nbLogProbs gaussDistr m' Y = ok L ∧ L.rows.length = Y.rows.length ∧
      ∀ c < T.cols, 0 < classSize T.rows c →
        let feature : ℕ → List ℝ := fun j => (classSamples X.rows T.rows c).map fun x => coord x j
        2 ≤ classSize T.rows c ∧
        (∃ d, m'.distr = some d ∧ ∀ j < X.cols, coord (rowOf d.theta c) j = mean (feature j) ∧ coord (rowOf d.sigma c) j = sampleVar (feature j)) ∧
        ((∀ j < X.cols, NonConstant (feature j)) → ∀ i < Y.rows.length,
          Real.exp (coord (rowOf L i) c) = ((classSize T.rows c : ℝ) / X.rows.length) *
            ∏ j ∈ Finset.range X.cols, normalPdf (mean (feature j)) (sampleVar (feature j)) (coord (rowOf Y i) j)) := by
  obtain ⟨hc, d, hd, rfl⟩ := (nbTrain_ok_iff _ m m' X T hT).1 h
  obtain ⟨t1, t2⟩ := gauss_tables hd
  refine ⟨_, gaussJoint_real d Y (by rw [hf]; exact t1) (by rw [hf]; exact t2) _ (by simp), by simp, ?_⟩
  intro c hlt hpos feature
  obtain ⟨p1, p2, p3⟩ := gauss_params hX hc hn hd hlt hpos
  refine ⟨p1, ⟨d, rfl, ?_⟩, ?_⟩
  · intro j hj
    rw [p2, p3]
    exact ⟨getD_map_range _ _ _ hj, getD_map_range _ _ _ hj⟩
  · intro hnc i hi
    have hxpos : 0 < X.rows.length := by
      have := classSamples_length hn c
      rcases Nat.eq_zero_or_pos X.rows.length with h0 | h0
      · have h1 : X.rows = [] := List.length_eq_zero_iff.1 h0
        rw [h1] at this; simp [classSamples] at this; omega
      · exact h0
    have hent : coord (rowOf (⟨T.cols, Y.rows.map fun x => (List.range T.cols).map fun c =>
        gaussLik (rowOf d.theta c) (rowOf d.sigma c) (((List.range T.cols).map fun c => (classSize T.rows c : ℝ) / X.rows.length).getD c 0) x⟩ : Mat ℝ) i) c =
        gaussLik (rowOf d.theta c) (rowOf d.sigma c) ((classSize T.rows c : ℝ) / X.rows.length) (rowOf Y i) := by
      unfold coord
      have : rowOf (⟨T.cols, Y.rows.map fun x => (List.range T.cols).map fun c =>
        gaussLik (rowOf d.theta c) (rowOf d.sigma c) (((List.range T.cols).map fun c => (classSize T.rows c : ℝ) / X.rows.length).getD c 0) x⟩ : Mat ℝ) i =
        (List.range T.cols).map fun c =>
        gaussLik (rowOf d.theta c) (rowOf d.sigma c) (((List.range T.cols).map fun c => (classSize T.rows c : ℝ) / X.rows.length).getD c 0) (rowOf Y i) := by
        simp [rowOf, hi]
      rw [this, getD_map_range _ _ _ hlt, getD_map_range _ _ _ hlt]
    rw [hent, exp_gaussLik (f := X.cols) (t1.row_length hlt) (t2.row_length hlt) (by rw [hY _ (rowOf_mem hi), hf])]
    · congr 1
      apply Finset.prod_congr rfl
      intro j hj
      have hj' := Finset.mem_range.1 hj
      rw [p2, p3]
      unfold coord
      rw [getD_map_range _ _ _ hj', getD_map_range _ _ _ hj']
      rfl
    · rw [p3]
      intro s hs
      obtain ⟨j, hj, rfl⟩ := List.mem_map.1 hs
      exact sampleVar_pos (hnc j (by simpa using hj))
    · have h1 : (0 : ℝ) < classSize T.rows c := by exact_mod_cast hpos
      have h2 : (0 : ℝ) < X.rows.length := by exact_mod_cast hxpos
      positivity

/-- C35: Gaussian training succeeds exactly when every target row has a class and no class has exactly one sample. -/
theorem C35_trains_iff (m : NaiveBayes (GaussD ℝ) ℝ) (X T : Mat ℝ) (hX : X.WF) (hT : T.WF) (hn : X.rows.length = T.rows.length) :
    (∃ m', nbTrain gaussDistr m X T = (m', ok ())) ↔ (∀ t ∈ T.rows, ∃ v ∈ t, v = 1) ∧ ∀ c < T.cols, classSize T.rows c ≠ 1 := by
  constructor
  · rintro ⟨m', h⟩
    obtain ⟨hc, d, hd, rfl⟩ := (nbTrain_ok_iff _ m m' X T hT).1 h
    refine ⟨?_, ?_⟩
    · intro t ht
      obtain ⟨c, hc'⟩ := Option.ne_none_iff_exists'.1 (hc t ht)
      unfold classOf at hc'
      obtain ⟨h1, h2, _⟩ := List.findIdx?_eq_some_iff_getElem.1 hc'
      exact ⟨t[c], List.getElem_mem h1, by simpa using h2⟩
    · intro c hlt h1
      have := (gauss_params hX hc hn hd hlt (by omega)).1
      omega
  · rintro ⟨hc, hone⟩
    have hc' : ∀ t ∈ T.rows, classOf t ≠ none := by
      intro t ht h
      unfold classOf at h
      rw [List.findIdx?_eq_none_iff] at h
      obtain ⟨v, hv, h1⟩ := hc t ht
      simpa [h1] using h v hv
    obtain ⟨d, hd, _⟩ := nbFit_ok (B := (gaussDistr : NBDistr (GaussD ℝ) ℝ)) (X := X)
      (Inv := fun d : GaussD ℝ => d.theta.rows.length = T.cols ∧ d.sigma.rows.length = T.cols)
      ((List.range T.cols).map fun j => members j 0 (classesOf T.rows)) 0 ((gaussDistr : NBDistr (GaussD ℝ) ℝ).fromParams T.cols X.cols)
      ⟨(zeros_table _ _).2.1, (zeros_table _ _).2.1⟩ (by
        intro j v hj hv
        have hjlt : j < T.cols := by
          have := (List.getElem?_eq_some_iff.1 hj).1
          simpa using this
        rw [getElem?_members _ _ _ hjlt] at hj
        cases hj
        refine ⟨_, selectRows_class hc' hn j, ?_⟩
        intro d hd
        have h2 : 2 ≤ (classSamples X.rows T.rows j).length := by
          have h1 := List.length_pos_iff.2 ((classSamples_ne_nil hc' hn j).2 hv)
          have h3 := hone j hjlt
          rw [classSamples_length hn] at h1 ⊢
          omega
        show ∃ d', gaussUpdate d _ _ = ok d' ∧ _
        unfold gaussUpdate
        rw [varianceRow_real _ (class_wf hX T.rows j) h2]
        simp only
        rw [setAt_of_lt _ (by rw [hd.1]; omega), setAt_of_lt _ (by rw [hd.2]; omega)]
        exact ⟨_, rfl, by simp [hd.1], by simp [hd.2]⟩)
    exact ⟨_, (nbTrain_ok_iff _ m _ X T hT).2 ⟨hc', d, hd, rfl⟩⟩

/-- Non-vacuity of C35: two classes of two samples each, with a varying feature. -/
example : (∃ m', nbTrain gaussDistr (nbNew _ ℝ) ⟨1, [[0], [2], [5], [9]]⟩ ⟨2, [[1, 0], [1, 0], [0, 1], [0, 1]]⟩ = (m', ok ())) ∧
    ∀ c < 2, 0 < classSize [[(1 : ℝ), 0], [1, 0], [0, 1], [0, 1]] c ∧
      NonConstant ((classSamples [[(0 : ℝ)], [2], [5], [9]] [[1, 0], [1, 0], [0, 1], [0, 1]] c).map fun x => coord x 0) := by
  constructor
  · rw [C35_trains_iff _ _ _ (by simp [Mat.WF]) (by simp [Mat.WF]) (by simp)]
    refine ⟨by simp, ?_⟩
    intro c hc
    have : c = 0 ∨ c = 1 := by simp at hc; omega
    rcases this with rfl | rfl <;> simp [classSize, ex_class0, ex_class1, List.countP_cons]
  · intro c hc
    have : c = 0 ∨ c = 1 := by omega
    rcases this with rfl | rfl
    · exact ⟨by simp [classSize, ex_class0, ex_class1, List.countP_cons], 0, by simp [classSamples, ex_class0, ex_class1, coord], 2,
        by simp [classSamples, ex_class0, ex_class1, coord], by norm_num⟩
    · exact ⟨by simp [classSize, ex_class0, ex_class1, List.countP_cons], 5, by simp [classSamples, ex_class0, ex_class1, coord], 9,
        by simp [classSamples, ex_class0, ex_class1, coord], by norm_num⟩

end RM
