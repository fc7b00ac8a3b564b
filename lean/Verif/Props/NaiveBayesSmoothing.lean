import Verif.Props.NaiveBayes

/-! Properties C36 (smoothed probabilities) and C37 (failed retraining). -/

namespace RM
open Outcome Scalar Spec

theorem classOf_ne_none {T : List (List ℝ)} (hc : ∀ t ∈ T, ∃ v ∈ t, v = 1) : ∀ t ∈ T, classOf t ≠ none := by
  intro t ht h
  unfold classOf at h
  rw [List.findIdx?_eq_none_iff] at h
  obtain ⟨v, hv, h1⟩ := hc t ht
  simpa [h1] using h v hv

theorem rowOf_lik {k : ℕ} {rows : List (List ℝ)} {g : ℕ → List ℝ → ℝ} {i c : ℕ} (hi : i < rows.length) (hc : c < k) (Y : Mat ℝ) (hY : Y.rows = rows) :
    coord (rowOf (⟨k, rows.map fun x => (List.range k).map fun c => g c x⟩ : Mat ℝ) i) c = g c (rowOf Y i) := by
  subst hY
  have : rowOf (⟨k, Y.rows.map fun x => (List.range k).map fun c => g c x⟩ : Mat ℝ) i = (List.range k).map fun c => g c (rowOf Y i) := by
    simp [rowOf, hi]
  rw [this]
  exact getD_map_range _ _ _ hc

theorem class_pos {X T : List (List ℝ)} (hn : X.length = T.length) {c : ℕ} (h : 0 < classSize T c) : 0 < X.length := by
  have := classSamples_length hn c
  rcases Nat.eq_zero_or_pos X.length with h0 | h0
  · have h1 : X = [] := List.length_eq_zero_iff.1 h0
    rw [h1] at this; simp [classSamples] at this; omega
  · exact h0

theorem coord_sumRows {M : Mat ℝ} (hM : M.WF) (g : ℝ → ℝ) {j : ℕ} (hj : j < M.cols) :
    coord (M.sumRows.map g) j = g ((M.rows.map fun x => coord x j).sum) := by
  rw [sumRows_real M hM, List.map_map]
  exact getD_map_range _ _ _ hj

theorem sum_le_length {l : List ℝ} (h : ∀ x ∈ l, x ≤ 1) : l.sum ≤ l.length := by
  induction l with
  | nil => simp
  | cons a l ih =>
    have h1 := ih fun x hx => h x (List.mem_cons_of_mem _ hx)
    have h2 := h a (by simp)
    simp only [List.sum_cons, List.length_cons]; push_cast; linarith

theorem feature_sum_nonneg {S : List (List ℝ)} (h : ∀ x ∈ S, ∀ v ∈ x, 0 ≤ v) (j : ℕ) : 0 ≤ (S.map fun x => coord x j).sum := by
  apply List.sum_nonneg
  intro v hv
  obtain ⟨x, hx, rfl⟩ := List.mem_map.1 hv
  unfold coord
  rcases Nat.lt_or_ge j x.length with hj | hj
  · rw [getD_lt _ hj]; exact h x hx _ (List.getElem_mem hj)
  · rw [getD_ge _ hj]

/-- C36 (Bernoulli): training succeeds; for every class with samples, all with entries in [0, 1] (0/1 data in particular), the smoothed feature
probabilities `(count + 1)/(size + 2)` lie strictly between 0 and 1, and the exponential of the joint log likelihood at any row is the prior times the product
of `p^x (1-p)^(1-x)`. -/
theorem C36_bernoulli (m : NaiveBayes (LogProbsD ℝ) ℝ) (X T Y : Mat ℝ) (hX : X.WF) (hT : T.WF) (hY : Y.WF) (hf : Y.cols = X.cols)
    (hc : ∀ t ∈ T.rows, ∃ v ∈ t, v = 1) (hn : X.rows.length = T.rows.length) (hdata : ∀ x ∈ X.rows, ∀ v ∈ x, 0 ≤ v ∧ v ≤ 1) :
    ∃ m' L, nbTrain bernDistr m X T = (m', ok ()) ∧ nbLogProbs bernDistr m' Y = ok L ∧ L.rows.length = Y.rows.length ∧
      ∀ c < T.cols, 0 < classSize T.rows c →
        let p : ℕ → ℝ := fun j => (((classSamples X.rows T.rows c).map fun x => coord x j).sum + 1) / (classSize T.rows c + 2)
        (∀ j < X.cols, 0 < p j ∧ p j < 1) ∧ ∀ i < Y.rows.length,
          Real.exp (coord (rowOf L i) c) = ((classSize T.rows c : ℝ) / X.rows.length) *
            ∏ j ∈ Finset.range X.cols, p j ^ coord (rowOf Y i) j * (1 - p j) ^ (1 - coord (rowOf Y i) j) := by
  have hc' := classOf_ne_none hc
  obtain ⟨m', d, h1, h2, h3, h4, h5, h6⟩ := nb_trained_bern (m := m) hT hc' hn
  refine ⟨m', _, h1, bern_logProbs hY h2 h4 (k := T.cols) (by simp) (by rw [hf]; exact h5), by simp, ?_⟩
  intro c hlt hpos p
  have hlen := classSamples_length hn c
  have hp : ∀ j < X.cols, 0 < p j ∧ p j < 1 := by
    intro j hj
    have ha := feature_sum_nonneg (S := classSamples X.rows T.rows c) (fun x hx v hv => (hdata x (classSamples_mem hx) v hv).1) j
    have hb : ((classSamples X.rows T.rows c).map fun x => coord x j).sum ≤ classSize T.rows c := by
      have := sum_le_length (l := (classSamples X.rows T.rows c).map fun x => coord x j) (by
        intro v hv
        obtain ⟨x, hx, rfl⟩ := List.mem_map.1 hv
        unfold coord
        rcases Nat.lt_or_ge j x.length with hj | hj
        · rw [getD_lt _ hj]; exact (hdata x (classSamples_mem hx) _ (List.getElem_mem hj)).2
        · rw [getD_ge _ hj]; exact zero_le_one)
      rw [List.length_map, hlen] at this
      exact this
    have hcs : (0 : ℝ) ≤ classSize T.rows c := by positivity
    refine ⟨by show 0 < _ / _; positivity, ?_⟩
    show _ / _ < _
    rw [div_lt_one (by positivity)]
    linarith
  refine ⟨hp, ?_⟩
  intro i hi
  rw [rowOf_lik hi hlt Y rfl, h6 c hlt, if_pos hpos, hf]
  have hpri : coord ((List.range T.cols).map fun c => (classSize T.rows c : ℝ) / X.rows.length) c = (classSize T.rows c : ℝ) / X.rows.length :=
    getD_map_range _ _ _ hlt
  rw [hpri]
  apply exp_bernLik
  · have := class_pos hn hpos
    have h1 : (0 : ℝ) < classSize T.rows c := by exact_mod_cast hpos
    have h2 : (0 : ℝ) < X.rows.length := by exact_mod_cast this
    positivity
  · exact fun j hj => (hp j hj).1
  · exact fun j hj => (hp j hj).2
  · intro j hj
    unfold bernRow
    rw [coord_sumRows (class_wf hX T.rows c) _ hj]
    simp only [hlen]
    have ha := feature_sum_nonneg (S := classSamples X.rows T.rows c) (fun x hx v hv => (hdata x (classSamples_mem hx) v hv).1) j
    rw [← Real.log_div (by positivity) (by positivity)]

/-- C36 (multinomial): training succeeds; for every class with samples, all with non-negative entries, the smoothed feature probabilities
`(count + 1)/(total + number of features)` are positive and sum to 1 (so they are below 1 as soon as there are two features), and the exponential of the
joint log likelihood at any row is the prior times the product of `p^x`. -/
theorem C36_multinomial (m : NaiveBayes (LogProbsD ℝ) ℝ) (X T Y : Mat ℝ) (hX : X.WF) (hT : T.WF) (hY : Y.WF) (hf : Y.cols = X.cols)
    (hc : ∀ t ∈ T.rows, ∃ v ∈ t, v = 1) (hn : X.rows.length = T.rows.length) (hdata : ∀ x ∈ X.rows, ∀ v ∈ x, 0 ≤ v) :
    ∃ m' L, nbTrain multDistr m X T = (m', ok ()) ∧ nbLogProbs multDistr m' Y = ok L ∧ L.rows.length = Y.rows.length ∧
      ∀ c < T.cols, 0 < classSize T.rows c →
        let total : ℝ := ∑ j ∈ Finset.range X.cols, ((classSamples X.rows T.rows c).map fun x => coord x j).sum
        let p : ℕ → ℝ := fun j => (((classSamples X.rows T.rows c).map fun x => coord x j).sum + 1) / (total + X.cols)
        (∀ j < X.cols, 0 < p j) ∧ (0 < X.cols → ∑ j ∈ Finset.range X.cols, p j = 1) ∧ (2 ≤ X.cols → ∀ j < X.cols, p j < 1) ∧ ∀ i < Y.rows.length,
          Real.exp (coord (rowOf L i) c) = ((classSize T.rows c : ℝ) / X.rows.length) *
            ∏ j ∈ Finset.range X.cols, p j ^ coord (rowOf Y i) j := by
  have hc' := classOf_ne_none hc
  obtain ⟨m', d, h1, h2, h3, h4, h5, h6⟩ := nb_trained_mult (m := m) hT hc' hn
  refine ⟨m', _, h1, mult_logProbs hY h2 h4 (k := T.cols) (by simp) (by rw [hf]; exact h5), by simp, ?_⟩
  intro c hlt hpos total p
  have ha : ∀ j, 0 ≤ ((classSamples X.rows T.rows c).map fun x => coord x j).sum :=
    feature_sum_nonneg (S := classSamples X.rows T.rows c) (fun x hx v hv => hdata x (classSamples_mem hx) v hv)
  have htot : 0 ≤ total := Finset.sum_nonneg fun j _ => ha j
  have hden : 0 < X.cols → 0 < total + X.cols := by
    intro h
    have : (0 : ℝ) < X.cols := by exact_mod_cast h
    linarith
  have hp : ∀ j < X.cols, 0 < p j := by
    intro j hj
    exact div_pos (by linarith [ha j]) (hden (by omega))
  have hsum : 0 < X.cols → ∑ j ∈ Finset.range X.cols, p j = 1 := by
    intro h
    show ∑ j ∈ Finset.range X.cols, _ / _ = _
    rw [← Finset.sum_div, Finset.sum_add_distrib]
    simp only [Finset.sum_const, Finset.card_range, nsmul_eq_mul, mul_one]
    exact div_self (hden h).ne'
  refine ⟨hp, hsum, ?_, ?_⟩
  · intro h2 j hj
    rw [← hsum (by omega)]
    obtain ⟨l, hl, hne⟩ : ∃ l, l < X.cols ∧ l ≠ j := by
      by_cases h0 : j = 0
      · exact ⟨1, by omega, by omega⟩
      · exact ⟨0, by omega, fun h => h0 h.symm⟩
    calc p j < p j + p l := by linarith [hp l hl]
      _ = ∑ i ∈ {j, l}, p i := by rw [Finset.sum_pair hne.symm]
      _ ≤ _ := by
        apply Finset.sum_le_sum_of_subset_of_nonneg
        · intro i hi
          simp at hi
          rcases hi with rfl | rfl <;> simpa
        · intro i hi _
          exact (hp i (Finset.mem_range.1 hi)).le
  · intro i hi
    rw [rowOf_lik hi hlt Y rfl, h6 c hlt, if_pos hpos, hf]
    have hpri : coord ((List.range T.cols).map fun c => (classSize T.rows c : ℝ) / X.rows.length) c = (classSize T.rows c : ℝ) / X.rows.length :=
      getD_map_range _ _ _ hlt
    rw [hpri]
    apply exp_multLik
    · have := class_pos hn hpos
      have h1 : (0 : ℝ) < classSize T.rows c := by exact_mod_cast hpos
      have h2 : (0 : ℝ) < X.rows.length := by exact_mod_cast this
      positivity
    · exact hp
    · intro j hj
      unfold multRow
      rw [coord_sumRows (class_wf hX T.rows c) _ hj]
      have e : ((⟨X.cols, classSamples X.rows T.rows c⟩ : Mat ℝ).sumRows.map fun s => s + 1).sum = total + X.cols := by
        rw [sumRows_real _ (class_wf hX T.rows c), List.map_map]
        rw [lsum_range]
        simp only [Function.comp, Finset.sum_add_distrib, Finset.sum_const, Finset.card_range, nsmul_eq_mul, mul_one]
        rfl
      rw [e, ← Real.log_div (by linarith [ha j]) (hden (by omega)).ne']

/-- Non-vacuity of C36: the example data are 0/1 and both classes have a sample. -/
example : (∀ x ∈ exX.rows, ∀ v ∈ x, 0 ≤ v ∧ v ≤ 1) ∧ (∀ c < exT.cols, 0 < classSize exT.rows c) ∧ 2 ≤ exX.cols := by
  refine ⟨by simp [exX], ?_, le_refl _⟩
  intro c hc
  have : c = 0 ∨ c = 1 := by simp [exT] at hc; omega
  rcases this with rfl | rfl <;> simp [classSize, exT, ex_class0, ex_class1]

/-! ### C37 -/

/-- A failed training run keeps the priors and the class count and replaces the distribution (any kind of class distribution). -/
theorem C37_failed_train_state {D : Type} (B : NBDistr D ℝ) (m m' : NaiveBayes D ℝ) (X T : Mat ℝ) (k : ErrorKind) (h : nbTrain B m X T = (m', err k)) :
    m'.classPrior = m.classPrior ∧ m'.clusterCount = m.clusterCount ∧ ∃ d, m'.distr = some d := by
  unfold nbTrain at h
  simp only at h
  split at h
  · split at h <;> simp at h
    rw [← h.1]; simp
  · simp at h
    rw [← h.1]; simp
  · simp at h
  · simp at h

/-- C37, the part that holds: a model whose training never succeeded still refuses to predict after a failed run. -/
theorem C37_untrained_stays_untrained_partial {D : Type} (B : NBDistr D ℝ) (m m' : NaiveBayes D ℝ) (X T Y : Mat ℝ) (k : ErrorKind)
    (hm : m.classPrior = none) (h : nbTrain B m X T = (m', err k)) :
    nbPredict B m Y = err .UntrainedModel ∧ nbPredict B m' Y = err .UntrainedModel := by
  obtain ⟨h1, h2, d, h3⟩ := C37_failed_train_state B m m' X T k h
  rw [hm] at h1
  unfold nbPredict nbLogProbs
  rw [hm, h1, h3]
  exact ⟨by cases m.distr <;> rfl, rfl⟩

/-- C37: a successful run does not depend on the earlier state, so retraining successfully after a failure restores a consistent model. -/
theorem C37_success_independent {D : Type} (B : NBDistr D ℝ) (m₁ m₂ m' : NaiveBayes D ℝ) (X T : Mat ℝ) (hT : T.WF)
    (h : nbTrain B m₁ X T = (m', ok ())) : nbTrain B m₂ X T = (m', ok ()) := by
  rw [nbTrain_ok_iff B _ _ X T hT] at h ⊢
  exact h

/-- Targets without a class. -/
def exBad : Mat ℝ := ⟨2, [[1, 0], [0, 0]]⟩

theorem ex_predict {L : Mat ℝ} {m : NaiveBayes (LogProbsD ℝ) ℝ} {a b : ℝ} (hm : m.clusterCount = some 2)
    (h : nbLogProbs multDistr m ⟨2, [[0, 1]]⟩ = ok L) (hL : L.rows = [[a, b]]) :
    nbPredict multDistr m ⟨2, [[0, 1]]⟩ = ok ⟨2, [if a < b then [0, 1] else [1, 0]]⟩ := by
  unfold nbPredict
  rw [h]
  simp only [ok_bind, hL, hm, List.mapM_cons, List.mapM_nil, argmaxBy, argAux, real_lt]
  by_cases hab : a < b
  · simp [hab, setAt, List.replicate, Mat.new, chunk]
  · simp [hab, setAt, List.replicate, Mat.new, chunk]

/-- C37 fails: a multinomial model trained on `exX`, `exT` predicts class 1 for (0, 1); a further train call that returns an error changes this prediction
to class 0. -/
theorem C37_violation : ∃ m m' : NaiveBayes (LogProbsD ℝ) ℝ, nbTrain multDistr (nbNew _ ℝ) exX exT = (m, ok ()) ∧
    nbTrain multDistr m exX exBad = (m', err .InvalidState) ∧
    nbPredict multDistr m ⟨2, [[0, 1]]⟩ = ok ⟨2, [[0, 1]]⟩ ∧ nbPredict multDistr m' ⟨2, [[0, 1]]⟩ = ok ⟨2, [[1, 0]]⟩ := by
  obtain ⟨m, d, h1, h2, h3, h4, h5, h6⟩ := nb_trained_mult (m := nbNew _ ℝ) (X := exX) (T := exT) ex_wf
    (by simp [exT, ex_class0, ex_class1]) rfl
  have hY : (⟨2, [[0, 1]]⟩ : Mat ℝ).WF := by simp [Mat.WF]
  have hbad : exBad.WF := by simp [Mat.WF, exBad]
  have hnone : classOf [(0 : ℝ), 0] = none := by simp [classOf, List.findIdx?_cons]
  have hs0 : classSize exT.rows 0 = 1 := by simp [classSize, exT, ex_class0, ex_class1]
  have hs1 : classSize exT.rows 1 = 1 := by simp [classSize, exT, ex_class0, ex_class1]
  have hr0 := h6 0 (by simp [exT])
  have hr1 := h6 1 (by simp [exT])
  rw [hs0, if_pos one_pos] at hr0
  rw [hs1, if_pos one_pos] at hr1
  have c0 : classSamples exX.rows exT.rows 0 = [[1, 0]] := by simp [classSamples, exX, exT, ex_class0, ex_class1]
  have c1 : classSamples exX.rows exT.rows 1 = [[0, 1]] := by simp [classSamples, exX, exT, ex_class0, ex_class1]
  rw [c0] at hr0
  rw [c1] at hr1
  have hk : exT.cols = 2 := rfl
  rw [hk] at h3 h4 h5
  have hx : exX.cols = 2 := rfl
  rw [hx] at hr0 hr1 h5
  have hpri : (List.range 2).map (fun c => (classSize exT.rows c : ℝ) / exX.rows.length) = [1 / 2, 1 / 2] := by
    simp [List.range_succ, hs0, hs1, exX]
  rw [hpri] at h4
  have hL := mult_logProbs hY h2 h4 (k := 2) rfl h5
  have r0 : multRow ⟨2, [[1, 0]]⟩ = [Real.log 2 - Real.log 3, -Real.log 3] := by
    simp [multRow, Mat.sumRows, colOf, List.range_succ]; norm_num
  have r1 : multRow ⟨2, [[0, 1]]⟩ = [-Real.log 3, Real.log 2 - Real.log 3] := by
    simp [multRow, Mat.sumRows, colOf, List.range_succ]; norm_num
  obtain ⟨counts', hscan⟩ := nbScan_err exBad.rows 0 2 (List.replicate 2 0) (List.replicate 2 []) (by simp) hbad
    ⟨[0, 0], by simp [exBad], hnone⟩
  have htr : nbTrain multDistr m exX exBad = ({ m with distr := some ((multDistr : NBDistr (LogProbsD ℝ) ℝ).fromParams 2 2), classCounts := counts' }, err .InvalidState) := by
    unfold nbTrain
    simp only
    rw [show exBad.cols = 2 from rfl, hscan]
    rfl
  refine ⟨m, _, h1, htr, ?_, ?_⟩
  · rw [ex_predict h3 hL (a := -Real.log 3 + Real.log (1 / 2)) (b := Real.log 2 - Real.log 3 + Real.log (1 / 2)) ?_]
    · rw [if_pos (by have := Real.log_pos (show (1 : ℝ) < 2 by norm_num); linarith)]
    · simp only [List.map_cons, List.map_nil, List.range_succ, List.range_zero, List.nil_append, List.cons_append, hr0, hr1, r0, r1, multLik]
      simp [Finset.sum_range_succ, coord]
  · have hL' := mult_logProbs (m := { m with distr := some ((multDistr : NBDistr (LogProbsD ℝ) ℝ).fromParams 2 2), classCounts := counts' })
      hY rfl h4 (k := 2) rfl (zeros_table 2 2)
    rw [ex_predict (m := { m with distr := some ((multDistr : NBDistr (LogProbsD ℝ) ℝ).fromParams 2 2), classCounts := counts' }) h3 hL' (a := Real.log (1 / 2)) (b := Real.log (1 / 2)) ?_]
    · simp
    · simp only [List.map_cons, List.map_nil, List.range_succ, List.range_zero, List.nil_append, List.cons_append, multLik]
      simp [Finset.sum_range_succ, coord, rowOf, multDistr, Mat.zeros, List.replicate]

end RM
