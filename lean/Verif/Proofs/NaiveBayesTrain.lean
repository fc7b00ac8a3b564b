import Verif.Proofs.NaiveBayesLik

/-! Naive Bayes: what training stores, and predictions. -/

namespace RM
open Outcome Scalar Spec

theorem selectRows_cols {F : Type} {X M : Mat F} {v : List ℕ} (h : X.selectRows v = ok M) : M.cols = X.cols := by
  unfold Mat.selectRows at h
  obtain ⟨r, _, h2⟩ := bind_eq_ok.1 h
  cases h2; rfl

theorem setAt_eq_ok {α : Type} {l l' : List α} {i : ℕ} {v : α} (h : setAt l i v = ok l') : i < l.length ∧ l' = l.set i v := by
  unfold setAt at h
  split at h
  · rename_i hi; cases h; exact ⟨hi, rfl⟩
  · cases h

theorem setAt_of_lt {α : Type} {l : List α} {i : ℕ} (v : α) (h : i < l.length) : setAt l i v = ok (l.set i v) := by
  unfold setAt; rw [if_pos h]

theorem set_table {F : Type} {k f i : ℕ} {M : Mat F} {r : List F} (h : IsTable k f M) (hr : r.length = f) : IsTable k f ⟨M.cols, M.rows.set i r⟩ := by
  refine ⟨h.1, by simp [h.2.1], ?_⟩
  intro x hx
  rcases List.mem_or_eq_of_mem_set hx with hx | rfl
  · exact h.2.2 x hx
  · simp [hr, h.1]

theorem zeros_table {F : Type} [Scalar F] (k f : ℕ) : IsTable k f (Mat.zeros k f : Mat F) := by
  refine ⟨rfl, by simp [Mat.zeros], ?_⟩
  intro r hr
  simp only [Mat.zeros, List.mem_replicate] at hr
  rw [hr.2]; simp [Mat.zeros]

/-! ### Gaussian -/

theorem gaussUpdate_ok {F : Type} [Scalar F] {d d' : GaussD F} {M : Mat F} {c : ℕ} (h : gaussUpdate d M c = ok d') :
    ∃ v, M.varianceRow = ok v ∧ c < d.theta.rows.length ∧ c < d.sigma.rows.length ∧
      d' = ⟨⟨d.theta.cols, d.theta.rows.set c M.meanRow⟩, ⟨d.sigma.cols, d.sigma.rows.set c v⟩⟩ := by
  unfold gaussUpdate at h
  cases hv : M.varianceRow with
  | ok v =>
    rw [hv] at h
    simp only at h
    obtain ⟨a, ha, h⟩ := bind_eq_ok.1 h
    obtain ⟨b, hb, h⟩ := bind_eq_ok.1 h
    obtain ⟨h1, rfl⟩ := setAt_eq_ok ha
    obtain ⟨h2, rfl⟩ := setAt_eq_ok hb
    cases h
    exact ⟨v, rfl, h1, h2, rfl⟩
  | err k => rw [hv] at h; simp at h
  | panic => rw [hv] at h; simp at h
  | ub => rw [hv] at h; simp at h

theorem varianceRow_length {M : Mat ℝ} {v : List ℝ} (h : M.varianceRow = ok v) : v.length = M.cols := by
  unfold Mat.varianceRow at h
  split at h
  · cases h
  · cases h; simp

theorem gauss_tables {X : Mat ℝ} {k : ℕ} {data : List (List ℕ)} {d : GaussD ℝ}
    (h : nbFit gaussDistr X 0 data ((gaussDistr : NBDistr (GaussD ℝ) ℝ).fromParams k X.cols) = (d, ok ())) :
    IsTable k X.cols d.theta ∧ IsTable k X.cols d.sigma := by
  refine nbFit_inv (Inv := fun d => IsTable k X.cols d.theta ∧ IsTable k X.cols d.sigma) data 0 _ d ?_ ⟨zeros_table _ _, zeros_table _ _⟩ h
  intro d v M c d' _ hs hd hu
  obtain ⟨var, hv, _, _, rfl⟩ := gaussUpdate_ok hu
  exact ⟨set_table hd.1 (by rw [meanRow_length, selectRows_cols hs]), set_table hd.2 (by rw [varianceRow_length hv, selectRows_cols hs])⟩

theorem class_wf {X : Mat ℝ} (hX : X.WF) (T : List (List ℝ)) (c : ℕ) : (⟨X.cols, classSamples X.rows T c⟩ : Mat ℝ).WF :=
  fun r hr => hX r (classSamples_mem hr)

theorem getElem?_members (k : ℕ) (T : List (List ℝ)) (c : ℕ) (h : c < k) :
    ((List.range k).map fun j => members j 0 (classesOf T))[c]? = some (members c 0 (classesOf T)) := by simp [h]

theorem gauss_params {X T : Mat ℝ} (hX : X.WF) (hc : ∀ t ∈ T.rows, classOf t ≠ none) (hn : X.rows.length = T.rows.length) {d : GaussD ℝ}
    (h : nbFit gaussDistr X 0 ((List.range T.cols).map fun j => members j 0 (classesOf T.rows))
      ((gaussDistr : NBDistr (GaussD ℝ) ℝ).fromParams T.cols X.cols) = (d, ok ()))
    {c : ℕ} (hlt : c < T.cols) (hpos : 0 < classSize T.rows c) :
    2 ≤ classSize T.rows c ∧
    rowOf d.theta c = (List.range X.cols).map (fun j => mean ((classSamples X.rows T.rows c).map fun x => coord x j)) ∧
    rowOf d.sigma c = (List.range X.cols).map (fun j => sampleVar ((classSamples X.rows T.rows c).map fun x => coord x j)) := by
  have hlen := classSamples_length hn c
  have hne : members c 0 (classesOf T.rows) ≠ [] := by
    rw [← classSamples_ne_nil hc hn, ← List.length_pos_iff, hlen]; exact hpos
  have hw := class_wf hX T.rows c
  have g1 := (nbFit_get (fun d : GaussD ℝ => d.theta.rows) (fun M => ok M.meanRow) (by
    intro d M c d' hu
    obtain ⟨v, hv, h1, h2, rfl⟩ := gaussUpdate_ok hu
    exact ⟨_, rfl, h1, rfl⟩) _ 0 _ d h).2.2 c _ (getElem?_members T.cols T.rows c hlt)
  have g2 := (nbFit_get (fun d : GaussD ℝ => d.sigma.rows) (fun M => M.varianceRow) (by
    intro d M c d' hu
    obtain ⟨v, hv, h1, h2, rfl⟩ := gaussUpdate_ok hu
    exact ⟨_, hv, h2, rfl⟩) _ 0 _ d h).2.2 c _ (getElem?_members T.cols T.rows c hlt)
  rw [if_neg hne] at g1 g2
  obtain ⟨M, r, hM, hr, hg⟩ := g1
  obtain ⟨M', r', hM', hr', hg'⟩ := g2
  rw [selectRows_class hc hn] at hM hM'
  cases hM; cases hM'; cases hr
  have h2 : 2 ≤ (classSamples X.rows T.rows c).length := by
    by_contra hcon
    unfold Mat.varianceRow at hr'
    rw [if_pos (by simp only; omega)] at hr'
    cases hr'
  rw [varianceRow_real _ hw h2] at hr'
  cases hr'
  rw [meanRow_real _ hw] at hg
  refine ⟨by rw [← hlen]; exact h2, ?_, ?_⟩
  · simp only [Nat.zero_add] at hg
    unfold rowOf
    rw [List.getD_eq_getElem?_getD, hg]
    rfl
  · simp only [Nat.zero_add] at hg'
    unfold rowOf
    rw [List.getD_eq_getElem?_getD, hg']
    rfl

/-! ### Bernoulli and multinomial: tables of log probabilities -/

/-- The smoothed log probabilities of a Bernoulli class. -/
noncomputable def bernRow (M : Mat ℝ) : List ℝ :=
  M.sumRows.map fun s => Real.log (s + 1) - Real.log (M.rows.length + 2)

/-- The smoothed log probabilities of a multinomial class. -/
noncomputable def multRow (M : Mat ℝ) : List ℝ :=
  M.sumRows.map fun s => Real.log (s + 1) - Real.log (M.sumRows.map fun s => s + 1).sum

theorem bernRow_length (M : Mat ℝ) : (bernRow M).length = M.cols := by simp [bernRow, Mat.sumRows]
theorem multRow_length (M : Mat ℝ) : (multRow M).length = M.cols := by simp [multRow, Mat.sumRows]

theorem bernUpdate_eq (d : LogProbsD ℝ) (hd : d.pseudo = 1) (M : Mat ℝ) (c : ℕ) :
    bernUpdate d M c = setAt d.logProbs.rows c (bernRow M) >>= fun rows => ok ⟨⟨d.logProbs.cols, rows⟩, d.pseudo⟩ := by
  unfold bernUpdate bernRow
  simp [hd, Function.comp_def]

theorem multUpdate_eq (d : LogProbsD ℝ) (hd : d.pseudo = 1) (M : Mat ℝ) (c : ℕ) :
    multUpdate d M c = setAt d.logProbs.rows c (multRow M) >>= fun rows => ok ⟨⟨d.logProbs.cols, rows⟩, d.pseudo⟩ := by
  unfold multUpdate multRow
  simp [hd, Function.comp_def]

/-- Fitting with a row function: training succeeds, and every class with samples gets its row. -/
theorem lp_fit {X T : Mat ℝ} (hT : T.WF) (hc : ∀ t ∈ T.rows, classOf t ≠ none) (hn : X.rows.length = T.rows.length)
    {B : NBDistr (LogProbsD ℝ) ℝ} {f : Mat ℝ → List ℝ} (hf : ∀ M, (f M).length = M.cols)
    (hB : B.fromParams = fun c f => ⟨Mat.zeros c f, Scalar.one⟩)
    (hU : ∀ d M c, d.pseudo = 1 → B.update d M c = setAt d.logProbs.rows c (f M) >>= fun rows => ok ⟨⟨d.logProbs.cols, rows⟩, d.pseudo⟩) :
    ∃ d, nbFit B X 0 ((List.range T.cols).map fun j => members j 0 (classesOf T.rows)) (B.fromParams T.cols X.cols) = (d, ok ()) ∧
      IsTable T.cols X.cols d.logProbs ∧
      ∀ c < T.cols, rowOf d.logProbs c = if 0 < classSize T.rows c then f ⟨X.cols, classSamples X.rows T.rows c⟩ else List.replicate X.cols 0 := by
  have hok : ∃ d, nbFit B X 0 ((List.range T.cols).map fun j => members j 0 (classesOf T.rows)) (B.fromParams T.cols X.cols) = (d, ok ()) ∧
      (IsTable T.cols X.cols d.logProbs ∧ d.pseudo = 1) := by
    apply nbFit_ok (Inv := fun d : LogProbsD ℝ => IsTable T.cols X.cols d.logProbs ∧ d.pseudo = 1)
    · rw [hB]; exact ⟨zeros_table _ _, rfl⟩
    · intro j v hj hv
      have hjlt : j < T.cols := by
        have := (List.getElem?_eq_some_iff.1 hj).1
        simpa using this
      rw [getElem?_members _ _ _ hjlt] at hj
      cases hj
      refine ⟨_, selectRows_class hc hn j, ?_⟩
      intro d hd
      rw [hU d _ _ hd.2, setAt_of_lt _ (by rw [hd.1.2.1]; omega)]
      exact ⟨_, rfl, set_table hd.1 (hf _), hd.2⟩
  obtain ⟨d, hd, ht, hp⟩ := hok
  refine ⟨d, hd, ht, ?_⟩
  intro c hlt
  -- a version of the table lemma that carries the pseudo count
  have key : ∀ (data : List (List ℕ)) (i : ℕ) (d d' : LogProbsD ℝ), d.pseudo = 1 → nbFit B X i data d = (d', ok ()) →
      (∀ c < i, d'.logProbs.rows[c]? = d.logProbs.rows[c]?) ∧
      ∀ (j : ℕ) v, data[j]? = some v → if v = [] then d'.logProbs.rows[i + j]? = d.logProbs.rows[i + j]? else
        ∃ M, X.selectRows v = ok M ∧ d'.logProbs.rows[i + j]? = some (f M) := by
    intro data
    induction data with
    | nil =>
      intro i d d' _ e
      simp only [nbFit, Prod.mk.injEq, and_true] at e
      subst e
      exact ⟨fun _ _ => rfl, fun j v h => by simp at h⟩
    | cons v data ih =>
      intro i d d' hps e
      rw [nbFit] at e
      by_cases hv : v.isEmpty = true
      · rw [if_pos hv] at e
        obtain ⟨h2, h3⟩ := ih (i + 1) d d' hps e
        refine ⟨fun c hc => h2 c (by omega), ?_⟩
        intro j w hj
        cases j with
        | zero =>
          simp only [List.getElem?_cons_zero, Option.some.injEq] at hj
          subst hj
          rw [if_pos (by simpa using hv)]
          exact h2 (i + 0) (by omega)
        | succ j =>
          have := h3 j w (by simpa using hj)
          rw [show i + (j + 1) = i + 1 + j by omega]
          exact this
      · rw [if_neg hv] at e
        cases hs : X.selectRows v with
        | ok M =>
          rw [hs] at e
          simp only at e
          rw [hU d M i hps] at e
          by_cases hlt : i < d.logProbs.rows.length
          · rw [setAt_of_lt _ hlt] at e
            simp only [ok_bind] at e
            obtain ⟨h2, h3⟩ := ih (i + 1) _ d' (by exact hps) e
            refine ⟨fun c hc => by rw [h2 c (by omega), List.getElem?_set_ne (by omega)], ?_⟩
            intro j w hj
            cases j with
            | zero =>
              simp only [List.getElem?_cons_zero, Option.some.injEq] at hj
              subst hj
              rw [if_neg (by simpa using hv)]
              refine ⟨M, hs, ?_⟩
              rw [Nat.add_zero, h2 i (by omega), List.getElem?_set_self hlt]
            | succ j =>
              have := h3 j w (by simpa using hj)
              rw [show i + (j + 1) = i + 1 + j by omega]
              split
              · rename_i hw
                rw [if_pos hw] at this
                rw [this, List.getElem?_set_ne (by omega)]
              · rename_i hw
                rw [if_neg hw] at this
                exact this
          · have : setAt d.logProbs.rows i (f M) = Outcome.panic := by unfold setAt; rw [if_neg hlt]
            rw [this] at e
            simp at e
        | err k => rw [hs] at e; simp at e
        | panic => rw [hs] at e; simp at e
        | ub => rw [hs] at e; simp at e
  have g := (key _ 0 _ d (by rw [hB]; rfl) hd).2 c _ (getElem?_members T.cols T.rows c hlt)
  have hiff : 0 < classSize T.rows c ↔ members c 0 (classesOf T.rows) ≠ [] := by
    rw [← classSamples_ne_nil hc hn, ← List.length_pos_iff, classSamples_length hn]
  unfold rowOf
  by_cases hm : members c 0 (classesOf T.rows) = []
  · rw [if_pos hm] at g
    rw [if_neg (by rw [hiff]; simpa using hm), List.getD_eq_getElem?_getD]
    rw [Nat.zero_add] at g
    rw [g, hB]
    simp [Mat.zeros, hlt]
  · rw [if_neg hm] at g
    obtain ⟨M, hM, hr⟩ := g
    rw [selectRows_class hc hn] at hM
    cases hM
    rw [if_pos (hiff.2 hm), List.getD_eq_getElem?_getD]
    rw [Nat.zero_add] at hr
    rw [hr]
    rfl

/-! ### Predictions -/

theorem oneHot_set {k i : ℕ} (h : i < k) : IsOneHot k i ((List.replicate k (0 : ℝ)).set i 1) := by
  refine ⟨by simp, h, ?_⟩
  intro j hj
  unfold coord
  rw [getD_lt _ (by simpa using hj), List.getElem_set]
  by_cases hji : j = i
  · subst hji; simp
  · rw [if_neg (fun h => hji h.symm)]; simp [hji]

/-- Predictions from a table of joint log likelihoods. -/
theorem nbPredict_real {D : Type} (B : NBDistr D ℝ) (m : NaiveBayes D ℝ) (Y L : Mat ℝ) {k : ℕ} (hk : 0 < k) (hm : m.clusterCount = some k)
    (hL : nbLogProbs B m Y = ok L) (hLt : IsTable Y.rows.length k L) :
    ∃ P, nbPredict B m Y = ok P ∧ P.cols = k ∧
      List.Forall₂ (fun lik row => ∃ i, IsFirstMax lik i ∧ IsOneHot k i row) L.rows P.rows := by
  have hsel : ∃ cls : List ℕ, (L.rows.mapM fun row => do let r ← argmaxBy Scalar.lt row; ok r.1) = ok cls ∧
      List.Forall₂ (fun lik i => IsFirstMax lik i ∧ i < k) L.rows cls := by
    have : ∀ rows : List (List ℝ), (∀ r ∈ rows, r.length = k) →
        ∃ cls : List ℕ, (rows.mapM fun row => do let r ← argmaxBy Scalar.lt row; ok r.1) = ok cls ∧
          List.Forall₂ (fun lik i => IsFirstMax lik i ∧ i < k) rows cls := by
      intro rows
      induction rows with
      | nil => intro _; exact ⟨[], rfl, .nil⟩
      | cons r rows ih =>
        intro hr
        obtain ⟨cls, hcls, hF⟩ := ih fun x hx => hr x (List.mem_cons_of_mem _ hx)
        obtain ⟨i, v, ha, h1, h2, h3⟩ := argmaxBy_spec (Scalar.lt : ℝ → ℝ → Bool) (by simp) r (by
          intro h; have := hr r (by simp); rw [h] at this; simp at this; omega)
        refine ⟨i :: cls, ?_, .cons ⟨⟨v, h1, h2, h3⟩, ?_⟩ hF⟩
        · rw [List.mapM_cons, ha, hcls]; rfl
        · have := (List.getElem?_eq_some_iff.1 h1).1
          rw [hr r (by simp)] at this; exact this
    exact this L.rows (fun r hr => by rw [hLt.2.2 r hr, hLt.1])
  obtain ⟨cls, hcls, hF⟩ := hsel
  have hcl : ∀ c ∈ cls, c < k := by
    intro c hc
    obtain ⟨i, hi, rfl⟩ := List.mem_iff_getElem.1 hc
    have hlen := hF.length_eq
    have := List.Forall₂.get hF (i := i) (by omega) hi
    exact this.2
  have hrows : (cls.mapM fun c => setAt (List.replicate k (0 : ℝ)) c 1) = ok (cls.map fun c => (List.replicate k (0 : ℝ)).set c 1) :=
    mapM_ok_map _ _ cls fun c hc => setAt_of_lt _ (by simpa using hcl c hc)
  refine ⟨⟨k, cls.map fun c => (List.replicate k (0 : ℝ)).set c 1⟩, ?_, rfl, ?_⟩
  · unfold nbPredict
    rw [hL]
    simp only [ok_bind]
    rw [hcls]
    simp only [ok_bind, hm]
    rw [show (cls.mapM fun c => setAt (List.replicate k (Scalar.zero : ℝ)) c Scalar.one) = _ from hrows]
    simp only [ok_bind]
    apply Mat.new_flatten
    · rw [List.length_map, ← hF.length_eq, hLt.2.1]
    · intro r hr
      obtain ⟨c, _, rfl⟩ := List.mem_map.1 hr
      simp
  · simp only [List.forall₂_map_right_iff]
    exact hF.imp fun lik i h => ⟨i, h.1, oneHot_set h.2⟩

end RM
