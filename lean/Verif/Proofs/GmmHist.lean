import Verif.Proofs.GmmTrain

/-! What holds of every mixture model a program can have, and degenerate data. -/

namespace RM
open Outcome Scalar Spec Matrix

theorem ofM_inj {n m : ℕ} {A B : Matrix (Fin n) (Fin m) ℝ} (h : ofM A = ofM B) : A = B := by
  rw [← toM_ofM A, h, toM_ofM]

theorem eq_ofM_of_wf {X : Mat ℝ} (h : X.WF) : X = ofM (toM X.rows.length X.cols X) := eq_ofM ⟨rfl, rfl, h⟩

theorem hasParams_unique {k d : ℕ} {m : Gmm ℝ} {w w' : Fin k → ℝ} {μ μ' : Fin k → Fin d → ℝ} {S S' : Fin k → Matrix (Fin d) (Fin d) ℝ}
    (h : HasParams m w μ S) (h' : HasParams m w' μ' S') : w = w' ∧ μ = μ' ∧ S = S' := by
  obtain ⟨-, h2, h3, h4⟩ := h
  obtain ⟨-, g2, g3, g4⟩ := h'
  refine ⟨List.ofFn_injective (h2.symm.trans g2), ?_, ?_⟩
  · have := h3.symm.trans g3
    injection this with this
    exact ofM_inj (A := Matrix.of μ) (B := Matrix.of μ') this
  · have := h4.symm.trans g4
    injection this with this
    have := List.ofFn_injective this
    funext j
    exact ofM_inj (congrFun this j)

theorem hasParams_dims {k k' d d' : ℕ} {m : Gmm ℝ} {w : Fin k → ℝ} {w' : Fin k' → ℝ} {μ : Fin k → Fin d → ℝ} {μ' : Fin k' → Fin d' → ℝ}
    {S : Fin k → Matrix (Fin d) (Fin d) ℝ} {S' : Fin k' → Matrix (Fin d') (Fin d') ℝ}
    (h : HasParams m w μ S) (h' : HasParams m w' μ' S') : k = k' ∧ d = d' := by
  refine ⟨h.1.symm.trans h'.1, ?_⟩
  have := h.2.2.1.symm.trans h'.2.2.1
  injection this with this
  exact congrArg Mat.cols this

/-- What successful training gives. -/
theorem train_good {n k d : ℕ} {lup : Mat ℝ → Outcome (ℝ × Outcome (Mat ℝ))} (hl : LupExact lup) {draws : ℕ → ℕ} {m m' : Gmm ℝ}
    {w : Fin k → ℝ} (hk : m.compCount = k) (hw : m.mixWeights = List.ofFn w) (hmix : IsMixture w) (ho : OptOk m.covOption)
    {x : Matrix (Fin n) (Fin d) ℝ} (h : m.train lup draws (ofM x) = ok m') :
    2 ≤ n ∧ k ≤ n ∧ ∃ (w' : Fin k → ℝ) (μ' : Fin k → Fin d → ℝ) (S' : Fin k → Matrix (Fin d) (Fin d) ℝ), HasParams m' w' μ' S' ∧
      GoodParams m.covOption x w' μ' S' ∧ m'.covOption = m.covOption := by
  have hn : 2 ≤ n := by
    by_contra hn
    rw [train_few lup draws m (ofM x) (by simp [ofM_rows]; omega)] at h
    cases h
  have hkn : k ≤ n := by
    by_contra hkn
    rw [train_many lup draws m x hn (by omega)] at h
    cases h
  obtain ⟨σ, -, -, m0, h1, h2, -, h3⟩ := train_start lup draws hk hw x hn hkn
  have h4 := h3 m.maxIters
  have e : m.setMaxIters m.maxIters = m := rfl
  rw [e, h] at h4
  obtain ⟨m1, h5, h6⟩ := bind_eq_ok.mp h4.symm
  injection h6 with h6
  obtain ⟨w', μ', S', g1, g2, g3, -⟩ := emLoop_good (by omega) hl (by rw [h2]; exact ho) h1 (by rw [h2]; exact start_good ho x hmix σ) h5
  subst h6
  exact ⟨hn, hkn, w', μ', S', g1, h2 ▸ g2, g3.trans h2⟩

theorem history_inv {lup : Mat ℝ → Outcome (ℝ × Outcome (Mat ℝ))} (hl : LupExact lup) {m : Gmm ℝ} (h : GmmHistory lup m) :
    ∃ (k : ℕ) (w : Fin k → ℝ), 0 < k ∧ m.compCount = k ∧ m.mixWeights = List.ofFn w ∧ IsMixture w ∧ OptOk m.covOption ∧
      (m.means = none ∧ m.covars = none ∨ ∃ (d : ℕ) (μ : Fin k → Fin d → ℝ) (S : Fin k → Matrix (Fin d) (Fin d) ℝ), HasParams m w μ S ∧
        ∀ j, PosSemi (S j)) := by
  induction h with
  | new k hk =>
    have hk' : (0 : ℝ) < k := by exact_mod_cast hk
    refine ⟨k, fun _ => 1 / k, hk, rfl, ?_, ⟨fun _ => by positivity, ?_⟩, fun e h => (by cases h), Or.inl ⟨rfl, rfl⟩⟩
    · simp only [Gmm.new, List.map_replicate]
      exact (List.ofFn_const k _).symm
    · simp [hk'.ne']
  | withWeights k ws m hk hpos h =>
    unfold Gmm.withWeights at h
    split at h
    · cases h
    · rename_i hlen
      split at h
      · cases h
      · injection h with h
        subst h
        have hlen : ws.length = k := by simpa using hlen
        subst hlen
        have hs : 0 < ∑ i : Fin ws.length, ws[i] :=
          Finset.sum_pos (fun i _ => hpos _ (List.getElem_mem _)) ⟨⟨0, hk⟩, Finset.mem_univ _⟩
        have hf : fsum ws = ∑ i : Fin ws.length, ws[i] := by
          conv_lhs => rw [← List.ofFn_getElem (xs := ws)]
          rw [fsum_ofFn]
          rfl
        refine ⟨ws.length, fun i => ws[i] / fsum ws, hk, rfl, ?_, ⟨fun i => ?_, ?_⟩, fun e h => (by cases h), Or.inl ⟨rfl, rfl⟩⟩
        · show ws.map _ = _
          conv_lhs => rw [← List.ofFn_getElem (xs := ws)]
          rw [List.map_ofFn]
          simp only [List.ofFn_getElem]
          rfl
        · rw [hf]
          exact div_pos (hpos _ (List.getElem_mem _)) hs
        · rw [← Finset.sum_div, hf]
          exact div_self hs.ne'
  | setMaxIters m t _ ih => exact ih
  | setOption m opt ho _ ih =>
    obtain ⟨k, w, h1, h2, h3, h4, -, h6⟩ := ih
    exact ⟨k, w, h1, h2, h3, h4, ho, h6⟩
  | train m m' draws X hX _ h ih =>
    obtain ⟨k, w, h1, h2, h3, h4, h5, -⟩ := ih
    rw [eq_ofM_of_wf hX] at h
    obtain ⟨-, -, w', μ', S', g1, g2, g3⟩ := train_good hl h2 h3 h4 h5 h
    exact ⟨k, w', h1, g1.1, g1.2.1, g2.mix, by rw [g3]; exact h5, Or.inr ⟨_, μ', S', g1, g2.semi⟩⟩

theorem history_params {lup : Mat ℝ → Outcome (ℝ × Outcome (Mat ℝ))} (hl : LupExact lup) {m : Gmm ℝ} (h : GmmHistory lup m) {k d : ℕ}
    {w : Fin k → ℝ} {μ : Fin k → Fin d → ℝ} {S : Fin k → Matrix (Fin d) (Fin d) ℝ} (hm : HasParams m w μ S) :
    0 < k ∧ IsMixture w ∧ ∀ j, PosSemi (S j) := by
  obtain ⟨k0, w0, h1, h2, h3, h4, -, h6⟩ := history_inv hl h
  obtain rfl : k0 = k := h2.symm.trans hm.1
  obtain rfl : w0 = w := List.ofFn_injective (h3.symm.trans hm.2.1)
  rcases h6 with ⟨h6, -⟩ | ⟨d0, μ0, S0, h6, h7⟩
  · rw [hm.2.2.1] at h6
    cases h6
  · obtain ⟨-, rfl⟩ := hasParams_dims h6 hm
    obtain ⟨-, -, rfl⟩ := hasParams_unique h6 hm
    exact ⟨h1, h4, h7⟩

/-! ### Degenerate data -/

theorem sampleCov_const {n d : ℕ} (hn : 0 < n) (x : Fin n → Fin d → ℝ) (a : Fin d) (c : ℝ) (h : ∀ i, x i a = c) (b : Fin d) :
    sampleCov x a b = 0 := by
  have hn' : (n : ℝ) ≠ 0 := by exact_mod_cast hn.ne'
  have : (∑ i, x i a) / n = c := by
    simp only [h, Finset.sum_const, Finset.card_univ, Fintype.card_fin, nsmul_eq_mul]
    field_simp
  have hz : ∀ i, x i a - (∑ i, x i a) / n = 0 := fun i => by rw [this, h, sub_self]
  simp only [sampleCov, Matrix.of_apply, hz, zero_mul, Finset.sum_const_zero, zero_div]

theorem det_zero_row {d : ℕ} (S : Matrix (Fin d) (Fin d) ℝ) (a : Fin d) (h : ∀ b, S a b = 0) : S.det = 0 :=
  Matrix.det_eq_zero_of_row_eq_zero a h

theorem sampleCov_few {n d : ℕ} (hn : 2 ≤ n) (x : Fin n → Fin d → ℝ) (h : n ≤ d) : (sampleCov x).det = 0 := by
  let Y : Matrix (Fin n) (Fin d) ℝ := Matrix.of fun i a => x i a - (∑ i, x i a) / n
  have hn' : (n : ℝ) ≠ 0 := by have : n ≠ 0 := by omega
                               exact_mod_cast this
  have e : sampleCov x = (1 / ((n - 1 : ℕ) : ℝ)) • (Yᵀ * Y) := by
    ext a b
    simp only [sampleCov, Matrix.of_apply, Matrix.smul_apply, Matrix.mul_apply, Matrix.transpose_apply, smul_eq_mul, Y]
    ring
  have hd : (Yᵀ * Y).det = 0 := by
    by_contra hne
    have h1 : (Yᵀ * Y).rank = d := by
      have := Matrix.rank_of_isUnit (Yᵀ * Y) ((Matrix.isUnit_iff_isUnit_det _).mpr (Ne.isUnit hne))
      simpa using this
    rw [Matrix.rank_transpose_mul_self] at h1
    have h2 : Y.rank ≤ n := by simpa using Matrix.rank_le_card_height Y
    obtain rfl : n = d := by omega
    have h3 : Y.det = 0 := by
      apply Matrix.exists_vecMul_eq_zero_iff.mp
      refine ⟨fun _ => 1, ?_, ?_⟩
      · intro h0
        have := congrFun h0 ⟨0, by omega⟩
        simp at this
      · funext a
        simp only [Matrix.vecMul, dotProduct, one_mul, Y, Matrix.of_apply, Finset.sum_sub_distrib, Finset.sum_const, Finset.card_univ,
          Fintype.card_fin, nsmul_eq_mul, Pi.zero_apply]
        field_simp
        ring
    apply hne
    rw [Matrix.det_mul, h3, mul_zero]
  rw [e, Matrix.det_smul, hd, mul_zero]

/-- A singular covariance makes the loop panic. -/
theorem memberships_singular {lup : Mat ℝ → Outcome (ℝ × Outcome (Mat ℝ))} (hs : LupSingular lup) {k d : ℕ} {m : Gmm ℝ} {w : Fin (k + 1) → ℝ}
    {μ : Fin (k + 1) → Fin d → ℝ} {S : Fin (k + 1) → Matrix (Fin d) (Fin d) ℝ} (hm : HasParams m w μ S) (h0 : (S 0).det = 0) (X : Mat ℝ) :
    m.memberships lup X = Outcome.panic := by
  obtain ⟨e, he⟩ := hs (ofM (S 0)) d (ofM_shape _) (by rw [toM_ofM]; exact h0)
  have h1 : covParts lup (ofM (S 0)) = Outcome.panic := by
    unfold covParts
    rw [he]
    rfl
  have h2 : m.covars.getD [] = List.ofFn fun j => ofM (S j) := by rw [hm.2.2.2]; rfl
  unfold Gmm.memberships
  rw [h2, List.ofFn_succ, List.mapM_cons, h1]
  rfl

theorem train_singular {lup : Mat ℝ → Outcome (ℝ × Outcome (Mat ℝ))} (hs : LupSingular lup) (draws : ℕ → ℕ) {m : Gmm ℝ} {n d k : ℕ}
    {w : Fin k → ℝ} (hk : m.compCount = k) (hw : m.mixWeights = List.ofFn w) (x : Matrix (Fin n) (Fin d) ℝ) (hn : 2 ≤ n) (h0 : 0 < k)
    (hkn : k ≤ n) (ht : 0 < m.maxIters) (hdet : (startCov m.covOption x).det = 0) : m.train lup draws (ofM x) = Outcome.panic := by
  obtain ⟨k, rfl⟩ : ∃ k', k = k' + 1 := ⟨k - 1, by omega⟩
  obtain ⟨σ, -, -, m0, h1, h2, -, h3⟩ := train_start lup draws hk hw x hn hkn
  have h4 := h3 m.maxIters
  have e : m.setMaxIters m.maxIters = m := rfl
  obtain ⟨t, ht'⟩ : ∃ t, m.maxIters = t + 1 := ⟨m.maxIters - 1, by omega⟩
  rw [e] at h4
  rw [h4, ht', Gmm.emLoop, Gmm.emStep, memberships_singular hs h1 hdet]
  rfl

/-- Samples of another width make `predict` panic. -/
theorem predict_width {lup : Mat ℝ → Outcome (ℝ × Outcome (Mat ℝ))} (hl : LupExact lup) (hr : LupRegular lup) {k d : ℕ} (hk : 0 < k)
    {m : Gmm ℝ} {w : Fin k → ℝ} {μ : Fin k → Fin d → ℝ} {S : Fin k → Matrix (Fin d) (Fin d) ℝ} (hm : HasParams m w μ S)
    (hS : ∀ j, (S j).det ≠ 0) {X : Mat ℝ} (hX : X.WF) (hd : X.cols ≠ d) (hn : 0 < X.rows.length) : m.predict lup X = Outcome.panic := by
  obtain ⟨k', rfl⟩ : ∃ k', k = k' + 1 := ⟨k - 1, by omega⟩
  have h2 : m.covars.getD [] = List.ofFn fun j => ofM (S j) := by rw [hm.2.2.2]; rfl
  have hp := mapM_ofFn (covParts lup) (fun j => ofM (S j)) _ fun j => covParts_regular hl hr (hS j)
  obtain ⟨r, rest, hrows⟩ : ∃ r rest, X.rows = r :: rest := by
    cases hX : X.rows with
    | nil => rw [hX] at hn; simp at hn
    | cons r rest => exact ⟨r, rest, rfl⟩
  have hrl : r.length = X.cols := hX r (by rw [hrows]; simp)
  unfold Gmm.predict
  rw [hm.2.2.1, hm.2.2.2]
  simp only []
  unfold Gmm.memberships
  rw [h2, hp, ok_bind, hm.2.2.1]
  simp only []
  rw [hrows, List.mapM_cons, memberRow, compPdfs, hm.1, List.range_succ_eq_map, List.mapM_cons]
  have h3 : getAt (matOf (k' + 1) d fun a => μ a.1 a.2).rows 0 = ok (List.ofFn (μ 0)) := getAt_ofFn (fun j => List.ofFn (μ j)) 0
  have h4 := getAt_ofFn (fun j => (Real.sqrt (S j).det, ofM (S j)⁻¹)) 0
  simp only [Fin.val_zero] at h4
  rw [h3, ok_bind, h4, ok_bind, compPdf, vecZip, if_neg (by rw [List.length_ofFn, hrl]; exact hd)]
  rfl

/-! ### Consecutive numbers of iterations -/

theorem emLoop_add {F : Type} [Scalar F] (lup : Mat F → Outcome (F × Outcome (Mat F))) (X : Mat F) (s t : ℕ) (m : Gmm F) :
    m.emLoop lup X (t + s) = m.emLoop lup X t >>= fun m' => m'.emLoop lup X s := by
  induction s with
  | zero =>
    rw [Nat.add_zero]
    cases m.emLoop lup X t <;> rfl
  | succ s ih =>
    rw [← Nat.add_assoc, emLoop_succ, ih]
    cases h : m.emLoop lup X t with
    | err e => rfl
    | panic => rfl
    | ub => rfl
    | ok m' =>
      rw [ok_bind, ok_bind, emLoop_succ]

theorem predict_eval {n k d : ℕ} {lup : Mat ℝ → Outcome (ℝ × Outcome (Mat ℝ))} {m : Gmm ℝ} {w : Fin k → ℝ} {μ : Fin k → Fin d → ℝ}
    {S : Fin k → Matrix (Fin d) (Fin d) ℝ} (hm : HasParams m w μ S) {X P : Mat ℝ} {l : ℝ} (h : m.memberships lup X = ok (P, l)) :
    m.predict lup X = ok P := by
  unfold Gmm.predict
  rw [hm.2.2.1, hm.2.2.2]
  simp only []
  rw [h]
  rfl

theorem predict_ok {n k d : ℕ} {lup : Mat ℝ → Outcome (ℝ × Outcome (Mat ℝ))} (hl : LupExact lup) {m : Gmm ℝ} {w : Fin k → ℝ}
    {μ : Fin k → Fin d → ℝ} {S : Fin k → Matrix (Fin d) (Fin d) ℝ} (hm : HasParams m w μ S) {x : Matrix (Fin n) (Fin d) ℝ} {P : Mat ℝ}
    (h : m.predict lup (ofM x) = ok P) : (∀ j, (S j).det ≠ 0) ∧ P = ofM (Matrix.of fun i => posterior w μ S (x i)) := by
  unfold Gmm.predict at h
  rw [hm.2.2.1, hm.2.2.2] at h
  simp only [] at h
  obtain ⟨⟨P', l⟩, h1, h2⟩ := bind_eq_ok.mp h
  injection h2 with h2
  subst h2
  exact ⟨(memberships_ok hl hm h1).1, (memberships_ok hl hm h1).2.1⟩

/-- Training with one more iteration. -/
theorem train_two {lup : Mat ℝ → Outcome (ℝ × Outcome (Mat ℝ))} (hl : LupExact lup) {draws : ℕ → ℕ} {m m1 m2 : Gmm ℝ} {n k d t : ℕ}
    {w0 : Fin k → ℝ} (hk : m.compCount = k) (hw : m.mixWeights = List.ofFn w0) (hmix : IsMixture w0) (ho : OptOk m.covOption)
    {x : Matrix (Fin n) (Fin d) ℝ} (h1 : (m.setMaxIters t).train lup draws (ofM x) = ok m1)
    (h2 : (m.setMaxIters (t + 1)).train lup draws (ofM x) = ok m2) :
    ∃ (w : Fin k → ℝ) (μ : Fin k → Fin d → ℝ) (S : Fin k → Matrix (Fin d) (Fin d) ℝ), HasParams m1 w μ S ∧
      GoodParams m.covOption x w μ S ∧ (∀ j, PosDefinite (S j)) ∧ m1.predict lup (ofM x) = ok (ofM (Matrix.of fun i => posterior w μ S (x i))) ∧
      (HasParams m2 w μ S ∧ m2.logLik = m1.logLik ∧ |codeLik w μ S x - m1.logLik| < 1 / 10 ^ 15 ∨
        HasParams m2 (fun j => compTotal (fun i => posterior w μ S (x i)) j / n) (weightedMean (fun i => posterior w μ S (x i)) x)
          (optionCov m.covOption (fun i => posterior w μ S (x i)) x) ∧ m2.logLik = codeLik w μ S x) := by
  obtain ⟨hn, hkn, -⟩ := train_good (m := m.setMaxIters t) hl hk hw hmix ho h1
  obtain ⟨σ, -, -, m0, g1, g2, -, g3⟩ := train_start lup draws hk hw x hn hkn
  rw [g3] at h1 h2
  obtain ⟨a, ha, h1⟩ := bind_eq_ok.mp h1
  obtain ⟨b, hb, h2⟩ := bind_eq_ok.mp h2
  injection h1 with h1
  injection h2 with h2
  subst h1 h2
  obtain ⟨w, μ, S, p1, p2, p3, -⟩ := emLoop_good (by omega) hl (by rw [g2]; exact ho) g1 (by rw [g2]; exact start_good ho x hmix σ) ha
  rw [g2] at p2 p3
  rw [emLoop_succ, ha, ok_bind, Gmm.emLoop] at hb
  obtain ⟨o, h3, h4⟩ := bind_eq_ok.mp hb
  obtain ⟨q1, q2, q3⟩ := emStep_ok (by omega) hl (by rw [p3]; exact ho) p1 (by rw [p3]; exact p2) h3
  refine ⟨w, μ, S, p1, p2, q1, predict_eval (n := n) (m := a.setMaxIters t) (l := codeLik w μ S x) p1 q2, ?_⟩
  rcases q3 with ⟨rfl, q3⟩ | ⟨m', rfl, -, q3, -, -, -, q4⟩
  · left
    injection h4 with h4
    subst h4
    exact ⟨p1, rfl, q3⟩
  · right
    injection h4 with h4
    subst h4
    rw [p3] at q3
    exact ⟨q3, q4⟩

/-- The likelihood does not decrease. -/
theorem emLoop_lik {n k d : ℕ} (hn : 0 < n) {lup : Mat ℝ → Outcome (ℝ × Outcome (Mat ℝ))} (hl : LupExact lup) {m : Gmm ℝ}
    (ho : m.covOption = .full ∨ m.covOption = .diagonal) {w : Fin k → ℝ} {μ : Fin k → Fin d → ℝ} {S : Fin k → Matrix (Fin d) (Fin d) ℝ}
    (hm : HasParams m w μ S) {x : Matrix (Fin n) (Fin d) ℝ} (hg : GoodParams m.covOption x w μ S) {s : ℕ} {m' : Gmm ℝ}
    (h : m.emLoop lup (ofM x) s = ok m') {w' : Fin k → ℝ} {μ' : Fin k → Fin d → ℝ} {S' : Fin k → Matrix (Fin d) (Fin d) ℝ}
    (hm' : HasParams m' w' μ' S') (hdet : ∀ j, (S' j).det ≠ 0) : logLikelihood w μ S x ≤ logLikelihood w' μ' S' x := by
  have ho' : OptOk m.covOption := by
    rintro e he
    rcases ho with h | h <;> rw [h] at he <;> cases he
  induction s generalizing m w μ S with
  | zero =>
    injection h with h
    subst h
    obtain ⟨rfl, rfl, rfl⟩ := hasParams_unique hm hm'
    exact le_rfl
  | succ s ih =>
    rw [Gmm.emLoop] at h
    obtain ⟨o, h1, h⟩ := bind_eq_ok.mp h
    obtain ⟨hS, -, h2⟩ := emStep_ok hn hl ho' hm hg h1
    rcases h2 with ⟨rfl, -⟩ | ⟨m1, rfl, -, h3, h4, h5, h6, -⟩
    · injection h with h
      subst h
      obtain ⟨rfl, rfl, rfl⟩ := hasParams_unique hm hm'
      exact le_rfl
    · have h : m1.emLoop lup (ofM x) s = ok m' := h
      have h4' : GoodParams m1.covOption x (fun j => compTotal (fun i => posterior w μ S (x i)) j / n)
          (weightedMean (fun i => posterior w μ S (x i)) x) (optionCov m.covOption (fun i => posterior w μ S (x i)) x) := by
        rw [h5]
        exact h4
      have hT : ∀ j, PosDefinite (optionCov m.covOption (fun i => posterior w μ S (x i)) x j) := by
        cases s with
        | zero =>
          injection h with h
          subst h
          obtain ⟨-, -, rfl⟩ := hasParams_unique h3 hm'
          exact fun j => posSemi_posDef (h4.semi j) (hdet j)
        | succ s =>
          rw [Gmm.emLoop] at h
          obtain ⟨o, h7, -⟩ := bind_eq_ok.mp h
          exact (emStep_ok hn hl (by rw [h5]; exact ho') h3 h4' h7).1
      have htr := fun j => option_traces (S := S j) (fun i => posterior w μ S (x i)) x j m.covOption (by
        rcases ho with ho | ho
        · exact Or.inl ho
        · exact Or.inr ⟨ho, hg.diag ho j⟩) (hT j)
      exact (em_increases x hn hg.mix hS hT (fun j => (htr j).1) fun j => (htr j).2).trans
        (ih (by rw [h5]; exact ho) h3 h4' h (by rw [h5]; exact ho'))

end RM
