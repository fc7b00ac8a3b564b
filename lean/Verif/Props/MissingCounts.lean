import Verif.Props.MissingTrain

/-! C148 for the naive Bayes models of counts: a missing number (NaN) in a training sample. -/

namespace RM
open Outcome Scalar Spec

theorem mt_colOf_transpose {M : Mat XR} (hM : M.WF) {c : ℕ} {v : List XR} (hv : M.rows[c]? = some v) : colOf M.transpose.rows c = v := by
  have hl : v.length = M.cols := hM v (List.mem_of_getElem? hv)
  unfold colOf Mat.transpose transposeRows
  rw [List.filterMap_map]
  have e : ∀ j ∈ List.range M.cols, ((fun r : List XR => r[c]?) ∘ fun j => M.rows.filterMap fun r => r[j]?) j = some (v.getD j .nan) := by
    intro j hj
    have hj := List.mem_range.1 hj
    have e : (M.rows.filterMap fun r => r[j]?) = M.rows.map fun r => r.getD j .nan := by
      rw [← List.filterMap_eq_map]
      apply List.filterMap_congr
      intro l hl
      have := hM l hl
      simp only [Function.comp]
      rw [List.getElem?_eq_getElem (by omega), getD_lt]
    simp only [Function.comp, e, List.getElem?_map, hv, Option.map_some]
  rw [List.filterMap_congr e, show (fun j => some (v.getD j XR.nan)) = some ∘ fun j => v.getD j .nan from rfl, List.filterMap_eq_map]
  apply List.ext_getElem
  · simp [hl]
  · intro i h1 h2
    simp only [List.getElem_map, List.getElem_range]
    rw [getD_lt _ h2]

/-- The likelihoods of a class whose row of parameters has a NaN, for the count models. -/
theorem count_liks_class_nan {k c : ℕ} (Y : Mat XR) (hY : Y.WF) (Z : Mat XR) (hZ : IsTable k Y.cols Z) (hc : c < k) {z : List XR} (hz : Z.rows[c]? = some z)
    (hn : XR.nan ∈ z) (per : List XR) (hp : per.length = k) :
    ∃ L, (do
      let res ← Mat.mul Y Z.transpose
      addClassRow res Y.rows.length per) = ok L ∧ L.rows.length = Y.rows.length ∧ ∀ r ∈ L.rows, r.length = k ∧ r[c]? = some XR.nan := by
  have hmul : Mat.mul Y Z.transpose = ok ⟨k, Y.rows.map fun r => (List.range k).map fun j => dot r (colOf Z.transpose.rows j)⟩ := by
    unfold Mat.mul
    rw [if_pos (by simp [Mat.transpose, transposeRows, hZ.1])]
    simp [Mat.transpose, hZ.2.1]
  rw [hmul]
  simp only [ok_bind]
  unfold addClassRow
  have hnew : Mat.new 1 per.length per = ok ⟨k, [per]⟩ := by
    have := Mat.new_flatten (rows := [per]) (c := k) (k := 1) rfl (by simpa using hp)
    simp at this
    rw [hp]; exact this
  rw [hnew]
  simp only [ok_bind]
  rw [selectRows_replicate (v := per) _ (by simp)]
  simp only [ok_bind]
  have hzr := Mat.zip_replicate Scalar.add (⟨k, Y.rows.map fun r => (List.range k).map fun j => dot r (colOf Z.transpose.rows j)⟩ : Mat XR) per
  simp only [List.length_map] at hzr
  rw [hzr]
  refine ⟨_, rfl, by simp, ?_⟩
  intro r hr
  simp only [List.map_map] at hr
  obtain ⟨q, hq, rfl⟩ := List.mem_map.1 hr
  simp only [Function.comp]
  refine ⟨by simp [hp], ?_⟩
  have hzl : z.length = Y.cols := by rw [hZ.2.2 z (List.mem_of_getElem? hz), hZ.1]
  rw [List.getElem?_zipWith, List.getElem?_map, List.getElem?_range hc, List.getElem?_eq_getElem (by omega), Option.map_some,
    mt_colOf_transpose hZ.2.2 hz, dot_nan_mem_right hn (by rw [hY q hq, hzl])]
  simp only [xr_nan_add]

/-- What predict does when the likelihood of a class is always NaN. -/
theorem nbPredict_class_nan {D : Type} {B : NBDistr D XR} {m : NaiveBayes D XR} {Y L : Mat XR} {k c : ℕ} (hk : c < k) (h2 : m.clusterCount = some k)
    (hL : nbLogProbs B m Y = ok L) (hLn : L.rows.length = Y.rows.length) (hLr : ∀ r ∈ L.rows, r.length = k ∧ r[c]? = some XR.nan) :
    (c = 0 → nbPredict B m Y = ok ⟨k, List.replicate Y.rows.length ((List.replicate k (.fin 0)).set 0 (.fin 1))⟩) ∧
    (0 < c → ∃ P, nbPredict B m Y = ok P ∧ P.rows.length = Y.rows.length ∧ ∀ r ∈ P.rows, r[c]? = some (.fin 0)) := by
  constructor
  · rintro rfl
    exact nbPredict_nan hk h2 hL hLn (by
      intro r hr
      have := (hLr r hr).2
      cases r with
      | nil => simp at this
      | cons a l => simp only [List.getElem?_cons_zero, Option.some.injEq] at this; exact ⟨l, by rw [this]⟩)
  intro hc0
  obtain ⟨cs, hcs, hF⟩ := mapM_shape (f := fun row : List XR => (do
      let r ← argmaxBy Scalar.lt row
      ok r.1 : Outcome ℕ)) (P := fun b => b ≠ c ∧ b < k) (l := L.rows) (by
    intro r hr
    obtain ⟨hl, hnan⟩ := hLr r hr
    cases r with
    | nil => simp at hnan
    | cons a l =>
      refine ⟨_, rfl, ?_, ?_⟩
      · refine argAux_skips l a 0 1 (by omega) ?_
        intro t w ht hc b
        have : (a :: l)[c]? = some w := by rw [← hc, Nat.add_comm]; simpa using ht
        rw [hnan, Option.some.injEq] at this
        rw [← this]
        cases b <;> rfl
      · have := argAux_lt (fun best x : XR => Scalar.lt best x) a 0 1 l (by omega)
        simp only [List.length_cons] at hl
        omega)
  obtain ⟨rows, hrows, hP⟩ := mapM_shape (f := fun b => setAt (List.replicate k (Scalar.zero : XR)) b Scalar.one)
      (P := fun r : List XR => r.length = k ∧ r[c]? = some (.fin 0)) (l := cs) (by
    intro b hb
    obtain ⟨hbc, hbk⟩ := hF.2 b hb
    refine ⟨_, setAt_of_lt _ (by simpa using hbk), by simp, ?_⟩
    rw [List.getElem?_set_ne hbc]
    simp [hk])
  have hrl : rows.length = Y.rows.length := by rw [hP.1, hF.1, hLn]
  refine ⟨⟨k, rows⟩, ?_, hrl, fun r hr => (hP.2 r hr).2⟩
  unfold nbPredict
  rw [hL]
  simp only [ok_bind]
  rw [hcs]
  simp only [ok_bind, h2]
  rw [hrows]
  simp only [ok_bind]
  exact Mat.new_flatten hrl fun r hr => (hP.2 r hr).1

/-- A row of parameters computed from sums of which one is NaN. -/
theorem sumRows_nan {M : Mat XR} {s : List XR} (hs : s ∈ M.rows) (hl : s.length = M.cols) (hn : XR.nan ∈ s) : XR.nan ∈ M.sumRows := by
  obtain ⟨j, hj, e⟩ := List.mem_iff_getElem.1 hn
  unfold Mat.sumRows
  exact List.mem_map.2 ⟨j, List.mem_range.2 (by omega), mv_fsum_nan (l := colOf M.rows j) (List.mem_filterMap.2 ⟨s, hs, by rw [List.getElem?_eq_getElem hj, e]⟩)⟩

/-- Each class row of a table stored in the distribution is related to that class's rows. -/
theorem nbFit_row {D R : Type} {B : NBDistr D XR} {X : Mat XR} (get : D → List R) (Q : Mat XR → R → Prop)
    (hU : ∀ d M c d', B.update d M c = ok d' → ∃ r, Q M r ∧ c < (get d).length ∧ get d' = (get d).set c r) :
    ∀ (data : List (List ℕ)) (i : ℕ) (d d' : D), nbFit B X i data d = (d', ok ()) →
      (∀ c < i, (get d')[c]? = (get d)[c]?) ∧
      ∀ (j : ℕ) v, data[j]? = some v → v ≠ [] → ∃ M r, X.selectRows v = ok M ∧ Q M r ∧ (get d')[i + j]? = some r
  | [], i, d, d', e => by
    simp only [nbFit, Prod.mk.injEq, and_true] at e
    subst e
    exact ⟨fun _ _ => rfl, fun j v h => by simp at h⟩
  | v :: data, i, d, d', e => by
    rw [nbFit] at e
    by_cases hv : v.isEmpty = true
    · rw [if_pos hv] at e
      obtain ⟨h2, h3⟩ := nbFit_row get Q hU data (i + 1) d d' e
      refine ⟨fun c hc => h2 c (by omega), ?_⟩
      intro j w hj hw
      cases j with
      | zero =>
        simp only [List.getElem?_cons_zero, Option.some.injEq] at hj
        subst hj
        exact absurd (by simpa using hv) hw
      | succ j =>
        rw [show i + (j + 1) = i + 1 + j by omega]
        exact h3 j w (by simpa using hj) hw
    · rw [if_neg hv] at e
      cases hs : X.selectRows v with
      | ok M =>
        rw [hs] at e
        simp only at e
        cases hu : B.update d M i with
        | ok d1 =>
          rw [hu] at e
          obtain ⟨r, hr, hlt, hset⟩ := hU d M i d1 hu
          obtain ⟨h2, h3⟩ := nbFit_row get Q hU data (i + 1) d1 d' e
          refine ⟨?_, ?_⟩
          · intro c hc
            rw [h2 c (by omega), hset, List.getElem?_set_ne (by omega)]
          · intro j w hj hw
            cases j with
            | zero =>
              simp only [List.getElem?_cons_zero, Option.some.injEq] at hj
              subst hj
              refine ⟨M, r, hs, hr, ?_⟩
              rw [Nat.add_zero, h2 i (by omega), hset, List.getElem?_set_self hlt]
            | succ j =>
              rw [show i + (j + 1) = i + 1 + j by omega]
              exact h3 j w (by simpa using hj) hw
        | err k => rw [hu] at e; simp at e
        | panic => rw [hu] at e; simp at e
        | ub => rw [hu] at e; simp at e
      | err k => rw [hs] at e; simp at e
      | panic => rw [hs] at e; simp at e
      | ub => rw [hs] at e; simp at e

/-- The parameters of a class with a NaN, for an update that keeps a NaN of the sums. -/
theorem count_fit_nan {B : NBDistr (LogProbsD XR) XR}
    (hU : ∀ d M c d', B.update d M c = ok d' → ∃ v, (v.length = M.cols ∧ (XR.nan ∈ M.sumRows → XR.nan ∈ v)) ∧ c < d.logProbs.rows.length ∧
      d' = ⟨⟨d.logProbs.cols, d.logProbs.rows.set c v⟩, d.pseudo⟩)
    (hB : ∀ c n, B.fromParams c n = ⟨Mat.zeros c n, Scalar.one⟩)
    {X : Mat XR} {T : Mat ℝ} {d : LogProbsD XR} (hX : X.WF) (hcl : ∀ t ∈ T.rows, classOf t ≠ none) (hn : X.rows.length = T.rows.length)
    (hd : nbFit B X 0 ((List.range T.cols).map fun j => members j 0 (classesOf T.rows)) (B.fromParams T.cols X.cols) = (d, ok ()))
    {c : ℕ} (hlt : c < T.cols) {x : List XR} {t : List ℝ} (hx : (x, t) ∈ X.rows.zip T.rows) (ht : classOf t = some c) (hnan : XR.nan ∈ x) :
    IsTable T.cols X.cols d.logProbs ∧ ∃ z, d.logProbs.rows[c]? = some z ∧ XR.nan ∈ z := by
  constructor
  · refine nbFit_inv (Inv := fun d : LogProbsD XR => IsTable T.cols X.cols d.logProbs) _ 0 _ d ?_ ?_ hd
    · intro d v M c d' hc hs hd hu
      obtain ⟨w, hw, h2, rfl⟩ := hU _ _ _ _ hu
      exact set_table hd (by rw [hw.1, selectRows_cols hs])
    · rw [hB]; exact zeros_table _ _
  have hxm : x ∈ labelled c X.rows (classesOf T.rows) := mem_labelled_iff.2 (zip_classesOf hcl hx ht)
  have hl : X.rows.length = (classesOf T.rows).length := by rw [classesOf_length hcl]; exact hn
  have hne : members c 0 (classesOf T.rows) ≠ [] := by
    rw [Ne, members_eq_nil, not_not, ← labelled_ne_nil hl]
    exact List.ne_nil_of_mem hxm
  obtain ⟨M, r, hM, hr, hg⟩ := (nbFit_row (fun d : LogProbsD XR => d.logProbs.rows) (fun M v => v.length = M.cols ∧ (XR.nan ∈ M.sumRows → XR.nan ∈ v)) (by
    intro d M c d' hu
    obtain ⟨w, hw, h2, rfl⟩ := hU _ _ _ _ hu
    exact ⟨w, hw, h2, rfl⟩) _ 0 _ d hd).2 c _ (getElem?_members T.cols T.rows c hlt) hne
  unfold Mat.selectRows at hM
  rw [select_labelled c X.rows (classesOf T.rows) hl] at hM
  cases hM
  rw [Nat.zero_add] at hg
  exact ⟨_, hg, hr.2 (sumRows_nan (M := ⟨X.cols, _⟩) hxm (hX x (List.of_mem_zip hx).1) hnan)⟩

/-- The row of logarithms keeps a NaN. -/
theorem count_row_nan {s : List XR} (p q : XR) (h : XR.nan ∈ s) : XR.nan ∈ (s.map fun s => s +. p).map fun x => Scalar.ln x -. q := by
  rw [List.map_map]
  exact List.mem_map.2 ⟨_, h, by simp only [Function.comp, xr_nan_add]; exact xr_nan_sub _⟩

theorem mult_nan_update (d : LogProbsD XR) (M : Mat XR) (c : ℕ) (d' : LogProbsD XR) (h : multUpdate d M c = ok d') :
    ∃ v, (v.length = M.cols ∧ (XR.nan ∈ M.sumRows → XR.nan ∈ v)) ∧ c < d.logProbs.rows.length ∧
      d' = ⟨⟨d.logProbs.cols, d.logProbs.rows.set c v⟩, d.pseudo⟩ := by
  unfold multUpdate at h
  obtain ⟨a, ha, h⟩ := bind_eq_ok.1 h
  obtain ⟨hl, rfl⟩ := setAt_eq_ok ha
  cases h
  exact ⟨_, ⟨by simp [Mat.sumRows], count_row_nan _ _⟩, hl, rfl⟩

theorem bern_nan_update (d : LogProbsD XR) (M : Mat XR) (c : ℕ) (d' : LogProbsD XR) (h : bernUpdate d M c = ok d') :
    ∃ v, (v.length = M.cols ∧ (XR.nan ∈ M.sumRows → XR.nan ∈ v)) ∧ c < d.logProbs.rows.length ∧
      d' = ⟨⟨d.logProbs.cols, d.logProbs.rows.set c v⟩, d.pseudo⟩ := by
  unfold bernUpdate at h
  obtain ⟨a, ha, h⟩ := bind_eq_ok.1 h
  obtain ⟨hl, rfl⟩ := setAt_eq_ok ha
  cases h
  exact ⟨_, ⟨by simp [Mat.sumRows], count_row_nan _ _⟩, hl, rfl⟩

/-- C148 fails for multinomial naive Bayes: with a NaN in a sample of a class, that class is predicted for every query if it is class 0, and never otherwise. -/
theorem C148_multinomial_violation (m m' : NaiveBayes (LogProbsD XR) XR) (X Y : Mat XR) (T : Mat ℝ) (hX : X.WF) (hT : T.WF) (hY : Y.WF) (hf : Y.cols = X.cols)
    (hn : X.rows.length = T.rows.length) (c : ℕ) (x : List XR) (t : List ℝ) (hx : (x, t) ∈ X.rows.zip T.rows) (ht : classOf t = some c)
    (hnan : XR.nan ∈ x) (h : nbTrain multDistr m X (finMat T) = (m', ok ())) :
    (c = 0 → nbPredict multDistr m' Y = ok ⟨T.cols, List.replicate Y.rows.length ((List.replicate T.cols (.fin 0)).set 0 (.fin 1))⟩) ∧
    (0 < c → ∃ P, nbPredict multDistr m' Y = ok P ∧ P.rows.length = Y.rows.length ∧ ∀ r ∈ P.rows, r[c]? = some (.fin 0)) := by
  obtain ⟨hc, d, prior, hd, h1, h2, h3, hpl⟩ := mt_nbTrain_ok hT h
  have hlt : c < T.cols := by
    have := classOf_lt ht
    rwa [hT t (List.of_mem_zip hx).2] at this
  obtain ⟨htab, z, hz, hzn⟩ := count_fit_nan (B := multDistr) mult_nan_update (fun _ _ => rfl) hX hc hn hd hlt hx ht hnan
  rw [← hf] at htab
  obtain ⟨L, hL, hLn, hLr⟩ := count_liks_class_nan Y hY d.logProbs htab hlt hz hzn (prior.map Scalar.ln) (by simpa using hpl)
  refine nbPredict_class_nan hlt h2 (L := L) ?_ hLn hLr
  unfold nbLogProbs
  rw [h1, h3]
  exact hL

/-- C148 fails for Bernoulli naive Bayes in the same way. -/
theorem C148_bernoulli_violation (m m' : NaiveBayes (LogProbsD XR) XR) (X Y : Mat XR) (T : Mat ℝ) (hX : X.WF) (hT : T.WF) (hY : Y.WF) (hf : Y.cols = X.cols)
    (hn : X.rows.length = T.rows.length) (c : ℕ) (x : List XR) (t : List ℝ) (hx : (x, t) ∈ X.rows.zip T.rows) (ht : classOf t = some c)
    (hnan : XR.nan ∈ x) (h : nbTrain bernDistr m X (finMat T) = (m', ok ())) :
    (c = 0 → nbPredict bernDistr m' Y = ok ⟨T.cols, List.replicate Y.rows.length ((List.replicate T.cols (.fin 0)).set 0 (.fin 1))⟩) ∧
    (0 < c → ∃ P, nbPredict bernDistr m' Y = ok P ∧ P.rows.length = Y.rows.length ∧ ∀ r ∈ P.rows, r[c]? = some (.fin 0)) := by
  obtain ⟨hc, d, prior, hd, h1, h2, h3, hpl⟩ := mt_nbTrain_ok hT h
  have hlt : c < T.cols := by
    have := classOf_lt ht
    rwa [hT t (List.of_mem_zip hx).2] at this
  obtain ⟨htab, z, hz, hzn⟩ := count_fit_nan (B := bernDistr) bern_nan_update (fun _ _ => rfl) hX hc hn hd hlt hx ht hnan
  rw [← hf] at htab
  set neg := d.logProbs.map fun x => Scalar.ln (Scalar.one -. Scalar.exp x) with hneg
  have hnr : neg.rows.length = T.cols := by simp [hneg, Mat.map, htab.2.1]
  have hzip : Mat.zip Scalar.sub d.logProbs neg = ok ⟨d.logProbs.cols, List.zipWith (List.zipWith Scalar.sub) d.logProbs.rows neg.rows⟩ := by
    unfold Mat.zip; rw [if_pos ⟨by rw [htab.2.1, hnr], rfl⟩]
  have hZ : IsTable T.cols Y.cols (⟨d.logProbs.cols, List.zipWith (List.zipWith Scalar.sub) d.logProbs.rows neg.rows⟩ : Mat XR) := by
    refine ⟨htab.1, by simp [htab.2.1, hnr], ?_⟩
    intro q hq
    obtain ⟨i, hi, rfl⟩ := List.mem_iff_getElem.1 hq
    simp only [List.length_zipWith] at hi
    have h1 : i < d.logProbs.rows.length := by omega
    simp only [List.getElem_zipWith, List.length_zipWith, hneg, Mat.map, List.getElem_map, List.length_map, min_self]
    exact htab.2.2 _ (List.getElem_mem h1)
  obtain ⟨per, hper, hperl, -⟩ := mapM_shape (f := fun (p : XR × ℕ) => do
    let s ← getAt neg.sumCols p.2
    ok (Scalar.ln p.1 +. s)) (P := fun _ => True) (l := prior.zipIdx) (by
      intro p hp
      have := List.snd_lt_add_of_mem_zipIdx hp
      have hlt : p.2 < neg.sumCols.length := by simp only [Mat.sumCols, List.length_map, hnr]; omega
      refine ⟨Scalar.ln p.1 +. neg.sumCols[p.2], ?_, trivial⟩
      simp only [getAt, List.getElem?_eq_getElem hlt, ofOption, ok_bind])
  have hrow : (List.zipWith (List.zipWith Scalar.sub) d.logProbs.rows neg.rows)[c]? =
      some (List.zipWith Scalar.sub z (z.map fun x => Scalar.ln (Scalar.one -. Scalar.exp x))) := by
    simp only [hneg, Mat.map, List.getElem?_zipWith, List.getElem?_map, hz, Option.map_some]
  obtain ⟨L, hL, hLn, hLr⟩ := count_liks_class_nan Y hY _ hZ hlt hrow (by
    rw [List.zipWith_map_right, List.zipWith_self]
    exact List.mem_map.2 ⟨_, hzn, xr_nan_sub _⟩) per (by rw [hperl, List.length_zipIdx, hpl])
  refine nbPredict_class_nan hlt h2 (L := L) ?_ hLn hLr
  unfold nbLogProbs
  rw [h1, h3]
  show (do
    let diff ← Mat.zip Scalar.sub d.logProbs neg
    let res ← Mat.mul Y diff.transpose
    let per ← prior.zipIdx.mapM fun (p : XR × ℕ) => do
      let s ← getAt neg.sumCols p.2
      ok (Scalar.ln p.1 +. s)
    addClassRow res Y.rows.length per) = _
  rw [hzip]
  simp only [ok_bind]
  rw [← hL, hper]
  rfl

/-- Multinomial naive Bayes: a NaN in class 1. -/
example : ∃ m', nbTrain multDistr (nbNew _ XR) ⟨1, [[.fin 1], [.nan], [.fin 0], [.fin 2]]⟩ (finMat ⟨2, [[0, 1], [0, 1], [1, 0], [1, 0]]⟩) = (m', ok ()) ∧
    ∃ P, nbPredict multDistr m' ⟨1, [[.fin 1]]⟩ = ok P ∧ P.rows.length = 1 ∧ ∀ r ∈ P.rows, r[1]? = some (.fin 0) := by
  obtain ⟨m', h⟩ : ∃ m', nbTrain multDistr (nbNew _ XR) ⟨1, [[.fin 1], [.nan], [.fin 0], [.fin 2]]⟩ (finMat ⟨2, [[0, 1], [0, 1], [1, 0], [1, 0]]⟩) = (m', ok ()) := by
    simp [nbTrain, finMat, nbScan, findClass, nbFit, Mat.selectRows, getAt, ofOption, multDistr, multUpdate, setAt, Mat.zeros, List.replicate, List.modify]
  exact ⟨m', h, (C148_multinomial_violation _ m' ⟨1, [[.fin 1], [.nan], [.fin 0], [.fin 2]]⟩ ⟨1, [[.fin 1]]⟩ ⟨2, [[0, 1], [0, 1], [1, 0], [1, 0]]⟩
    (by intro r hr; simp at hr; rcases hr with rfl | rfl | rfl | rfl <;> rfl) (by intro r hr; simp at hr; rcases hr with rfl | rfl <;> rfl)
    (by intro r hr; simp at hr; rw [hr]; rfl) rfl rfl 1 [.nan] [0, 1] (by simp) flat_class.2 (by simp) h).2 (by norm_num)⟩

/-- Bernoulli naive Bayes: a NaN in class 0. -/
example : ∃ m', nbTrain bernDistr (nbNew _ XR) ⟨1, [[.fin 1], [.fin 1], [.nan], [.fin 0]]⟩ (finMat ⟨2, [[0, 1], [0, 1], [1, 0], [1, 0]]⟩) = (m', ok ()) ∧
    nbPredict bernDistr m' ⟨1, [[.fin 1], [.fin 0]]⟩ = ok ⟨2, [[.fin 1, .fin 0], [.fin 1, .fin 0]]⟩ := by
  obtain ⟨m', h⟩ : ∃ m', nbTrain bernDistr (nbNew _ XR) ⟨1, [[.fin 1], [.fin 1], [.nan], [.fin 0]]⟩ (finMat ⟨2, [[0, 1], [0, 1], [1, 0], [1, 0]]⟩) = (m', ok ()) := by
    simp [nbTrain, finMat, nbScan, findClass, nbFit, Mat.selectRows, getAt, ofOption, bernDistr, bernUpdate, setAt, Mat.zeros, List.replicate, List.modify]
  exact ⟨m', h, (C148_bernoulli_violation _ m' ⟨1, [[.fin 1], [.fin 1], [.nan], [.fin 0]]⟩ ⟨1, [[.fin 1], [.fin 0]]⟩ ⟨2, [[0, 1], [0, 1], [1, 0], [1, 0]]⟩
    (by intro r hr; simp at hr; rcases hr with rfl | rfl | rfl | rfl <;> rfl) (by intro r hr; simp at hr; rcases hr with rfl | rfl <;> rfl)
    (by intro r hr; simp at hr; rcases hr with rfl | rfl <;> rfl) rfl rfl 0 [.nan] [1, 0] (by simp) flat_class.1 (by simp) h).1 rfl⟩

end RM
