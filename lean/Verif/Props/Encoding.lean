import Mathlib.Tactic.IntervalCases
import Verif.Spec.Encoding
import Verif.Props.NaiveBayes
import Verif.Props.KNN
import Verif.Props.Score

/-! C95: the encoding of the classes does not matter. -/

namespace RM
open Outcome Scalar Spec

/-! ### Naive Bayes -/

theorem recode_length {k : ℕ} (ρ : Equiv.Perm (Fin k)) (row : List ℝ) : (recode ρ row).length = k := by simp [recode]

theorem coord_recode {k : ℕ} (ρ : Equiv.Perm (Fin k)) (row : List ℝ) (c : Fin k) : coord (recode ρ row) c = coord row (ρ c) := by
  unfold coord recode
  rw [getD_lt _ (by simp)]
  simp [coord]

theorem recode_getElem? {k : ℕ} (ρ : Equiv.Perm (Fin k)) {row : List ℝ} (h : row.length = k) (c : Fin k) :
    (recode ρ row)[(c : ℕ)]? = row[(ρ c : ℕ)]? := by
  have hr : (ρ c : ℕ) < row.length := by rw [h]; exact (ρ c).2
  rw [List.getElem?_eq_getElem (by rw [recode_length]; exact c.2), List.getElem?_eq_getElem hr]
  simp only [recode, List.getElem_ofFn, coord, getD_lt _ hr]

theorem recode_range {k : ℕ} (ρ : Equiv.Perm (Fin k)) {g g' : ℕ → ℝ} (h : ∀ c : Fin k, g' c = g (ρ c)) :
    recode ρ ((List.range k).map g) = (List.range k).map g' := by
  apply List.ext_getElem (by simp [recode])
  intro i h1 h2
  have hi : i < k := by simpa using h2
  simp [recode, coord, h ⟨i, hi⟩]

theorem recode_oneHot {k : ℕ} (ρ : Equiv.Perm (Fin k)) {i : Fin k} {t : List ℝ} (h : IsOneHot k i t) : IsOneHot k (ρ.symm i) (recode ρ t) := by
  refine ⟨recode_length _ _, Fin.is_lt _, ?_⟩
  intro j hj
  rw [coord_recode ρ t ⟨j, hj⟩, h.2.2 _ (Fin.is_lt _)]
  have : ((ρ ⟨j, hj⟩ : Fin k) : ℕ) = i ↔ j = (ρ.symm i : ℕ) := by
    rw [Fin.val_inj, ← Equiv.eq_symm_apply, ← Fin.val_inj]
  simp only [this]

theorem classOf_oneHot {k i : ℕ} {t : List ℝ} (h : IsOneHot k i t) : classOf t = some i := by
  obtain ⟨h1, h2, h3⟩ := h
  unfold classOf
  rw [List.findIdx?_eq_some_iff_getElem]
  have hc : ∀ j (hj : j < t.length), t[j] = if j = i then 1 else 0 := by
    intro j hj
    have := h3 j (by omega)
    unfold coord at this
    rwa [getD_lt _ hj] at this
  refine ⟨by omega, by simp [hc], ?_⟩
  intro j hj
  rw [hc j (by omega), if_neg (by omega)]
  simp

theorem oneHot_unique {k i : ℕ} {t t' : List ℝ} (h : IsOneHot k i t) (h' : IsOneHot k i t') : t = t' := by
  apply List.ext_getElem (by rw [h.1, h'.1])
  intro j h1 h2
  have hj : j < k := by rw [← h.1]; exact h1
  have e := (h.2.2 j hj).trans (h'.2.2 j hj).symm
  unfold coord at e
  rwa [getD_lt _ h1, getD_lt _ h2] at e

theorem classOf_recode {k : ℕ} (ρ : Equiv.Perm (Fin k)) {t : List ℝ} (h : ∃ i, IsOneHot k i t) (c : Fin k) :
    classOf (recode ρ t) = some (c : ℕ) ↔ classOf t = some (ρ c : ℕ) := by
  obtain ⟨i, h⟩ := h
  have hi := h.2.1
  rw [classOf_oneHot h, classOf_oneHot (recode_oneHot ρ (i := ⟨i, hi⟩) h)]
  simp only [Option.some.injEq]
  constructor
  · intro e
    have : ρ.symm ⟨i, hi⟩ = c := Fin.ext e
    rw [Equiv.symm_apply_eq] at this
    exact congrArg Fin.val this
  · intro e
    have : (⟨i, hi⟩ : Fin k) = ρ c := Fin.ext e
    rw [this, Equiv.symm_apply_apply]

theorem classSize_recode {k : ℕ} (ρ : Equiv.Perm (Fin k)) {T : List (List ℝ)} (h : ∀ t ∈ T, ∃ i, IsOneHot k i t) (c : Fin k) :
    classSize (T.map (recode ρ)) c = classSize T (ρ c) := by
  unfold classSize
  rw [List.countP_map]
  apply List.countP_congr
  intro t ht
  simp [classOf_recode ρ (h t ht) c]

theorem classSamples_recode {k : ℕ} (ρ : Equiv.Perm (Fin k)) {T : List (List ℝ)} (h : ∀ t ∈ T, ∃ i, IsOneHot k i t) (X : List (List ℝ)) (c : Fin k) :
    classSamples X (T.map (recode ρ)) c = classSamples X T (ρ c) := by
  unfold classSamples
  rw [List.zip_map_right, List.filter_map, List.map_map]
  have : (Prod.fst ∘ Prod.map id (recode ρ) : List ℝ × List ℝ → List ℝ) = Prod.fst := by funext p; rfl
  rw [this]
  congr 1
  apply List.filter_congr
  intro p hp
  simp [classOf_recode ρ (h p.2 (List.of_mem_zip hp).2) c]

theorem recode_ne_none {k : ℕ} (ρ : Equiv.Perm (Fin k)) {T : List (List ℝ)} (h : ∀ t ∈ T, ∃ i, IsOneHot k i t) :
    ∀ t ∈ T.map (recode ρ), classOf t ≠ none := by
  intro t ht
  obtain ⟨s, hs, rfl⟩ := List.mem_map.1 ht
  obtain ⟨i, hi⟩ := h s hs
  rw [classOf_oneHot (recode_oneHot ρ (i := ⟨i, hi.2.1⟩) hi)]
  simp

theorem oneHot_ne_none {k : ℕ} {T : List (List ℝ)} (h : ∀ t ∈ T, ∃ i, IsOneHot k i t) : ∀ t ∈ T, classOf t ≠ none := by
  intro t ht
  obtain ⟨i, hi⟩ := h t ht
  rw [classOf_oneHot hi]
  simp

theorem recode_wf (T : Mat ℝ) (ρ : Equiv.Perm (Fin T.cols)) : (⟨T.cols, T.rows.map (recode ρ)⟩ : Mat ℝ).WF := by
  intro r hr
  obtain ⟨s, _, rfl⟩ := List.mem_map.1 hr
  exact recode_length _ _

/-- A unique maximum stays one and is found where it went. -/
theorem firstMax_recode {k : ℕ} (ρ : Equiv.Perm (Fin k)) {l : List ℝ} (hl : l.length = k) (hu : UniqueMax l) {i : ℕ} (h : IsFirstMax l i)
    {c : Fin k} (h' : IsFirstMax (recode ρ l) c) : (ρ c : ℕ) = i := by
  obtain ⟨a, v, ha, hv⟩ := hu
  have hal : a < l.length := (List.getElem?_eq_some_iff.1 ha).1
  have hia : i = a := by
    obtain ⟨w, hw, hw2, -⟩ := h
    by_contra hne
    have h1 := hv i w hne hw
    have h2 := hw2 v (List.mem_of_getElem? ha)
    linarith
  obtain ⟨w, hw, hw2, -⟩ := h'
  rw [recode_getElem? ρ hl] at hw
  rw [hia]
  by_contra hne
  have h1 := hv _ w hne hw
  have h2 := hw2 v (by
    have := recode_getElem? ρ hl (ρ.symm ⟨a, by omega⟩)
    rw [Equiv.apply_symm_apply] at this
    rw [ha] at this
    exact List.mem_of_getElem? this)
  linarith

theorem nb_recode {D : Type} (B : NBDistr D ℝ) {m1 m2 : NaiveBayes D ℝ} {k : ℕ} (hk : 0 < k) (ρ : Equiv.Perm (Fin k)) (Y : Mat ℝ) {g g' : ℕ → List ℝ → ℝ}
    (hc1 : m1.clusterCount = some k) (hc2 : m2.clusterCount = some k)
    (h1 : nbLogProbs B m1 Y = ok ⟨k, Y.rows.map fun x => (List.range k).map fun c => g c x⟩)
    (h2 : nbLogProbs B m2 Y = ok ⟨k, Y.rows.map fun x => (List.range k).map fun c => g' c x⟩)
    (hg : ∀ x (c : Fin k), g' c x = g (ρ c) x) :
    ∃ L P P', nbLogProbs B m1 Y = ok L ∧ nbLogProbs B m2 Y = ok ⟨k, L.rows.map (recode ρ)⟩ ∧
      nbPredict B m1 Y = ok P ∧ nbPredict B m2 Y = ok P' ∧ L.rows.length = Y.rows.length ∧ P.rows.length = Y.rows.length ∧ P'.rows.length = Y.rows.length ∧
      ∀ (i : ℕ) (lik row : List ℝ), L.rows[i]? = some lik → P.rows[i]? = some row → UniqueMax lik → P'.rows[i]? = some (recode ρ row) := by
  obtain ⟨P, hP, p1, p2⟩ := nbPredict_real B m1 Y _ hk hc1 h1 (lik_table _ _ _)
  obtain ⟨P', hP', q1, q2⟩ := nbPredict_real B m2 Y _ hk hc2 h2 (lik_table _ _ _)
  have e : (Y.rows.map fun x => (List.range k).map fun c => g' c x) = (Y.rows.map fun x => (List.range k).map fun c => g c x).map (recode ρ) := by
    rw [List.map_map]
    apply List.map_congr_left
    intro x _
    exact (recode_range ρ (hg x)).symm
  refine ⟨_, P, P', h1, by rw [h2, e], hP, hP', by simp, by simpa using p2.length_eq.symm, by simpa using q2.length_eq.symm, ?_⟩
  intro i lik row hi hrow hu
  rw [e] at q2
  have hiY : i < (Y.rows.map fun x => (List.range k).map fun c => g c x).length := (List.getElem?_eq_some_iff.1 hi).1
  have hiP' : i < P'.rows.length := by have := q2.length_eq; simp at this hiY; omega
  have hiP : i < P.rows.length := (List.getElem?_eq_some_iff.1 hrow).1
  obtain ⟨a, a1, a2⟩ := p2.get hiY hiP
  obtain ⟨c, c1, c2⟩ := q2.get (by simpa using hiY) hiP'
  have el : (Y.rows.map fun x => (List.range k).map fun c => g c x)[i] = lik := (List.getElem?_eq_some_iff.1 hi).2
  have er : P.rows[i] = row := (List.getElem?_eq_some_iff.1 hrow).2
  simp only [List.get_eq_getElem, List.getElem_map _ (l := Y.rows.map fun x => (List.range k).map fun c => g c x)] at a1 a2 c1 c2
  rw [el] at a1 c1
  rw [er] at a2
  have hlen : lik.length = k := by rw [← el]; simp
  have hρ := firstMax_recode ρ hlen hu a1 (c := ⟨c, c2.2.1⟩) c1
  rw [List.getElem?_eq_getElem hiP']
  congr 1
  have r1 := recode_oneHot ρ (i := ⟨a, a2.2.1⟩) a2
  have : (ρ.symm ⟨a, a2.2.1⟩ : ℕ) = c := by
    have h3 : ρ ⟨c, c2.2.1⟩ = ⟨a, a2.2.1⟩ := Fin.ext hρ
    rw [← h3, Equiv.symm_apply_apply]
  rw [this] at r1
  exact oneHot_unique c2 r1

/-- **C95 (Bernoulli naive Bayes).** Renaming the classes in the targets renames the columns of the class log-probabilities and,
unless two classes are tied for the highest, the predictions, and changes nothing else. -/
theorem C95_naive_bayes_bernoulli (m : NaiveBayes (LogProbsD ℝ) ℝ) (X T Y : Mat ℝ) (hT : T.WF) (hY : Y.WF) (hk : 0 < T.cols) (hf : Y.cols = X.cols)
    (hn : X.rows.length = T.rows.length) (h1 : ∀ t ∈ T.rows, ∃ i, IsOneHot T.cols i t) (ρ : Equiv.Perm (Fin T.cols)) :
    ∃ m1 m2 L P P', nbTrain bernDistr m X T = (m1, ok ()) ∧ nbTrain bernDistr m X ⟨T.cols, T.rows.map (recode ρ)⟩ = (m2, ok ()) ∧
      nbLogProbs bernDistr m1 Y = ok L ∧ nbLogProbs bernDistr m2 Y = ok ⟨T.cols, L.rows.map (recode ρ)⟩ ∧
      nbPredict bernDistr m1 Y = ok P ∧ nbPredict bernDistr m2 Y = ok P' ∧
      L.rows.length = Y.rows.length ∧ P.rows.length = Y.rows.length ∧ P'.rows.length = Y.rows.length ∧
      ∀ (i : ℕ) (lik row : List ℝ), L.rows[i]? = some lik → P.rows[i]? = some row → UniqueMax lik → P'.rows[i]? = some (recode ρ row) := by
  obtain ⟨m1, d1, a1, a2, a3, a4, a5, a6⟩ := nb_trained_bern (m := m) hT (oneHot_ne_none h1) hn
  obtain ⟨m2, d2, b1, b2, b3, b4, b5, b6⟩ := nb_trained_bern (m := m) (recode_wf T ρ) (recode_ne_none ρ h1) (by simpa using hn)
  obtain ⟨L, P, P', h⟩ := nb_recode bernDistr hk ρ Y a3 b3 (bern_logProbs hY a2 a4 (by simp) (by rw [hf]; exact a5))
    (bern_logProbs hY b2 b4 (by simp) (by rw [hf]; exact b5)) (by
      intro x c
      simp only [coord]
      rw [b6 c c.2, a6 (ρ c) (ρ c).2]
      simp only [classSize_recode ρ h1, classSamples_recode ρ h1]
      rw [getD_lt _ (by simp), getD_lt _ (by simp)]
      simp [classSize_recode ρ h1])
  exact ⟨m1, m2, L, P, P', a1, b1, h⟩

/-- **C95 (multinomial naive Bayes).** -/
theorem C95_naive_bayes_multinomial (m : NaiveBayes (LogProbsD ℝ) ℝ) (X T Y : Mat ℝ) (hT : T.WF) (hY : Y.WF) (hk : 0 < T.cols) (hf : Y.cols = X.cols)
    (hn : X.rows.length = T.rows.length) (h1 : ∀ t ∈ T.rows, ∃ i, IsOneHot T.cols i t) (ρ : Equiv.Perm (Fin T.cols)) :
    ∃ m1 m2 L P P', nbTrain multDistr m X T = (m1, ok ()) ∧ nbTrain multDistr m X ⟨T.cols, T.rows.map (recode ρ)⟩ = (m2, ok ()) ∧
      nbLogProbs multDistr m1 Y = ok L ∧ nbLogProbs multDistr m2 Y = ok ⟨T.cols, L.rows.map (recode ρ)⟩ ∧
      nbPredict multDistr m1 Y = ok P ∧ nbPredict multDistr m2 Y = ok P' ∧
      L.rows.length = Y.rows.length ∧ P.rows.length = Y.rows.length ∧ P'.rows.length = Y.rows.length ∧
      ∀ (i : ℕ) (lik row : List ℝ), L.rows[i]? = some lik → P.rows[i]? = some row → UniqueMax lik → P'.rows[i]? = some (recode ρ row) := by
  obtain ⟨m1, d1, a1, a2, a3, a4, a5, a6⟩ := nb_trained_mult (m := m) hT (oneHot_ne_none h1) hn
  obtain ⟨m2, d2, b1, b2, b3, b4, b5, b6⟩ := nb_trained_mult (m := m) (recode_wf T ρ) (recode_ne_none ρ h1) (by simpa using hn)
  obtain ⟨L, P, P', h⟩ := nb_recode multDistr hk ρ Y a3 b3 (mult_logProbs hY a2 a4 (by simp) (by rw [hf]; exact a5))
    (mult_logProbs hY b2 b4 (by simp) (by rw [hf]; exact b5)) (by
      intro x c
      simp only [coord]
      rw [b6 c c.2, a6 (ρ c) (ρ c).2]
      simp only [classSize_recode ρ h1, classSamples_recode ρ h1]
      rw [getD_lt _ (by simp), getD_lt _ (by simp)]
      simp [classSize_recode ρ h1])
  exact ⟨m1, m2, L, P, P', a1, b1, h⟩

/-- **C95 (Gaussian naive Bayes).** Every class has at least two samples, so that both trainings succeed. -/
theorem C95_naive_bayes_gaussian (m : NaiveBayes (GaussD ℝ) ℝ) (X T Y : Mat ℝ) (hX : X.WF) (hT : T.WF) (hk : 0 < T.cols) (hf : Y.cols = X.cols)
    (hn : X.rows.length = T.rows.length) (h1 : ∀ t ∈ T.rows, ∃ i, IsOneHot T.cols i t) (h2 : ∀ c < T.cols, 2 ≤ classSize T.rows c)
    (ρ : Equiv.Perm (Fin T.cols)) :
    ∃ m1 m2 L P P', nbTrain gaussDistr m X T = (m1, ok ()) ∧ nbTrain gaussDistr m X ⟨T.cols, T.rows.map (recode ρ)⟩ = (m2, ok ()) ∧
      nbLogProbs gaussDistr m1 Y = ok L ∧ nbLogProbs gaussDistr m2 Y = ok ⟨T.cols, L.rows.map (recode ρ)⟩ ∧
      nbPredict gaussDistr m1 Y = ok P ∧ nbPredict gaussDistr m2 Y = ok P' ∧
      L.rows.length = Y.rows.length ∧ P.rows.length = Y.rows.length ∧ P'.rows.length = Y.rows.length ∧
      ∀ (i : ℕ) (lik row : List ℝ), L.rows[i]? = some lik → P.rows[i]? = some row → UniqueMax lik → P'.rows[i]? = some (recode ρ row) := by
  have h2' : ∀ c < T.cols, 2 ≤ classSize (T.rows.map (recode ρ)) c := by
    intro c hc
    rw [classSize_recode ρ h1 ⟨c, hc⟩]
    exact h2 _ (Fin.is_lt _)
  have hone : ∀ {R : List (List ℝ)}, (∀ t ∈ R, classOf t ≠ none) → ∀ t ∈ R, ∃ v ∈ t, v = 1 := by
    intro R h t ht
    obtain ⟨c, hc⟩ := Option.ne_none_iff_exists'.1 (h t ht)
    unfold classOf at hc
    obtain ⟨g1, g2, _⟩ := List.findIdx?_eq_some_iff_getElem.1 hc
    exact ⟨t[c], List.getElem_mem g1, by simpa using g2⟩
  obtain ⟨m1, a1⟩ := (C35_trains_iff m X T hX hT hn).2 ⟨hone (oneHot_ne_none h1), fun c hc => by have := h2 c hc; omega⟩
  obtain ⟨m2, b1⟩ := (C35_trains_iff m X ⟨T.cols, T.rows.map (recode ρ)⟩ hX (recode_wf T ρ) (by simpa using hn)).2
    ⟨hone (recode_ne_none ρ h1), fun c hc => by have := h2' c hc; dsimp only; omega⟩
  obtain ⟨c1, d1, f1, rfl⟩ := (nbTrain_ok_iff _ m m1 X T hT).1 a1
  obtain ⟨c2, d2, f2, rfl⟩ := (nbTrain_ok_iff _ m m2 X _ (recode_wf T ρ)).1 b1
  obtain ⟨t1, t2⟩ := gauss_tables f1
  obtain ⟨s1, s2⟩ := gauss_tables f2
  have j1 := gaussJoint_real d1 Y (by rw [hf]; exact t1) (by rw [hf]; exact t2)
    ((List.range T.cols).map fun c => (classSize T.rows c : ℝ) / X.rows.length) (by simp)
  have j2 := gaussJoint_real d2 Y (by rw [hf]; exact s1) (by rw [hf]; exact s2)
    ((List.range T.cols).map fun c => (classSize (T.rows.map (recode ρ)) c : ℝ) / X.rows.length) (by simp)
  obtain ⟨L, P, P', h⟩ := nb_recode gaussDistr 
    (m1 := ⟨some d1, some T.cols, some ((List.range T.cols).map fun c => (classSize T.rows c : ℝ) / X.rows.length),
      (List.range T.cols).map fun c => classSize T.rows c⟩)
    (m2 := ⟨some d2, some T.cols, some ((List.range T.cols).map fun c => (classSize (T.rows.map (recode ρ)) c : ℝ) / X.rows.length),
      (List.range T.cols).map fun c => classSize (T.rows.map (recode ρ)) c⟩) hk ρ Y rfl rfl j1 j2 (by
      intro x c
      have p1 := gauss_params hX c1 hn f1 (ρ c).2 (by have := h2 (ρ c) (ρ c).2; omega)
      have p2 := gauss_params hX c2 (by simpa using hn) f2 c.2 (by have := h2' c c.2; dsimp only; omega)
      rw [p1.2.1, p1.2.2, p2.2.1, p2.2.2]
      simp only [classSamples_recode ρ h1]
      rw [getD_lt _ (by simp), getD_lt _ (by simp)]
      simp [classSize_recode ρ h1])
  exact ⟨_, _, L, P, P', a1, b1, h⟩

/-- Two classes of two samples each, exchanged. -/
example : ∃ (X T : Mat ℝ) (ρ : Equiv.Perm (Fin T.cols)), X.WF ∧ T.WF ∧ 0 < T.cols ∧ X.rows.length = T.rows.length ∧
    (∀ t ∈ T.rows, ∃ i, IsOneHot T.cols i t) ∧ (∀ c < T.cols, 2 ≤ classSize T.rows c) ∧ T.rows.map (recode ρ) ≠ T.rows := by
  have h0 : IsOneHot 2 0 [1, 0] := ⟨rfl, by norm_num, by intro j hj; interval_cases j <;> simp [coord]⟩
  have h1 : IsOneHot 2 1 [0, 1] := ⟨rfl, by norm_num, by intro j hj; interval_cases j <;> simp [coord]⟩
  refine ⟨⟨1, [[0], [1], [5], [7]]⟩, ⟨2, [[1, 0], [1, 0], [0, 1], [0, 1]]⟩, Equiv.swap 0 1, by simp [Mat.WF], by simp [Mat.WF], by norm_num, rfl, ?_, ?_, ?_⟩
  · intro t ht
    simp only [List.mem_cons, List.not_mem_nil, or_false] at ht
    rcases ht with rfl | rfl | rfl | rfl
    · exact ⟨0, h0⟩
    · exact ⟨0, h0⟩
    · exact ⟨1, h1⟩
    · exact ⟨1, h1⟩
  · intro c hc
    dsimp only at hc
    unfold classSize
    simp only [List.countP_cons, List.countP_nil, classOf_oneHot h0, classOf_oneHot h1]
    interval_cases c <;> simp
  · simp [recode, coord, List.ofFn_succ]

/-! ### Nearest neighbours -/

theorem bumpKey_map {f : ℕ → ℕ} (hf : StrictMono f) (l : ℕ) : ∀ m : List (ℕ × ℕ),
    bumpKey (f l) (m.map (Prod.map f id)) = (bumpKey l m).map (Prod.map f id)
  | [] => rfl
  | (k, c) :: m => by
    simp only [List.map_cons, Prod.map_apply, id_eq, bumpKey, hf.lt_iff_lt, hf.injective.eq_iff]
    split
    · rfl
    · split
      · rfl
      · rw [bumpKey_map hf l m]; rfl

theorem freq_map {f : ℕ → ℕ} (hf : StrictMono f) (ls : List ℕ) : freq (ls.map f) = (freq ls).map (Prod.map f id) := by
  have : ∀ (ls : List ℕ) (m : List (ℕ × ℕ)), (ls.map f).foldl (fun m l => bumpKey l m) (m.map (Prod.map f id)) =
      (ls.foldl (fun m l => bumpKey l m) m).map (Prod.map f id) := by
    intro ls
    induction ls with
    | nil => intro m; rfl
    | cons l ls ih => intro m; rw [List.map_cons, List.foldl_cons, bumpKey_map hf, ih, List.foldl_cons]
  exact this ls []

theorem getAt_map' {α β : Type} (f : α → β) (l : List α) (i : ℕ) : getAt (l.map f) i = (do let x ← getAt l i; ok (f x)) := by
  unfold getAt
  rw [List.getElem?_map]
  cases l[i]? <;> rfl

theorem mapM_getAt_relabel {α β : Type} (f : α → β) (l : List α) : ∀ idx : List ℕ,
    idx.mapM (getAt (l.map f)) = (do let xs ← idx.mapM (getAt l); ok (xs.map f))
  | [] => rfl
  | i :: idx => by
    rw [List.mapM_cons, List.mapM_cons, mapM_getAt_relabel f l idx, getAt_map']
    cases getAt l i <;> try rfl
    cases idx.mapM (getAt l) <;> rfl

theorem knnVote_map {f : ℕ → ℕ} (hf : StrictMono f) (target idx : List ℕ) :
    knnVote (target.map f) idx = (do let l ← knnVote target idx; ok (f l)) := by
  unfold knnVote
  rw [mapM_getAt_relabel]
  cases idx.mapM (getAt target) with
  | ok res =>
    simp only [ok_bind]
    rw [freq_map hf, List.map_map, List.map_map]
    have e1 : (Prod.snd ∘ Prod.map f id : ℕ × ℕ → ℕ) = Prod.snd := by funext p; rfl
    have e2 : (Prod.fst ∘ Prod.map f id : ℕ × ℕ → ℕ) = f ∘ Prod.fst := by funext p; rfl
    rw [e1, e2, ← List.map_map]
    cases argmaxBy (fun a b => decide (a < b)) ((freq res).map Prod.snd) with
    | ok r => simp only [ok_bind]; rw [getAt_map']
    | _ => rfl
  | _ => rfl

theorem mapM_post {α β γ : Type} (f : β → γ) (u : α → Outcome β) (v : α → Outcome γ) : ∀ l : List α,
    (∀ a ∈ l, v a = (do let b ← u a; ok (f b))) → l.mapM v = (do let bs ← l.mapM u; ok (bs.map f))
  | [], _ => rfl
  | a :: l, h => by
    rw [List.mapM_cons, List.mapM_cons, mapM_post f u v l fun x hx => h x (List.mem_cons_of_mem _ hx), h a (by simp)]
    cases u a <;> try rfl
    cases l.mapM u <;> rfl

set_option linter.unusedSectionVars false

variable {F : Type} [Scalar F]

/-- **C95 (nearest neighbours, order kept).** Renaming the labels by an increasing function renames the predictions and nothing else:
with any searcher, any arithmetic, and whatever the outcome, ties and failures included. -/
theorem C95_knn_monotone {S : Type} (R : Searcher F S) (c : KNNClassifier S) (X Y : Mat F) (y : List ℕ) {f : ℕ → ℕ} (hf : StrictMono f) :
    (knnTrain R c X (y.map f)).2 = (knnTrain R c X y).2 ∧
    ((knnTrain R c X y).2 = ok () → knnPredict R (knnTrain R c X (y.map f)).1 Y = (do let out ← knnPredict R (knnTrain R c X y).1 Y; ok (out.map f))) := by
  have hp : ∀ s, knnPredict R ⟨c.k, s, some (y.map f)⟩ Y = (do let out ← knnPredict R ⟨c.k, s, some y⟩ Y; ok (out.map f)) := by
    intro s
    unfold knnPredict
    simp only
    apply mapM_post
    intro row _
    cases R.search s row c.k with
    | ok r => simp only [ok_bind]; exact knnVote_map hf y r.1
    | _ => rfl
  unfold knnTrain
  rw [List.length_map]
  split
  · exact ⟨rfl, fun h => by simp at h⟩
  · split
    · exact ⟨rfl, fun h => by simp at h⟩
    · cases hb : R.build c.searcher X with
      | ok s => exact ⟨rfl, fun _ => hp s⟩
      | err e => exact ⟨rfl, fun h => by simp at h⟩
      | panic => exact ⟨rfl, fun h => by simp at h⟩
      | ub => exact ⟨rfl, fun h => by simp at h⟩

theorem majority_unique {ls : List ℕ} {a : ℕ} (h : MajorityLabel ls a) (hc : ClearMajority ls) : ∀ l', l' ≠ a → ls.count l' < ls.count a := by
  obtain ⟨l, hl, hlt⟩ := hc
  have : l = a := by
    by_contra hne
    have h1 := hlt a (Ne.symm hne)
    have h2 := h.most l
    omega
  rw [← this]
  exact hlt

theorem majority_map {f : ℕ → ℕ} (hf : Function.Injective f) {ls : List ℕ} {a b : ℕ} (ha : MajorityLabel ls a) (hc : ClearMajority ls)
    (hb : MajorityLabel (ls.map f) b) : b = f a := by
  have hlt := majority_unique ha hc
  obtain ⟨b', hb', rfl⟩ := List.mem_map.1 hb.occurs
  by_contra hne
  have h1 := hlt b' (fun h => hne (by rw [h]))
  have h2 := hb.most (f a)
  rw [List.count_map_of_injective _ _ hf, List.count_map_of_injective _ _ hf] at h2
  omega

/-- **C95 (nearest neighbours).** Any renaming of the labels renames the predictions for all queries whose neighbours have a label
that is more frequent than the others. -/
theorem C95_knn {S : Type} (R : Searcher F S) (c : KNNClassifier S) (target : List ℕ) (ht : c.target = some target) (Y : Mat F)
    (hs : ∀ row ∈ Y.rows, ∃ idx ds, R.search c.searcher row c.k = ok (idx, ds) ∧ idx ≠ [] ∧ (∀ i ∈ idx, i < target.length) ∧
      ClearMajority (idx.filterMap fun i => target[i]?))
    {f : ℕ → ℕ} (hf : Function.Injective f) :
    ∃ out, knnPredict R c Y = ok out ∧ knnPredict R ⟨c.k, c.searcher, some (target.map f)⟩ Y = ok (out.map f) := by
  obtain ⟨out, h1, h2⟩ := C24_predict_is_majority R c target ht Y fun row hr => by
    obtain ⟨idx, ds, a, b, d, _⟩ := hs row hr
    exact ⟨idx, ds, a, b, d⟩
  obtain ⟨out', g1, g2⟩ := C24_predict_is_majority R ⟨c.k, c.searcher, some (target.map f)⟩ (target.map f) rfl Y fun row hr => by
    obtain ⟨idx, ds, a, b, d, _⟩ := hs row hr
    exact ⟨idx, ds, a, b, by simpa using d⟩
  refine ⟨out, h1, ?_⟩
  rw [g1]
  congr 1
  apply List.ext_getElem
  · rw [List.length_map, ← h2.length_eq, ← g2.length_eq]
  · intro i i1 i2
    have iY : i < Y.rows.length := by rw [g2.length_eq]; exact i1
    have iO : i < out.length := by simpa using i2
    obtain ⟨idx, ds, a1, a2⟩ := h2.get iY iO
    obtain ⟨idx', ds', b1, b2⟩ := g2.get iY i1
    obtain ⟨idx0, ds0, e1, -, -, e4⟩ := hs Y.rows[i] (List.getElem_mem iY)
    simp only [List.get_eq_getElem] at a1 a2 b1 b2
    rw [e1] at a1 b1
    cases a1
    cases b1
    rw [List.getElem_map]
    refine majority_map hf a2 e4 ?_
    have : idx.filterMap (fun i => (target.map f)[i]?) = (idx.filterMap fun i => target[i]?).map f := by
      rw [List.map_filterMap]
      congr 1
      funext i
      rw [List.getElem?_map]
    rw [this] at b2
    exact b2

/-- In a tie the name decides: one neighbour of each of two classes, and the prediction is class 0 under both numberings. -/
theorem C95_knn_tie : knnVote [0, 1] [0, 1] = ok 0 ∧ knnVote ([0, 1].map fun c => 1 - c) [0, 1] = ok 0 := by decide

/-- Three neighbours, two of class 4; the renaming exchanges 4 and 1 and keeps everything else. -/
example : ClearMajority ([0, 2, 3].filterMap fun i => ([4, 0, 1, 4] : List ℕ)[i]?) ∧ Function.Injective (Equiv.swap 4 1 : ℕ → ℕ) ∧
    [4, 0, 1, 4].map (Equiv.swap 4 1 : ℕ → ℕ) = [1, 0, 4, 1] := by
  refine ⟨⟨4, by decide, ?_⟩, Equiv.injective _, by decide⟩
  intro l' hl
  have : ([0, 2, 3].filterMap fun i => ([4, 0, 1, 4] : List ℕ)[i]?) = [4, 1, 4] := by decide
  rw [this]
  simp only [List.count_cons, List.count_nil]
  have h4 : (4 == l') = false := by simpa using Ne.symm hl
  rw [h4]
  by_cases h1 : (1 == l') = true <;> simp [h1]

/-! ### Scores -/

/-- **C95 (accuracy).** Renaming the labels in predictions and targets leaves the accuracy as it was. -/
theorem C95_accuracy {T U : Type} [DecidableEq T] [DecidableEq U] {f : T → U} (hf : Function.Injective f) (o t : List T) :
    (accuracy (fun a b => decide (a = b)) (o.map f) (t.map f) : Outcome F) = accuracy (fun a b => decide (a = b)) o t := by
  unfold accuracy
  rw [List.length_map, List.length_map, List.zip_map, List.filter_map, List.length_map]
  have : ((fun p : U × U => decide (p.1 = p.2)) ∘ Prod.map f f) = fun p : T × T => decide (p.1 = p.2) := by
    funext p
    simp [hf.eq_iff]
  rw [this]

theorem pairCount_map {T U : Type} [DecidableEq T] [DecidableEq U] {f : T → U} (hf : Function.Injective f) (u v : List T) (a b : T) :
    pairCount (u.map f) (v.map f) (f a) (f b) = pairCount u v a b := by
  unfold pairCount
  rw [List.length_map]
  congr 1
  funext i
  have : ∀ (l : List T) (x : T), (l.map f)[i]? = some (f x) ↔ l[i]? = some x := by
    intro l x
    rw [List.getElem?_map]
    cases l[i]? with
    | none => simp
    | some y => simp [hf.eq_iff]
  simp only [this]

theorem table_ext {m m' : List (List ℕ)} {n : ℕ} (h1 : m.length = n) (h2 : ∀ r ∈ m, r.length = n) (h3 : m'.length = n) (h4 : ∀ r ∈ m', r.length = n)
    (h : ∀ i < n, ∀ j < n, entry m i j = entry m' i j) : m = m' := by
  apply List.ext_getElem (by omega)
  intro i a b
  have r1 := h2 _ (List.getElem_mem a)
  have r2 := h4 _ (List.getElem_mem b)
  apply List.ext_getElem (by omega)
  intro j c d
  have := h i (by omega) j (by omega)
  unfold entry at this
  simp only [List.getElem?_eq_getElem a, List.getElem?_eq_getElem b, Option.bind_some, List.getElem?_eq_getElem c, List.getElem?_eq_getElem d,
    Option.some.injEq] at this
  exact this

/-- **C95 (confusion matrix).** Renaming the labels in predictions, targets and label list gives the same matrix. -/
theorem C95_confusion {T U : Type} [LinearOrder T] [LinearOrder U] {f : T → U} (hf : Function.Injective f) (o t labels : List T) :
    confusionMatrix (o.map f) (t.map f) (some (labels.map f)) = confusionMatrix o t (some labels) := by
  by_cases hlen : o.length = t.length
  · by_cases hnd : labels.Nodup
    · obtain ⟨m, a1, a2, a3, a4⟩ := C08_confusion_entries o t labels hlen hnd
      obtain ⟨m', b1, b2, b3, b4⟩ := C08_confusion_entries (o.map f) (t.map f) (labels.map f) (by simpa using hlen) (hnd.map hf)
      rw [a1, b1]
      congr 1
      rw [List.length_map] at b2
      refine table_ext b2 (by simpa using b3) a2 a3 ?_
      intro i hi j hj
      rw [a4 i j _ _ (List.getElem?_eq_getElem hi) (List.getElem?_eq_getElem hj),
        b4 i j (f labels[i]) (f labels[j]) (by simp [hi]) (by simp [hj]), pairCount_map hf]
    · rw [((C09_panic_iff o t (some labels)).1).2 (Or.inr ⟨_, rfl, hnd⟩),
        ((C09_panic_iff _ _ (some (labels.map f))).1).2 (Or.inr ⟨_, rfl, fun h => hnd (List.Nodup.of_map _ h)⟩)]
  · rw [((C09_panic_iff o t (some labels)).1).2 (Or.inl hlen), ((C09_panic_iff _ _ (some (labels.map f))).1).2 (Or.inl (by simpa using hlen))]

/-- **C95 (confusion matrix without label list).** The rows and columns stand in increasing order of the labels, so here the renaming
must keep the order. -/
theorem C95_confusion_default {T U : Type} [LinearOrder T] [LinearOrder U] {f : T → U} (hf : StrictMono f) (o t : List T) :
    confusionMatrix (o.map f) (t.map f) none = confusionMatrix o t none := by
  obtain ⟨ls, a1, a2, a3⟩ := C09_default_labels o t
  obtain ⟨ls', b1, b2, b3⟩ := C09_default_labels (o.map f) (t.map f)
  rw [a3, b3, ← C95_confusion hf.injective o t ls]
  congr 2
  have hs : (ls.map f).Pairwise (· < ·) := by
    rw [List.pairwise_map]
    exact a1.imp fun h => hf h
  refine (List.Perm.eq_of_pairwise (le := (· < ·)) ?_ b1 hs ?_)
  · intro a b _ _ h1 h2
    exact absurd (lt_trans h1 h2) (lt_irrefl _)
  · rw [List.perm_ext_iff_of_nodup (b1.imp ne_of_lt) (hs.imp ne_of_lt)]
    intro x
    rw [b2, List.mem_map, List.mem_map, List.mem_map]
    constructor
    · rintro (⟨a, h, rfl⟩ | ⟨a, h, rfl⟩)
      · exact ⟨a, (a2 a).2 (Or.inl h), rfl⟩
      · exact ⟨a, (a2 a).2 (Or.inr h), rfl⟩
    · rintro ⟨a, h, rfl⟩
      rcases (a2 a).1 h with h | h
      · exact Or.inl ⟨a, h, rfl⟩
      · exact Or.inr ⟨a, h, rfl⟩

/-- Numbers 0 and 1 for 7 and 5, exchanged in order. -/
example : confusionMatrix ([0, 1, 1].map fun n : ℕ => 7 - 2 * min n 3) ([0, 0, 1].map fun n : ℕ => 7 - 2 * min n 3)
    (some ([0, 1].map fun n : ℕ => 7 - 2 * min n 3)) = ok [[1, 1], [0, 1]] ∧
    confusionMatrix [0, 1, 1] [0, 0, 1] (some [0, 1]) = ok [[1, 1], [0, 1]] := by
  decide +kernel
example : StrictMono (fun n : ℕ => n + 7) := by intro a b h; simpa using h

end RM
