import Verif.Props.BayesApart
import Verif.Props.KNN
import Verif.Props.Targets
import Verif.Props.Transforms

/-! C143: what a few wrong samples can and cannot do. -/

namespace RM
open Outcome Scalar Spec

/-! ### Wrong labels and the vote of the neighbours -/

/-- In how many positions two lists of labels differ. -/
def Spec.wrongLabels (t t' : List ℕ) : ℕ := (List.zip t t').countP fun p => decide (p.1 ≠ p.2)

theorem wrongLabels_nodup {t t' : List ℕ} (hl : t.length = t'.length) {idx : List ℕ} (hd : idx.Nodup) (hi : ∀ i ∈ idx, i < t.length) :
    idx.countP (fun i => decide (t[i]? ≠ t'[i]?)) ≤ wrongLabels t t' := by
  have h1 : wrongLabels t t' = (List.range t.length).countP fun i => decide (t[i]? ≠ t'[i]?) := by
    unfold wrongLabels
    have e : List.zip t t' = (List.range t.length).map fun i => (t.getD i 0, t'.getD i 0) := by
      refine List.ext_getElem (by simp; omega) fun i a b => ?_
      simp only [List.length_zip] at a
      rw [List.getElem_zip, List.getElem_map, List.getElem_range, getD_lt _ (by omega), getD_lt _ (by omega)]
    rw [e, List.countP_map]
    refine List.countP_congr fun i hi => ?_
    have hi := List.mem_range.1 hi
    have hi' : i < t'.length := by omega
    simp [List.getElem?_eq_getElem hi, List.getElem?_eq_getElem hi']
  rw [h1]
  refine List.Subperm.countP_le _ ?_
  refine (List.subperm_of_subset hd) fun i h => List.mem_range.2 (hi i h)

theorem count_labels {t t' : List ℕ} (l : ℕ) : ∀ idx : List ℕ, (∀ i ∈ idx, i < t.length) → (∀ i ∈ idx, i < t'.length) →
    (idx.filterMap fun i => t[i]?).count l ≤ (idx.filterMap fun i => t'[i]?).count l + idx.countP fun i => decide (t[i]? ≠ t'[i]?)
  | [], _, _ => by simp
  | i :: idx, h, h' => by
    have ih := count_labels l idx (fun j hj => h j (by simp [hj])) (fun j hj => h' j (by simp [hj]))
    have a := List.getElem?_eq_getElem (h i (by simp))
    have b := List.getElem?_eq_getElem (h' i (by simp))
    have a' : ((i :: idx).filterMap fun i => t[i]?) = t[i]'(h i (by simp)) :: idx.filterMap fun i => t[i]? := List.filterMap_cons_some a
    have b' : ((i :: idx).filterMap fun i => t'[i]?) = t'[i]'(h' i (by simp)) :: idx.filterMap fun i => t'[i]? := List.filterMap_cons_some b
    rw [a', b', List.count_cons, List.count_cons, List.countP_cons, a, b]
    by_cases e : t[i]'(h i (by simp)) = t'[i]'(h' i (by simp))
    · rw [e]
      split_ifs <;> omega
    · have : decide (some (t[i]'(h i (by simp))) ≠ some (t'[i]'(h' i (by simp)))) = true := by simpa using e
      rw [this]
      simp only [if_true]
      split_ifs <;> omega

/-- C143: if among the labels of the neighbours of a query the label `l` has more than `2 m` votes more than any other, then the prediction is `l`
even after `m` of the training labels are changed, whichever and into whatever. -/
theorem C143_wrong_labels {F S : Type} [Scalar F] (R : Searcher F S) (k : ℕ) (s : S) (t t' : List ℕ) (hl : t.length = t'.length) (Z : Mat F) (l : ℕ)
    (hs : ∀ row ∈ Z.rows, ∃ idx ds, R.search s row k = ok (idx, ds) ∧ idx ≠ [] ∧ idx.Nodup ∧ (∀ i ∈ idx, i < t.length) ∧
      ∀ l' ≠ l, (idx.filterMap fun i => t[i]?).count l' + 2 * wrongLabels t t' < (idx.filterMap fun i => t[i]?).count l) :
    knnPredict R ⟨k, s, some t⟩ Z = ok (Z.rows.map fun _ => l) ∧ knnPredict R ⟨k, s, some t'⟩ Z = ok (Z.rows.map fun _ => l) := by
  have key : ∀ u : List ℕ, u.length = t.length → (∀ idx : List ℕ, idx.Nodup → (∀ i ∈ idx, i < t.length) → (∀ l' ≠ l,
      (idx.filterMap fun i => t[i]?).count l' + 2 * wrongLabels t t' < (idx.filterMap fun i => t[i]?).count l) →
      ∀ l' ≠ l, (idx.filterMap fun i => u[i]?).count l' < (idx.filterMap fun i => u[i]?).count l) →
      knnPredict R ⟨k, s, some u⟩ Z = ok (Z.rows.map fun _ => l) := by
    intro u hu hcount
    obtain ⟨out, h1, h2⟩ := C24_predict_is_majority R ⟨k, s, some u⟩ u rfl Z fun row hr => by
      obtain ⟨idx, ds, a, b, _, c, _⟩ := hs row hr
      exact ⟨idx, ds, a, b, fun i hi => by rw [hu]; exact c i hi⟩
    rw [h1]
    congr 1
    refine List.ext_getElem (by rw [List.length_map, h2.length_eq]) fun i a b => ?_
    rw [List.getElem_map]
    have hi : i < Z.rows.length := by rw [h2.length_eq]; exact a
    obtain ⟨idx, ds, e, hmaj⟩ := (List.forall₂_iff_get.1 h2).2 i hi a
    obtain ⟨idx', ds', e', _, hd, hlt, hgap⟩ := hs _ (List.getElem_mem hi)
    have e : R.search s Z.rows[i] k = ok (idx, ds) := e
    rw [e'] at e
    injection e with e
    injection e with e1 _
    subst e1
    by_contra hne
    have q := hcount idx' hd hlt hgap _ hne
    have := hmaj.most l
    simp only [List.get_eq_getElem] at this q
    omega
  refine ⟨key t rfl fun idx _ _ h l' hne => by have := h l' hne; omega, key t' hl.symm fun idx hd hlt h l' hne => ?_⟩
  have w := wrongLabels_nodup hl hd hlt
  have a := count_labels (t := t) (t' := t') l idx hlt (fun i hi => by rw [← hl]; exact hlt i hi)
  have b := count_labels (t := t') (t' := t) l' idx (fun i hi => by rw [← hl]; exact hlt i hi) hlt
  have c : idx.countP (fun i => decide (t'[i]? ≠ t[i]?)) = idx.countP fun i => decide (t[i]? ≠ t'[i]?) := by
    simp only [ne_comm]
  have := h l' hne
  omega

/-! ### A wrong target and least squares -/

/-- C143: a single wrong target can move the prediction of linear regression anywhere: for every sample `i` and every number `v` there is a value
which, given as the target of sample `i` in place of the right one, makes the model predict `v` for that sample. -/
theorem C143_one_target {solve : Mat ℝ → List ℝ → Outcome (List ℝ)} (hs : SolvesExactly solve) (hr : SolvesRegular solve) (X : Mat ℝ) (hX : X.WF)
    (hI : AffinelyIndependent X) (y : List ℝ) (hy : y.length = X.rows.length) (i : ℕ) (hi : i < X.rows.length) (v : ℝ) :
    ∃ w m p, LinReg.train solve X (y.set i w) = ok m ∧ m.predict X = ok p ∧ p[i]? = some v := by
  set e : List ℝ := (List.replicate X.rows.length (0 : ℝ)).set i 1 with he
  have elen : e.length = X.rows.length := by simp [he]
  obtain ⟨m₁, h₁⟩ := (C48_succeeds_iff hs hr X hX y hy).2 hI
  obtain ⟨m₂, h₂⟩ := (C48_succeeds_iff hs hr X hX e elen).2 hI
  obtain ⟨p₂, q2, plen, psum, _⟩ := C48_residuals hs X hX e m₂ h₂
  obtain ⟨β, hβ, bl, best⟩ := C48_least_squares hs X hX e m₂ h₂
  have hp : p₂ = X.rows.map (affine β) := by
    have := C48_predict β X bl
    cases m₂ with
    | mk ps =>
      simp only at hβ
      subst hβ
      rw [q2] at this
      injection this
  have hei : e[i]? = some 1 := by simp [he, hi]
  have esq : (e.map fun t => t ^ 2).sum = 1 := by
    rw [he, List.map_set, List.map_replicate]
    simp [List.sum_set, hi]
  have esum : e.sum = 1 := by simp [he, List.sum_set, hi]
  have hz : ∀ x : List ℝ, affine (zeroVec (X.cols + 1)) x = 0 := fun x => by
    simp only [affine, zeroVec, Spec.inner, List.replicate_succ, List.headD_cons, List.tail_cons, zero_add]
    refine List.sum_eq_zero fun q hq => ?_
    obtain ⟨k, hk, rfl⟩ := List.mem_iff_getElem.1 hq
    simp
  have h0 : p₂.getD i 0 ≠ 0 := by
    intro h0
    have ge : (1 : ℝ) ≤ rss X e β := by
      have : ((e.getD i 0) - affine β (X.rows.getD i [])) ^ 2 ≤ rss X e β := by
        refine List.single_le_sum (fun q hq => ?_) _ ?_
        · obtain ⟨k, hk, rfl⟩ := List.mem_iff_getElem.1 hq
          rw [List.getElem_zipWith]
          positivity
        · refine List.mem_iff_getElem.2 ⟨i, by simp; omega, ?_⟩
          rw [List.getElem_zipWith, getD_lt _ hi, getD_lt _ (by omega)]
      rw [hp, getD_lt _ (by simpa using hi), List.getElem_map] at h0
      rw [getD_lt _ hi, h0, List.getD_eq_getElem?_getD, hei] at this
      simpa using this
    have eq0 : rss X e (zeroVec (X.cols + 1)) = 1 := by
      unfold rss
      rw [← esq]
      congr 1
      refine List.ext_getElem (by simp; omega) fun k a b => ?_
      rw [List.getElem_zipWith, List.getElem_map, hz, sub_zero]
    by_cases hb : zeroVec (X.cols + 1) = β
    · have : p₂ = List.replicate X.rows.length 0 := by
        rw [hp, ← hb]
        refine List.ext_getElem (by simp) fun k a b => ?_
        rw [List.getElem_map, hz, List.getElem_replicate]
      have hze : List.zipWith (· - ·) e p₂ = e := by
        rw [this]
        refine List.ext_getElem (by simp; omega) fun k a b => ?_
        rw [List.getElem_zipWith, List.getElem_replicate, sub_zero]
      rw [hze, esum] at psum
      norm_num at psum
    · have := best _ (by simp [zeroVec]) hb
      linarith
  obtain ⟨p₁, q1, plen1, _⟩ := C48_residuals hs X hX y m₁ h₁
  set b := (v - p₁.getD i 0) / p₂.getD i 0 with hb
  obtain ⟨m, hm, hpred⟩ := C99_linear_regression hs hr X hX y e m₁ m₂ h₁ h₂ 1 b 0
  obtain ⟨p, q, hp1, hq1, hpq⟩ := hpred X hX rfl
  rw [q1] at hp1
  rw [q2] at hq1
  injection hp1 with hp1
  injection hq1 with hq1
  subst hp1
  subst hq1
  have hset : combine 1 b 0 y e = y.set i (y.getD i 0 + b) := by
    unfold combine
    rw [getD_lt _ (show i < y.length by omega)]
    refine List.ext_getElem (by simp; omega) fun k a c => ?_
    have hk : k < y.length := by simpa using c
    rw [List.getElem_zipWith, List.getElem_set]
    by_cases hik : i = k
    · subst hik
      rw [if_pos rfl]
      simp
    · rw [if_neg hik]
      simp [hik]
  rw [hset] at hm
  refine ⟨_, m, _, hm, hpq, ?_⟩
  have i1 : i < p₁.length := by omega
  have i2 : i < p₂.length := by omega
  rw [combine, List.getElem?_eq_getElem (by simp; omega), List.getElem_zipWith, Option.some.injEq, hb, getD_lt _ i1, getD_lt _ i2]
  rw [getD_lt _ i2] at h0
  field_simp
  ring

/-! ### An outlier and the scaling to a range -/

/-- C143: an outlier squeezes the other values together. After scaling to a range the distance of two samples is, in units of the width of the range,
at most the quotient of their distance and the distance of one of them from any third sample. -/
theorem C143_squeezed (f : MinMaxFitter ℝ) (X : Mat ℝ) (hw : X.WF) (hlt : f.scaledMin < f.scaledMax)
    (hrep : ∀ r ∈ X.rows, ∀ x ∈ r, |x| ≤ Scalar.maxVal) (hnc : ∀ j, j < X.cols → NonConstant (col X j)) :
    ∃ t Y, minmaxFit f X = ok t ∧ minmaxTransform t X = ok Y ∧ ∀ j < X.cols, ∀ i < X.rows.length, ∀ k < X.rows.length, ∀ o < X.rows.length,
      coord (rowOf X o) j ≠ coord (rowOf X i) j →
      |coord (rowOf Y k) j - coord (rowOf Y i) j| ≤
        (f.scaledMax - f.scaledMin) * (|coord (rowOf X k) j - coord (rowOf X i) j| / |coord (rowOf X o) j - coord (rowOf X i) j|) := by
  obtain ⟨t, Y, ht, hY, hsh, hall⟩ := C13_minmax_range f X hw hlt hrep hnc
  refine ⟨t, Y, ht, hY, ?_⟩
  intro j hj i hi k hk o ho hne
  obtain ⟨hr, _, _, a, b, ha, hab⟩ := hall j hj
  have val : ∀ i < X.rows.length, coord (rowOf Y i) j = a * coord (rowOf X i) j + b ∧ coord (rowOf Y i) j ∈ col Y j := fun i hi => by
    have hi' : i < Y.rows.length := by rw [← hsh.2.1]; exact hi
    have e1 : coord (rowOf Y i) j = (col Y j)[i]'(by simpa [col] using hi') := by
      simp only [col, List.getElem_map, coord, rowOf]
      rw [getD_lt _ hi']
    have e2 : coord (rowOf X i) j = (col X j)[i]'(by simpa [col] using hi) := by
      simp only [col, List.getElem_map, coord, rowOf]
      rw [getD_lt _ hi]
    refine ⟨?_, by rw [e1]; exact List.getElem_mem _⟩
    rw [e1, e2]
    simp only [hab, List.getElem_map]
  have hpos : 0 < |coord (rowOf X o) j - coord (rowOf X i) j| := abs_pos.2 (sub_ne_zero.2 hne)
  have h1 : a * |coord (rowOf X o) j - coord (rowOf X i) j| ≤ f.scaledMax - f.scaledMin := by
    rw [show a * |coord (rowOf X o) j - coord (rowOf X i) j| = |a * (coord (rowOf X o) j - coord (rowOf X i) j)| by rw [abs_mul, abs_of_pos ha]]
    have o1 := hr _ (val o ho).2
    have i1 := hr _ (val i hi).2
    rw [(val o ho).1] at o1
    rw [(val i hi).1] at i1
    rw [abs_le]
    constructor <;> nlinarith
  rw [(val k hk).1, (val i hi).1, show a * coord (rowOf X k) j + b - (a * coord (rowOf X i) j + b) = a * (coord (rowOf X k) j - coord (rowOf X i) j) by ring,
    abs_mul, abs_of_pos ha, ← mul_div_assoc, le_div_iff₀ hpos]
  nlinarith [abs_nonneg (coord (rowOf X k) j - coord (rowOf X i) j)]

/-! ### Wrong samples and naive Bayes -/

theorem countP_changed {α : Type} [DecidableEq α] (f : α → Bool) : ∀ {l l' : List α}, l.length = l'.length →
    l.countP f ≤ l'.countP f + (List.zip l l').countP fun p => decide (p.1 ≠ p.2)
  | [], [], _ => by simp
  | a :: l, a' :: l', h => by
    have ih := countP_changed f (l := l) (l' := l') (by simpa using h)
    rw [List.zip_cons_cons, List.countP_cons, List.countP_cons, List.countP_cons]
    by_cases e : a = a'
    · subst e
      omega
    · have : decide (a ≠ a') = true := by simpa using e
      simp only [this, if_true]
      split_ifs <;> omega

open Classical in
/-- C143: changing the labels (and inputs) of `m` of `n` samples changes no class probability of a naive Bayes model by more than `m / n`, whatever the
distribution of the features. -/
theorem C143_priors {D : Type} (B : NBDistr D ℝ) (m m₁ m₂ : NaiveBayes D ℝ) (X X' T T' : Mat ℝ) (hT : T.WF) (hT' : T'.WF) (hc : T.cols = T'.cols)
    (hX : X.rows.length = X'.rows.length) (hl : T.rows.length = T'.rows.length)
    (h₁ : nbTrain B m X T = (m₁, ok ())) (h₂ : nbTrain B m X' T' = (m₂, ok ())) :
    ∃ p q, m₁.classPrior = some p ∧ m₂.classPrior = some q ∧ ∀ c < T.cols,
      |coord p c - coord q c| ≤ ((List.zip T.rows T'.rows).countP fun r => decide (r.1 ≠ r.2) : ℕ) / (X.rows.length : ℝ) := by
  refine ⟨_, _, (C34_priors B m m₁ X T hT h₁).2, (C34_priors B m m₂ X' T' hT' h₂).2, ?_⟩
  intro c hcc
  simp only [coord]
  rw [getD_map_range _ _ _ hcc, getD_map_range _ _ _ (hc ▸ hcc), ← hX, ← sub_div, abs_div, abs_of_nonneg (show (0 : ℝ) ≤ X.rows.length from Nat.cast_nonneg _)]
  refine div_le_div_of_nonneg_right ?_ (Nat.cast_nonneg _)
  have a : classSize T.rows c ≤ classSize T'.rows c + (List.zip T.rows T'.rows).countP fun r => decide (r.1 ≠ r.2) := by
    unfold classSize
    exact countP_changed _ hl
  have b : classSize T'.rows c ≤ classSize T.rows c + (List.zip T'.rows T.rows).countP fun r => decide (r.1 ≠ r.2) := by
    unfold classSize
    exact countP_changed _ hl.symm
  have e : ((List.zip T'.rows T.rows).countP fun r => decide (r.1 ≠ r.2)) = (List.zip T.rows T'.rows).countP fun r => decide (r.1 ≠ r.2) := by
    rw [← List.zip_swap, List.countP_map]
    refine List.countP_congr fun r _ => ?_
    simp only [Function.comp, Prod.fst_swap, Prod.snd_swap, decide_eq_true_eq]
    exact ne_comm
  rw [e] at b
  have a' : (classSize T.rows c : ℝ) ≤ classSize T'.rows c + ((List.zip T.rows T'.rows).countP fun r => decide (r.1 ≠ r.2) : ℕ) := by exact_mod_cast a
  have b' : (classSize T'.rows c : ℝ) ≤ classSize T.rows c + ((List.zip T.rows T'.rows).countP fun r => decide (r.1 ≠ r.2) : ℕ) := by exact_mod_cast b
  rw [abs_le]
  constructor <;> linarith

theorem classSamples_map (f : List ℝ → ℝ) (X T : List (List ℝ)) (c : ℕ) :
    (classSamples X T c).map f = (((X.map f).zip T).filter fun p => decide (classOf p.2 = some c)).map Prod.fst := by
  unfold classSamples
  induction X generalizing T with
  | nil => simp
  | cons x X ih =>
    cases T with
    | nil => simp
    | cons t T =>
      simp only [List.map_cons, List.zip_cons_cons, List.filter_cons]
      by_cases h : classOf t = some c
      · simp only [h, decide_true, if_true, List.map_cons, ih]
      · simp only [h, decide_false, Bool.false_eq_true, if_false, ih]

theorem classSamples_set {b : ℕ} (x : List ℝ) : ∀ (X T : List (List ℝ)) (i : ℕ), classOf (T.getD i []) ≠ some b →
    classSamples (X.set i x) T b = classSamples X T b
  | [], _, _, _ => by simp
  | _ :: _, [], _, _ => by simp [classSamples]
  | a :: X, t :: T, 0, h => by
    have h : classOf t ≠ some b := by simpa using h
    simp [classSamples, h]
  | a :: X, t :: T, i + 1, h => by
    have ih := classSamples_set x X T i (by simpa using h)
    unfold classSamples at ih ⊢
    rw [List.set_cons_succ, List.zip_cons_cons, List.zip_cons_cons, List.filter_cons, List.filter_cons]
    split_ifs
    · rw [List.map_cons, List.map_cons, ih]
    · exact ih

theorem sum_classSamples_set (f : List ℝ → ℝ) {c : ℕ} (x : List ℝ) : ∀ (X T : List (List ℝ)) (i : ℕ), i < X.length → i < T.length → classOf (T.getD i []) = some c →
    ((classSamples (X.set i x) T c).map f).sum = ((classSamples X T c).map f).sum + (f x - f (X.getD i [])) ∧
      f x ∈ (classSamples (X.set i x) T c).map f
  | [], _, _, h, _, _ => by simp at h
  | _ :: _, [], _, _, h, _ => by simp at h
  | a :: X, t :: T, 0, _, _, h => by
    have h : classOf t = some c := by simpa using h
    simp [classSamples, h]
    ring
  | a :: X, t :: T, i + 1, h1, h2, h => by
    obtain ⟨ih, ih'⟩ := sum_classSamples_set f x X T i (by simpa using h1) (by simpa using h2) (by simpa using h)
    unfold classSamples at ih ih' ⊢
    rw [List.set_cons_succ, List.zip_cons_cons, List.zip_cons_cons, List.filter_cons, List.filter_cons]
    have g : (a :: X).getD (i + 1) [] = X.getD i [] := by simp
    rw [g]
    split_ifs
    · rw [List.map_cons, List.map_cons, List.map_cons, List.map_cons, List.sum_cons, List.sum_cons, ih]
      exact ⟨by ring, List.mem_cons_of_mem _ ih'⟩
    · exact ⟨ih, ih'⟩

/-- `X` with the entry in row `i` and column `j` replaced by `t`. -/
def Spec.withEntry (X : Mat ℝ) (i j : ℕ) (t : ℝ) : Mat ℝ := ⟨X.cols, X.rows.set i ((rowOf X i).set j t)⟩

theorem withEntry_wf {X : Mat ℝ} (hX : X.WF) (i j : ℕ) (t : ℝ) : (withEntry X i j t).WF := by
  intro r hr
  by_cases hi : i < X.rows.length
  · rcases List.mem_or_eq_of_mem_set hr with h | h
    · exact hX r h
    · rw [h, List.length_set, rowOf, getD_lt _ hi]
      exact hX _ (List.getElem_mem hi)
  · simp only [withEntry] at hr
    rw [List.set_eq_of_length_le (by omega)] at hr
    exact hX r hr

theorem normalPdf_le {v : ℝ} (hv : 0 < v) (μ z : ℝ) : Real.log (normalPdf μ v z) ≤ -(Real.log (2 * Real.pi) + Real.log v) / 2 := by
  rw [log_normalPdf hv]
  have : 0 ≤ (z - μ) ^ 2 / (2 * v) := by positivity
  linarith

/-- The variance of numbers one of which is far from 0. -/
theorem sampleVar_far {l : List ℝ} {t K : ℝ} (h2 : 2 ≤ l.length) (ht : t ∈ l) (hK : |l.sum - t| ≤ K) (hKt : K < |t|) :
    NonConstant l ∧ ((|t| - K) / l.length) ^ 2 / l.length ≤ sampleVar l := by
  have hn : (2 : ℝ) ≤ l.length := by exact_mod_cast h2
  have hn0 : (0 : ℝ) < l.length := by linarith
  have dev : (|t| - K) / l.length ≤ |t - Spec.mean l| := by
    have e : t - Spec.mean l = ((l.length - 1) * t - (l.sum - t)) / l.length := by
      unfold Spec.mean
      field_simp
      ring
    rw [e, abs_div, abs_of_pos hn0]
    refine div_le_div_of_nonneg_right ?_ hn0.le
    have a1 := abs_sub_abs_le_abs_sub ((l.length - 1) * t) (l.sum - t)
    rw [abs_mul, abs_of_pos (show (0 : ℝ) < l.length - 1 by linarith)] at a1
    nlinarith [abs_nonneg t]
  have dpos : 0 < (|t| - K) / l.length := div_pos (by linarith) hn0
  have sq : ((|t| - K) / l.length) ^ 2 ≤ ((l.length : ℝ) - 1) * sampleVar l := by
    rw [← sampleVar_sum h2]
    refine le_trans ?_ (List.single_le_sum (fun q hq => by
      obtain ⟨r, _, rfl⟩ := List.mem_map.1 hq
      positivity) _ (List.mem_map.2 ⟨t, ht, rfl⟩))
    rw [← sq_abs (t - Spec.mean l)]
    exact pow_le_pow_left₀ dpos.le dev 2
  have vpos : 0 < sampleVar l := by
    by_contra h
    have : 0 < ((|t| - K) / l.length) ^ 2 := by positivity
    nlinarith
  refine ⟨?_, ?_⟩
  · by_contra hc
    have all : ∀ y ∈ l, y = t := fun y hy => by
      by_contra hne
      exact hc ⟨y, hy, t, ht, hne⟩
    have : Spec.mean l = t := by
      unfold Spec.mean
      rw [List.eq_replicate_of_mem all, List.sum_replicate, List.length_replicate, nsmul_eq_mul]
      field_simp
    rw [this, sub_self, abs_zero] at dev
    linarith
  · rw [div_le_iff₀ hn0]
    nlinarith

/-- C143: one wrong entry can switch a class off. Whatever the data, if a single entry of a training sample of class `c` is replaced by a number of
large enough absolute value, the Gaussian model trained on them assigns none of the rows of `Z` to class `c` any more (although at most one of the samples of
the class is wrong). -/
theorem C143_one_entry (m : NaiveBayes (GaussD ℝ) ℝ) (X T Z : Mat ℝ) (hX : X.WF) (hT : T.WF) (hZ : Z.WF) (hf : Z.cols = X.cols)
    (hn : X.rows.length = T.rows.length) (h1 : ∀ t ∈ T.rows, ∃ v ∈ t, v = 1) (h2 : ∀ c < T.cols, classSize T.rows c ≠ 1)
    (i j b c : ℕ) (hi : i < X.rows.length) (hj : j < X.cols) (hic : classOf (rowOf T i) = some c) (hbT : b < T.cols) (hbc : b ≠ c)
    (hb : ∀ k < X.cols, NonConstant ((classSamples X.rows T.rows b).map fun x => coord x k))
    (hc : ∀ k < X.cols, k ≠ j → NonConstant ((classSamples X.rows T.rows c).map fun x => coord x k)) :
    ∃ B : ℝ, ∀ t : ℝ, B ≤ |t| → ∃ m' P, nbTrain gaussDistr m (withEntry X i j t) T = (m', ok ()) ∧ nbPredict gaussDistr m' Z = ok P ∧
      P.rows.length = Z.rows.length ∧ ∀ r < Z.rows.length, ¬ IsOneHot T.cols c (rowOf P r) := by
  have hiT : i < T.rows.length := hn ▸ hi
  have rT : rowOf T i = T.rows[i] := getD_lt _ hiT
  have hcT : c < T.cols := by
    rw [rT] at hic
    unfold classOf at hic
    obtain ⟨a, _⟩ := List.findIdx?_eq_some_iff_getElem.1 hic
    rwa [hT _ (List.getElem_mem hiT)] at a
  have cpos : 2 ≤ classSize T.rows c := by
    have : 0 < classSize T.rows c := List.countP_pos_iff.2 ⟨_, List.getElem_mem hiT, by rw [← rT]; simpa using hic⟩
    have := h2 c hcT
    omega
  have bpos : 0 < classSize T.rows b := by
    have := NonConstant.length (hb j hj)
    rw [List.length_map, classSamples_length hn] at this
    omega
  have npos : (0 : ℝ) < X.rows.length := by exact_mod_cast lt_of_le_of_lt (Nat.zero_le _) hi
  have rX : (rowOf X i).length = X.cols := by
    rw [rowOf, getD_lt _ hi]
    exact hX _ (List.getElem_mem hi)
  set K : ℝ := |((classSamples X.rows T.rows c).map fun x => coord x j).sum - coord (rowOf X i) j| with hK
  set nc : ℝ := (classSize T.rows c : ℝ) with hnc
  have ncpos : 0 < nc := by rw [hnc]; exact_mod_cast lt_of_lt_of_le (by norm_num) cpos
  -- the evidence for `b` at the rows of `Z`, and a bound for that for `c`
  set Q : ℕ → ℝ := fun r => Real.log ((classSize T.rows b : ℝ) / X.rows.length) +
      ∑ k ∈ Finset.range X.cols, Real.log (normalPdf (Spec.mean ((classSamples X.rows T.rows b).map fun x => coord x k))
        (sampleVar ((classSamples X.rows T.rows b).map fun x => coord x k)) (coord (rowOf Z r) k)) with hQ
  set C : ℝ := ∑ k ∈ (Finset.range X.cols).erase j, -(Real.log (2 * Real.pi) + Real.log (sampleVar ((classSamples X.rows T.rows c).map fun x => coord x k))) / 2
    with hC
  have lim : Filter.Tendsto (fun s : ℝ => Real.log (((s - K) / nc) ^ 2 / nc)) Filter.atTop Filter.atTop := by
    refine Real.tendsto_log_atTop.comp ?_
    refine Filter.Tendsto.atTop_div_const ncpos ?_
    refine (Filter.tendsto_pow_atTop (by norm_num)).comp ?_
    refine Filter.Tendsto.atTop_div_const ncpos ?_
    exact Filter.tendsto_atTop_add_const_right _ _ Filter.tendsto_id
  have ev : ∀ᶠ s : ℝ in Filter.atTop, K < s ∧ ∀ r ∈ Finset.range Z.rows.length,
      C - (Real.log (2 * Real.pi) + Real.log (((s - K) / nc) ^ 2 / nc)) / 2 < Q r := by
    refine (Filter.eventually_gt_atTop K).and ?_
    rw [Filter.eventually_all_finset]
    intro r _
    filter_upwards [lim.eventually_gt_atTop (2 * (C - Q r) - Real.log (2 * Real.pi))] with s hs
    linarith
  obtain ⟨B, hB⟩ := Filter.eventually_atTop.1 ev
  refine ⟨B, fun t htB => ?_⟩
  obtain ⟨hKt, hQt⟩ := hB |t| htB
  have wX := withEntry_wf hX i j t
  have hn' : (withEntry X i j t).rows.length = T.rows.length := by simp [withEntry, hn]
  have hlen : (withEntry X i j t).rows.length = X.rows.length := by simp [withEntry]
  have hcols : (withEntry X i j t).cols = X.cols := rfl
  -- the samples of the classes after the change
  have sb : classSamples (withEntry X i j t).rows T.rows b = classSamples X.rows T.rows b :=
    classSamples_set _ _ _ _ (by
      show classOf (rowOf T i) ≠ some b
      rw [hic]
      simpa using hbc.symm)
  have sc : ∀ k, k ≠ j → ((classSamples (withEntry X i j t).rows T.rows c).map fun x => coord x k) = (classSamples X.rows T.rows c).map fun x => coord x k := by
    intro k hk
    rw [classSamples_map, classSamples_map]
    congr 3
    simp only [withEntry, List.map_set]
    have : coord ((rowOf X i).set j t) k = coord (rowOf X i) k := by
      simp only [coord, List.getD_eq_getElem?_getD]
      rw [List.getElem?_set_ne (Ne.symm hk)]
    rw [this]
    refine List.ext_getElem (by simp) fun q a b' => ?_
    rw [List.getElem_set]
    split_ifs with h
    · subst h
      rw [List.getElem_map, rowOf, getD_lt _ hi]
    · rfl
  have centry : coord ((rowOf X i).set j t) j = t := by
    rw [coord, getD_lt _ (by simp; omega)]
    simp
  obtain ⟨ssum, smem⟩ := sum_classSamples_set (fun x => coord x j) ((rowOf X i).set j t) X.rows T.rows i hi hiT hic
  rw [centry] at ssum smem
  have slen : ((classSamples (withEntry X i j t).rows T.rows c).map fun x => coord x j).length = classSize T.rows c := by
    rw [List.length_map, classSamples_length hn']
  obtain ⟨fnc, fvar⟩ := sampleVar_far (l := (classSamples (withEntry X i j t).rows T.rows c).map fun x => coord x j) (t := t) (K := K)
    (by rw [slen]; exact cpos) smem (by
      have : ((classSamples (withEntry X i j t).rows T.rows c).map fun x => coord x j).sum - t =
          ((classSamples X.rows T.rows c).map fun x => coord x j).sum - coord (rowOf X i) j := by
        have e : ((classSamples (withEntry X i j t).rows T.rows c).map fun x => coord x j).sum = _ := ssum
        rw [e]
        show _ + (t - coord (rowOf X i) j) - t = _
        ring
      rw [this]) hKt
  rw [slen] at fvar
  -- training and prediction
  obtain ⟨m', h⟩ := (C35_trains_iff m _ T wX hT hn').2 ⟨h1, h2⟩
  obtain ⟨L, P, hL, hP, l1, p1, hall⟩ := C34_predict_gaussian m m' (withEntry X i j t) T Z hT (by omega) hf h
  obtain ⟨L', hL', _, hjoint⟩ := C35_gaussian m m' (withEntry X i j t) T Z wX hT hZ hf hn' h
  rw [hL] at hL'
  injection hL' with hL'
  subst hL'
  refine ⟨m', P, h, hP, by rw [← hall.length_eq, l1], ?_⟩
  intro r hr hot'
  have iL : r < L.rows.length := by omega
  have iP : r < P.rows.length := by rw [← hall.length_eq]; exact iL
  obtain ⟨hll, d, hd, hot⟩ := (List.forall₂_iff_get.1 hall).2 r iL iP
  have rP : rowOf P r = P.rows[r] := getD_lt _ iP
  have rL : rowOf L r = L.rows[r] := getD_lt _ iL
  simp only [List.get_eq_getElem] at hll hd hot
  rw [rP] at hot'
  have hdc : d = c := by
    by_contra hne
    have a := hot.2.2 c hcT
    have a' := hot'.2.2 c hcT
    rw [if_neg (Ne.symm hne)] at a
    rw [if_pos rfl, a] at a'
    norm_num at a'
  subst hdc
  obtain ⟨v, hv, hmax, _⟩ := hd
  have ed : coord (rowOf L r) d = v := by
    rw [rL, coord, List.getD_eq_getElem?_getD, hv]
    rfl
  have eb : coord (rowOf L r) b ≤ coord (rowOf L r) d := by
    rw [ed, rL, coord, getD_lt _ (by omega)]
    exact hmax _ (List.getElem_mem _)
  have likelihood : ∀ a < T.cols, 0 < classSize T.rows a →
      (∀ k < X.cols, NonConstant ((classSamples (withEntry X i j t).rows T.rows a).map fun x => coord x k)) →
      coord (rowOf L r) a = Real.log ((classSize T.rows a : ℝ) / X.rows.length) +
      ∑ k ∈ Finset.range X.cols, Real.log (normalPdf (Spec.mean ((classSamples (withEntry X i j t).rows T.rows a).map fun x => coord x k))
        (sampleVar ((classSamples (withEntry X i j t).rows T.rows a).map fun x => coord x k)) (coord (rowOf Z r) k)) := fun a haT hapos hav => by
    have e := (hjoint a haT hapos).2.2 hav r hr
    have dpos : (0 : ℝ) < classSize T.rows a := by exact_mod_cast hapos
    have ppos : ∀ k ∈ Finset.range X.cols, normalPdf (Spec.mean ((classSamples (withEntry X i j t).rows T.rows a).map fun x => coord x k))
        (sampleVar ((classSamples (withEntry X i j t).rows T.rows a).map fun x => coord x k)) (coord (rowOf Z r) k) ≠ 0 := fun k hk => by
      have := sampleVar_pos (hav k (Finset.mem_range.1 hk))
      have := Real.pi_pos
      unfold normalPdf
      positivity
    rw [← Real.log_exp (coord (rowOf L r) a), e, hlen, hcols, Real.log_mul (by positivity) (Finset.prod_ne_zero_iff.2 ppos), Real.log_prod ppos]
  have lb : coord (rowOf L r) b = Q r := by
    rw [likelihood b hbT bpos (by rw [sb]; exact hb), sb]
  have varies : ∀ k < X.cols, NonConstant ((classSamples (withEntry X i j t).rows T.rows d).map fun x => coord x k) := fun k hk => by
    by_cases hkj : k = j
    · rw [hkj]; exact fnc
    · rw [sc k hkj]; exact hc k hk hkj
  have lc := likelihood d hcT (by omega) varies
  have prior : Real.log ((classSize T.rows d : ℝ) / X.rows.length) ≤ 0 := by
    refine Real.log_nonpos (by positivity) ?_
    rw [div_le_one npos, hn]
    exact_mod_cast List.countP_le_length
  have split := Finset.add_sum_erase (Finset.range X.cols) (fun k => Real.log (normalPdf (Spec.mean ((classSamples (withEntry X i j t).rows T.rows d).map fun x => coord x k))
        (sampleVar ((classSamples (withEntry X i j t).rows T.rows d).map fun x => coord x k)) (coord (rowOf Z r) k))) (Finset.mem_range.2 hj)
  have rest : ∑ k ∈ (Finset.range X.cols).erase j, Real.log (normalPdf (Spec.mean ((classSamples (withEntry X i j t).rows T.rows d).map fun x => coord x k))
        (sampleVar ((classSamples (withEntry X i j t).rows T.rows d).map fun x => coord x k)) (coord (rowOf Z r) k)) ≤ C := by
    refine Finset.sum_le_sum fun k hk => ?_
    have hk := Finset.mem_erase.1 hk
    rw [sc k hk.1]
    exact normalPdf_le (sampleVar_pos (hc k (Finset.mem_range.1 hk.2) hk.1)) _ _
  have one := normalPdf_le (sampleVar_pos fnc) (Spec.mean ((classSamples (withEntry X i j t).rows T.rows d).map fun x => coord x j)) (coord (rowOf Z r) j)
  have hpos : 0 < ((|t| - K) / nc) ^ 2 / nc := by
    have : 0 < |t| - K := by linarith
    positivity
  have hlogs := Real.log_le_log hpos fvar
  have hq := hQt r (Finset.mem_range.2 hr)
  rw [lb, lc, ← split] at eb
  linarith

/-! ### Non-vacuity -/

/-- Six samples of class 3, one of which is labelled wrongly as 7: every query is still given the class 3. -/
example (z : List ℝ) : knnPredict bruteSearcher ⟨6, some ⟨1, [[0], [1], [2], [3], [4], [5]]⟩, some [3, 3, 7, 3, 3, 3]⟩ (⟨1, [z]⟩ : Mat ℝ) = ok [3] := by
  have hw : wrongLabels [3, 3, 3, 3, 3, 3] [3, 3, 7, 3, 3, 3] = 1 := by decide
  refine (C143_wrong_labels bruteSearcher 6 (some ⟨1, [[0], [1], [2], [3], [4], [5]]⟩) [3, 3, 3, 3, 3, 3] [3, 3, 7, 3, 3, 3] rfl (⟨1, [z]⟩ : Mat ℝ) 3 ?_).2
  intro row _
  obtain ⟨r, h1, h2⟩ := C19_brute_force_exact (⟨1, [[0], [1], [2], [3], [4], [5]]⟩ : Mat ℝ) row 6 (by norm_num) (by simp)
  have hlen : r.1.length = 6 := h2.count
  have hp : r.1.Perm (List.range 6) := (List.subperm_of_subset h2.distinct fun i hi => List.mem_range.2 (by simpa using h2.rows i hi)).perm_of_length_le (by simp [hlen])
  refine ⟨r.1, r.2, h1, fun h => by simp [h] at hlen, h2.distinct, fun i hi => by simpa using h2.rows i hi, ?_⟩
  intro l' hl'
  rw [hw, (hp.filterMap _).count_eq, (hp.filterMap _).count_eq]
  have e : ((List.range 6).filterMap fun i => ([3, 3, 3, 3, 3, 3] : List ℕ)[i]?) = [3, 3, 3, 3, 3, 3] := by decide
  rw [e]
  simp [Ne.symm hl']

/-- The line through the samples at 0, 1, 2 can be made to pass through any value at 1 by one wrong target. -/
example (v : ℝ) : ∃ (w : ℝ) (m : LinReg ℝ) (p : List ℝ), LinReg.train (gaussSolve 0) ⟨1, [[0], [1], [2]]⟩ [5, w, 7] = ok m ∧ m.predict ⟨1, [[0], [1], [2]]⟩ = ok p ∧ p[1]? = some v := by
  refine C143_one_target (gaussSolve_exact 0 le_rfl) gaussSolve_regular ⟨1, [[0], [1], [2]]⟩ (by simp [Mat.WF]) ?_ [5, 6, 7] rfl 1 (by simp) v
  intro β hb h
  obtain ⟨a, b, rfl⟩ := List.length_eq_two.1 hb
  have h0 := h [0] (by simp)
  have h1 := h [1] (by simp)
  simp [affine, Spec.inner] at h0 h1
  subst h0
  have : b = 0 := by linarith
  subst this
  rfl

/-- A column to which an outlier can be added: 0, 1 and 1000 scaled to the range from 0 to 1. -/
example : ∃ Y : Mat ℝ, |coord (rowOf Y 1) 0 - coord (rowOf Y 0) 0| ≤ 1 / 1000 ∧ ∃ t, minmaxFit ⟨0, 1⟩ ⟨1, [[0], [1], [1000]]⟩ = ok t ∧
    minmaxTransform t ⟨1, [[0], [1], [1000]]⟩ = ok Y := by
  obtain ⟨t, Y, h1, h2, h3⟩ := C143_squeezed ⟨0, 1⟩ ⟨1, [[0], [1], [1000]]⟩ (by simp [Mat.WF]) (by norm_num) (by
    have : (1000 : ℝ) ≤ Scalar.maxVal := le_trans (le_trans (by norm_num) (pow_le_pow_right₀ one_le_two (show 10 ≤ 971 by norm_num))) maxVal_ge
    intro r hr x hx
    simp only [List.mem_cons, List.not_mem_nil, or_false] at hr
    rcases hr with rfl | rfl | rfl <;> simp only [List.mem_cons, List.not_mem_nil, or_false] at hx <;> subst hx <;> norm_num <;> linarith) (by
    intro j hj
    have hj : j = 0 := by simp at hj; omega
    subst hj
    exact ⟨0, by simp [col], 1, by simp [col], by norm_num⟩)
  refine ⟨Y, ?_, t, h1, h2⟩
  have := h3 0 (by simp) 0 (by simp) 1 (by simp) 2 (by simp) (by simp [coord, rowOf])
  simpa [coord, rowOf] using this

/-- The hypotheses of `C143_one_entry`: the pairs 0, 1 and 9, 10; entry 0 is spoilt. -/
example : ∃ B : ℝ, ∀ t : ℝ, B ≤ |t| → ∃ m' P, nbTrain gaussDistr (nbNew _ ℝ) (withEntry ⟨1, [[0], [1], [9], [10]]⟩ 0 0 t) pairT = (m', ok ()) ∧
    nbPredict gaussDistr m' ⟨1, [[0], [1]]⟩ = ok P ∧ P.rows.length = 2 ∧ ∀ r < 2, ¬ IsOneHot 2 0 (rowOf P r) := by
  have hs := pair_samples 0 1 9 10
  refine C143_one_entry (nbNew _ ℝ) ⟨1, [[0], [1], [9], [10]]⟩ pairT ⟨1, [[0], [1]]⟩ (by simp [Mat.WF]) (by simp [Mat.WF, pairT]) (by simp [Mat.WF]) rfl rfl
    (by simp [pairT]) ?_ 0 0 1 0 (by simp) (by simp) (by simp [pairT, rowOf, ex_class0]) (by simp [pairT]) (by norm_num) ?_ ?_
  · intro c hc
    have hc : c = 0 ∨ c = 1 := by simp [pairT] at hc; omega
    rcases hc with rfl | rfl <;> simp [classSize, pairT, ex_class0, ex_class1]
  · intro k hk
    have hk : k = 0 := by simp at hk; omega
    subst hk
    simp only [hs.2]
    exact ⟨9, by simp [coord], 10, by simp [coord], by norm_num⟩
  · intro k hk hne
    have hk : k = 0 := by simp at hk; omega
    exact absurd hk hne

end RM
