import Mathlib.Algebra.Order.Field.Basic
import Mathlib.Tactic.Positivity
import Mathlib.Tactic.FieldSimp
import Verif.Proofs.Score
import Verif.Proofs.Linalg

/-! Properties C08–C12: confusion matrices and scores. -/

namespace RM
open Outcome Spec Scalar

/-! ### C08, C09: confusion matrix -/

/-- C08. For a duplicate-free label list, the result is square with one row per label and entry `(i, j)` is the number of
positions whose true label is `labels[i]` and whose predicted label is `labels[j]`. -/
theorem C08_confusion_entries {T : Type} [LinearOrder T] (preds targets labels : List T)
    (hlen : preds.length = targets.length) (hnd : labels.Nodup) :
    ∃ m, confusionMatrix preds targets (some labels) = ok m ∧
      m.length = labels.length ∧ (∀ r ∈ m, r.length = labels.length) ∧
      ∀ i j a b, labels[i]? = some a → labels[j]? = some b →
        entry m i j = some (pairCount targets preds a b) := by
  obtain ⟨m, h1, h2, h3⟩ := confusion_core labels preds targets hnd
  refine ⟨m, ?_, h2.1, h2.2, ?_⟩
  · simpa [confusionMatrix, hlen] using h1
  · intro i j a b ha hb
    rw [pairCount_zip _ _ hlen.symm]
    exact h3 i j a b ha hb

example : confusionMatrix [1, 2, 2, 5] [1, 1, 2, 2] (some [2, 1]) = ok [[1, 0], [1, 1]] ∧ ([2, 1] : List ℕ).Nodup := by
  decide +kernel

/-- C09. Without a label list the result is that for the increasing list of all values occurring in either vector. -/
theorem C09_default_labels {T : Type} [LinearOrder T] (preds targets : List T) :
    ∃ labels : List T, labels.Pairwise (· < ·) ∧ (∀ x, x ∈ labels ↔ x ∈ preds ∨ x ∈ targets) ∧
      confusionMatrix preds targets none = confusionMatrix preds targets (some labels) :=
  ⟨orderedDistinct preds targets, orderedDistinct_sorted _ _, mem_orderedDistinct _ _, rfl⟩

/-- C09. The function panics exactly when the vectors differ in length or an explicit label list has a duplicate, and it
never does anything but return a matrix or panic. -/
theorem C09_panic_iff {T : Type} [LinearOrder T] (preds targets : List T) (labels : Option (List T)) :
    (confusionMatrix preds targets labels = .panic ↔
      preds.length ≠ targets.length ∨ ∃ ls, labels = some ls ∧ ¬ ls.Nodup) ∧
    ((∃ m, confusionMatrix preds targets labels = ok m) ∨ confusionMatrix preds targets labels = .panic) := by
  by_cases hlen : preds.length = targets.length
  · cases labels with
    | none =>
      have hnd : (orderedDistinct preds targets).Nodup :=
        (orderedDistinct_sorted preds targets).imp fun h => ne_of_lt h
      obtain ⟨m, h1, _⟩ := C08_confusion_entries preds targets _ hlen hnd
      have h1' : confusionMatrix preds targets none = ok m := h1
      simp [h1', hlen]
    | some ls =>
      by_cases hnd : ls.Nodup
      · obtain ⟨m, h1, _⟩ := C08_confusion_entries preds targets ls hlen hnd
        simp [h1, hlen, hnd]
      · have := labelIndex_panic ls 0 [] (Or.inl hnd)
        simp [confusionMatrix, hlen, this, hnd]
  · simp [confusionMatrix, hlen]

/-- C09. Without a label list the entries sum to the number of samples and the diagonal sums to the number of agreeing
positions; hence, for at least one sample, trace / total is the accuracy. -/
theorem C09_totals {T : Type} [LinearOrder T] (preds targets : List T) (hlen : preds.length = targets.length) :
    ∃ m, confusionMatrix preds targets none = ok m ∧
      total m = preds.length ∧
      trace m = agreeCount preds targets ∧
      accuracy (F := ℝ) (fun a b => decide (a = b)) preds targets =
        ok ((trace m : ℝ) / (total m : ℝ)) := by
  obtain ⟨ls, hs, hmem, heq⟩ := C09_default_labels preds targets
  have hnd : ls.Nodup := hs.imp fun h => ne_of_lt h
  obtain ⟨m, h1, h2, h3, h4⟩ := C08_confusion_entries preds targets ls hlen hnd
  rw [← heq] at h1
  -- the rows of `m`
  have hrow : m = ls.map fun a => ls.map fun b => pairCount targets preds a b := by
    apply List.ext_getElem
    · simp [h2]
    · intro i hi hi'
      have hil : i < ls.length := by omega
      have hrl : m[i].length = ls.length := h3 _ (List.getElem_mem hi)
      apply List.ext_getElem
      · simp [hrl]
      · intro j hj hj'
        have hjl : j < ls.length := by omega
        have := h4 i j ls[i] ls[j] (by simp [hil]) (by simp [hjl])
        unfold entry at this
        rw [List.getElem?_eq_getElem hi, Option.bind_some, List.getElem?_eq_getElem hj] at this
        simpa using this
  have hz : ∀ p ∈ targets.zip preds, p.1 ∈ ls ∧ p.2 ∈ ls := by
    intro p hp
    have := List.of_mem_zip (a := p.1) (b := p.2) hp
    exact ⟨(hmem _).2 (Or.inr this.1), (hmem _).2 (Or.inl this.2)⟩
  have hzl : (targets.zip preds).length = preds.length := by simp [hlen]
  have htot : total m = preds.length := by
    unfold total
    rw [hrow, List.map_map, ← hzl]
    have e1 : ∀ a ∈ ls, (List.sum ∘ fun a => ls.map fun b => pairCount targets preds a b) a =
        ((targets.zip preds).map Prod.fst).countP fun x => decide (x = a) := by
      intro a _
      have hf := sum_countP_eq ls hnd (((targets.zip preds).filter fun p => decide (p.1 = a)).map Prod.snd) (by
        intro x hx
        obtain ⟨p, hp, rfl⟩ := List.mem_map.1 hx
        exact (hz p (List.mem_of_mem_filter hp)).2)
      rw [List.countP_map, List.countP_eq_length_filter]
      rw [List.length_map] at hf
      change (ls.map fun b => pairCount targets preds a b).sum = _
      have : (fun p : T × T => decide (p.1 = a)) = (fun x => decide (x = a)) ∘ Prod.fst := rfl
      rw [← this, ← hf]
      congr 1
      apply List.map_congr_left
      intro b _
      rw [pairCount_zip _ _ hlen.symm, List.countP_map, List.countP_filter]
      apply List.countP_congr
      intro p _
      simp [Prod.ext_iff, and_comm]
    rw [List.map_congr_left e1]
    have := sum_countP_eq ls hnd ((targets.zip preds).map Prod.fst) (by
      intro x hx
      obtain ⟨p, hp, rfl⟩ := List.mem_map.1 hx
      exact (hz p hp).1)
    rw [this, List.length_map]
  have htr : trace m = agreeCount preds targets := by
    unfold trace
    have e1 : ((List.range m.length).filterMap fun i => entry m i i) =
        ls.map fun a => pairCount targets preds a a := by
      rw [h2]
      have : ((List.range ls.length).filterMap fun i => entry m i i) =
          (List.range ls.length).filterMap fun i => (ls[i]?).map fun a => pairCount targets preds a a := by
        apply List.filterMap_congr
        intro i hi
        have hi := List.mem_range.1 hi
        rw [h4 i i ls[i] ls[i] (by simp [hi]) (by simp [hi])]
        simp [hi]
      rw [this]
      have h5 : (fun i : ℕ => (ls[i]?).map fun a => pairCount targets preds a a) =
          fun i : ℕ => Option.bind (ls[i]?) fun a => some (pairCount targets preds a a) := by
        funext i; cases ls[i]? <;> rfl
      rw [h5, ← List.filterMap_filterMap]
      have h6 : (List.range ls.length).filterMap (fun i => ls[i]?) = ls := by
        clear * -
        induction ls with
        | nil => rfl
        | cons a l ih =>
          rw [List.length_cons, List.range_succ_eq_map, List.filterMap_cons, List.getElem?_cons_zero]
          simp only [List.filterMap_map]
          congr 1
      rw [h6]
      exact List.filterMap_eq_map (f := fun a => pairCount targets preds a a) ▸ rfl
    rw [e1, agreeCount_zip _ _ hlen]
    have hsum := sum_countP_eq ls hnd (((targets.zip preds).filter fun p => decide (p.1 = p.2)).map Prod.fst) (by
      intro x hx
      obtain ⟨p, hp, rfl⟩ := List.mem_map.1 hx
      exact (hz p (List.mem_of_mem_filter hp)).1)
    rw [List.length_map, ← List.countP_eq_length_filter] at hsum
    have h7 : (preds.zip targets).countP (fun p => decide (p.1 = p.2)) =
        (targets.zip preds).countP fun p => decide (p.1 = p.2) := by
      rw [← List.zip_swap targets preds, List.countP_map]
      apply List.countP_congr
      intro p _
      simp [eq_comm]
    rw [h7, ← hsum]
    congr 1
    apply List.map_congr_left
    intro a _
    rw [pairCount_zip _ _ hlen.symm, List.countP_map, List.countP_filter]
    apply List.countP_congr
    intro p _
    simp only [decide_eq_true_eq, Prod.ext_iff, Function.comp_apply, Bool.and_eq_true]
    constructor
    · rintro ⟨rfl, h⟩; exact ⟨rfl, h.symm⟩
    · rintro ⟨rfl, h⟩; exact ⟨rfl, h.symm⟩
  refine ⟨m, h1, htot, htr, ?_⟩
  rw [htr, htot]
  simp [accuracy, hlen, agreeCount_zip _ _ hlen, List.countP_eq_length_filter]

example : ∃ m, confusionMatrix [1, 2, 2, 5] [1, 1, 2, 2] none = ok m ∧ total m = 4 ∧ trace m = 2 := by
  obtain ⟨m, h1, h2, h3, _⟩ := C09_totals [1, 2, 2, 5] [1, 1, 2, 2] rfl
  exact ⟨m, h1, h2, h3.trans (by decide)⟩
example : confusionMatrix [1, 2] [1, 2] (some [1, 1]) = .panic := by decide +kernel

/-! ### C10: accuracy -/

/-- C10. For any equality test `eqb`, `accuracy` panics exactly on different lengths and otherwise is the number of
positions on which the test succeeds over the number of positions (over the reals; the empty case is
`C10_accuracy_empty`). -/
theorem C10_accuracy_value {T : Type} (eqb : T → T → Bool) (outputs targets : List T) :
    (accuracy (F := ℝ) eqb outputs targets = .panic ↔ outputs.length ≠ targets.length) ∧
    (outputs.length = targets.length →
      accuracy (F := ℝ) eqb outputs targets =
        ok ((testCount eqb outputs targets : ℝ) / (outputs.length : ℝ))) := by
  constructor
  · by_cases h : outputs.length = targets.length <;> simp [accuracy, h]
  · intro h
    unfold testCount
    rw [countPos_zip (fun p => eqb p.1 p.2) _ _ _ h (by intro i a b h1 h2; simp [h1, h2]),
      List.countP_eq_length_filter]
    simp [accuracy, h]

/-- C10. The accuracy of non-empty sequences lies in `[0,1]` and is 1 exactly when the sequences are equal, 0 exactly when
they differ everywhere. -/
theorem C10_accuracy_range {T : Type} [DecidableEq T] (outputs targets : List T) (hn : outputs ≠ [])
    (hlen : outputs.length = targets.length) :
    ∃ a : ℝ, accuracy (fun x y => decide (x = y)) outputs targets = ok a ∧ 0 ≤ a ∧ a ≤ 1 ∧
      (a = 1 ↔ outputs = targets) ∧ (a = 0 ↔ ∀ i, i < outputs.length → outputs[i]? ≠ targets[i]?) := by
  have hpos : (0 : ℝ) < outputs.length := by
    have := List.length_pos_iff.2 hn
    exact_mod_cast this
  have key := (C10_accuracy_value (fun x y => decide (x = y)) outputs targets).2 hlen
  have heq : testCount (fun x y => decide (x = y)) outputs targets = agreeCount outputs targets := by
    unfold testCount agreeCount countPos
    apply List.countP_congr
    intro i hi
    have hi := List.mem_range.1 hi
    have hi' : i < targets.length := by omega
    simp [hi, hi']
  rw [heq] at key
  have hle : agreeCount outputs targets ≤ outputs.length := by
    unfold agreeCount countPos
    exact le_trans List.countP_le_length (by simp)
  refine ⟨_, key, by positivity, ?_, ?_, ?_⟩
  · rw [div_le_one hpos]; exact_mod_cast hle
  · rw [div_eq_one_iff_eq hpos.ne', Nat.cast_inj]
    unfold agreeCount countPos
    conv_lhs => rhs; rw [← List.length_range (n := outputs.length)]
    rw [List.countP_eq_length]
    constructor
    · intro h
      apply List.ext_getElem?
      intro i
      by_cases hi : i < outputs.length
      · simpa using h i (by simpa using hi)
      · rw [List.getElem?_eq_none (by omega), List.getElem?_eq_none (by omega)]
    · rintro rfl i _
      simp
  · rw [div_eq_zero_iff, or_iff_left hpos.ne', Nat.cast_eq_zero]
    unfold agreeCount countPos
    rw [List.countP_eq_zero]
    simp

/-- C10. On empty sequences the accuracy is `0/0`, i.e. NaN. -/
theorem C10_accuracy_empty {T : Type} (eqb : T → T → Bool) :
    accuracy (F := XR) eqb ([] : List T) [] = ok XR.nan := by
  simp [accuracy, xr_div_zero, XR.infOf]

/-- C10. `row_accuracy` counts the rows that are equal. -/
theorem C10_row_accuracy (outputs targets : Mat ℝ) (hlen : outputs.nrows = targets.nrows) :
    rowAccuracy outputs targets = ok ((agreeCount outputs.rows targets.rows : ℝ) / outputs.nrows) := by
  have hrow : ∀ u v : List ℝ, rowEq u v = decide (u = v) := by
    intro u
    induction u with
    | nil => intro v; cases v <;> simp [rowEq]
    | cons a u ih => intro v; cases v <;> simp [rowEq, ih]
  unfold Mat.nrows at *
  unfold rowAccuracy
  rw [(C10_accuracy_value _ _ _).2 hlen]
  unfold testCount agreeCount countPos
  congr 3
  apply List.countP_congr
  intro i hi
  have hi := List.mem_range.1 hi
  have hi' : i < targets.rows.length := by omega
  simp [hi, hi', hrow]

example : accuracy (F := ℝ) (fun x y => decide (x = y)) [1, 2, 3, 4] [1, 0, 3, 4] = ok (3 / 4) := by
  simp [accuracy]

/-! ### C11: precision, recall, F1 -/

section C11
variable {T : Type} [DecidableEq T] [Zero T] [One T] [NeZero (1 : T)]

/-- C11. On 0/1 vectors of equal length the three scores are the textbook ratios of true positives
(`o = 1, t = 1`), false positives (`o = 1, t = 0`) and false negatives (`o = 0, t = 1`). -/
theorem C11_score_values (o t : List T) (hlen : o.length = t.length) (ho : isBinary o) (ht : isBinary t) :
    precision (F := ℝ) isZ isO o t = ok ((pairCount o t 1 1 : ℝ) / (pairCount o t 1 1 + pairCount o t 1 0)) ∧
    recall (F := ℝ) isZ isO o t = ok ((pairCount o t 1 1 : ℝ) / (pairCount o t 1 1 + pairCount o t 0 1)) ∧
    f1 (F := ℝ) isZ isO o t =
      ok (2 * (pairCount o t 1 1 : ℝ) / (2 * pairCount o t 1 1 + pairCount o t 1 0 + pairCount o t 0 1)) := by
  have hb := (binPairs_zip o t hlen).2 ⟨ho, ht⟩
  have e : ∀ a b, pairCount o t a b = pc (o.zip t) a b := fun a b => pairCount_zip _ _ hlen a b
  simp only [e]
  refine ⟨?_, ?_, ?_⟩
  · simp [precision, hlen, precisionLoop_ok _ hb]
  · simp [recall, hlen, recallLoop_ok _ hb]
  · simp [f1, hlen, f1Loop_ok _ hb]

/-- C11. Each of the three functions panics exactly when the lengths differ or some value is neither 0 nor 1. -/
theorem C11_panic_iff (o t : List T) :
    (precision (F := ℝ) isZ isO o t = .panic ↔ o.length ≠ t.length ∨ ¬ (isBinary o ∧ isBinary t)) ∧
    (recall (F := ℝ) isZ isO o t = .panic ↔ o.length ≠ t.length ∨ ¬ (isBinary o ∧ isBinary t)) ∧
    (f1 (F := ℝ) isZ isO o t = .panic ↔ o.length ≠ t.length ∨ ¬ (isBinary o ∧ isBinary t)) := by
  by_cases hlen : o.length = t.length
  · by_cases hb : isBinary o ∧ isBinary t
    · obtain ⟨h1, h2, h3⟩ := C11_score_values o t hlen hb.1 hb.2
      simp [h1, h2, h3, hlen, hb]
    · have hp : ¬ binPairs (o.zip t) := fun h => hb ((binPairs_zip o t hlen).1 h)
      simp [precision, recall, f1, hlen, hb, precisionLoop_panic _ hp, recallLoop_panic _ hp, f1Loop_panic _ hp]
  · simp [precision, recall, f1, hlen]

/-- C11. Positive denominators: all scores lie in `[0,1]` and F1 is the harmonic mean of precision and recall. -/
theorem C11_range_harmonic (o t : List T) (hlen : o.length = t.length) (ho : isBinary o) (ht : isBinary t)
    (htp : ∃ i : ℕ, o[i]? = some 1 ∧ t[i]? = some 1) :
    ∃ p r f : ℝ, precision isZ isO o t = ok p ∧ recall isZ isO o t = ok r ∧ f1 isZ isO o t = ok f ∧
      0 < p ∧ p ≤ 1 ∧ 0 < r ∧ r ≤ 1 ∧ 0 < f ∧ f ≤ 1 ∧ f = 2 / (1 / p + 1 / r) := by
  obtain ⟨h1, h2, h3⟩ := C11_score_values o t hlen ho ht
  have hpos : 0 < pairCount o t 1 1 := by
    obtain ⟨i, hi, hi'⟩ := htp
    unfold pairCount countPos
    rw [List.countP_pos_iff]
    refine ⟨i, ?_, by simp [hi, hi']⟩
    rw [List.mem_range]
    by_contra hc
    rw [List.getElem?_eq_none (by omega)] at hi
    simp at hi
  have hpos' : (0 : ℝ) < pairCount o t 1 1 := by exact_mod_cast hpos
  have ha : (0 : ℝ) ≤ pairCount o t 1 0 := Nat.cast_nonneg _
  have hb : (0 : ℝ) ≤ pairCount o t 0 1 := Nat.cast_nonneg _
  refine ⟨_, _, _, h1, h2, h3, by positivity, ?_, by positivity, ?_, by positivity, ?_, ?_⟩
  · rw [div_le_one (by positivity)]; linarith
  · rw [div_le_one (by positivity)]; linarith
  · rw [div_le_one (by positivity)]; linarith
  · field_simp
    ring

/-- C11. Swapping outputs and targets exchanges precision and recall and keeps F1. -/
theorem C11_swap (o t : List T) :
    precision (F := ℝ) isZ isO o t = recall isZ isO t o ∧ f1 (F := ℝ) isZ isO o t = f1 isZ isO t o := by
  by_cases hlen : o.length = t.length
  · by_cases hb : isBinary o ∧ isBinary t
    · obtain ⟨h1, h2, h3⟩ := C11_score_values o t hlen hb.1 hb.2
      obtain ⟨g1, g2, g3⟩ := C11_score_values t o hlen.symm hb.2 hb.1
      have e : ∀ a b, pairCount o t a b = pairCount t o b a := by
        intro a b
        unfold pairCount
        rw [hlen]
        congr 1
        funext i
        simp [and_comm]
      rw [h1, h3, g2, g3, e 1 1, e 1 0, e 0 1]
      refine ⟨rfl, ?_⟩
      congr 2
      ring
    · have hb' : ¬ (isBinary t ∧ isBinary o) := fun h => hb ⟨h.2, h.1⟩
      rw [(C11_panic_iff o t).1.2 (Or.inr hb), (C11_panic_iff o t).2.2.2 (Or.inr hb),
        (C11_panic_iff t o).2.1.2 (Or.inr hb'), (C11_panic_iff t o).2.2.2 (Or.inr hb')]
      exact ⟨rfl, rfl⟩
  · rw [(C11_panic_iff o t).1.2 (Or.inl hlen), (C11_panic_iff o t).2.2.2 (Or.inl hlen),
        (C11_panic_iff t o).2.1.2 (Or.inl (Ne.symm hlen)), (C11_panic_iff t o).2.2.2 (Or.inl (Ne.symm hlen))]
    exact ⟨rfl, rfl⟩

end C11

example : precision (F := ℝ) isZ isO [1, 1, 1, 0, 0, 0] [1, 1, 0, 0, 1, (1 : ℕ)] = ok (2 / 3) ∧
    recall (F := ℝ) isZ isO [1, 1, 1, 0, 0, 0] [1, 1, 0, 0, 1, (1 : ℕ)] = ok (2 / 4) ∧
    f1 (F := ℝ) isZ isO [1, 1, 1, 0, 0, 0] [1, 1, 0, 0, 1, (1 : ℕ)] = ok (4 / 7) := by
  obtain ⟨h1, h2, h3⟩ := C11_score_values [1, 1, 1, 0, 0, 0] [1, 1, 0, 0, 1, (1 : ℕ)] rfl
    (by simp [isBinary]) (by simp [isBinary])
  have e1 : pairCount [1, 1, 1, 0, 0, 0] [1, 1, 0, 0, 1, (1 : ℕ)] 1 1 = 2 := by decide
  have e2 : pairCount [1, 1, 1, 0, 0, 0] [1, 1, 0, 0, 1, (1 : ℕ)] 1 0 = 1 := by decide
  have e3 : pairCount [1, 1, 1, 0, 0, 0] [1, 1, 0, 0, 1, (1 : ℕ)] 0 1 = 2 := by decide
  rw [h1, h2, h3, e1, e2, e3]
  norm_num

/-! ### C12: negative mean squared error -/

/-- C12. The score is minus the mean over rows of the squared Euclidean distance between the rows; the call panics exactly
on different shapes. -/
theorem C12_value (o t : Mat ℝ) :
    (negMeanSquaredError o t = .panic ↔ ¬ (o.nrows = t.nrows ∧ o.cols = t.cols)) ∧
    (o.nrows = t.nrows → o.cols = t.cols →
      negMeanSquaredError o t = ok (-((List.zipWith sqDist o.rows t.rows).sum / (o.nrows : ℝ)))) := by
  unfold Mat.nrows
  constructor
  · by_cases h : o.rows.length = t.rows.length ∧ o.cols = t.cols
    · simp [negMeanSquaredError, mseCost, Mat.zip, h]
    · simp [negMeanSquaredError, mseCost, Mat.zip, h]
  · intro h1 h2
    have e : ∀ u v : List (List ℝ), (List.map List.sum (List.zipWith (List.zipWith Scalar.mul)
        (List.zipWith (List.zipWith Scalar.sub) u v) (List.zipWith (List.zipWith Scalar.sub) u v))) =
        List.zipWith sqDist u v := by
      intro u
      induction u with
      | nil => simp
      | cons a u ih =>
        intro v
        cases v with
        | nil => simp
        | cons b v =>
          simp only [List.zipWith_cons_cons, List.map_cons, ih]
          congr 1
          unfold sqDist
          congr 1
          rw [List.zipWith_self, List.map_zipWith]
          congr 1
          funext x y
          simp [pow_two]
    have e2 : (List.zipWith (List.zipWith (Scalar.sub (F := ℝ))) o.rows t.rows).length = o.rows.length := by
      simp [h1]
    simp only [negMeanSquaredError, mseCost, Mat.zip, h1, h2, and_self, if_true, ok_bind, Mat.sum_real, e, e2,
      real_div, real_mul, real_ofNat, real_neg]
    congr 1
    push_cast
    rw [← h1]
    by_cases hz : (o.rows.length : ℝ) = 0
    · simp [hz]
    · field_simp

/-- C12. The score is never positive, is zero exactly for equal matrices, and is symmetric. -/
theorem C12_sign_zero_symm (o t : Mat ℝ) (ho : o.WF) (ht : t.WF) (hr : o.nrows = t.nrows) (hc : o.cols = t.cols)
    (hn : 0 < o.nrows) :
    ∃ s, negMeanSquaredError o t = ok s ∧ s ≤ 0 ∧ (s = 0 ↔ o = t) ∧ negMeanSquaredError t o = ok s := by
  refine ⟨_, (C12_value o t).2 hr hc, ?_, ?_, ?_⟩
  · have := zipWith_nonneg sqDist sqDist_nonneg o.rows t.rows
    have : 0 ≤ (List.zipWith sqDist o.rows t.rows).sum / (o.nrows : ℝ) := by positivity
    linarith
  · have hn' : (o.nrows : ℝ) ≠ 0 := by exact_mod_cast hn.ne'
    rw [neg_eq_zero, div_eq_zero_iff, or_iff_left hn']
    constructor
    · intro h
      have hrows : o.rows = t.rows := by
        unfold Mat.nrows Mat.WF at *
        apply eq_of_sqDist_sum _ _ hr _ h
        intro i u v hu hv
        rw [ho u (List.mem_of_getElem? hu), ht v (List.mem_of_getElem? hv), hc]
      cases o; cases t; simp_all
    · rintro rfl
      clear * -
      induction o.rows with
      | nil => rfl
      | cons a l ih => rw [List.zipWith_cons_cons, List.sum_cons, ih, sqDist_self, add_zero]
  · rw [(C12_value t o).2 hr.symm hc.symm, hr, List.zipWith_comm]
    congr 5
    funext u v
    exact sqDist_comm _ _

/-- C12. Larger row errors never increase the score. -/
theorem C12_monotone (o o' t : Mat ℝ) (hr : o.nrows = t.nrows) (hr' : o'.nrows = t.nrows) (hc : o.cols = t.cols)
    (hc' : o'.cols = t.cols)
    (hle : ∀ (i : ℕ) u u' v, o.rows[i]? = some u → o'.rows[i]? = some u' → t.rows[i]? = some v →
      sqDist u v ≤ sqDist u' v) :
    ∃ s s', negMeanSquaredError o t = ok s ∧ negMeanSquaredError o' t = ok s' ∧ s' ≤ s := by
  refine ⟨_, _, (C12_value o t).2 hr hc, (C12_value o' t).2 hr' hc', ?_⟩
  rw [hr, hr']
  apply neg_le_neg
  apply div_le_div_of_nonneg_right _ (Nat.cast_nonneg _)
  unfold Mat.nrows at *
  exact zipWith_sum_mono _ _ _ hr hr' hle

example : negMeanSquaredError (F := ℝ) ⟨2, [[1, 2], [3, 4]]⟩ ⟨2, [[1, 1], [0, 4]]⟩ = ok (-5) := by
  rw [(C12_value ⟨2, [[1, 2], [3, 4]]⟩ ⟨2, [[1, 1], [0, 4]]⟩).2 rfl rfl]
  norm_num [sqDist, Mat.nrows]

end RM
