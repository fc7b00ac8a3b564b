import Mathlib.Data.List.Sort
import Mathlib.Algebra.BigOperators.Group.List.Basic
import Mathlib.Data.List.Count
import Verif.Model.Score
import Verif.Spec.Score

namespace RM
open Outcome Spec Scalar

theorem countPos_zip {S T : Type} (p : S × T → Bool) (q : ℕ → Bool) :
    ∀ (u : List S) (v : List T), u.length = v.length →
      (∀ i a b, u[i]? = some a → v[i]? = some b → q i = p (a, b)) →
      countPos u.length q = (u.zip v).countP p
  | [], v, _, _ => by simp [countPos]
  | _ :: _, [], h, _ => by simp at h
  | a :: u, b :: v, h, hq => by
    have ih := countPos_zip p (fun i => q (i + 1)) u v (by simpa using h)
      (fun i a b h1 h2 => hq (i + 1) a b (by simpa using h1) (by simpa using h2))
    unfold countPos at ih ⊢
    rw [List.length_cons, List.range_succ_eq_map, List.countP_cons, List.countP_map, List.zip_cons_cons, List.countP_cons]
    rw [hq 0 a b (by simp) (by simp), ← ih]
    rfl

theorem pairCount_zip {T : Type} [DecidableEq T] (u v : List T) (h : u.length = v.length) (a b : T) :
    pairCount u v a b = (u.zip v).countP fun p => decide (p = (a, b)) := by
  unfold pairCount
  apply countPos_zip _ _ _ _ h
  intro i x y hx hy
  simp [hx, hy]

theorem agreeCount_zip {T : Type} [DecidableEq T] (u v : List T) (h : u.length = v.length) :
    agreeCount u v = (u.zip v).countP fun p => decide (p.1 = p.2) := by
  unfold agreeCount
  apply countPos_zip _ _ _ _ h
  intro i x y hx hy
  simp [hx, hy]

theorem getAt_eq {α : Type} {l : List α} {i : ℕ} (h : i < l.length) : getAt l i = ok l[i] := by
  simp [getAt, h]

/-! ### Confusion matrix -/

section cm
variable {T : Type} [DecidableEq T]

/-- The association list that `labelIndex` should produce. -/
theorem labelIndex_ok : ∀ (ls : List T) (i : ℕ) (m : List (T × ℕ)),
    ls.Nodup → (∀ l ∈ ls, m.lookup l = none) →
    ∃ m', labelIndex ls i m = ok m' ∧
      (∀ l, l ∉ ls → m'.lookup l = m.lookup l) ∧
      (∀ j l, ls[j]? = some l → m'.lookup l = some (i + j))
  | [], i, m, _, _ => ⟨m, rfl, by simp, by simp⟩
  | l :: ls, i, m, hnd, hm => by
    have hl : m.lookup l = none := hm l (by simp)
    rw [List.nodup_cons] at hnd
    obtain ⟨m', h1, h2, h3⟩ := labelIndex_ok ls (i + 1) ((l, i) :: m) hnd.2 (by
      intro x hx
      have : x ≠ l := fun e => hnd.1 (e ▸ hx)
      rw [List.lookup_cons]
      have hb : (x == l) = false := by simpa using this
      simp [hb, hm x (by simp [hx])])
    refine ⟨m', ?_, ?_, ?_⟩
    · simp [labelIndex, hl, h1]
    · intro x hx
      simp only [List.mem_cons, not_or] at hx
      rw [h2 x hx.2, List.lookup_cons]
      have hb : (x == l) = false := by simpa using hx.1
      simp [hb]
    · intro j x hj
      cases j with
      | zero =>
        simp only [List.getElem?_cons_zero, Option.some.injEq] at hj
        subst hj
        rw [h2 l hnd.1, List.lookup_cons]
        simp
      | succ j =>
        rw [List.getElem?_cons_succ] at hj
        rw [h3 j x hj]
        congr 1; omega

theorem labelIndex_panic : ∀ (ls : List T) (i : ℕ) (m : List (T × ℕ)),
    (¬ ls.Nodup ∨ ∃ l ∈ ls, (m.lookup l).isSome) → labelIndex ls i m = panic
  | [], _, _, h => by simp at h
  | l :: ls, i, m, h => by
    rw [labelIndex]
    split
    · rfl
    · rename_i hl
      apply labelIndex_panic
      rcases h with h | ⟨x, hx, hs⟩
      · rw [List.nodup_cons, Classical.not_and_iff_not_or_not, not_not] at h
        rcases h with h | h
        · exact Or.inr ⟨l, h, by simp⟩
        · exact Or.inl h
      · rcases List.mem_cons.1 hx with rfl | hx
        · exact absurd hs hl
        · refine Or.inr ⟨x, hx, ?_⟩
          rw [List.lookup_cons]
          split <;> simp_all

/-- `n × n`. -/
def Square (n : ℕ) (m : List (List ℕ)) : Prop := m.length = n ∧ ∀ r ∈ m, r.length = n

theorem bump_ok {n : ℕ} {m : List (List ℕ)} (hs : Square n m) {a b : ℕ} (ha : a < n) (hb : b < n) :
    ∃ m', bump m a b = ok m' ∧ Square n m' ∧
      ∀ i j x, entry m i j = some x → entry m' i j = some (if i = a ∧ j = b then x + 1 else x) := by
  obtain ⟨h1, h2⟩ := hs
  have ha' : a < m.length := by omega
  have hr : (m[a]).length = n := h2 _ (List.getElem_mem ha')
  have hb' : b < (m[a]).length := by omega
  refine ⟨m.set a ((m[a]).set b ((m[a])[b] + 1)), ?_, ⟨by simpa using h1, ?_⟩, ?_⟩
  · simp [bump, getAt_eq ha', getAt_eq hb', setAt, ha', hb']
  · intro r hr'
    rcases List.mem_or_eq_of_mem_set hr' with h | h
    · exact h2 _ h
    · rw [h, List.length_set]; exact hr
  · intro i j x hx
    unfold entry at hx ⊢
    rw [List.getElem?_set]
    by_cases hia : a = i
    · subst hia
      rw [List.getElem?_eq_getElem ha'] at hx
      simp only [Option.bind_some] at hx
      simp only [ha', if_true, Option.bind_some]
      rw [List.getElem?_set]
      by_cases hjb : b = j
      · subst hjb
        rw [List.getElem?_eq_getElem hb'] at hx
        simp at hx
        simp [hx, hb']
      · have : ¬ j = b := fun e => hjb e.symm
        simp [hjb, this, hx]
    · have : ¬ i = a := fun e => hia e.symm
      simp [hia, this, hx]

theorem countLoop_ok (idx : List (T × ℕ)) (n : ℕ) (hidx : ∀ l i, idx.lookup l = some i → i < n) :
    ∀ (ps : List (T × T)) (m : List (List ℕ)), Square n m →
      ∃ m', countLoop idx ps m = ok m' ∧ Square n m' ∧
        ∀ i j x, entry m i j = some x → entry m' i j =
          some (x + ps.countP fun p => decide (idx.lookup p.1 = some i ∧ idx.lookup p.2 = some j))
  | [], m, hs => ⟨m, rfl, hs, by simp⟩
  | (t, p) :: ps, m, hs => by
    rw [countLoop]
    split
    · rename_i row col hrow hcol
      obtain ⟨m1, h1, h2, h3⟩ := bump_ok hs (hidx _ _ hrow) (hidx _ _ hcol)
      obtain ⟨m2, h4, h5, h6⟩ := countLoop_ok idx n hidx ps m1 h2
      refine ⟨m2, by simp [h1, h4], h5, ?_⟩
      intro i j x hx
      rw [h6 i j _ (h3 i j x hx), List.countP_cons]
      simp only [hrow, hcol, Option.some.injEq]
      have e : (row = i ∧ col = j) ↔ (i = row ∧ j = col) := ⟨fun h => ⟨h.1.symm, h.2.symm⟩, fun h => ⟨h.1.symm, h.2.symm⟩⟩
      by_cases hc : i = row ∧ j = col
      · rw [if_pos hc]; simp [hc]; omega
      · rw [if_neg hc]; simp [e, hc]
    · rename_i hno
      obtain ⟨m2, h4, h5, h6⟩ := countLoop_ok idx n hidx ps m hs
      refine ⟨m2, h4, h5, ?_⟩
      intro i j x hx
      rw [h6 i j x hx, List.countP_cons]
      have : ¬ (idx.lookup t = some i ∧ idx.lookup p = some j) := fun h => hno _ _ h.1 h.2
      simp [this]

theorem square_zero (n : ℕ) : Square n (List.replicate n (List.replicate n 0)) := by
  refine ⟨by simp, ?_⟩
  intro r hr
  rw [List.eq_of_mem_replicate hr]; simp

theorem cell_zero {n i j : ℕ} (hi : i < n) (hj : j < n) :
    entry (List.replicate n (List.replicate n 0)) i j = some 0 := by
  simp [entry, List.getElem?_replicate, hi, hj]

end cm

section cm2
variable {T : Type} [LinearOrder T]

theorem mem_dedupAdj (x : T) : ∀ l : List T, x ∈ dedupAdj l ↔ x ∈ l
  | [] => Iff.rfl
  | [y] => Iff.rfl
  | a :: b :: rest => by
    rw [dedupAdj]
    split
    · rename_i h
      rw [mem_dedupAdj x (b :: rest), h]; simp
    · rw [List.mem_cons, mem_dedupAdj x (b :: rest)]; simp

theorem dedupAdj_sorted : ∀ l : List T, l.Pairwise (· ≤ ·) → (dedupAdj l).Pairwise (· < ·)
  | [], _ => List.Pairwise.nil
  | [y], _ => by simp [dedupAdj]
  | a :: b :: rest, h => by
    rw [dedupAdj]
    have h' := h
    rw [List.pairwise_cons] at h
    split
    · exact dedupAdj_sorted _ h.2
    · rename_i hne
      rw [List.pairwise_cons]
      refine ⟨?_, dedupAdj_sorted _ h.2⟩
      intro y hy
      rw [mem_dedupAdj] at hy
      have hab : a < b := lt_of_le_of_ne (h.1 b (by simp)) hne
      rcases List.mem_cons.1 hy with rfl | hy
      · exact hab
      · exact lt_of_lt_of_le hab ((List.pairwise_cons.1 h.2).1 y hy)

theorem orderedDistinct_sorted (xs ys : List T) : (orderedDistinct xs ys).Pairwise (· < ·) := by
  apply dedupAdj_sorted
  have h := List.pairwise_mergeSort (le := fun a b : T => decide (a ≤ b))
    (by intro a b c; simpa using fun h1 h2 => le_trans h1 h2)
    (by intro a b; simpa using le_total a b) (xs ++ ys)
  simpa using h

theorem mem_orderedDistinct (xs ys : List T) (x : T) : x ∈ orderedDistinct xs ys ↔ x ∈ xs ∨ x ∈ ys := by
  unfold orderedDistinct
  rw [mem_dedupAdj, List.mem_mergeSort, List.mem_append]

/-- Full description of the matrix for a duplicate-free label list. -/
theorem confusion_core (ls preds targets : List T) (hnd : ls.Nodup) :
    ∃ m, (do
        let idx ← labelIndex ls 0 []
        countLoop idx (targets.zip preds) (List.replicate ls.length (List.replicate ls.length 0))) = ok m ∧
      Square ls.length m ∧
      ∀ i j a b, ls[i]? = some a → ls[j]? = some b →
        entry m i j = some ((targets.zip preds).countP fun p => decide (p = (a, b))) := by
  obtain ⟨idx, h1, h2, h3⟩ := labelIndex_ok ls 0 [] hnd (by simp)
  have hlt : ∀ l i, idx.lookup l = some i → i < ls.length ∧ ls[i]? = some l := by
    intro l i h
    by_cases hl : l ∈ ls
    · obtain ⟨j, hj, hj'⟩ := List.getElem_of_mem hl
      have hj2 : ls[j]? = some l := by rw [List.getElem?_eq_getElem hj, hj']
      rw [h3 j l hj2] at h
      simp at h
      subst h; exact ⟨hj, hj2⟩
    · rw [h2 l hl] at h; simp at h
  obtain ⟨m, h4, h5, h6⟩ := countLoop_ok idx ls.length (fun l i h => (hlt l i h).1) (targets.zip preds) _ (square_zero _)
  refine ⟨m, by simp [h1, h4], h5, ?_⟩
  intro i j a b ha hb
  have hi : i < ls.length := by
    by_contra hc; rw [List.getElem?_eq_none (by omega)] at ha; simp at ha
  have hj : j < ls.length := by
    by_contra hc; rw [List.getElem?_eq_none (by omega)] at hb; simp at hb
  rw [h6 i j 0 (cell_zero hi hj), Nat.zero_add]
  congr 1
  apply List.countP_congr
  intro p _
  simp only [decide_eq_true_eq, Prod.ext_iff]
  constructor
  · rintro ⟨h7, h8⟩
    have := (hlt _ _ h7).2; have := (hlt _ _ h8).2
    simp_all
  · rintro ⟨rfl, rfl⟩
    have h7 := h3 i _ ha; have h8 := h3 j _ hb
    rw [Nat.zero_add] at h7 h8
    exact ⟨h7, h8⟩

end cm2

/-! ### Sums over a square matrix -/

theorem sum_countP_eq {T : Type} [DecidableEq T] (ls : List T) (hnd : ls.Nodup) :
    ∀ (ps : List T), (∀ x ∈ ps, x ∈ ls) → (ls.map fun a => ps.countP fun p => decide (p = a)).sum = ps.length := by
  intro ps
  induction ps with
  | nil => intro _; simp
  | cons x ps ih =>
    intro h
    have hx : x ∈ ls := h x (by simp)
    have e : (ls.map fun a => (x :: ps).countP fun p => decide (p = a)) =
        ls.map fun a => (ps.countP fun p => decide (p = a)) + (if x = a then 1 else 0) := by
      apply List.map_congr_left
      intro a _
      rw [List.countP_cons]; simp
    rw [e, List.sum_map_add, ih (fun y hy => h y (by simp [hy])), List.length_cons]
    congr 1
    have : (ls.map fun a => if x = a then 1 else 0).sum = ls.count x := by
      rw [List.count_eq_countP]
      clear e ih h hx hnd
      induction ls with
      | nil => rfl
      | cons a ls ih =>
        rw [List.map_cons, List.sum_cons, ih, List.countP_cons, add_comm]
        by_cases hxa : x = a
        · simp [hxa]
        · have : ¬ a = x := fun e => hxa e.symm
          simp [hxa, this]
    rw [this, List.count_eq_one_of_mem hnd hx]

/-! ### Scores -/

/-- Number of pairs (output, target) equal to `(a, b)`. -/
def pc {T : Type} [DecidableEq T] (l : List (T × T)) (a b : T) : ℕ := l.countP fun p => decide (p = (a, b))

section binary
variable {T : Type} [DecidableEq T] [Zero T] [One T]

/-- The equality tests of the code, for a type whose `==` is real equality. -/
abbrev isZ (x : T) : Bool := decide (x = 0)
/-- The equality tests of the code, for a type whose `==` is real equality. -/
abbrev isO (x : T) : Bool := decide (x = 1)

theorem notTwoClass_iff (o t : T) :
    notTwoClass (isZ (T := T)) isO o t = true ↔ ¬ ((o = 0 ∨ o = 1) ∧ (t = 0 ∨ t = 1)) := by
  unfold notTwoClass isZ isO
  simp only [Bool.or_eq_true, Bool.and_eq_true, Bool.not_eq_true', decide_eq_false_iff_not]
  tauto

/-- All pairs are 0/1 pairs. -/
def binPairs (l : List (T × T)) : Prop := ∀ p ∈ l, (p.1 = 0 ∨ p.1 = 1) ∧ (p.2 = 0 ∨ p.2 = 1)

theorem precisionLoop_panic (l : List (T × T)) (h : ¬ binPairs l) (x y : ℝ) :
    precisionLoop (F := ℝ) (isZ (T := T)) isO l x y = .panic := by
  induction l generalizing x y with
  | nil => exact absurd (by simp [binPairs]) h
  | cons p l ih =>
    obtain ⟨o, t⟩ := p
    rw [precisionLoop]
    split
    · rfl
    · rename_i hn
      rw [notTwoClass_iff, not_not] at hn
      apply ih
      intro hb
      apply h
      intro q hq
      rcases List.mem_cons.1 hq with rfl | hq
      · exact hn
      · exact hb q hq

theorem recallLoop_panic (l : List (T × T)) (h : ¬ binPairs l) (x y : ℝ) :
    recallLoop (F := ℝ) (isZ (T := T)) isO l x y = .panic := by
  induction l generalizing x y with
  | nil => exact absurd (by simp [binPairs]) h
  | cons p l ih =>
    obtain ⟨o, t⟩ := p
    rw [recallLoop]
    split
    · rfl
    · rename_i hn
      rw [notTwoClass_iff, not_not] at hn
      apply ih
      intro hb
      apply h
      intro q hq
      rcases List.mem_cons.1 hq with rfl | hq
      · exact hn
      · exact hb q hq

theorem f1Loop_panic (l : List (T × T)) (h : ¬ binPairs l) (x y z : ℝ) :
    f1Loop (F := ℝ) (isZ (T := T)) isO l x y z = .panic := by
  induction l generalizing x y z with
  | nil => exact absurd (by simp [binPairs]) h
  | cons p l ih =>
    obtain ⟨o, t⟩ := p
    rw [f1Loop]
    split
    · rfl
    · rename_i hn
      rw [notTwoClass_iff, not_not] at hn
      apply ih
      intro hb
      apply h
      intro q hq
      rcases List.mem_cons.1 hq with rfl | hq
      · exact hn
      · exact hb q hq

variable [NeZero (1 : T)]

omit [DecidableEq T] [NeZero (1 : T)] in
theorem binPairs_cons {p : T × T} {l : List (T × T)} :
    binPairs (p :: l) ↔ ((p.1 = 0 ∨ p.1 = 1) ∧ (p.2 = 0 ∨ p.2 = 1)) ∧ binPairs l := by
  simp [binPairs]

theorem precisionLoop_ok (l : List (T × T)) (h : binPairs l) (x y : ℝ) :
    precisionLoop (F := ℝ) (isZ (T := T)) isO l x y =
      ok (x + (pc l 1 1 + pc l 1 0 : ℕ), y + (pc l 1 1 : ℕ)) := by
  induction l generalizing x y with
  | nil => simp [precisionLoop, pc]
  | cons p l ih =>
    obtain ⟨o, t⟩ := p
    rw [binPairs_cons] at h
    have hn : ¬ (notTwoClass (isZ (T := T)) isO o t = true) := by
      rw [notTwoClass_iff, not_not]; exact h.1
    rw [precisionLoop, if_neg hn, ih h.2]
    obtain ⟨⟨ho | ho, ht | ht⟩, _⟩ := h <;> simp only at ho ht <;> subst ho <;> subst ht <;>
      simp [pc, isO] <;> (try constructor) <;> ring

theorem recallLoop_ok (l : List (T × T)) (h : binPairs l) (x y : ℝ) :
    recallLoop (F := ℝ) (isZ (T := T)) isO l x y =
      ok (x + (pc l 1 1 + pc l 0 1 : ℕ), y + (pc l 1 1 : ℕ)) := by
  induction l generalizing x y with
  | nil => simp [recallLoop, pc]
  | cons p l ih =>
    obtain ⟨o, t⟩ := p
    rw [binPairs_cons] at h
    have hn : ¬ (notTwoClass (isZ (T := T)) isO o t = true) := by
      rw [notTwoClass_iff, not_not]; exact h.1
    rw [recallLoop, if_neg hn, ih h.2]
    obtain ⟨⟨ho | ho, ht | ht⟩, _⟩ := h <;> simp only at ho ht <;> subst ho <;> subst ht <;>
      simp [pc, isO] <;> (try constructor) <;> ring

theorem f1Loop_ok (l : List (T × T)) (h : binPairs l) (x y z : ℝ) :
    f1Loop (F := ℝ) (isZ (T := T)) isO l x y z =
      ok (x + (pc l 1 1 : ℕ), y + (pc l 0 1 : ℕ), z + (pc l 1 0 : ℕ)) := by
  induction l generalizing x y z with
  | nil => simp [f1Loop, pc]
  | cons p l ih =>
    obtain ⟨o, t⟩ := p
    rw [binPairs_cons] at h
    have hn : ¬ (notTwoClass (isZ (T := T)) isO o t = true) := by
      rw [notTwoClass_iff, not_not]; exact h.1
    rw [f1Loop, if_neg hn, ih h.2]
    obtain ⟨⟨ho | ho, ht | ht⟩, _⟩ := h <;> simp only at ho ht <;> subst ho <;> subst ht <;>
      simp [pc, isO] <;> (try constructor) <;> ring

omit [DecidableEq T] [NeZero (1 : T)] in
theorem binPairs_zip (u v : List T) (h : u.length = v.length) : binPairs (u.zip v) ↔ isBinary u ∧ isBinary v := by
  induction u generalizing v with
  | nil => cases v with
    | nil => simp [binPairs, isBinary]
    | cons b v => simp at h
  | cons a u ih =>
    cases v with
    | nil => simp at h
    | cons b v =>
      rw [List.zip_cons_cons, binPairs_cons, ih v (by simpa using h)]
      simp only [isBinary, List.mem_cons, forall_eq_or_imp]
      tauto
end binary

end RM
