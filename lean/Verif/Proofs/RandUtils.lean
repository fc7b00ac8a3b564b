import Verif.Model.RandUtils
import Verif.Spec.Random
import Mathlib.Data.List.Nodup
import Mathlib.Data.List.Perm.Subperm
import Mathlib.Algebra.BigOperators.Group.List.Basic
import Mathlib.Tactic.IntervalCases

namespace RM
open Outcome Spec

variable {α : Type}

theorem getD_of_lt {l : List α} {i : ℕ} (h : i < l.length) (d : α) : l.getD i d = l[i] := by
  unfold List.getD; rw [List.getElem?_eq_getElem h]; rfl

theorem genRange_zero {raw hi : ℕ} (h : 0 < hi) : genRange raw 0 hi = ok (raw % hi) := by
  simp [genRange, h]

theorem mem_allDraws {bound : ℕ → ℕ} {m : ℕ} {ds : List ℕ} :
    ds ∈ allDraws bound m ↔ ds.length = m ∧ ∀ t (h : t < ds.length), ds[t] < bound t := by
  induction m generalizing ds with
  | zero =>
    simp only [allDraws, List.mem_singleton]
    constructor
    · rintro rfl; simp
    · rintro ⟨h, -⟩; exact List.length_eq_zero_iff.1 h
  | succ m ih =>
    simp only [allDraws, List.mem_flatMap, List.mem_map, List.mem_range]
    constructor
    · rintro ⟨es, hes, d, hd, rfl⟩
      obtain ⟨hl, hb⟩ := ih.1 hes
      refine ⟨by simp [hl], ?_⟩
      intro t ht
      rw [List.getElem_append]
      split
      · exact hb _ _
      · rename_i h
        simp at ht
        have : t = m := by omega
        subst this; simpa using hd
    · rintro ⟨hl, hb⟩
      have hne : ds ≠ [] := by rintro rfl; simp at hl
      refine ⟨ds.dropLast, ih.2 ⟨by simp [hl], ?_⟩, ds.getLast hne, ?_, List.dropLast_append_getLast hne⟩
      · intro t ht
        rw [List.getElem_dropLast]
        exact hb _ _
      · rw [List.getLast_eq_getElem]
        have := hb (ds.length - 1) (by omega)
        simpa [hl] using this

theorem nodup_allDraws (bound : ℕ → ℕ) (m : ℕ) : (allDraws bound m).Nodup := by
  induction m with
  | zero => simp [allDraws]
  | succ m ih =>
    simp only [allDraws]
    rw [List.nodup_flatMap]
    refine ⟨?_, ?_⟩
    · intro ds _
      apply List.Nodup.map _ (List.nodup_range)
      intro a b h; simpa using h
    · refine ih.imp ?_
      intro a b hab x hx hy
      simp only [List.mem_map] at hx hy
      obtain ⟨d, _, rfl⟩ := hx
      obtain ⟨e, _, h⟩ := hy
      have := List.append_inj' h (by simp)
      exact hab this.1.symm

theorem swapAt_of_lt {l : List α} {i j : ℕ} (hi : i < l.length) (hj : j < l.length) :
    swapAt l i j = ok ((l.set i l[j]).set j l[i]) := by
  simp [swapAt, hi, hj]

/-- Recursive description of the in-place shuffle. -/
def fyRec (r : ℕ → ℕ) : ℕ → (l : List α) → List α
  | _, [] => []
  | i, x :: xs =>
    match h : r i % (xs.length + 1) with
    | 0 => x :: fyRec r (i + 1) xs
    | k + 1 => xs[k]'(by have := Nat.mod_lt (r i) (Nat.succ_pos xs.length); simp only [Nat.succ_eq_add_one] at this; omega)
        :: fyRec r (i + 1) (xs.set k x)
termination_by _ l => l.length

theorem fyRec_length (r : ℕ → ℕ) (m : ℕ) : ∀ (i : ℕ) (l : List α), l.length = m → (fyRec r i l).length = m := by
  induction m with
  | zero => intro i l hl; have := List.length_eq_zero_iff.1 hl; subst this; simp [fyRec]
  | succ m ih =>
    intro i l hl
    match l, hl with
    | x :: xs, hl =>
      rw [fyRec]
      simp at hl
      split <;> simp [ih _ _ hl, ih, hl]

theorem foldl_inPlace (r : ℕ → ℕ) (m : ℕ) : ∀ (pre rest : List α), rest.length = m →
    (List.range' pre.length m).foldlM (fun a i => inPlaceFYStep (pre.length + m) a i (r i)) (pre ++ rest)
      = ok (pre ++ fyRec r pre.length rest) := by
  induction m with
  | zero =>
    intro pre rest h
    have := List.length_eq_zero_iff.1 h
    subst this
    simp [fyRec]
  | succ m ih =>
    intro pre rest h
    match rest, h with
    | x :: xs, h =>
      simp only [List.length_cons, Nat.add_right_cancel_iff] at h
      rw [List.range'_succ, List.foldlM_cons, fyRec]
      have hlt := Nat.mod_lt (r pre.length) (Nat.succ_pos m)
      simp only [Nat.succ_eq_add_one] at hlt
      have e1 : pre.length + (m+1) - pre.length = m + 1 := by omega
      simp only [inPlaceFYStep, e1, genRange_zero (Nat.succ_pos m), ok_bind, Nat.succ_eq_add_one]
      rw [swapAt_of_lt (by simp) (by simp; omega), ok_bind]
      have e2 : pre.length + (m + 1) = pre.length + 1 + m := by omega
      split
      · rename_i h0
        rw [h] at h0
        have := ih (pre ++ [x]) xs h
        simp only [List.length_append, List.length_cons, List.length_nil, zero_add, List.append_assoc,
          List.cons_append, List.nil_append, ← e2] at this
        simp only [h0, add_zero, List.set_getElem_self]
        exact this
      · rename_i k hk
        rw [h] at hk
        have := ih (pre ++ [xs[k]'(by omega)]) (xs.set k x) (by simpa using h)
        simp only [List.length_append, List.length_cons, List.length_nil, zero_add, List.append_assoc,
          List.cons_append, List.nil_append, ← e2] at this
        simp only [hk]
        refine Eq.trans ?_ this
        congr 1
        rw [List.set_append_right _ _ (by omega), List.set_append_right _ _ (by omega)]
        have : pre.length + (k+1) - pre.length = k + 1 := by omega
        simp [List.getElem_append_right, this]

theorem inPlaceFisherYates_eq (r : ℕ → ℕ) (arr : List α) :
    inPlaceFisherYates r arr = ok (fyRec r 0 arr) := by
  have := foldl_inPlace r arr.length [] arr rfl
  simpa [inPlaceFisherYates, List.range_eq_range'] using this

theorem shufflerTransform_eq (r : ℕ → ℕ) (arr : List α) :
    shufflerTransform r arr = inPlaceFisherYates r arr := rfl

theorem cons_set_perm (x : α) (xs : List α) (k : ℕ) (hk : k < xs.length) :
    (xs[k] :: xs.set k x).Perm (x :: xs) := by
  have := List.set_set_perm (as := x :: xs) (i := 0) (j := k+1) (by simp) (by simpa using hk)
  simpa using this

theorem fyRec_perm (r : ℕ → ℕ) (m : ℕ) : ∀ (i : ℕ) (l : List α), l.length = m → (fyRec r i l).Perm l := by
  induction m with
  | zero => intro i l hl; have := List.length_eq_zero_iff.1 hl; subst this; simp [fyRec]
  | succ m ih =>
    intro i l hl
    match l, hl with
    | x :: xs, hl =>
      rw [fyRec]
      simp at hl
      split
      · exact (ih _ _ hl).cons x
      · rename_i k hk
        have hlt := Nat.mod_lt (r i) (Nat.succ_pos xs.length)
        simp only [Nat.succ_eq_add_one] at hlt
        exact ((ih _ (xs.set k x) (by simpa using hl)).cons _).trans (cons_set_perm x xs k (by omega))

theorem fyRec_congr (m : ℕ) : ∀ (i j : ℕ) (r s : ℕ → ℕ) (l : List α), l.length = m →
    (∀ t < m, r (i + t) = s (j + t)) → fyRec r i l = fyRec s j l := by
  induction m with
  | zero => intro i j r s l hl _; have := List.length_eq_zero_iff.1 hl; subst this; simp [fyRec]
  | succ m ih =>
    intro i j r s l hl hrs
    match l, hl with
    | x :: xs, hl =>
      have h0 := hrs 0 (by omega)
      simp only [add_zero] at h0
      simp at hl
      have hrs' : ∀ t < m, r (i + 1 + t) = s (j + 1 + t) := by
        intro t ht
        have := hrs (t+1) (by omega)
        rwa [show i + (t+1) = i + 1 + t by omega, show j + (t+1) = j + 1 + t by omega] at this
      rw [fyRec, fyRec]
      split
      · rename_i h1
        rw [h0] at h1
        split
        · rw [ih (i+1) (j+1) r s xs hl hrs']
        · omega
      · rename_i k h1
        rw [h0] at h1
        split
        · omega
        · rename_i k' h2
          have : k = k' := by omega
          subst this
          rw [ih (i+1) (j+1) r s (xs.set k x) (by simpa using hl) hrs']

theorem streamOf_cons_succ (d : ℕ) (ds : List ℕ) (t : ℕ) : streamOf (d :: ds) (t+1) = streamOf ds t := by
  simp [streamOf]

/-- Existence and uniqueness of the draws leading to a given arrangement. -/
theorem fyRec_bij (m : ℕ) : ∀ (l out : List α), l.length = m → l.Nodup → out.Perm l →
    ∃ ds : List ℕ, (ds.length = m ∧ ∀ t (h : t < ds.length), ds[t] < m - t) ∧ fyRec (streamOf ds) 0 l = out ∧
      ∀ es : List ℕ, (es.length = m ∧ ∀ t (h : t < es.length), es[t] < m - t) → fyRec (streamOf es) 0 l = out → es = ds := by
  induction m with
  | zero =>
    intro l out hl _ hp
    have := List.length_eq_zero_iff.1 hl
    subst this
    have := hp.eq_nil
    subst this
    refine ⟨[], by simp, by simp [fyRec], ?_⟩
    intro es ⟨h, _⟩ _
    exact List.length_eq_zero_iff.1 h
  | succ m ih =>
    intro l out hl hnd hp
    match l, hl with
    | x :: xs, hl =>
      simp only [List.length_cons, Nat.add_right_cancel_iff] at hl
      match out, hp with
      | [], hp => simpa using hp.length_eq
      | y :: out', hp =>
        -- general step: given draws for the tail
        have step : ∀ (d : ℕ) (ds : List ℕ), d < m + 1 →
            fyRec (streamOf (d :: ds)) 0 (x :: xs) =
              (x :: xs).getD d x :: fyRec (streamOf ds) 0 (if d = 0 then xs else xs.set (d-1) x) := by
          intro d ds hd
          have e0 : streamOf (d :: ds) 0 = d := by simp [streamOf]
          have hmod : d % (xs.length + 1) = d := Nat.mod_eq_of_lt (by omega)
          rw [fyRec]
          split
          · rename_i h0
            rw [e0, hmod] at h0
            subst h0
            simp only [List.getD_cons_zero, if_true, ↓reduceIte]
            rw [fyRec_congr m 1 0 (streamOf (0 :: ds)) (streamOf ds) xs hl]
            intro t ht; rw [add_comm 1 t, streamOf_cons_succ, zero_add]
          · rename_i k h0
            rw [e0, hmod] at h0
            subst h0
            rw [if_neg (Nat.succ_ne_zero k), Nat.succ_sub_one, getD_of_lt (by simp; omega)]
            rw [fyRec_congr m 1 0 (streamOf ((k+1) :: ds)) (streamOf ds) (xs.set k x) (by simpa using hl)]
            · simp
            · intro t ht; rw [add_comm 1 t, streamOf_cons_succ, zero_add]
        have tail_perm : ∀ d, d < m + 1 → (x :: xs).getD d x = y →
            out'.Perm (if d = 0 then xs else xs.set (d-1) x) := by
          intro d hd hy
          have : ((x :: xs).getD d x :: (if d = 0 then xs else xs.set (d-1) x)).Perm (x :: xs) := by
            cases d with
            | zero => simp
            | succ k =>
              have hk : k < xs.length := by omega
              simpa [hk] using cons_set_perm x xs k hk
          rw [hy] at this
          exact (hp.trans this.symm).cons_inv
        have tail_nodup : ∀ d, d < m + 1 → (x :: xs).getD d x = y →
            (if d = 0 then xs else xs.set (d-1) x).Nodup := by
          intro d hd hy
          have h1 := (tail_perm d hd hy).nodup_iff
          exact h1.1 ((hp.nodup_iff.2 hnd).of_cons)
        have tail_len : ∀ d : ℕ, (if d = 0 then xs else xs.set (d-1) x).length = m := by
          intro d; split <;> simp [hl]
        -- position of y
        have hy : y ∈ x :: xs := hp.mem_iff.1 (by simp)
        obtain ⟨d, hd, hdy⟩ := List.mem_iff_getElem.1 hy
        have hd' : d < m + 1 := by simpa [hl] using hd
        have hgy : (x :: xs).getD d x = y := by
          rw [getD_of_lt hd]; exact hdy
        obtain ⟨ds, ⟨hds1, hds2⟩, hds3, hds4⟩ := ih _ out' (tail_len d) (tail_nodup d hd' hgy) (tail_perm d hd' hgy)
        refine ⟨d :: ds, ⟨by simp [hds1], ?_⟩, ?_, ?_⟩
        · intro t ht
          cases t with
          | zero => simpa using hd'
          | succ t => have := hds2 t (by simpa using ht); simp only [List.getElem_cons_succ]; omega
        · rw [step d ds hd', hgy, hds3]
        · intro es ⟨he1, he2⟩ he3
          match es, he1 with
          | e :: es, he1 =>
            have he : e < m + 1 := by have := he2 0 (by simp); simpa using this
            rw [step e es he] at he3
            injection he3 with h1 h2
            have hed : e = d := by
              have hel : e < (x :: xs).length := by simp [hl]; omega
              rw [getD_of_lt hel] at h1
              exact (hnd.getElem_inj_iff).1 (h1.trans hdy.symm)
            subst hed
            congr 1
            apply hds4 es ⟨by simpa using he1, ?_⟩ h2
            intro t ht
            have := he2 (t+1) (by simpa using ht)
            simp only [List.getElem_cons_succ] at this
            omega

theorem perm_map_lift {β : Type} {f : α → β} {out l2 : List β} (h : out.Perm l2) :
    ∀ l : List α, l2 = l.map f → ∃ l' : List α, l'.Perm l ∧ l'.map f = out := by
  induction h with
  | nil => intro l hl; refine ⟨l, List.Perm.refl _, ?_⟩; rw [← hl]
  | cons x _ ih =>
    intro l hl
    match l, hl with
    | a :: l, hl =>
      simp only [List.map_cons, List.cons.injEq] at hl
      obtain ⟨l', h1, h2⟩ := ih l hl.2
      exact ⟨a :: l', h1.cons a, by simp [h2, hl.1]⟩
  | swap x y l0 =>
    intro l hl
    match l, hl with
    | a :: b :: l, hl =>
      simp only [List.map_cons, List.cons.injEq] at hl
      exact ⟨b :: a :: l, List.Perm.swap _ _ _, by simp [hl]⟩
  | trans _ _ ih1 ih2 =>
    intro l hl
    obtain ⟨l', h1, h2⟩ := ih2 l hl
    obtain ⟨l'', h3, h4⟩ := ih1 l' h2.symm
    exact ⟨l'', h3.trans h1, h4⟩

/-! ### The inside-out shuffle -/

/-- One step of the inside-out shuffle on the initialised prefix. -/
def insOut (L : List α) (a : α) (j : ℕ) : List α :=
  if h : j < L.length then L.set j a ++ [L[j]] else L ++ [a]

/-- The inside-out shuffle on the initialised prefix. -/
def fyIn (r : ℕ → ℕ) : List α → List α → List α
  | [], L => L
  | a :: as, L => fyIn r as (insOut L a (r L.length % (L.length + 1)))

theorem insOut_length (L : List α) (a : α) (j : ℕ) : (insOut L a j).length = L.length + 1 := by
  unfold insOut; split <;> simp

theorem insOut_perm (L : List α) (a : α) (j : ℕ) : (insOut L a j).Perm (L ++ [a]) := by
  unfold insOut
  split
  · rename_i h
    have h1 := cons_set_perm a L j h
    refine (List.perm_append_comm).trans (List.Perm.trans ?_ (List.perm_append_comm))
    simpa using h1
  · exact List.Perm.refl _

theorem fisherYatesStep_eq (arr L : List α) (m raw : ℕ) (a : α) (ha : arr[L.length]? = some a) :
    fisherYatesStep arr (L.map some ++ List.replicate (m+1) none) L.length raw
      = ok ((insOut L a (raw % (L.length + 1))).map some ++ List.replicate m none) := by
  have hlt := Nat.mod_lt raw (Nat.succ_pos L.length)
  simp only [Nat.succ_eq_add_one] at hlt
  simp only [fisherYatesStep, genRange_zero (Nat.succ_pos _), Nat.succ_eq_add_one, ok_bind, ne_eq]
  by_cases hj : raw % (L.length + 1) = L.length
  · simp [hj, getAt, ha, setAt, insOut, List.replicate_succ]
  · have hj' : raw % (L.length + 1) < L.length := by omega
    simp only [hj, not_false_eq_true, ↓reduceIte, readSlot, getAt, ha, insOut, hj', ↓reduceDIte]
    rw [List.getElem?_append_left (by simpa using hj')]
    simp only [List.getElem?_map, List.getElem?_eq_getElem hj', Option.map_some, ok_bind, setAt,
      List.length_append, List.length_map, List.length_replicate, ofOption_some]
    rw [if_pos (by omega), ok_bind, List.length_set, if_pos (by simp; omega)]
    rw [List.set_append_right _ _ (by simp), List.set_append_left _ _ (by simpa using hj')]
    simp [List.replicate_succ, List.map_set]

theorem foldl_fisherYates (r : ℕ → ℕ) (arr : List α) (m : ℕ) : ∀ (L : List α), L.length + m = arr.length →
    (List.range' L.length m).foldlM (fun b i => fisherYatesStep arr b i (r i))
        (L.map some ++ List.replicate m none)
      = ok ((fyIn r (arr.drop L.length) L).map some) := by
  induction m with
  | zero =>
    intro L hL
    have : arr.drop L.length = [] := by simp; omega
    simp [this, fyIn]
  | succ m ih =>
    intro L hL
    have hl : L.length < arr.length := by omega
    rw [List.range'_succ, List.foldlM_cons,
      fisherYatesStep_eq arr L m (r L.length) (arr[L.length]) (by simp [hl]), ok_bind,
      List.drop_eq_getElem_cons hl, fyIn]
    have := ih (insOut L arr[L.length] (r L.length % (L.length + 1))) (by rw [insOut_length]; omega)
    rw [insOut_length] at this
    exact this

theorem finishBuf_map_some (l : List α) : finishBuf (l.map some) = ok l := by
  induction l with
  | nil => rfl
  | cons a l ih => simp [finishBuf, ih]

theorem fisherYates_eq (r : ℕ → ℕ) (arr : List α) : fisherYates r arr = ok (fyIn r arr []) := by
  have := foldl_fisherYates r arr arr.length [] (by simp)
  simp only [List.length_nil, List.map_nil, List.nil_append, List.drop_zero] at this
  simp only [fisherYates, List.range_eq_range', this, ok_bind, finishBuf_map_some]

theorem fyIn_perm (r : ℕ → ℕ) (as : List α) : ∀ L, (fyIn r as L).Perm (L ++ as) := by
  induction as with
  | nil => intro L; simp [fyIn]
  | cons a as ih =>
    intro L
    rw [fyIn]
    refine (ih _).trans ?_
    have := (insOut_perm L a (r L.length % (L.length + 1))).append_right as
    simpa using this

theorem fyIn_append (r : ℕ → ℕ) (as bs : List α) : ∀ L, fyIn r (as ++ bs) L = fyIn r bs (fyIn r as L) := by
  induction as with
  | nil => intro L; simp [fyIn]
  | cons a as ih => intro L; simp [fyIn, ih]

theorem fyIn_congr (as : List α) : ∀ (L : List α) (r s : ℕ → ℕ),
    (∀ t < L.length + as.length, r t = s t) → fyIn r as L = fyIn s as L := by
  induction as with
  | nil => intro L r s _; rfl
  | cons a as ih =>
    intro L r s h
    simp only [fyIn]
    rw [h L.length (by simp), ih _ r s]
    intro t ht
    apply h
    rw [insOut_length] at ht
    simp; omega

theorem insOut_inj {L M : List α} {a : α} {j k : ℕ} (hlen : L.length = M.length) (hL : a ∉ L) (hM : a ∉ M)
    (hj : j ≤ L.length) (hk : k ≤ M.length) (h : insOut L a j = insOut M a k) : L = M ∧ j = k := by
  unfold insOut at h
  have noset : ∀ (L M : List α) (a : α) (j : ℕ) (h : j < L.length), L.length = M.length → a ∉ M → L.set j a ≠ M := by
    intro L M a j h _ hM e
    apply hM
    rw [← e]
    exact List.mem_set h a
  split at h <;> split at h
  · rename_i h1 h2
    have hi := List.append_inj' h rfl
    simp only [List.cons.injEq, and_true] at hi
    obtain ⟨hi1, hi2⟩ := hi
    have hjk : j = k := by
      by_contra hne
      have e1 : (L.set j a)[j]? = some a := by simp [h1]
      rw [hi1] at e1
      rw [List.getElem?_set_ne (by omega)] at e1
      exact hM (List.mem_of_getElem? e1)
    subst hjk
    refine ⟨?_, rfl⟩
    have e2 : (L.set j a).set j L[j] = (M.set j a).set j M[j] := by rw [hi1, hi2]
    simpa using e2
  · rename_i h1 h2
    exact absurd (List.append_inj' h rfl).1 (noset L M a j h1 hlen hM)
  · rename_i h1 h2
    exact absurd (List.append_inj' h rfl).1.symm (noset M L a k h2 hlen.symm hL)
  · have hi := List.append_inj' h rfl
    exact ⟨hi.1, by omega⟩

theorem streamOf_append_lt {ds : List ℕ} {d t : ℕ} (h : t < ds.length) : streamOf (ds ++ [d]) t = streamOf ds t := by
  simp [streamOf, List.getElem?_append_left h]

theorem streamOf_append_len {ds : List ℕ} {d : ℕ} : streamOf (ds ++ [d]) ds.length = d := by
  simp [streamOf]

theorem fyIn_snoc (as : List α) (a : α) (ds : List ℕ) (d : ℕ) (hds : ds.length = as.length) (hd : d < as.length + 1) :
    fyIn (streamOf (ds ++ [d])) (as ++ [a]) [] = insOut (fyIn (streamOf ds) as []) a d := by
  rw [fyIn_append]
  have hl : (fyIn (streamOf (ds ++ [d])) as []).length = as.length := by
    simpa using (fyIn_perm (streamOf (ds ++ [d])) as []).length_eq
  simp only [fyIn]
  rw [hl, ← hds, streamOf_append_len, hds, Nat.mod_eq_of_lt hd,
    fyIn_congr as [] (streamOf (ds ++ [d])) (streamOf ds)]
  intro t ht
  exact streamOf_append_lt (by simpa [hds] using ht)

theorem fyIn_bij (arr : List α) : ∀ out : List α, arr.Nodup → out.Perm arr →
    ∃ ds : List ℕ, (ds.length = arr.length ∧ ∀ t (h : t < ds.length), ds[t] < t + 1) ∧
      fyIn (streamOf ds) arr [] = out ∧
      ∀ es : List ℕ, (es.length = arr.length ∧ ∀ t (h : t < es.length), es[t] < t + 1) →
        fyIn (streamOf es) arr [] = out → es = ds := by
  induction arr using List.reverseRecOn with
  | nil =>
    intro out _ hp
    have := hp.eq_nil
    subst this
    refine ⟨[], by simp, rfl, ?_⟩
    intro es h _
    exact List.length_eq_zero_iff.1 h.1
  | append_singleton as a ih =>
    intro out hnd hp
    have hlen : out.length = as.length + 1 := by simpa using hp.length_eq
    have hnda : as.Nodup := (List.nodup_append.1 hnd).1
    have ha : a ∉ as := by
      intro h
      have := (List.nodup_append.1 hnd).2.2 a h a (by simp)
      exact this rfl
    have hout : out.Nodup := hp.nodup_iff.2 hnd
    -- find L and j
    have key : ∃ (L : List α) (j : ℕ), L.Perm as ∧ j ≤ as.length ∧ insOut L a j = out := by
      have hmem : a ∈ out := hp.mem_iff.2 (by simp)
      obtain ⟨j, hj, hja⟩ := List.mem_iff_getElem.1 hmem
      have hne : out ≠ [] := by rintro rfl; simp at hlen
      by_cases hjl : j = as.length
      · have e : out = out.dropLast ++ [a] := by
          have h1 : out.getLast hne = a := by
            rw [List.getLast_eq_getElem, ← hja]; congr 1; omega
          rw [← h1]; exact (List.dropLast_append_getLast hne).symm
        refine ⟨out.dropLast, j, ?_, by omega, ?_⟩
        · rw [e] at hp
          exact (List.perm_append_right_iff [a]).1 hp
        · rw [insOut, dif_neg (by simp; omega)]; exact e.symm
      · have hjl' : j < out.dropLast.length := by simp; omega
        have e : out = out.dropLast ++ [out.getLast hne] := (List.dropLast_append_getLast hne).symm
        have e2 : insOut (out.dropLast.set j (out.getLast hne)) a j = out := by
          rw [insOut, dif_pos (by simpa using hjl')]
          simp only [List.set_set, List.getElem_set_self]
          have : a = out.dropLast[j] := by rw [List.getElem_dropLast]; exact hja.symm
          rw [this, List.set_getElem_self]
          exact e.symm
        refine ⟨_, j, ?_, by omega, e2⟩
        have h1 := insOut_perm (out.dropLast.set j (out.getLast hne)) a j
        rw [e2] at h1
        exact (List.perm_append_right_iff [a]).1 (h1.symm.trans hp)
    obtain ⟨L, j, hL, hj, hins⟩ := key
    obtain ⟨ds, ⟨hd1, hd2⟩, hd3, hd4⟩ := ih L hnda hL
    refine ⟨ds ++ [j], ⟨by simp [hd1], ?_⟩, ?_, ?_⟩
    · intro t ht
      rw [List.getElem_append]
      split
      · exact hd2 _ _
      · simp at ht ⊢; omega
    · rw [fyIn_snoc as a ds j hd1 (by omega), hd3, hins]
    · intro es ⟨he1, he2⟩ he3
      have hne : es ≠ [] := by rintro rfl; simp at he1
      have hes : es = es.dropLast ++ [es.getLast hne] := (List.dropLast_append_getLast hne).symm
      have hlast : es.getLast hne < as.length + 1 := by
        rw [List.getLast_eq_getElem]
        have := he2 (es.length - 1) (by simp at he1; omega)
        simp at he1; omega
      have hdl : es.dropLast.length = as.length := by simp [he1]
      rw [hes, fyIn_snoc as a _ _ hdl hlast] at he3
      have hperm : (fyIn (streamOf es.dropLast) as []).Perm as := by simpa using fyIn_perm (streamOf es.dropLast) as []
      have := insOut_inj (hperm.length_eq.trans hL.length_eq.symm)
        (fun h => ha (hperm.mem_iff.1 h)) (fun h => ha (hL.mem_iff.1 h))
        (by rw [hperm.length_eq]; omega) (by rw [hL.length_eq]; omega) (he3.trans hins.symm)
      rw [hes, this.2]
      congr 1
      apply hd4 _ ⟨hdl, ?_⟩ this.1
      intro t ht
      rw [List.getElem_dropLast]
      exact he2 _ _

end RM
