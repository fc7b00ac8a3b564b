import Verif.Base.Linalg

/-! `argmax` / `argmin`: first extremal element. -/

namespace RM
open Outcome

theorem argAux_first {α : Type} [LinearOrder α] (better : α → α → Bool) (hb : ∀ a b, better a b = true ↔ a < b) (full : List α) :
    ∀ (best : α) (bi i : ℕ) (rest : List α), full[bi]? = some best → full.drop i = rest → bi < i →
      (∀ (t : ℕ) x, t < i → full[t]? = some x → x ≤ best) → (∀ (t : ℕ) x, t < bi → full[t]? = some x → x < best) →
      full[(argAux better best bi i rest).1]? = some (argAux better best bi i rest).2 ∧
      (∀ x ∈ full, x ≤ (argAux better best bi i rest).2) ∧
      (∀ (t : ℕ) x, t < (argAux better best bi i rest).1 → full[t]? = some x → x < (argAux better best bi i rest).2)
  | best, bi, i, [], h, hd, _, hle, hlt => by
    refine ⟨h, ?_, hlt⟩
    intro x hx
    obtain ⟨t, ht, rfl⟩ := List.mem_iff_getElem.1 hx
    have hi : full.length ≤ i := by simpa using hd
    exact hle t _ (by omega) (List.getElem?_eq_getElem ht)
  | best, bi, i, v :: vs, h, hd, hbi, hle, hlt => by
    have hi : i < full.length := by
      by_contra hc
      rw [List.drop_eq_nil_of_le (by omega)] at hd; simp at hd
    rw [List.drop_eq_getElem_cons hi] at hd
    injection hd with h1 h2
    rw [argAux]
    by_cases hbt : better best v = true
    · rw [if_pos hbt]
      rw [hb] at hbt
      refine argAux_first better hb full v i (i + 1) vs (by rw [List.getElem?_eq_getElem hi, h1]) h2 (by omega) ?_ ?_
      · intro t x ht hx
        by_cases hti : t = i
        · subst hti; rw [List.getElem?_eq_getElem hi, h1] at hx; cases hx; exact le_refl _
        · exact le_trans (hle t x (by omega) hx) hbt.le
      · intro t x ht hx; exact lt_of_le_of_lt (hle t x ht hx) hbt
    · rw [if_neg hbt]
      rw [hb, not_lt] at hbt
      refine argAux_first better hb full best bi (i + 1) vs h h2 (by omega) ?_ hlt
      intro t x ht hx
      by_cases hti : t = i
      · subst hti; rw [List.getElem?_eq_getElem hi, h1] at hx; cases hx; exact hbt
      · exact hle t x (by omega) hx

/-- `argmax` returns the first maximal element. -/
theorem argmaxBy_spec {α : Type} [LinearOrder α] (lt : α → α → Bool) (hb : ∀ a b, lt a b = true ↔ a < b) (l : List α) (hne : l ≠ []) :
    ∃ i v, argmaxBy lt l = ok (i, v) ∧ l[i]? = some v ∧ (∀ x ∈ l, x ≤ v) ∧ (∀ (t : ℕ) x, t < i → l[t]? = some x → x < v) := by
  cases l with
  | nil => exact absurd rfl hne
  | cons a l =>
    refine ⟨_, _, rfl, ?_⟩
    refine argAux_first _ hb (a :: l) a 0 1 l (by simp) (by simp) (by omega) ?_ (by omega)
    intro t x ht hx
    have : t = 0 := by omega
    subst this
    simp at hx; rw [hx]

/-- `argmin` returns the first minimal element. -/
theorem argminBy_spec {α : Type} [LinearOrder α] (lt : α → α → Bool) (hb : ∀ a b, lt a b = true ↔ a < b) (l : List α) (hne : l ≠ []) :
    ∃ i v, argminBy lt l = ok (i, v) ∧ l[i]? = some v ∧ (∀ x ∈ l, v ≤ x) ∧ (∀ (t : ℕ) x, t < i → l[t]? = some x → v < x) := by
  cases l with
  | nil => exact absurd rfl hne
  | cons a l =>
    refine ⟨_, _, rfl, ?_⟩
    have := argAux_first (α := αᵒᵈ) (fun best x => lt x best) (fun a b => hb b a) (a :: l) a 0 1 l rfl rfl Nat.one_pos (by
      intro t x ht hx
      have : t = 0 := by omega
      subst this
      exact le_of_eq (Option.some.inj hx).symm) (fun t x ht => absurd ht (Nat.not_lt_zero t))
    exact this

end RM
