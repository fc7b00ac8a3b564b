import Mathlib.Algebra.BigOperators.Field
import Mathlib.Algebra.Order.Chebyshev
import Mathlib.NumberTheory.Harmonic.Bounds
import Mathlib.Data.Real.Basic
import Mathlib.Tactic.Linarith
import Mathlib.Tactic.FieldSimp
import Mathlib.Tactic.Positivity

/-! The expected cost of seeding by squared distances (Arthur and Vassilvitskii, 2007), for weights on a finite type. -/

namespace RM.Kpp
open Finset

variable {ι κ : Type} [Fintype ι] [DecidableEq ι] [Fintype κ] [DecidableEq κ]

/-- The distances after one more centre `i`. -/
def addCentre (D : ι → ι → ℝ) (w : ι → ℝ) (i : ι) : ι → ℝ := fun a => min (w a) (D a i)

/-- The expected total after `t` more centres, each chosen with probability proportional to the present distances. -/
noncomputable def expCost (D : ι → ι → ℝ) : ℕ → (ι → ℝ) → ℝ
  | 0, w => ∑ a, w a
  | t + 1, w => ∑ i, w i / (∑ a, w a) * expCost D t (addCentre D w i)

/-- Squared distances: not negative, and a triangle inequality with factor 2. -/
structure IsSq (D : ι → ι → ℝ) : Prop where
  nonneg : ∀ a b, 0 ≤ D a b
  tri : ∀ a b i, D b i ≤ 2 * D a i + 2 * D a b

/-- Distances to a set of centres. -/
structure IsNear (D : ι → ι → ℝ) (w : ι → ℝ) : Prop where
  nonneg : ∀ a, 0 ≤ w a
  tri : ∀ a b, w b ≤ 2 * w a + 2 * D a b

theorem IsNear.add {D : ι → ι → ℝ} (hD : IsSq D) {w : ι → ℝ} (hw : IsNear D w) (i : ι) : IsNear D (addCentre D w i) where
  nonneg a := le_min (hw.nonneg a) (hD.nonneg a i)
  tri a b := by
    unfold addCentre
    rcases le_total (w a) (D a i) with h | h
    · rw [min_eq_left h]; exact (min_le_left _ _).trans (hw.tri a b)
    · rw [min_eq_right h]; exact (min_le_right _ _).trans (hD.tri a b i)

theorem expCost_nonneg {D : ι → ι → ℝ} (hD : IsSq D) : ∀ (t : ℕ) {w : ι → ℝ}, IsNear D w → 0 ≤ expCost D t w
  | 0, w, hw => sum_nonneg fun a _ => hw.nonneg a
  | t + 1, w, hw => sum_nonneg fun i _ => mul_nonneg (div_nonneg (hw.nonneg i) (sum_nonneg fun a _ => hw.nonneg a)) (expCost_nonneg hD t (hw.add hD i))

/-- Choosing a centre inside `A` by squared distances. -/
theorem choose_inside {D : ι → ι → ℝ} (hD : IsSq D) {w : ι → ℝ} (hw : IsNear D w) (A : Finset ι) {o : ℝ}
    (ho : ∑ b ∈ A, ∑ a ∈ A, D a b ≤ 2 * A.card * o) :
    ∑ i ∈ A, w i * ∑ a ∈ A, addCentre D w i a ≤ 8 * o * ∑ a ∈ A, w a := by
  rcases A.eq_empty_or_nonempty with rfl | hne
  · simp
  have hn : (0 : ℝ) < A.card := by exact_mod_cast hne.card_pos
  set W := ∑ a ∈ A, w a with hW
  have hW0 : 0 ≤ W := sum_nonneg fun a _ => hw.nonneg a
  have key : (A.card : ℝ) * ∑ i ∈ A, w i * ∑ a ∈ A, addCentre D w i a ≤ 4 * W * ∑ i ∈ A, ∑ a ∈ A, D a i := by
    rw [mul_sum, mul_sum]
    refine sum_le_sum fun i _ => ?_
    set M := ∑ a ∈ A, addCentre D w i a
    set S := ∑ a ∈ A, D a i with hS
    have hM0 : 0 ≤ M := sum_nonneg fun a _ => (hw.add hD i).nonneg a
    have hM1 : M ≤ W := sum_le_sum fun a _ => min_le_left _ _
    have hM2 : M ≤ S := sum_le_sum fun a _ => min_le_right _ _
    have hS0 : 0 ≤ S := sum_nonneg fun a _ => hD.nonneg a i
    have h1 : (A.card : ℝ) * w i ≤ 2 * W + 2 * S := by
      have : ∑ a ∈ A, w i ≤ ∑ a ∈ A, (2 * w a + 2 * D a i) := sum_le_sum fun a _ => hw.tri a i
      rw [sum_const, nsmul_eq_mul, sum_add_distrib, ← mul_sum, ← mul_sum] at this
      exact this
    calc (A.card : ℝ) * (w i * M) = (A.card * w i) * M := by ring
      _ ≤ (2 * W + 2 * S) * M := mul_le_mul_of_nonneg_right h1 hM0
      _ = 2 * (W * M) + 2 * (S * M) := by ring
      _ ≤ 2 * (W * S) + 2 * (S * W) := by
        have := mul_le_mul_of_nonneg_left hM2 hW0
        have := mul_le_mul_of_nonneg_left hM1 hS0
        linarith
      _ = 4 * W * S := by ring
  have : (A.card : ℝ) * ∑ i ∈ A, w i * ∑ a ∈ A, addCentre D w i a ≤ A.card * (8 * o * W) := by
    refine key.trans ?_
    have := mul_le_mul_of_nonneg_left ho (by positivity : 0 ≤ 4 * W)
    linarith
  exact le_of_mul_le_mul_left this hn

/-- The points of cluster `j`. -/
def cluster (lab : ι → κ) (j : κ) : Finset ι := univ.filter fun a => lab a = j

theorem sum_clusters (lab : ι → κ) (U : Finset κ) (f : ι → ℝ) :
    ∑ a with lab a ∈ U, f a = ∑ j ∈ U, ∑ a ∈ cluster lab j, f a := by
  rw [← sum_fiberwise_of_maps_to (s := univ.filter fun a => lab a ∈ U) (t := U) (g := lab) (by simp)]
  refine sum_congr rfl fun j hj => sum_congr ?_ fun _ _ => rfl
  ext a
  simp only [mem_filter, mem_univ, true_and, cluster]
  constructor
  · rintro ⟨_, h⟩; exact h
  · rintro rfl; exact ⟨hj, rfl⟩

theorem sum_split (lab : ι → κ) (U : Finset κ) (f : ι → ℝ) :
    ∑ a, f a = ∑ a with lab a ∉ U, f a + ∑ j ∈ U, ∑ a ∈ cluster lab j, f a := by
  rw [← sum_clusters, add_comm, sum_filter_add_sum_filter_not]

section
variable {D : ι → ι → ℝ} (hD : IsSq D) (lab : ι → κ) {o : κ → ℝ} (ho0 : ∀ j, 0 ≤ o j)
  (ho : ∀ j, ∑ b ∈ cluster lab j, ∑ a ∈ cluster lab j, D a b ≤ 2 * (cluster lab j).card * o j)
include hD ho0 ho

/-- Lemma 3.3 of the paper. -/
theorem expCost_le : ∀ (t : ℕ) (w : ι → ℝ) (U : Finset κ), IsNear D w → t ≤ U.card →
    expCost D t w ≤ ((∑ a with lab a ∉ U, w a) + 8 * ∑ j ∈ U, o j) * (1 + (harmonic t : ℝ)) +
      ((U.card - t : ℝ) / U.card) * ∑ j ∈ U, ∑ a ∈ cluster lab j, w a
  | 0, w, U, hw, _ => by
    rw [expCost, sum_split lab U, harmonic_zero]
    have h1 : 0 ≤ ∑ j ∈ U, o j := sum_nonneg fun j _ => ho0 j
    rcases U.eq_empty_or_nonempty with rfl | hne
    · simp
    · have hn : (U.card : ℝ) ≠ 0 := by exact_mod_cast hne.card_pos.ne'
      simp only [Nat.cast_zero, sub_zero, div_self hn, Rat.cast_zero, add_zero, mul_one, one_mul]
      linarith
  | t + 1, w, U, hw, ht => by
    set C := ∑ a with lab a ∉ U, w a with hC
    set P := ∑ j ∈ U, ∑ a ∈ cluster lab j, w a with hP
    set O := ∑ j ∈ U, o j with hO
    set H : ℝ := (harmonic t : ℝ) with hH
    have hC0 : 0 ≤ C := sum_nonneg fun a _ => hw.nonneg a
    have hP0 : 0 ≤ P := sum_nonneg fun j _ => sum_nonneg fun a _ => hw.nonneg a
    have hO0 : 0 ≤ O := sum_nonneg fun j _ => ho0 j
    have hH0 : 0 ≤ H := by
      rw [hH]
      unfold harmonic
      push_cast
      positivity
    have hu1 : (1 : ℝ) ≤ U.card := by exact_mod_cast (by omega : 1 ≤ U.card)
    have hut : (t : ℝ) + 1 ≤ U.card := by exact_mod_cast ht
    set u : ℝ := (U.card : ℝ) with hu
    have ht0 : (0 : ℝ) ≤ t := Nat.cast_nonneg t
    have hH1 : ((harmonic (t + 1) : ℚ) : ℝ) = H + 1 / (t + 1) := by
      rw [harmonic_succ]
      push_cast
      rw [one_div]
    have hΦ : ∑ a, w a = C + P := sum_split lab U w
    rcases (add_nonneg hC0 hP0).eq_or_lt with h0 | hpos
    · have : expCost D (t + 1) w = 0 := by
        rw [expCost, hΦ, ← h0]
        simp
      rw [this]
      have h1 : 0 ≤ (u - ((t + 1 : ℕ) : ℝ)) / u := div_nonneg (by push_cast; linarith) (by linarith)
      have h2 : 0 ≤ 1 + ((harmonic (t + 1) : ℚ) : ℝ) := by rw [hH1]; positivity
      have := mul_nonneg (add_nonneg hC0 (mul_nonneg (by norm_num : (0:ℝ) ≤ 8) hO0)) h2
      have := mul_nonneg h1 hP0
      linarith
    -- a centre in a cluster that counts as covered
    have hcov : ∀ i, expCost D t (addCentre D w i) ≤ (C + 8 * O) * (1 + H) + (u - t) / u * P := by
      intro i
      refine (expCost_le t _ U (hw.add hD i) (by omega)).trans ?_
      have h1 : ∑ a with lab a ∉ U, addCentre D w i a ≤ C := sum_le_sum fun a _ => min_le_left _ _
      have h2 : ∑ j ∈ U, ∑ a ∈ cluster lab j, addCentre D w i a ≤ P := sum_le_sum fun j _ => sum_le_sum fun a _ => min_le_left _ _
      have h3 : 0 ≤ (u - t) / u := div_nonneg (by linarith) (by linarith)
      have := mul_le_mul_of_nonneg_left h2 h3
      have := mul_le_mul_of_nonneg_right h1 (by linarith : 0 ≤ 1 + H)
      linarith
    -- a centre in an uncovered cluster
    set r : ℝ := (u - 1 - t) / (u - 1) with hr
    have hr0 : 0 ≤ r := div_nonneg (by linarith) (by linarith)
    have hunc : ∀ j ∈ U, ∀ i ∈ cluster lab j, expCost D t (addCentre D w i) ≤
        (C + (∑ a ∈ cluster lab j, addCentre D w i a) + 8 * (O - o j)) * (1 + H) + r * (P - ∑ a ∈ cluster lab j, w a) := by
      intro j hj i hi
      have hcard : (U.erase j).card = U.card - 1 := card_erase_of_mem hj
      have hcr : ((U.erase j).card : ℝ) = u - 1 := by
        rw [hcard, Nat.cast_sub (by omega)]
        simp [hu]
      refine (expCost_le t _ (U.erase j) (hw.add hD i) (by omega)).trans ?_
      rw [hcr]
      have h1 : ∑ a with lab a ∉ U.erase j, addCentre D w i a ≤ C + ∑ a ∈ cluster lab j, addCentre D w i a := by
        have hsp := sum_split lab U (addCentre D w i)
        have hsp' := sum_split lab (U.erase j) (addCentre D w i)
        have hjs := sum_erase_add U (fun j => ∑ a ∈ cluster lab j, addCentre D w i a) hj
        have : ∑ a with lab a ∉ U, addCentre D w i a ≤ C := sum_le_sum fun a _ => min_le_left _ _
        linarith
      have h2 : ∑ j ∈ U.erase j, ∑ a ∈ cluster lab j, addCentre D w i a ≤ P - ∑ a ∈ cluster lab j, w a := by
        have hjs := sum_erase_add U (fun j => ∑ a ∈ cluster lab j, w a) hj
        have : ∑ j ∈ U.erase j, ∑ a ∈ cluster lab j, addCentre D w i a ≤ ∑ j ∈ U.erase j, ∑ a ∈ cluster lab j, w a :=
          sum_le_sum fun j _ => sum_le_sum fun a _ => min_le_left _ _
        linarith
      have h3 : ∑ j ∈ U.erase j, o j = O - o j := by
        have := sum_erase_add U o hj
        linarith
      rw [h3]
      have := mul_le_mul_of_nonneg_left h2 hr0
      have := mul_le_mul_of_nonneg_right h1 (by linarith : 0 ≤ 1 + H)
      linarith
    -- sums over the choices
    have hsumc : ∑ i with lab i ∉ U, w i * expCost D t (addCentre D w i) ≤ C * ((C + 8 * O) * (1 + H) + (u - t) / u * P) := by
      rw [hC, sum_mul]
      exact sum_le_sum fun i _ => mul_le_mul_of_nonneg_left (hcov i) (hw.nonneg i)
    have hsumj : ∀ j ∈ U, ∑ i ∈ cluster lab j, w i * expCost D t (addCentre D w i) ≤
        (∑ a ∈ cluster lab j, w a) * ((C + 8 * O) * (1 + H)) + r * (P * (∑ a ∈ cluster lab j, w a) - (∑ a ∈ cluster lab j, w a) ^ 2) := by
      intro j hj
      set W := ∑ a ∈ cluster lab j, w a with hW
      have h1 : ∑ i ∈ cluster lab j, w i * expCost D t (addCentre D w i) ≤
          ∑ i ∈ cluster lab j, (w i * ((C + 8 * (O - o j)) * (1 + H) + r * (P - W)) + (w i * ∑ a ∈ cluster lab j, addCentre D w i a) * (1 + H)) := by
        refine sum_le_sum fun i hi => ?_
        have := mul_le_mul_of_nonneg_left (hunc j hj i hi) (hw.nonneg i)
        linarith
      rw [sum_add_distrib, ← sum_mul, ← sum_mul, ← hW] at h1
      have h2 := mul_le_mul_of_nonneg_right (choose_inside hD hw (cluster lab j) (ho j)) (by linarith : 0 ≤ 1 + H)
      rw [← hW] at h2
      nlinarith
    have hsumu : ∑ j ∈ U, ∑ i ∈ cluster lab j, w i * expCost D t (addCentre D w i) ≤
        P * ((C + 8 * O) * (1 + H)) + (u - 1 - t) / u * P ^ 2 := by
      have h1 := sum_le_sum hsumj
      rw [sum_add_distrib, ← sum_mul, ← mul_sum, sum_sub_distrib, ← mul_sum] at h1
      have h2 : P ^ 2 ≤ u * ∑ j ∈ U, (∑ a ∈ cluster lab j, w a) ^ 2 := sq_sum_le_card_mul_sum_sq
      have h3 : r * (P * P - ∑ j ∈ U, (∑ a ∈ cluster lab j, w a) ^ 2) ≤ (u - 1 - t) / u * P ^ 2 := by
        have hq : P ^ 2 / u ≤ ∑ j ∈ U, (∑ a ∈ cluster lab j, w a) ^ 2 := by
          rw [div_le_iff₀ (by linarith)]
          linarith
        have h4 : r * (P * P - ∑ j ∈ U, (∑ a ∈ cluster lab j, w a) ^ 2) ≤ r * (P * P - P ^ 2 / u) :=
          mul_le_mul_of_nonneg_left (by linarith) hr0
        refine h4.trans (le_of_eq ?_)
        rcases eq_or_ne (u - 1) 0 with hz | hz
        · have ht' : (t : ℝ) = 0 := by linarith
          rw [hr, hz, ht']
          simp
        · rw [hr]
          have : u ≠ 0 := by linarith
          field_simp
      have h5 : ∑ j ∈ U, ∑ a ∈ cluster lab j, w a = P := rfl
      rw [h5] at h1
      linarith
    have htot : (C + P) * expCost D (t + 1) w = ∑ i with lab i ∉ U, w i * expCost D t (addCentre D w i) +
        ∑ j ∈ U, ∑ i ∈ cluster lab j, w i * expCost D t (addCentre D w i) := by
      rw [← sum_split lab U fun i => w i * expCost D t (addCentre D w i), expCost, hΦ, mul_sum]
      refine sum_congr rfl fun i _ => ?_
      field_simp
    have hfin : (C + P) * expCost D (t + 1) w ≤ (C + P) * ((C + 8 * O) * (1 + ((harmonic (t + 1) : ℚ) : ℝ)) + (u - ((t + 1 : ℕ) : ℝ)) / u * P) := by
      rw [htot, hH1]
      push_cast
      have hu0 : u ≠ 0 := by linarith
      have e1 : C * ((C + 8 * O) * (1 + H) + (u - t) / u * P) + (P * ((C + 8 * O) * (1 + H)) + (u - 1 - t) / u * P ^ 2) =
          (C + P) * ((C + 8 * O) * (1 + H) + (u - (t + 1)) / u * P) + C * P / u := by
        field_simp
        ring
      have e2 : C * P / u ≤ (C + P) * ((C + 8 * O) * (1 / (t + 1))) := by
        have h1 : C * P / u ≤ C * P / (t + 1) := div_le_div_of_nonneg_left (mul_nonneg hC0 hP0) (by linarith) hut
        have h2 : C * P / (t + 1) ≤ (C + P) * (C + 8 * O) / (t + 1) := by
          apply div_le_div_of_nonneg_right _ (by linarith)
          nlinarith [mul_nonneg hC0 hC0, mul_nonneg hC0 hO0, mul_nonneg hP0 hO0]
        calc _ ≤ _ := h1
          _ ≤ _ := h2
          _ = _ := by ring
      linarith
    exact le_of_mul_le_mul_left hfin hpos

/-- The expected cost with a first centre chosen uniformly and `k - 1` more by squared distances. -/
theorem seeding_le (hD2 : ∀ i, IsNear D (fun a => D a i)) :
    ∑ i, expCost D (Fintype.card κ - 1) (fun a => D a i) ≤ Fintype.card ι * (8 * (1 + (harmonic (Fintype.card κ - 1) : ℝ)) * ∑ j, o j) := by
  set H : ℝ := (harmonic (Fintype.card κ - 1) : ℝ)
  set O := ∑ j, o j with hO
  have hH0 : 0 ≤ H := by
    show (0 : ℝ) ≤ ((harmonic _ : ℚ) : ℝ)
    unfold harmonic
    push_cast
    positivity
  have h1 : ∀ i, expCost D (Fintype.card κ - 1) (fun a => D a i) ≤ ((∑ a ∈ cluster lab (lab i), D a i) + 8 * (O - o (lab i))) * (1 + H) := by
    intro i
    have hcard : (univ.erase (lab i)).card = Fintype.card κ - 1 := card_erase_of_mem (mem_univ _)
    refine (expCost_le hD lab ho0 ho _ _ (univ.erase (lab i)) (hD2 i) hcard.ge).trans (le_of_eq ?_)
    rw [hcard, sub_self, zero_div, zero_mul, add_zero]
    have e1 : ∑ a with lab a ∉ univ.erase (lab i), D a i = ∑ a ∈ cluster lab (lab i), D a i := by
      refine sum_congr ?_ fun _ _ => rfl
      ext a
      simp [cluster]
    have e2 : ∑ j ∈ univ.erase (lab i), o j = O - o (lab i) := by
      have := sum_erase_add univ o (mem_univ (lab i))
      linarith
    rw [e1, e2]
  have h2 : ∑ i, expCost D (Fintype.card κ - 1) (fun a => D a i) ≤ ∑ i, ((∑ a ∈ cluster lab (lab i), D a i) + 8 * (O - o (lab i))) * (1 + H) :=
    sum_le_sum fun i _ => h1 i
  refine h2.trans ?_
  rw [← sum_mul]
  have h3 : ∑ i, ((∑ a ∈ cluster lab (lab i), D a i) + 8 * (O - o (lab i))) ≤ Fintype.card ι * (8 * O) := by
    rw [sum_split lab univ]
    have e0 : ∑ a with lab a ∉ (univ : Finset κ), ((∑ b ∈ cluster lab (lab a), D b a) + 8 * (O - o (lab a))) = 0 := by simp
    rw [e0, zero_add]
    have e1 : ∀ j, ∑ a ∈ cluster lab j, ((∑ b ∈ cluster lab (lab a), D b a) + 8 * (O - o (lab a))) ≤ (cluster lab j).card * (8 * O) := by
      intro j
      have : ∑ a ∈ cluster lab j, ((∑ b ∈ cluster lab (lab a), D b a) + 8 * (O - o (lab a))) =
          ∑ a ∈ cluster lab j, ((∑ b ∈ cluster lab j, D b a) + 8 * (O - o j)) := by
        refine sum_congr rfl fun a ha => ?_
        have : lab a = j := by simpa [cluster] using ha
        rw [this]
      rw [this, sum_add_distrib, sum_const, nsmul_eq_mul]
      have := ho j
      have := mul_nonneg (Nat.cast_nonneg (α := ℝ) (cluster lab j).card) (ho0 j)
      linarith
    refine (sum_le_sum fun j _ => e1 j).trans (le_of_eq ?_)
    rw [← sum_mul]
    congr 1
    have := sum_split lab univ fun _ : ι => (1 : ℝ)
    simp only [sum_const, nsmul_eq_mul, mul_one, mem_univ, not_true_eq_false, filter_false, card_empty, Nat.cast_zero, zero_add] at this
    rw [← this]
    simp
  have := mul_le_mul_of_nonneg_right h3 (by linarith : 0 ≤ 1 + H)
  linarith

end
end RM.Kpp
