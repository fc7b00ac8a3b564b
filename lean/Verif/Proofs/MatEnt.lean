import Mathlib.Algebra.BigOperators.Intervals
import Verif.Proofs.MatOf
import Verif.Proofs.KMeans

/-! Products, transposes and row-major data of real matrices, entry by entry. -/

namespace RM
open Outcome Scalar Spec

theorem shape_row_length {F : Type} {M : Mat F} {n m i : ℕ} (h : HasShape M n m) (hi : i < n) : (M.rows.getD i []).length = m := by
  have hi' : i < M.rows.length := by rw [h.1]; exact hi
  rw [List.getD_eq_getElem?_getD, List.getElem?_eq_getElem hi', Option.getD_some]
  exact h.2.2 _ (List.getElem_mem hi')

theorem ent_of_rows {rows : List (List ℝ)} {m : ℕ} (i j : ℕ) : ent ⟨m, rows⟩ i j = (rows.getD i []).getD j 0 := rfl

theorem getD_map_lt {α β : Type} (f : α → β) (l : List α) (a : α) (b : β) (i : ℕ) (hi : i < l.length) : (l.map f).getD i b = f (l.getD i a) := by
  simp [List.getD_eq_getElem?_getD, List.getElem?_eq_getElem hi]

theorem colOf_getD {M : Mat ℝ} {n m : ℕ} (h : HasShape M n m) {j : ℕ} (hj : j < m) : colOf M.rows j = (List.range n).map fun i => ent M i j := by
  obtain ⟨h1, h2, h3⟩ := h
  unfold colOf ent
  rw [← h1]
  generalize M.rows = rows at h3
  clear h1 h2
  induction rows with
  | nil => rfl
  | cons r rows ih =>
    rw [List.filterMap_cons, List.length_cons, List.range_succ_eq_map, List.map_cons, List.map_map]
    have hr : j < r.length := by rw [h3 r (by simp)]; exact hj
    rw [List.getElem?_eq_getElem hr]
    simp only [List.getD_cons_zero]
    rw [ih (fun r' hr' => h3 r' (by simp [hr']))]
    congr 1
    rw [List.getD_eq_getElem?_getD, List.getElem?_eq_getElem hr, Option.getD_some]

/-- The product, entry by entry. -/
theorem mul_ent {A B : Mat ℝ} {n m p : ℕ} (hA : HasShape A n m) (hB : HasShape B m p) :
    ∃ C, A.mul B = ok C ∧ HasShape C n p ∧ ∀ i j : ℕ, i < n → j < p → ent C i j = ∑ k ∈ Finset.range m, ent A i k * ent B k j := by
  refine ⟨_, if_pos (by rw [hA.2.1, hB.1]), ⟨by simp [hA.1], hB.2.1, ?_⟩, ?_⟩
  · intro row hrow
    obtain ⟨r, _, rfl⟩ := List.mem_map.mp hrow
    simp [hB.2.1]
  · intro i j hi hj
    rw [ent_of_rows, getD_map_lt _ _ [] _ _ (by rw [hA.1]; exact hi), hB.2.1, getD_map_range _ _ _ hj, colOf_getD hB hj,
      dot_eq_range (shape_row_length hA hi) (by simp)]
    apply Finset.sum_congr rfl
    intro k hk
    rw [getD_map_range _ _ _ (Finset.mem_range.mp hk)]
    rfl

/-- The product of a matrix and a vector, entry by entry. -/
theorem mulVec_ent {A : Mat ℝ} {v : List ℝ} {n m : ℕ} (hA : HasShape A n m) (hv : v.length = m) :
    ∃ u, A.mulVec v = ok u ∧ u.length = n ∧ ∀ i : ℕ, i < n → u.getD i 0 = ∑ k ∈ Finset.range m, ent A i k * v.getD k 0 := by
  refine ⟨_, if_pos (by rw [hA.2.1, hv]), by simp [hA.1], ?_⟩
  intro i hi
  rw [getD_map_lt _ _ [] _ _ (by rw [hA.1]; exact hi), dot_eq_range (shape_row_length hA hi) hv]
  rfl

/-- The transpose, entry by entry. -/
theorem transpose_ent {A : Mat ℝ} {n m : ℕ} (hA : HasShape A n m) :
    HasShape A.transpose m n ∧ ∀ i j : ℕ, i < m → j < n → ent A.transpose i j = ent A j i := by
  have hc : ∀ j, j < m → (A.rows.filterMap fun r => r[j]?) = (List.range n).map fun i => ent A i j := fun j hj => colOf_getD hA hj
  refine ⟨⟨by simp [Mat.transpose, transposeRows, hA.2.1], by simp [Mat.transpose, hA.1], ?_⟩, ?_⟩
  · intro row hrow
    simp only [Mat.transpose, transposeRows, List.mem_map, List.mem_range, hA.2.1] at hrow
    obtain ⟨j, hj, rfl⟩ := hrow
    rw [hc j hj]; simp
  · intro i j hi hj
    unfold Mat.transpose transposeRows
    rw [ent_of_rows, getD_map_lt _ _ 0 _ _ (by simp [hA.2.1, hi]), hA.2.1]
    have : (List.range m).getD i 0 = i := by simp [List.getD_eq_getElem?_getD, hi]
    rw [this, hc i hi, getD_map_range _ _ _ hj]

theorem data_length {F : Type} {M : Mat F} {n m : ℕ} (h : HasShape M n m) : M.data.length = n * m := by
  unfold Mat.data
  rw [List.length_flatten]
  have : M.rows.map List.length = List.replicate n m := by
    apply List.eq_replicate_iff.mpr
    refine ⟨by simp [h.1], ?_⟩
    intro x hx
    obtain ⟨r, hr, rfl⟩ := List.mem_map.mp hx
    exact h.2.2 r hr
  rw [this, List.sum_replicate, smul_eq_mul]

/-- Row-major data, entry by entry. -/
theorem data_ent {M : Mat ℝ} {n m : ℕ} (h : HasShape M n m) {i j : ℕ} (hi : i < n) (hj : j < m) : M.data.getD (i * m + j) 0 = ent M i j := by
  obtain ⟨h1, h2, h3⟩ := h
  unfold ent Mat.data
  rw [← h1] at hi
  clear h1 h2
  generalize M.rows = rows at hi h3
  induction rows generalizing i with
  | nil => simp at hi
  | cons r rows ih =>
    have hr := h3 r (by simp)
    rw [List.flatten_cons]
    cases i with
    | zero => simp [List.getD_eq_getElem?_getD, List.getElem?_append_left (show j < r.length by omega)]
    | succ i =>
      rw [List.getD_cons_succ, ← ih (by simpa using hi) (fun r' hr' => h3 r' (by simp [hr']))]
      rw [List.getD_eq_getElem?_getD, List.getElem?_append_right (by rw [Nat.succ_mul]; omega), ← List.getD_eq_getElem?_getD]
      congr 1
      rw [Nat.succ_mul]; omega

/-- Summing over the row-major positions. -/
theorem sum_range_blocks {β : Type} [AddCommMonoid β] (k o : ℕ) (f : ℕ → β) :
    ∑ t ∈ Finset.range (k * o), f t = ∑ a ∈ Finset.range k, ∑ j ∈ Finset.range o, f (a * o + j) := by
  induction k with
  | zero => simp
  | succ k ih => rw [Nat.succ_mul, Finset.sum_range_add, ih, Finset.sum_range_succ]

theorem ext_ent {A B : Mat ℝ} {n m : ℕ} (hA : HasShape A n m) (hB : HasShape B n m) (h : ∀ i j : ℕ, i < n → j < m → ent A i j = ent B i j) : A = B := by
  rw [eq_matOf hA, eq_matOf hB]
  congr 1
  funext k
  exact h k.1 k.2 k.1.2 k.2.2

end RM
