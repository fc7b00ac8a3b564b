import Mathlib.LinearAlgebra.Matrix.NonsingularInverse
import Mathlib.LinearAlgebra.Matrix.ToLinearEquiv
import Mathlib.LinearAlgebra.Matrix.DotProduct
import Verif.Spec.AsMatrix
import Verif.Proofs.Solve

/-! The matrices of the model as Mathlib matrices, and the inverse. -/

namespace RM
open Outcome Scalar Spec

theorem toM_apply {n m : ℕ} (M : Mat ℝ) (i : Fin n) (j : Fin m) : toM n m M i j = ent M i j := rfl

theorem toM_inj {A B : Mat ℝ} {n m : ℕ} (hA : HasShape A n m) (hB : HasShape B n m) (h : toM n m A = toM n m B) : A = B := by
  apply ext_ent hA hB
  intro i j hi hj
  exact congrFun (congrFun h ⟨i, hi⟩) ⟨j, hj⟩

theorem toV_inj {u v : List ℝ} {n : ℕ} (hu : u.length = n) (hv : v.length = n) (h : toV n u = toV n v) : u = v := by
  rw [← ofFn_getD hu 0, ← ofFn_getD hv 0]
  congr 1

theorem toV_ofFn {n : ℕ} (v : Fin n → ℝ) : toV n (List.ofFn v) = v := by
  funext i
  simp [toV]

theorem toM_matOf {n m : ℕ} (v : Fin n × Fin m → ℝ) : toM n m (matOf n m v) = Matrix.of fun i j => v (i, j) := by
  ext i j
  rw [toM_apply, ent_matOf]; rfl

theorem toM_identity (n : ℕ) : toM n n (identity n) = 1 := by
  unfold identity
  rw [toM_matOf]
  ext i j
  simp [Matrix.one_apply]

theorem mul_toM {A B : Mat ℝ} {n m p : ℕ} (hA : HasShape A n m) (hB : HasShape B m p) :
    ∃ C, A.mul B = ok C ∧ HasShape C n p ∧ toM n p C = toM n m A * toM m p B := by
  obtain ⟨C, h1, h2, h3⟩ := mul_ent hA hB
  refine ⟨C, h1, h2, ?_⟩
  ext i j
  rw [toM_apply, h3 i j i.2 j.2, Matrix.mul_apply, Finset.sum_range]
  rfl

theorem mulVec_toV {A : Mat ℝ} {v : List ℝ} {n m : ℕ} (hA : HasShape A n m) (hv : v.length = m) :
    ∃ u, A.mulVec v = ok u ∧ u.length = n ∧ toV n u = (toM n m A).mulVec (toV m v) := by
  obtain ⟨u, h1, h2, h3⟩ := mulVec_ent hA hv
  refine ⟨u, h1, h2, ?_⟩
  ext i
  rw [toV, h3 i i.2, Matrix.mulVec, dotProduct, Finset.sum_range]
  rfl

theorem transpose_toM {A : Mat ℝ} {n m : ℕ} (hA : HasShape A n m) : HasShape A.transpose m n ∧ toM m n A.transpose = (toM n m A).transpose := by
  obtain ⟨h1, h2⟩ := transpose_ent hA
  refine ⟨h1, ?_⟩
  ext i j
  rw [toM_apply, h2 i j i.2 j.2]; rfl

theorem mulVec_eq_iff {A : Mat ℝ} {v b : List ℝ} {n m : ℕ} (hA : HasShape A n m) (hv : v.length = m) (hb : b.length = n) :
    A.mulVec v = ok b ↔ (toM n m A).mulVec (toV m v) = toV n b := by
  obtain ⟨u, h1, h2, h3⟩ := mulVec_toV hA hv
  rw [h1, ← h3]
  constructor
  · intro h; injection h with h; rw [h]
  · intro h; rw [toV_inj h2 hb h]

theorem toV_zeroVec (n : ℕ) : toV n (zeroVec n) = 0 := by
  funext i
  simp [toV, zeroVec]

/-- Linear independence of the columns. -/
theorem fullColumnRank_iff {A : Mat ℝ} {n m : ℕ} (hA : HasShape A n m) :
    FullColumnRank A ↔ ∀ v : Fin m → ℝ, (toM n m A).mulVec v = 0 → v = 0 := by
  unfold FullColumnRank
  rw [hA.2.1, hA.1]
  constructor
  · intro h v hv
    have := h (List.ofFn v) (by simp) ((mulVec_eq_iff hA (by simp) (by simp [zeroVec])).mpr (by rw [toV_ofFn, hv, toV_zeroVec]))
    rw [← toV_ofFn v, this, toV_zeroVec]
  · intro h y hy he
    have := h (toV m y) (by rw [(mulVec_eq_iff hA hy (by simp [zeroVec])).mp he, toV_zeroVec])
    exact toV_inj hy (by simp [zeroVec]) (by rw [this, toV_zeroVec])

/-- A square matrix is regular iff its determinant is not zero. -/
theorem fullColumnRank_det {A : Mat ℝ} {n : ℕ} (hA : HasShape A n n) : FullColumnRank A ↔ (toM n n A).det ≠ 0 := by
  rw [fullColumnRank_iff hA]
  constructor
  · intro h hd
    obtain ⟨v, hv, hz⟩ := Matrix.exists_mulVec_eq_zero_iff.mpr hd
    exact hv (h v hz)
  · intro hd v hv
    by_contra hne
    exact hd (Matrix.exists_mulVec_eq_zero_iff.mp ⟨v, hne, hv⟩)

/-- What `InvertsExactly` gives for the Mathlib matrices. -/
theorem inverse_toM {inverse : Mat ℝ → Outcome (Mat ℝ)} (hi : InvertsExactly inverse) {A B : Mat ℝ} {n : ℕ} (hA : HasShape A n n) (h : inverse A = ok B) :
    HasShape B n n ∧ toM n n A * toM n n B = 1 ∧ toM n n B * toM n n A = 1 := by
  obtain ⟨h1, h2⟩ := hi A B n hA h
  obtain ⟨C, h3, h4, h5⟩ := mul_toM hA h1
  rw [h2] at h3
  injection h3 with h3
  rw [← h3, toM_identity] at h5
  exact ⟨h1, h5.symm, mul_eq_one_comm.mp h5.symm⟩

theorem unitVec_length (n j : ℕ) : (unitVec n j : List ℝ).length = n := by simp [unitVec]

theorem solveColumns_spec (tol : ℝ) (A : Mat ℝ) (js : List ℕ) (xs : List (List ℝ)) (h : solveColumns tol A js = ok xs) :
    xs.length = js.length ∧ ∀ k (hk : k < js.length), gaussSolve tol A (unitVec A.cols js[k]) = ok (xs.getD k []) := by
  induction js generalizing xs with
  | nil => rw [solveColumns] at h; injection h with h; subst h; simp
  | cons j js ih =>
    rw [solveColumns] at h
    obtain ⟨x, h1, h⟩ := bind_eq_ok.mp h
    obtain ⟨ys, h2, h⟩ := bind_eq_ok.mp h
    injection h with h
    subst h
    obtain ⟨i1, i2⟩ := ih ys h2
    refine ⟨by simp [i1], ?_⟩
    intro k hk
    cases k with
    | zero => simpa using h1
    | succ k => simpa using i2 k (by simpa using hk)

/-- Inverting by Gaussian elimination inverts exactly. -/
theorem gaussInverse_exact (tol : ℝ) (ht : 0 ≤ tol) : InvertsExactly (gaussInverse tol) := by
  intro A B n hA h
  unfold gaussInverse at h
  obtain ⟨xs, h1, h⟩ := bind_eq_ok.mp h
  injection h with h
  obtain ⟨h2, h3⟩ := solveColumns_spec tol A _ xs h1
  rw [hA.2.1] at h2 h3 h
  rw [List.length_range] at h2
  have hx : ∀ k : ℕ, k < n → (xs.getD k []).length = n ∧ A.mulVec (xs.getD k []) = ok (unitVec n k) := by
    intro k hk
    have := h3 k (by simpa using hk)
    rw [List.getElem_range] at this
    obtain ⟨a, b, _⟩ := gaussSolve_exact tol ht A _ _ n hA (unitVec_length n k) this
    exact ⟨a, b⟩
  have hS : HasShape (⟨n, xs⟩ : Mat ℝ) n n := by
    refine ⟨h2, rfl, ?_⟩
    intro row hrow
    obtain ⟨k, hk, rfl⟩ := List.getElem_of_mem hrow
    have := (hx k (by rw [← h2]; exact hk)).1
    rwa [List.getD_eq_getElem?_getD, List.getElem?_eq_getElem hk, Option.getD_some] at this
  obtain ⟨t1, t2⟩ := transpose_ent hS
  rw [h] at t1 t2
  refine ⟨t1, ?_⟩
  obtain ⟨C, c1, c2, c3⟩ := mul_ent hA t1
  rw [c1]
  congr 1
  apply ext_ent c2 (matOf_shape _ _ _)
  intro i j hi hj
  rw [c3 i j hi hj, show ent (matOf n n fun k => if k.1 = k.2 then 1 else 0) i j = if i = j then 1 else 0 by
    have := ent_matOf (fun k : Fin n × Fin n => if k.1 = k.2 then (1 : ℝ) else 0) ⟨i, hi⟩ ⟨j, hj⟩
    simpa using this]
  obtain ⟨u, u1, _, u3⟩ := mulVec_ent hA (hx j hj).1
  rw [(hx j hj).2] at u1
  injection u1 with u1
  have := u3 i hi
  rw [← u1] at this
  unfold unitVec at this
  rw [getD_map_range _ _ _ hi] at this
  simp only [real_one, real_zero] at this
  rw [this]
  apply Finset.sum_congr rfl
  intro k hk
  rw [t2 k j (Finset.mem_range.mp hk) hj]
  rfl

theorem gaussInverse_regular : InvertsRegular (gaussInverse (0 : ℝ)) := by
  intro A n hA hr
  have : ∀ js : List ℕ, ∃ xs, solveColumns 0 A js = ok xs := by
    intro js
    induction js with
    | nil => exact ⟨[], rfl⟩
    | cons j js ih =>
      obtain ⟨xs, hxs⟩ := ih
      obtain ⟨x, hx⟩ := gaussSolve_regular A (unitVec A.cols j) n hA (by rw [unitVec_length, hA.2.1]) hr
      exact ⟨x :: xs, by rw [solveColumns, hx, ok_bind, hxs, ok_bind]⟩
  obtain ⟨xs, hxs⟩ := this (List.range A.cols)
  exact ⟨_, by unfold gaussInverse; rw [hxs, ok_bind]⟩

end RM
