import Mathlib.Algebra.BigOperators.Group.List.Basic
import Mathlib.Algebra.Order.BigOperators.Group.List
import Verif.Base.Linalg
import Verif.Spec.Score

/-! Facts about the linear algebra primitives over exact reals. -/

namespace RM
open Outcome Scalar Spec

theorem foldl_add_real (l : List ℝ) (a : ℝ) : l.foldl Scalar.add a = a + l.sum := by
  induction l generalizing a with
  | nil => simp
  | cons x l ih => rw [List.foldl_cons, ih, List.sum_cons, real_add]; ring

@[simp] theorem fsum_real (l : List ℝ) : fsum l = l.sum := by
  unfold fsum; rw [foldl_add_real]; simp

theorem dot_real (u v : List ℝ) : dot u v = (List.zipWith (· * ·) u v).sum := by
  unfold dot; rw [fsum_real]; rfl

theorem zipWith_nonneg {α β : Type} (f : α → β → ℝ) (h : ∀ a b, 0 ≤ f a b) (u : List α) (v : List β) :
    0 ≤ (List.zipWith f u v).sum := by
  apply List.sum_nonneg
  intro x hx
  rw [List.zipWith_eq_zipWith_take_min] at hx
  induction u generalizing v with
  | nil => simp at hx
  | cons a u ih =>
    cases v with
    | nil => simp at hx
    | cons b v =>
      rw [← List.zipWith_eq_zipWith_take_min] at hx
      rw [List.zipWith_cons_cons, List.mem_cons] at hx
      rcases hx with rfl | hx
      · exact h a b
      · exact ih v (by rw [← List.zipWith_eq_zipWith_take_min]; exact hx)

theorem Mat.sum_real (m : Mat ℝ) : m.sum = (m.rows.map List.sum).sum := by
  unfold Mat.sum Mat.data
  rw [fsum_real, List.sum_flatten]

theorem sqDist_nonneg (u v : List ℝ) : 0 ≤ sqDist u v := zipWith_nonneg _ (fun _ _ => sq_nonneg _) _ _

@[simp] theorem sqDist_self (u : List ℝ) : sqDist u u = 0 := by
  unfold sqDist; rw [List.zipWith_self]; simp

theorem sqDist_comm (u v : List ℝ) : sqDist u v = sqDist v u := by
  unfold sqDist
  rw [List.zipWith_comm]
  congr 2
  funext x y
  ring

theorem sqDist_cons (a b : ℝ) (u v : List ℝ) : sqDist (a :: u) (b :: v) = (a - b) ^ 2 + sqDist u v := by
  simp [sqDist]

theorem eq_of_sqDist (u v : List ℝ) (hl : u.length = v.length) (h : sqDist u v = 0) : u = v := by
  induction u generalizing v with
  | nil => cases v with
    | nil => rfl
    | cons b v => simp at hl
  | cons a u ih =>
    cases v with
    | nil => simp at hl
    | cons b v =>
      rw [sqDist_cons] at h
      have h1 := sqDist_nonneg u v
      have h2 := sq_nonneg (a - b)
      have h3 : (a - b) ^ 2 = 0 := by linarith
      have h4 : a = b := by
        have := pow_eq_zero_iff (n := 2) (by norm_num) |>.1 h3
        linarith
      rw [h4, ih v (by simpa using hl) (by linarith)]

theorem eq_of_sqDist_sum (m n : List (List ℝ)) (hl : m.length = n.length)
    (hrow : ∀ (i : ℕ) u v, m[i]? = some u → n[i]? = some v → u.length = v.length)
    (h : (List.zipWith sqDist m n).sum = 0) : m = n := by
  induction m generalizing n with
  | nil => cases n with
    | nil => rfl
    | cons b v => simp at hl
  | cons a m ih =>
    cases n with
    | nil => simp at hl
    | cons b n =>
      rw [List.zipWith_cons_cons, List.sum_cons] at h
      have h1 := sqDist_nonneg a b
      have h2 := zipWith_nonneg sqDist sqDist_nonneg m n
      rw [eq_of_sqDist a b (hrow 0 a b (by simp) (by simp)) (by linarith),
        ih n (by simpa using hl) (fun i u v hu hv => hrow (i + 1) u v (by simpa using hu) (by simpa using hv)) (by linarith)]

theorem zipWith_sum_mono (m m' n : List (List ℝ)) (hl : m.length = n.length) (hl' : m'.length = n.length)
    (hle : ∀ (i : ℕ) u u' v, m[i]? = some u → m'[i]? = some u' → n[i]? = some v → sqDist u v ≤ sqDist u' v) :
    (List.zipWith sqDist m n).sum ≤ (List.zipWith sqDist m' n).sum := by
  induction n generalizing m m' with
  | nil => simp
  | cons b n ih =>
    cases m with
    | nil => simp at hl
    | cons a m =>
      cases m' with
      | nil => simp at hl'
      | cons a' m' =>
        rw [List.zipWith_cons_cons, List.sum_cons, List.zipWith_cons_cons, List.sum_cons]
        exact add_le_add (hle 0 a a' b (by simp) (by simp) (by simp))
          (ih m m' (by simpa using hl) (by simpa using hl')
            (fun i u u' v h1 h2 h3 => hle (i + 1) u u' v (by simpa using h1) (by simpa using h2) (by simpa using h3)))

end RM
