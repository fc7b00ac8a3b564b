import Verif.Spec.Underflow
import Verif.Spec.Regression
import Verif.Model.LinReg
import Verif.Proofs.Fmincg
import Verif.Proofs.Svm

/-! Arithmetic with an exponential of bounded range: finite vectors and NaN. -/

namespace RM
open Outcome Scalar Spec

@[simp] theorem ufins_length (v : List ℝ) : (ufins v).length = v.length := by simp [ufins]

theorem ur_fsum_fins (v : List ℝ) : fsum (ufins v) = UR.fin v.sum := fsum_fins v

theorem ur_dot_fins (u v : List ℝ) : dot (ufins u) (ufins v) = UR.fin (rdot u v) := dot_fins u v

theorem ur_zipWith_fins {f : UR → UR → UR} {h : ℝ → ℝ → ℝ} (hf : ∀ x y, f (UR.fin x) (UR.fin y) = UR.fin (h x y)) (u v : List ℝ) :
    List.zipWith f (ufins u) (ufins v) = ufins (List.zipWith h u v) := by
  simp [ufins, List.zipWith_map, List.map_zipWith, hf]

theorem ur_vecZip_fins {f : UR → UR → UR} {h : ℝ → ℝ → ℝ} (hf : ∀ x y, f (UR.fin x) (UR.fin y) = UR.fin (h x y)) {u v : List ℝ}
    (hl : u.length = v.length) : vecZip f (ufins u) (ufins v) = ok (ufins (List.zipWith h u v)) := by
  rw [vecZip, if_pos (by simpa using hl), ur_zipWith_fins hf]

theorem ur_withOnes (X : Mat ℝ) : withOnes (ufinMat X) = ok (ufinMat (onesMat X)) := by
  refine (hcat_ones _).trans ?_
  simp [ufinMat, onesMat, ufins]

theorem ur_mulVec {X : Mat ℝ} {v : List ℝ} (h : X.cols = v.length) :
    (ufinMat X).mulVec (ufins v) = ok (ufins (X.rows.map fun r => rdot r v)) := by
  unfold Mat.mulVec
  rw [if_pos (by simpa [ufinMat] using h)]
  simp [ufinMat, ufins, List.map_map, Function.comp_def]
  intro a _
  exact ur_dot_fins a v

theorem colOf_ufins (rows : List (List ℝ)) (j : ℕ) : colOf (rows.map ufins) j = ufins (colOf rows j) := by
  induction rows with
  | nil => rfl
  | cons r rows ih =>
    simp only [colOf, List.map_cons, List.filterMap_cons] at ih ⊢
    rw [show (ufins r)[j]? = (r[j]?).map UR.fin by simp [ufins]]
    cases r[j]? with
    | none => simpa using ih
    | some x => simpa [ufins] using ih

theorem ur_transpose (X : Mat ℝ) : (ufinMat X).transpose = ufinMat X.transpose := by
  simp only [Mat.transpose, ufinMat, transposeRows, List.length_map, List.map_map]
  congr 1
  apply List.map_congr_left
  intro j _
  exact colOf_ufins X.rows j

theorem fsum_nan_aux (l : List UR) : ∀ a : UR, (a = UR.nan ∨ UR.nan ∈ l) → l.foldl Scalar.add a = UR.nan := by
  induction l with
  | nil => intro a h; simpa using h
  | cons x l ih =>
    intro a h
    rw [List.foldl_cons]
    apply ih
    rcases h with rfl | h
    · left; simp
    · rcases List.mem_cons.mp h with rfl | h
      · left; simp
      · right; exact h

theorem fsum_nan {l : List UR} (h : UR.nan ∈ l) : fsum l = UR.nan := fsum_nan_aux l _ (Or.inr h)

theorem ur_sigmoid_low {x : ℝ} (h : x < -710) : sigmoid.func (UR.fin x) = UR.fin 0 := by
  simp only [sigmoid, ur_neg, ur_exp_high _ (show 710 < -x by linarith), ur_one, ur_add_pinf, ur_div_pinf]

theorem ur_sigmoid_high {x : ℝ} (h : 746 < x) : sigmoid.func (UR.fin x) = UR.fin 1 := by
  simp only [sigmoid, ur_neg, ur_exp_low _ (show -x < -746 by linarith), ur_one, ur_add, add_zero]
  rw [ur_div _ _ one_ne_zero, div_one]

theorem ur_sigmoid_mid {x : ℝ} (h1 : -710 ≤ x) (h2 : x ≤ 746) : sigmoid.func (UR.fin x) = UR.fin (logistic x) := by
  simp only [sigmoid, ur_neg, ur_exp _ (show -746 ≤ -x by linarith) (show -x ≤ 710 by linarith), ur_one, ur_add]
  rw [ur_div _ _ (by positivity)]
  rfl

end RM
