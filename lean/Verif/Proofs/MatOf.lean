import Mathlib.Algebra.BigOperators.Fin
import Mathlib.Analysis.Calculus.Deriv.Comp
import Mathlib.Analysis.Calculus.FDeriv.Add
import Mathlib.Analysis.Calculus.Deriv.Mul
import Verif.Proofs.RealMat
import Verif.Spec.Calculus

/-! Matrices given by their entries, gradients of separable functions. -/

namespace RM
open Outcome Scalar Spec

theorem matOf_shape (r c : ℕ) (v : Fin r × Fin c → ℝ) : HasShape (matOf r c v) r c := by
  refine ⟨by simp [matOf], rfl, ?_⟩
  intro row hrow
  simp only [matOf, List.mem_ofFn] at hrow
  obtain ⟨i, rfl⟩ := hrow
  simp

theorem ent_matOf {r c : ℕ} (v : Fin r × Fin c → ℝ) (i : Fin r) (j : Fin c) : ent (matOf r c v) i j = v (i, j) := by
  unfold ent matOf
  simp

theorem HasShape.table {M : Mat ℝ} {r c : ℕ} (h : HasShape M r c) : IsTable r c M :=
  ⟨h.2.1, h.1, fun row hr => by rw [h.2.1]; exact h.2.2 row hr⟩

theorem IsTable.shape {M : Mat ℝ} {r c : ℕ} (h : IsTable r c M) : HasShape M r c :=
  ⟨h.2.1, h.1, fun row hr => by rw [h.2.2 row hr, h.1]⟩

theorem ofFn_getD {α : Type} {l : List α} {n : ℕ} (h : l.length = n) (d : α) : List.ofFn (fun i : Fin n => l.getD i d) = l := by
  apply List.ext_getElem (by simp [h])
  intro i h1 h2
  simp [h2]

theorem eq_matOf {M : Mat ℝ} {r c : ℕ} (h : HasShape M r c) : M = matOf r c fun k => ent M k.1 k.2 := by
  obtain ⟨mc, rows⟩ := M
  obtain ⟨h1, h2, h3⟩ := h
  simp only at h1 h2 h3
  unfold matOf ent
  simp only
  congr 1
  apply List.ext_getElem (by simp [h1])
  intro i hi hi'
  simp only [List.getElem_ofFn, getD_lt _ hi]
  exact (ofFn_getD (h3 _ (List.getElem_mem hi)) 0).symm

theorem matOf_inj {r c : ℕ} {u v : Fin r × Fin c → ℝ} (h : matOf r c u = matOf r c v) : u = v := by
  funext k
  have h1 := ent_matOf u k.1 k.2
  have h2 := ent_matOf v k.1 k.2
  rw [h] at h1
  exact h1.symm.trans h2

theorem zipWith_ofFn {α β γ : Type} (f : α → β → γ) {n : ℕ} (a : Fin n → α) (b : Fin n → β) :
    List.zipWith f (List.ofFn a) (List.ofFn b) = List.ofFn fun i => f (a i) (b i) := by
  apply List.ext_getElem (by simp)
  intro i h1 h2
  simp

theorem zip_matOf (f : ℝ → ℝ → ℝ) {r c : ℕ} (u v : Fin r × Fin c → ℝ) :
    Mat.zip f (matOf r c u) (matOf r c v) = ok (matOf r c fun k => f (u k) (v k)) := by
  unfold Mat.zip matOf
  simp only [List.length_ofFn, and_self, if_true]
  rw [zipWith_ofFn]
  simp only [zipWith_ofFn]

theorem map_matOf (f : ℝ → ℝ) {r c : ℕ} (v : Fin r × Fin c → ℝ) : (matOf r c v).map f = matOf r c fun k => f (v k) := by
  unfold Mat.map matOf
  simp [List.map_ofFn, Function.comp_def]

theorem sum_matOf {r c : ℕ} (v : Fin r × Fin c → ℝ) : (matOf r c v).sum = ∑ k, v k := by
  rw [Mat.sum_real]
  unfold matOf
  simp only [List.map_ofFn, Function.comp_def]
  rw [List.sum_ofFn, Fintype.sum_prod_type]
  congr 1
  funext i
  rw [List.sum_ofFn]

theorem fsum_ofFn {n : ℕ} (v : Fin n → ℝ) : fsum (List.ofFn v) = ∑ k, v k := by rw [fsum_real, List.sum_ofFn]

theorem vecZip_ofFn (f : ℝ → ℝ → ℝ) {n : ℕ} (u v : Fin n → ℝ) : vecZip f (List.ofFn u) (List.ofFn v) = ok (List.ofFn fun k => f (u k) (v k)) := by
  unfold vecZip
  simp [zipWith_ofFn]

/-- The gradient of a sum of functions of one coordinate each. -/
theorem gradient_separable {ι : Type} [Fintype ι] (h : ι → ℝ → ℝ) (g x : ι → ℝ) (hd : ∀ k, HasDerivAt (h k) (g k) (x k)) :
    IsGradientAt (fun v => ∑ k, h k (v k)) g x := by
  unfold IsGradientAt
  apply HasFDerivAt.fun_sum
  intro k _
  have h1 : HasFDerivAt (fun v : ι → ℝ => v k) (ContinuousLinearMap.proj k : (ι → ℝ) →L[ℝ] ℝ) x := (ContinuousLinearMap.proj k : (ι → ℝ) →L[ℝ] ℝ).hasFDerivAt
  exact (hd k).comp_hasFDerivAt x h1

/-- Two gradients at the same point agree. -/
theorem gradient_unique {ι : Type} [Fintype ι] [DecidableEq ι] {f : (ι → ℝ) → ℝ} {g g' x : ι → ℝ} (h : IsGradientAt f g x) (h' : IsGradientAt f g' x) : g = g' := by
  have := h.unique h'
  funext k
  have h2 := congrArg (fun L : (ι → ℝ) →L[ℝ] ℝ => L (Pi.single k 1)) this
  simpa [ContinuousLinearMap.sum_apply, Pi.single_apply] using h2

theorem IsGradientAt.congr_of_eventuallyEq {ι : Type} [Fintype ι] {f f' : (ι → ℝ) → ℝ} {g x : ι → ℝ} (h : IsGradientAt f g x)
    (he : ∀ᶠ v in nhds x, f' v = f v) : IsGradientAt f' g x := HasFDerivAt.congr_of_eventuallyEq h he

end RM
