import Verif.Spec.FeatureOrder
import Verif.Props.RowOrder
import Verif.Props.Regression
import Verif.Props.AffineMaps
import Verif.Props.Glm
import Verif.Props.Moves
import Verif.Props.Transforms
import Verif.Props.Copies
import Mathlib.LinearAlgebra.Matrix.Permutation

/-!
C97: the order of the features does not matter.
-/

set_option linter.unusedSectionVars false

namespace RM
open Outcome Scalar Spec

/-! ### Lists -/

theorem reorder_length (σ : List ℕ) (r : List ℝ) : (reorder σ r).length = σ.length := by simp [reorder]

theorem Spec.IsOrder.length {n : ℕ} {σ : List ℕ} (h : IsOrder n σ) : σ.length = n := by
  have := List.Perm.length_eq h
  simpa using this

theorem Spec.IsOrder.lt {n : ℕ} {σ : List ℕ} (h : IsOrder n σ) {j : ℕ} (hj : j ∈ σ) : j < n := by
  have := (List.Perm.mem_iff h).1 hj
  simpa using this

theorem map_range_getD (r : List ℝ) : ((List.range r.length).map fun j => r.getD j 0) = r := by
  apply List.ext_getElem (by simp)
  intro i h1 h2
  simp [h2]

theorem reorder_perm {n : ℕ} {σ : List ℕ} (h : IsOrder n σ) {r : List ℝ} (hr : r.length = n) : (reorder σ r).Perm r := by
  have := List.Perm.map (fun j => r.getD j 0) h
  rw [← hr, map_range_getD] at this
  exact this

theorem reorder_getD (σ : List ℕ) (r : List ℝ) {i : ℕ} (hi : i < σ.length) : (reorder σ r).getD i 0 = r.getD (σ.getD i 0) 0 := by
  unfold reorder
  rw [getD_lt 0 (by simpa using hi), List.getElem_map, getD_lt 0 hi]

theorem zipWith_reorder {n : ℕ} {σ : List ℕ} (h : IsOrder n σ) (f : ℝ → ℝ → ℝ) {u v : List ℝ} (hu : u.length = n) (hv : v.length = n) :
    List.zipWith f (reorder σ u) (reorder σ v) = reorder σ (List.zipWith f u v) := by
  unfold reorder
  rw [zipWith_map_same]
  apply List.map_congr_left
  intro j hj
  have hj' := h.lt hj
  rw [getD_lt 0 (by omega), getD_lt 0 (by omega), getD_lt 0 (by simp; omega), List.getElem_zipWith]

theorem map_reorder {n : ℕ} {σ : List ℕ} (h : IsOrder n σ) (f : ℝ → ℝ) {u : List ℝ} (hu : u.length = n) : (reorder σ u).map f = reorder σ (u.map f) := by
  unfold reorder
  rw [List.map_map]
  apply List.map_congr_left
  intro j hj
  have hj' := h.lt hj
  simp only [Function.comp]
  rw [getD_lt 0 (by omega), getD_lt 0 (by simp; omega), List.getElem_map]

theorem sum_reorder {n : ℕ} {σ : List ℕ} (h : IsOrder n σ) {u : List ℝ} (hu : u.length = n) : (reorder σ u).sum = u.sum := (reorder_perm h hu).sum_eq

theorem dot_reorder {n : ℕ} {σ : List ℕ} (h : IsOrder n σ) {u v : List ℝ} (hu : u.length = n) (hv : v.length = n) : dot (reorder σ u) (reorder σ v) = dot u v := by
  rw [dot_real, dot_real, zipWith_reorder h _ hu hv, sum_reorder h (by simp [hu, hv])]

theorem vecZip_reorder {n : ℕ} {σ : List ℕ} (h : IsOrder n σ) (f : ℝ → ℝ → ℝ) {u v : List ℝ} (hu : u.length = n) (hv : v.length = n) :
    vecZip f u v = ok (List.zipWith f u v) ∧ vecZip f (reorder σ u) (reorder σ v) = ok (reorder σ (List.zipWith f u v)) := by
  unfold vecZip
  rw [if_pos (by omega), if_pos (by simp [reorder_length]), zipWith_reorder h f hu hv]
  exact ⟨rfl, rfl⟩

theorem reorder_map_range {n : ℕ} {σ : List ℕ} (h : IsOrder n σ) (f : ℕ → ℝ) : reorder σ ((List.range n).map f) = σ.map f := by
  unfold reorder
  apply List.map_congr_left
  intro j hj
  rw [getD_lt 0 (by simpa using h.lt hj)]
  simp

theorem map_range_order {n : ℕ} {σ : List ℕ} (h : IsOrder n σ) (f : ℕ → ℝ) : ((List.range n).map fun i => f (σ.getD i 0)) = σ.map f := by
  apply List.ext_getElem (by simp [h.length])
  intro i h1 h2
  simp only [List.length_map] at h2
  simp [h2]

/-- The order of the weights when the first one belongs to the constant feature. -/
def withFirst (σ : List ℕ) : List ℕ := 0 :: σ.map (· + 1)

theorem withFirst_order {n : ℕ} {σ : List ℕ} (h : IsOrder n σ) : IsOrder (n + 1) (withFirst σ) := by
  unfold IsOrder withFirst
  rw [List.range_succ_eq_map]
  exact List.Perm.cons _ (List.Perm.map _ h)

theorem reorder_withFirst (σ : List ℕ) (a : ℝ) (r : List ℝ) : reorder (withFirst σ) (a :: r) = a :: reorder σ r := by
  simp [reorder, withFirst, Function.comp_def]

theorem reorder_replicate {n : ℕ} {σ : List ℕ} (h : IsOrder n σ) (a : ℝ) : reorder σ (List.replicate n a) = List.replicate n a := by
  rw [← h.length]
  unfold reorder
  rw [List.eq_replicate_iff]
  refine ⟨by simp, ?_⟩
  intro x hx
  obtain ⟨j, hj, rfl⟩ := List.mem_map.1 hx
  have := h.lt hj
  rw [getD_lt 0 (by simp [h.length]; omega)]
  simp

theorem reorderCols_wf {n : ℕ} {σ : List ℕ} (h : IsOrder n σ) {X : Mat ℝ} (hn : X.cols = n) : (reorderCols σ X).WF := by
  intro r hr
  obtain ⟨q, _, rfl⟩ := List.mem_map.1 hr
  rw [reorder_length, h.length, reorderCols, hn]

/-- The samples with their features in the order `σ`. -/
noncomputable def reorderS {β : Type} (σ : List ℕ) (S : List (List ℝ × β)) : List (List ℝ × β) := S.map fun s => (reorder σ s.1, s.2)

theorem reorder_inputs {β : Type} (σ : List ℕ) (c : ℕ) (S : List (List ℝ × β)) : reorderCols σ (inputsOf c S) = inputsOf c (reorderS σ S) := by
  simp [reorderCols, inputsOf, reorderS, Function.comp_def]

theorem reorder_targets {α : Type} (σ : List ℕ) (S : List (List ℝ × α)) : targetsOf (reorderS σ S) = targetsOf S := by
  simp [targetsOf, reorderS, Function.comp_def]

/-! ### Distances and kernels -/

theorem eucl_reorder {n : ℕ} {σ : List ℕ} (h : IsOrder n σ) {x y : List ℝ} (hx : x.length = n) (hy : y.length = n) : eucl (reorder σ x) (reorder σ y) = eucl x y := by
  unfold eucl
  rw [zipWith_reorder h _ hx hy, sum_reorder h (by simp [hx, hy])]

/-- **C97 (distances).** Another order of the features is a rigid motion: all of C85 (nearest neighbours, DBSCAN, k-means, Gaussian
processes and support vector machines with kernels of the distance) applies to it. -/
theorem C97_rigid {n : ℕ} {σ : List ℕ} (h : IsOrder n σ) : ScalesBy n n 1 (reorder σ) :=
  ⟨fun x _ => by rw [reorder_length, h.length], fun x y hx hy => by rw [eucl_reorder h hx hy, one_mul]⟩

/-- A kernel that does not look at the order of the features. -/
def Spec.OrderFree (K : Kernel ℝ) : Prop := ∀ (n : ℕ) (σ : List ℕ), IsOrder n σ → ∀ x y : List ℝ, x.length = n → y.length = n → K (reorder σ x) (reorder σ y) = K x y

/-- **C97 (kernels).** Every kernel of the toolkit, and every sum and product of such, is the same in every order of the features. -/
theorem C97_kernels (c alpha d ls ampl : ℝ) : OrderFree (linearKernel c) ∧ OrderFree (polyKernel alpha c d) ∧ OrderFree (hyperTanKernel alpha c) ∧
    OrderFree (sqExpKernel ls ampl) ∧ OrderFree (expKernel ls ampl) ∧ OrderFree (multiquadricKernel c) ∧ OrderFree (rationalQuadraticKernel alpha ls) ∧
    ∀ K L : Kernel ℝ, OrderFree K → OrderFree L → OrderFree (kernelSum K L) ∧ OrderFree (kernelProd K L) := by
  have hdiff : ∀ (n : ℕ) (σ : List ℕ), IsOrder n σ → ∀ x y : List ℝ, x.length = n → y.length = n →
      vecZip Scalar.sub x y = ok (List.zipWith Scalar.sub x y) ∧ vecZip Scalar.sub (reorder σ x) (reorder σ y) = ok (reorder σ (List.zipWith Scalar.sub x y)) ∧
      (List.zipWith Scalar.sub x y).length = n := by
    intro n σ h x y hx hy
    exact ⟨(vecZip_reorder h _ hx hy).1, (vecZip_reorder h _ hx hy).2, by simp [hx, hy]⟩
  have hlen : ∀ (n : ℕ) (σ : List ℕ), IsOrder n σ → ∀ x y : List ℝ, x.length = n → y.length = n →
      ((reorder σ x).length == (reorder σ y).length) = (x.length == y.length) := by
    intro n σ h x y hx hy
    rw [reorder_length, reorder_length, hx, hy]
    simp
  refine ⟨?_, ?_, ?_, ?_, ?_, ?_, ?_, ?_⟩
  · intro n σ h x y hx hy
    unfold linearKernel
    rw [dot_reorder h hx hy]
  · intro n σ h x y hx hy
    unfold polyKernel
    rw [dot_reorder h hx hy]
  · intro n σ h x y hx hy
    unfold hyperTanKernel
    rw [dot_reorder h hx hy]
  · intro n σ h x y hx hy
    unfold sqExpKernel
    rw [hlen n σ h x y hx hy, (hdiff n σ h x y hx hy).2.1, (hdiff n σ h x y hx hy).1]
    simp only [ok_bind, dot_reorder h (hdiff n σ h x y hx hy).2.2 (hdiff n σ h x y hx hy).2.2]
  · intro n σ h x y hx hy
    unfold expKernel
    rw [hlen n σ h x y hx hy, (hdiff n σ h x y hx hy).2.1, (hdiff n σ h x y hx hy).1]
    simp only [ok_bind, dot_reorder h (hdiff n σ h x y hx hy).2.2 (hdiff n σ h x y hx hy).2.2]
  · intro n σ h x y hx hy
    unfold multiquadricKernel
    rw [hlen n σ h x y hx hy, (hdiff n σ h x y hx hy).2.1, (hdiff n σ h x y hx hy).1]
    simp only [ok_bind, dot_reorder h (hdiff n σ h x y hx hy).2.2 (hdiff n σ h x y hx hy).2.2]
  · intro n σ h x y hx hy
    unfold rationalQuadraticKernel
    rw [(hdiff n σ h x y hx hy).2.1, (hdiff n σ h x y hx hy).1]
    simp only [ok_bind, dot_reorder h (hdiff n σ h x y hx hy).2.2 (hdiff n σ h x y hx hy).2.2]
  · intro K L hK hL
    refine ⟨?_, ?_⟩
    · intro n σ h x y hx hy
      unfold kernelSum
      rw [hK n σ h x y hx hy, hL n σ h x y hx hy]
    · intro n σ h x y hx hy
      unfold kernelProd
      rw [hK n σ h x y hx hy, hL n σ h x y hx hy]

/-- **C97 (support vector machines).** -/
theorem C97_svm (m : Svm ℝ) (hK : OrderFree m.ker) (draws : ℕ → ℕ) (X : Mat ℝ) (hX : X.WF) {σ : List ℕ} (h : IsOrder X.cols σ) (y : List ℝ) :
    ((∃ t, m.train draws X y = ok t) ↔ ∃ t', m.train draws (reorderCols σ X) y = ok t') ∧
    ∀ t t', m.train draws X y = ok t → m.train draws (reorderCols σ X) y = ok t' → ∀ Q : Mat ℝ, Q.WF → Q.cols = X.cols →
      t'.predict (reorderCols σ Q) = t.predict Q := by
  have := C85_svm (C97_rigid h) m m (by
    intro x y hx hy
    have := hK _ _ (withFirst_order h) (1 :: x) (1 :: y) (by simp [hx]) (by simp [hy])
    rwa [reorder_withFirst, reorder_withFirst] at this) rfl rfl draws X hX rfl y
  refine ⟨this.1, ?_⟩
  intro t t' ht ht' Q hQ hQn
  have := this.2 t t' ht ht' Q hQ hQn
  rw [← this, reorderCols, moved, hQn]

/-- **C97 (Gaussian processes)**, with a constant mean. -/
theorem C97_gp (lib : TriLib ℝ) (K : Kernel ℝ) (hK : OrderFree K) (a noise : ℝ) (X : Mat ℝ) (hX : X.WF) {σ : List ℕ} (h : IsOrder X.cols σ) (y : List ℝ) :
    ((∃ t, ({ ker := K, mean := constMean a, noise := noise } : Gp ℝ).train lib X y = ok t) ↔
      ∃ t', ({ ker := K, mean := constMean a, noise := noise } : Gp ℝ).train lib (reorderCols σ X) y = ok t') ∧
    ∀ t t', ({ ker := K, mean := constMean a, noise := noise } : Gp ℝ).train lib X y = ok t →
      ({ ker := K, mean := constMean a, noise := noise } : Gp ℝ).train lib (reorderCols σ X) y = ok t' → ∀ Q : Mat ℝ, Q.WF → Q.cols = X.cols →
        t'.predict (reorderCols σ Q) = t.predict Q ∧ t'.posterior lib (reorderCols σ Q) = t.posterior lib Q := by
  have := C85_gp lib (C97_rigid h) { ker := K, mean := constMean a, noise := noise } { ker := K, mean := constMean a, noise := noise }
    (fun x y hx hy => hK _ _ h x y hx hy) (constMean_moved _ _ a) rfl X hX rfl y
  refine ⟨this.1, ?_⟩
  intro t t' ht ht' Q hQ hQn
  have := this.2 t t' ht ht' Q hQ hQn
  rw [reorderCols, hQn]
  exact this

/-! ### Linear regression -/

theorem reorder_invertible {n : ℕ} {σ : List ℕ} (h : IsOrder n σ) : InvertibleAffine n (reorder σ) := by
  have hnd : σ.Nodup := (List.Perm.nodup_iff h).2 List.nodup_range
  let e : Fin n → Fin n := fun i => ⟨σ.getD i 0, h.lt (by rw [getD_lt 0 (by rw [h.length]; exact i.2)]; exact List.getElem_mem _)⟩
  have hinj : Function.Injective e := by
    intro i j hij
    have h1 : σ.getD i 0 = σ.getD j 0 := congrArg Fin.val hij
    rw [getD_lt 0 (by rw [h.length]; exact i.2), getD_lt 0 (by rw [h.length]; exact j.2)] at h1
    exact Fin.ext ((hnd.getElem_inj_iff).1 h1)
  let E : Equiv.Perm (Fin n) := Equiv.ofBijective e (Finite.injective_iff_bijective.1 hinj)
  refine ⟨(Matrix.of fun i j => if e i = j then 1 else 0), fun _ => 0, ?_, ?_⟩
  · have : (Matrix.of fun i j => if e i = j then (1 : ℝ) else 0) = E.permMatrix ℝ := by
      ext i j
      simp [Equiv.Perm.permMatrix, PEquiv.toMatrix, Equiv.toPEquiv, E]
    rw [this, Matrix.det_permutation]
    exact (Int.isUnit_iff.2 (by rcases Int.units_eq_one_or (Equiv.Perm.sign E) with h | h <;> simp [h])).map (Int.castRingHom ℝ)
  · intro x hx
    apply List.ext_getElem (by simp [reorder_length, h.length])
    intro i h1 h2
    simp only [List.length_ofFn] at h2
    rw [List.getElem_ofFn]
    simp only [Matrix.of_apply, ite_mul, one_mul, zero_mul, Finset.sum_ite_eq, Finset.mem_univ, if_true, add_zero]
    have := reorder_getD σ x (i := i) (by rw [h.length]; exact h2)
    rw [getD_lt 0 h1] at this
    exact this

/-- **C97 (linear regression).** -/
theorem C97_lin_reg {solve : Mat ℝ → List ℝ → Outcome (List ℝ)} (hs : SolvesExactly solve) (hr : SolvesRegular solve) (X : Mat ℝ)
    (hX : X.WF) {σ : List ℕ} (h : IsOrder X.cols σ) (y : List ℝ) (m : LinReg ℝ) (hm : LinReg.train solve X y = ok m) :
    ∃ m', LinReg.train solve (reorderCols σ X) y = ok m' ∧
      ∀ Z : Mat ℝ, Z.WF → Z.cols = X.cols → ∃ p, m.predict Z = ok p ∧ m'.predict (reorderCols σ Z) = ok p :=
  C92_linear_regression hs hr X hX y m hm (reorder_invertible h)

end RM
