import Mathlib.Analysis.Matrix.Order
import Mathlib.Analysis.SpecialFunctions.Exponential
import Mathlib.Analysis.SpecialFunctions.Gamma.Basic
import Mathlib.MeasureTheory.Integral.Gamma
import Verif.Spec.Kernel
import Verif.Proofs.MatOf

/-! Positive semi-definite matrices: closure properties and Gram matrices of exponentials. -/

namespace RM
open Outcome Scalar Spec
open scoped Matrix

variable {n : ℕ}

theorem Spec.PSD.toPosSemidef {G : Fin n → Fin n → ℝ} (h : PSD G) : (Matrix.of G).PosSemidef := by
  rw [Matrix.posSemidef_iff_dotProduct_mulVec]
  constructor
  · ext i j
    simp [Matrix.conjTranspose_apply, h.1 j i]
  · intro c
    have := h.2 c
    simp only [dotProduct, Matrix.mulVec, Matrix.of_apply, star_trivial]
    calc (0:ℝ) ≤ _ := this
      _ = _ := by
        apply Finset.sum_congr rfl
        intro i _
        rw [Finset.mul_sum]
        apply Finset.sum_congr rfl
        intro j _
        ring

theorem Spec.PSD.ofPosSemidef {G : Fin n → Fin n → ℝ} (h : (Matrix.of G).PosSemidef) : PSD G := by
  rw [Matrix.posSemidef_iff_dotProduct_mulVec] at h
  constructor
  · intro i j
    have := congrFun (congrFun h.1 j) i
    simpa [Matrix.conjTranspose_apply] using this
  · intro c
    have := h.2 c
    simp only [dotProduct, Matrix.mulVec, Matrix.of_apply, star_trivial] at this
    calc (0:ℝ) ≤ _ := this
      _ = _ := by
        apply Finset.sum_congr rfl
        intro i _
        rw [Finset.mul_sum]
        apply Finset.sum_congr rfl
        intro j _
        ring

theorem Spec.PSD.add {G H : Fin n → Fin n → ℝ} (hG : PSD G) (hH : PSD H) : PSD fun i j => G i j + H i j := by
  refine ⟨fun i j => by simp only [hG.1 i j, hH.1 i j], fun c => ?_⟩
  have h := add_nonneg (hG.2 c) (hH.2 c)
  rw [← Finset.sum_add_distrib] at h
  refine h.trans_eq (Finset.sum_congr rfl fun i _ => ?_)
  rw [← Finset.sum_add_distrib]
  exact Finset.sum_congr rfl fun j _ => by ring

theorem Spec.PSD.smul {G : Fin n → Fin n → ℝ} (hG : PSD G) {a : ℝ} (ha : 0 ≤ a) : PSD fun i j => a * G i j := by
  refine ⟨fun i j => by simp only [hG.1 i j], fun c => ?_⟩
  have h := mul_nonneg ha (hG.2 c)
  rw [Finset.mul_sum] at h
  refine h.trans_eq (Finset.sum_congr rfl fun i _ => ?_)
  rw [Finset.mul_sum]
  exact Finset.sum_congr rfl fun j _ => by ring

/-- Schur's product theorem. -/
theorem Spec.PSD.mul {G H : Fin n → Fin n → ℝ} (hG : PSD G) (hH : PSD H) : PSD fun i j => G i j * H i j :=
  PSD.ofPosSemidef (hG.toPosSemidef.hadamard hH.toPosSemidef)

theorem Spec.PSD.outer (f : Fin n → ℝ) : PSD fun i j => f i * f j := by
  refine ⟨fun i j => mul_comm _ _, fun c => ?_⟩
  have : ∑ i, ∑ j, c i * c j * (f i * f j) = (∑ i, c i * f i) ^ 2 := by
    rw [sq, Finset.sum_mul_sum]
    exact Finset.sum_congr rfl fun i _ => Finset.sum_congr rfl fun j _ => by ring
  rw [this]
  exact sq_nonneg _

theorem Spec.PSD.const {a : ℝ} (ha : 0 ≤ a) : PSD fun (_ _ : Fin n) => a := by
  have := (PSD.outer (n := n) fun _ => 1).smul ha
  simpa using this

theorem Spec.PSD.pow {G : Fin n → Fin n → ℝ} (hG : PSD G) (m : ℕ) : PSD fun i j => G i j ^ m := by
  induction m with
  | zero => simpa using PSD.const (n := n) zero_le_one
  | succ m ih =>
    have := ih.mul hG
    simpa only [pow_succ] using this

theorem Spec.PSD.sum {ι : Type} (s : Finset ι) {G : ι → Fin n → Fin n → ℝ} (h : ∀ a ∈ s, PSD (G a)) : PSD fun i j => ∑ a ∈ s, G a i j := by
  classical
  induction s using Finset.induction_on with
  | empty => simpa using PSD.const (n := n) le_rfl
  | insert a s ha ih =>
    have h1 := (h a (Finset.mem_insert_self a s)).add (ih fun b hb => h b (Finset.mem_insert_of_mem hb))
    simpa only [Finset.sum_insert ha] using h1

theorem Spec.PSD.limit {G : ℕ → Fin n → Fin n → ℝ} {H : Fin n → Fin n → ℝ} (h : ∀ m, PSD (G m))
    (hl : ∀ i j, Filter.Tendsto (fun m => G m i j) Filter.atTop (nhds (H i j))) : PSD H := by
  constructor
  · intro i j
    refine tendsto_nhds_unique (hl i j) ?_
    have := hl j i
    simpa only [fun m => (h m).1 j i] using this
  · intro c
    have : Filter.Tendsto (fun m => ∑ i, ∑ j, c i * c j * G m i j) Filter.atTop (nhds (∑ i, ∑ j, c i * c j * H i j)) :=
      tendsto_finsetSum _ fun i _ => tendsto_finsetSum _ fun j _ => (hl i j).const_mul _
    exact ge_of_tendsto' this fun m => (h m).2 c

/-- The entrywise exponential. -/
theorem Spec.PSD.exp {G : Fin n → Fin n → ℝ} (hG : PSD G) : PSD fun i j => Real.exp (G i j) := by
  refine PSD.limit (G := fun m i j => ∑ k ∈ Finset.range m, G i j ^ k / k.factorial) ?_ ?_
  · intro m
    apply PSD.sum
    intro k _
    have := (hG.pow k).smul (a := (1 / k.factorial : ℝ)) (by positivity)
    simpa only [one_div, inv_mul_eq_div] using this
  · intro i j
    have := NormedSpace.expSeries_div_hasSum_exp (𝔸 := ℝ) (G i j)
    rw [← Real.exp_eq_exp_ℝ] at this
    exact this.tendsto_sum_nat

/-- Gram matrix of the inner product. -/
theorem innerProd_eq_range {u v : List ℝ} {d : ℕ} (hu : u.length = d) (hv : v.length = d) :
    innerProd u v = ∑ k ∈ Finset.range d, u.getD k 0 * v.getD k 0 := by
  unfold innerProd
  rw [zipWith_eq_range _ hu hv, lsum_range]

theorem sqDist_eq_range {u v : List ℝ} {d : ℕ} (hu : u.length = d) (hv : v.length = d) :
    sqDist u v = ∑ k ∈ Finset.range d, (u.getD k 0 - v.getD k 0) ^ 2 := by
  unfold sqDist
  rw [zipWith_eq_range _ hu hv, lsum_range]

theorem Spec.PSD.gram {d : ℕ} (x : Fin n → List ℝ) (hx : ∀ i, (x i).length = d) : PSD fun i j => innerProd (x i) (x j) := by
  have h := PSD.sum (n := n) (Finset.range d) (G := fun k i j => (x i).getD k 0 * (x j).getD k 0) fun k _ => PSD.outer _
  have e : (fun i j => innerProd (x i) (x j)) = fun i j => ∑ k ∈ Finset.range d, (x i).getD k 0 * (x j).getD k 0 := by
    funext i j; exact innerProd_eq_range (hx i) (hx j)
  rw [e]; exact h

theorem sqDist_expand {u v : List ℝ} {d : ℕ} (hu : u.length = d) (hv : v.length = d) :
    sqDist u v = innerProd u u + innerProd v v - 2 * innerProd u v := by
  rw [sqDist_eq_range hu hv, innerProd_eq_range hu hu, innerProd_eq_range hv hv, innerProd_eq_range hu hv, Finset.mul_sum, ← Finset.sum_add_distrib,
    ← Finset.sum_sub_distrib]
  exact Finset.sum_congr rfl fun k _ => by ring

/-- The Gaussian kernel. -/
theorem Spec.PSD.gauss {d : ℕ} (x : Fin n → List ℝ) (hx : ∀ i, (x i).length = d) {t : ℝ} (ht : 0 ≤ t) :
    PSD fun i j => Real.exp (-(t * sqDist (x i) (x j))) := by
  have h := ((PSD.gram x hx).smul (a := 2 * t) (by positivity)).exp.mul (PSD.outer fun i => Real.exp (-(t * innerProd (x i) (x i))))
  have e : (fun i j => Real.exp (-(t * sqDist (x i) (x j)))) =
      fun i j => Real.exp (2 * t * innerProd (x i) (x j)) * (Real.exp (-(t * innerProd (x i) (x i))) * Real.exp (-(t * innerProd (x j) (x j)))) := by
    funext i j
    rw [← Real.exp_add, ← Real.exp_add, sqDist_expand (hx i) (hx j)]
    congr 1
    ring
  rw [e]; exact h

end RM
