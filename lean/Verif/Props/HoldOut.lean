import Verif.Props.Targets
import Verif.Props.MoreData
import Mathlib.LinearAlgebra.Matrix.NonsingularInverse
import Mathlib.LinearAlgebra.Matrix.Trace
import Mathlib.Data.List.GetD

/-! C111: linear and Gaussian process regression and samples that are held out. Exact arithmetic. -/

namespace RM
open Outcome Scalar Spec Matrix

/-! ### Specification -/

/-- The sum of the squared errors of predictions. -/
noncomputable def Spec.squaredErrors (y p : List ℝ) : ℝ := (List.zipWith (fun t q => (t - q) ^ 2) y p).sum

/-- The data `X`, `y` consist of the samples of `A`, `s` and of `B`, `t`, in any order. -/
def Spec.SplitInto (X : Mat ℝ) (y : List ℝ) (A : Mat ℝ) (s : List ℝ) (B : Mat ℝ) (t : List ℝ) : Prop :=
  A.cols = X.cols ∧ B.cols = X.cols ∧ y.length = X.rows.length ∧ s.length = A.rows.length ∧ t.length = B.rows.length ∧
    (X.rows.zip y).Perm (A.rows.zip s ++ B.rows.zip t)

/-- Targets that are 1 for sample `i` and 0 for the others. -/
def Spec.unitTargets (n i : ℕ) : List ℝ := (List.range n).map fun j => if j = i then 1 else 0

/-- The data without sample `i`. -/
def Spec.withoutRow (X : Mat ℝ) (i : ℕ) : Mat ℝ := ⟨X.cols, X.rows.eraseIdx i⟩

/-- Sample `i` alone. -/
def Spec.onlyRow (X : Mat ℝ) (i : ℕ) : Mat ℝ := ⟨X.cols, [X.rows.getD i []]⟩

/-! ### Training on more samples -/

theorem rss_zip (X : Mat ℝ) (y β : List ℝ) : rss X y β = ((X.rows.zip y).map fun p => (p.2 - affine β p.1) ^ 2).sum := by
  unfold rss
  rw [← List.map_uncurry_zip_eq_zipWith]
  rfl

theorem split_rss {X A B : Mat ℝ} {y s t : List ℝ} (h : SplitInto X y A s B t) (β : List ℝ) : rss X y β = rss A s β + rss B t β := by
  rw [rss_zip, rss_zip, rss_zip, (h.2.2.2.2.2.map _).sum_eq, List.map_append, List.sum_append]

theorem squaredErrors_affine (B : Mat ℝ) (t β : List ℝ) : squaredErrors t (B.rows.map (affine β)) = rss B t β := by
  unfold squaredErrors rss
  rw [List.zipWith_map_right, List.zipWith_comm]

theorem split_wf {X A B : Mat ℝ} {y s t : List ℝ} (h : SplitInto X y A s B t) (hX : X.WF) : A.WF ∧ B.WF := by
  obtain ⟨hA, hB, hy, hs, ht, hp⟩ := h
  have hr : (X.rows.zip y).map Prod.fst = X.rows := List.map_fst_zip (by omega)
  have hp' := hp.map Prod.fst
  rw [hr, List.map_append, List.map_fst_zip (by omega), List.map_fst_zip (by omega)] at hp'
  constructor
  · intro r h
    rw [hX r (hp'.mem_iff.2 (List.mem_append_left _ h)), hA]
  · intro r h
    rw [hX r (hp'.mem_iff.2 (List.mem_append_right _ h)), hB]

section
variable {solve : Mat ℝ → List ℝ → Outcome (List ℝ)} (hs : SolvesExactly solve)
include hs

/-- **C111 (held-out samples).** Whatever samples are held out, a model that was trained on all samples has at most the squared error on the held-out ones of a model trained
without them, and less unless both are the same model. -/
theorem C111_held_out {X A B : Mat ℝ} (hX : X.WF) {y s t : List ℝ} (h : SplitInto X y A s B t) {m m' : LinReg ℝ} (hm : LinReg.train solve X y = ok m)
    (hm' : LinReg.train solve A s = ok m') :
    ∃ p p', m.predict B = ok p ∧ m'.predict B = ok p' ∧ squaredErrors t p ≤ squaredErrors t p' ∧ (squaredErrors t p = squaredErrors t p' → m = m') := by
  obtain ⟨hA, hB⟩ := split_wf h hX
  obtain ⟨β, hβ, hb, hmin⟩ := C48_least_squares hs X hX y m hm
  obtain ⟨β', hβ', hb', hmin'⟩ := C48_least_squares hs A hA s m' hm'
  obtain rfl : m = ⟨some β⟩ := by cases m; simp_all
  obtain rfl : m' = ⟨some β'⟩ := by cases m'; simp_all
  refine ⟨_, _, C48_predict β B (by rw [hb, h.2.1]), C48_predict β' B (by rw [hb', h.1, h.2.1]), ?_⟩
  rw [squaredErrors_affine, squaredErrors_affine]
  by_cases e : β = β'
  · subst e
    exact ⟨le_refl _, fun _ => rfl⟩
  · have h1 := hmin β' (by rw [hb', h.1]) (Ne.symm e)
    have h2 := hmin' β (by rw [hb, h.1]) e
    rw [split_rss h, split_rss h] at h1
    exact ⟨by linarith, fun h3 => by linarith⟩

/-- **C111 (redundant samples).** Adding samples that the model already predicts exactly does not change it. -/
theorem C111_redundant {X A B : Mat ℝ} (hX : X.WF) {y s t : List ℝ} (h : SplitInto X y A s B t) {m m' : LinReg ℝ} (hm : LinReg.train solve X y = ok m)
    (hm' : LinReg.train solve A s = ok m') (ht : m'.predict B = ok t) : m = m' := by
  obtain ⟨p, p', h1, h2, h3, h4⟩ := C111_held_out hs hX h hm hm'
  rw [ht] at h2
  injection h2 with h2
  subst h2
  have h0 : squaredErrors t t = 0 := by
    unfold squaredErrors
    rw [List.zipWith_self]
    simp
  have hp : 0 ≤ squaredErrors t p := by
    unfold squaredErrors
    apply List.sum_nonneg
    intro x hx
    obtain ⟨i, hi, rfl⟩ := List.getElem_of_mem hx
    rw [List.getElem_zipWith]
    positivity
  exact h4 (by linarith)

end

/-! ### Leaving out one sample -/

theorem split_one {X : Mat ℝ} {y : List ℝ} (hy : y.length = X.rows.length) {i : ℕ} (hi : i < X.rows.length) (q : ℝ) :
    SplitInto X (y.set i q) (withoutRow X i) (y.eraseIdx i) (onlyRow X i) [q] := by
  refine ⟨rfl, rfl, by simpa using hy, ?_, rfl, ?_⟩
  · simp only [withoutRow]
    rw [List.length_eraseIdx_of_lt hi, List.length_eraseIdx_of_lt (by omega), hy]
  · have hz : i < (X.rows.zip (y.set i q)).length := by simp [hy, hi]
    have h1 : ((X.rows.zip (y.set i q))[i] :: (X.rows.zip (y.set i q)).eraseIdx i).Perm (X.rows.zip (y.set i q)) := List.getElem_cons_eraseIdx_perm hz
    have h2 : (X.rows.zip (y.set i q)).eraseIdx i = (X.rows.eraseIdx i).zip (y.eraseIdx i) := by
      rw [List.eraseIdx_eq_take_drop_succ, List.eraseIdx_eq_take_drop_succ, List.eraseIdx_eq_take_drop_succ, List.zip_append (by simp [hy])]
      simp only [List.zip, List.take_zipWith, List.drop_zipWith]
      rw [List.take_set_of_le (le_refl i), List.drop_set_of_lt (Nat.lt_succ_self i)]
    rw [h2] at h1
    refine h1.symm.trans ?_
    simp only [withoutRow, onlyRow, List.zip_cons_cons, List.zip_nil_right, List.getElem_zip, List.getElem_set_self]
    rw [List.getD_eq_getElem _ _ hi]
    exact List.perm_append_comm (l₁ := [(X.rows[i], q)])

theorem unitTargets_length (n i : ℕ) : (unitTargets n i).length = n := by simp [unitTargets]

theorem unitTargets_getD {n i j : ℕ} (hj : j < n) : (unitTargets n i).getD j 0 = if j = i then 1 else 0 := by
  rw [List.getD_eq_getElem _ _ (by rw [unitTargets_length]; exact hj)]
  simp [unitTargets]

/-- A fit of the unit targets: its value at the sample is the sum of the squares of all its values. -/
theorem unit_fit {solve : Mat ℝ → List ℝ → Outcome (List ℝ)} (hs : SolvesExactly solve) {X : Mat ℝ} (hX : X.WF) {i : ℕ} (hi : i < X.rows.length) {m : LinReg ℝ}
    (h : LinReg.train solve X (unitTargets X.rows.length i) = ok m) :
    ∃ β, m = ⟨some β⟩ ∧ β.length = X.cols + 1 ∧ affine β (X.rows.getD i []) = ∑ j : Fin X.rows.length, affine β (X.rows.getD j []) ^ 2 := by
  obtain ⟨β, rfl, hy, hb, h1, -⟩ := linTrain_normal hs hX h
  refine ⟨β, rfl, hb, ?_⟩
  have hne : β ≠ [] := by intro h; rw [h] at hb; simp at hb
  have e : ∀ j : Fin X.rows.length, (toM X.rows.length (X.cols + 1) ⟨X.cols + 1, X.rows.map ((1 : ℝ) :: ·)⟩).mulVec (toV _ β) j = affine β (X.rows.getD j []) := by
    intro j
    rw [mulVec_row (withOnes_shape hX) hb, ← dot_inner, getD_map_lt _ _ [] _ _ j.2, dot_affine _ _ hne]
  have h2 := congrArg (fun v => toV _ β ⬝ᵥ v) h1
  beta_reduce at h2
  rw [← Matrix.mulVec_mulVec, Matrix.dotProduct_mulVec _ _ᵀ, Matrix.vecMul_transpose, Matrix.dotProduct_mulVec _ _ᵀ, Matrix.vecMul_transpose] at h2
  simp only [dotProduct, e] at h2
  have h3 : ∀ j : Fin X.rows.length, affine β (X.rows.getD j []) * toV X.rows.length (unitTargets X.rows.length i) j =
      if j = (⟨i, hi⟩ : Fin X.rows.length) then affine β (X.rows.getD j []) else 0 := by
    intro j
    unfold toV
    rw [unitTargets_getD j.2]
    by_cases hj : j = ⟨i, hi⟩
    · subst hj; simp
    · rw [if_neg hj, if_neg fun h => hj (Fin.ext h), mul_zero]
  simp only [h3, Finset.sum_ite_eq', Finset.mem_univ, if_true] at h2
  rw [← h2]
  exact Finset.sum_congr rfl fun j _ => (sq (affine β (X.rows.getD j []))).symm

section
variable {solve : Mat ℝ → List ℝ → Outcome (List ℝ)} (hs : SolvesExactly solve) (hr : SolvesRegular solve)
include hs hr

/-- **C111 (leave one out).** When the model can be trained with and without sample `i`, the error at sample `i` of the model trained without it is its error when trained on all
samples, divided by `1 - h`. The leverage `h` is the prediction at sample `i` of the model trained on targets that are 1 for this sample and 0 for the others; it is at least 0
and less than 1. -/
theorem C111_leave_one_out {X : Mat ℝ} (hX : X.WF) {y : List ℝ} {i : ℕ} (hi : i < X.rows.length) {m m' : LinReg ℝ} (hm : LinReg.train solve X y = ok m)
    (hm' : LinReg.train solve (withoutRow X i) (y.eraseIdx i) = ok m') :
    ∃ u h p q, LinReg.train solve X (unitTargets X.rows.length i) = ok u ∧ u.predict (onlyRow X i) = ok [h] ∧ 0 ≤ h ∧ h < 1 ∧
      m.predict (onlyRow X i) = ok [p] ∧ m'.predict (onlyRow X i) = ok [q] ∧ y.getD i 0 - q = (y.getD i 0 - p) / (1 - h) := by
  have hy : y.length = X.rows.length := by obtain ⟨-, -, hy, -⟩ := linTrain_normal hs hX hm; exact hy
  have hI := (C48_succeeds_iff hs hr X hX y hy).1 ⟨m, hm⟩
  obtain ⟨u, hu⟩ := (C48_succeeds_iff hs hr X hX _ (unitTargets_length X.rows.length i)).2 hI
  have hone : (onlyRow X i).WF := by
    intro r h
    simp only [onlyRow, List.mem_singleton] at h
    subst h
    rw [List.getD_eq_getElem _ _ hi]
    exact hX _ (List.getElem_mem hi)
  have hwo : (withoutRow X i).WF := fun r h => hX r (List.mem_of_mem_eraseIdx h)
  obtain ⟨γ, rfl, hγ, hlev⟩ := unit_fit hs hX hi hu
  obtain ⟨β', rfl, hy', hb', -⟩ := linTrain_normal hs hwo hm'
  have hq := C48_predict β' (onlyRow X i) hb'
  have hh := C48_predict γ (onlyRow X i) hγ
  simp only [onlyRow, List.map_cons, List.map_nil] at hq hh
  set x := X.rows.getD i [] with hx
  obtain ⟨m₂, hm₂, hlin⟩ := C99_linear_regression hs hr X hX y _ m ⟨some γ⟩ hm hu 1 (affine β' x - y.getD i 0) 0
  obtain ⟨p, q, hp, hq2, hcomb⟩ := hlin (onlyRow X i) hone rfl
  have hset : combine 1 (affine β' x - y.getD i 0) 0 y (unitTargets X.rows.length i) = y.set i (affine β' x) := by
    apply List.ext_getElem
    · simp [combine, hy, unitTargets_length]
    · intro j h1 h2
      have hj : j < y.length := by simpa using h2
      simp only [combine, List.getElem_zipWith, unitTargets, List.getElem_map, List.getElem_range, List.getElem_set]
      by_cases hij : i = j
      · subst hij
        have hyi := List.getD_eq_getElem y 0 hj
        simp only [↓reduceIte]
        linarith
      · rw [if_neg hij, if_neg fun h => hij h.symm]
        ring
  rw [hset] at hm₂
  have hsame := C111_redundant hs hX (split_one hy hi (affine β' x)) hm₂ hm' hq
  subst hsame
  obtain ⟨β, rfl, -, hb, -⟩ := linTrain_normal hs hX hm
  have hp2 := C48_predict β (onlyRow X i) hb
  simp only [onlyRow, List.map_cons, List.map_nil] at hp2
  simp only [onlyRow] at hp hq2 hcomb
  rw [hp2] at hp
  rw [hh] at hq2
  rw [hq] at hcomb
  injection hp with hp
  injection hq2 with hq2
  injection hcomb with hcomb
  subst hp hq2
  simp only [combine, List.zipWith_cons_cons, List.zipWith_nil_left, List.cons.injEq, and_true] at hcomb
  have hsplit : affine γ x = affine γ x ^ 2 + ∑ j ∈ Finset.univ.erase (⟨i, hi⟩ : Fin X.rows.length), affine γ (X.rows.getD j []) ^ 2 := by
    rw [Finset.add_sum_erase Finset.univ (fun j : Fin X.rows.length => affine γ (X.rows.getD j []) ^ 2) (Finset.mem_univ (⟨i, hi⟩ : Fin X.rows.length))]
    exact hlev
  have hrest : 0 ≤ ∑ j ∈ Finset.univ.erase (⟨i, hi⟩ : Fin X.rows.length), affine γ (X.rows.getD j []) ^ 2 := Finset.sum_nonneg fun _ _ => sq_nonneg _
  have hlt : affine γ x < 1 := by
    by_contra hge
    have h1 : affine γ x = 1 := by nlinarith
    rw [h1] at hsplit
    have h0 : ∑ j ∈ Finset.univ.erase (⟨i, hi⟩ : Fin X.rows.length), affine γ (X.rows.getD j []) ^ 2 = 0 := by linarith
    rw [Finset.sum_eq_zero_iff_of_nonneg fun _ _ => sq_nonneg _] at h0
    have hI' := (C48_succeeds_iff hs hr (withoutRow X i) hwo _ hy').1 ⟨_, hm'⟩
    have hz := hI' γ hγ (by
      intro r hr'
      obtain ⟨j, hj, hji⟩ := List.mem_eraseIdx_iff_getElem.1 hr'
      have := h0 ⟨j, hj⟩ (by simp [Fin.ext_iff, hji.1])
      rw [List.getD_eq_getElem _ _ hj, hji.2] at this
      exact pow_eq_zero_iff (by norm_num) |>.1 this)
    rw [hz] at h1
    have : affine (zeroVec ((withoutRow X i).cols + 1)) x = 0 := by
      simp only [affine, zeroVec, List.replicate_succ, List.headD_cons, List.tail_cons, zero_add, Spec.inner]
      apply List.sum_eq_zero
      intro z hz
      obtain ⟨j, hj, rfl⟩ := List.getElem_of_mem hz
      simp
    linarith
  refine ⟨_, _, _, _, hu, hh, ?_, hlt, hp2, hq, ?_⟩
  · rw [hsplit]; positivity
  · rw [eq_div_iff (by linarith)]
    linarith

/-- **C111 (leverages).** When training is possible the leverage of each sample is between 0 and 1, and the leverages add up to the number of parameters. -/
theorem C111_leverages {X : Mat ℝ} (hX : X.WF) (hI : AffinelyIndependent X) : ∃ h : ℕ → ℝ,
    (∀ i < X.rows.length, 0 ≤ h i ∧ h i ≤ 1 ∧ ∃ u, LinReg.train solve X (unitTargets X.rows.length i) = ok u ∧ u.predict (onlyRow X i) = ok [h i]) ∧
    ∑ i ∈ Finset.range X.rows.length, h i = X.cols + 1 := by
  have key : ∀ i : ℕ, ∃ γ : List ℝ, i < X.rows.length → LinReg.train solve X (unitTargets X.rows.length i) = ok ⟨some γ⟩ := by
    intro i
    obtain ⟨u, hu⟩ := (C48_succeeds_iff hs hr X hX _ (unitTargets_length X.rows.length i)).2 hI
    obtain ⟨γ, rfl, -⟩ := linTrain_normal hs hX hu
    exact ⟨γ, fun _ => hu⟩
  choose γ hγ using key
  refine ⟨fun i => affine (γ i) (X.rows.getD i []), ?_, ?_⟩
  · intro i hi
    obtain ⟨γ', h1, h2, h3⟩ := unit_fit hs hX hi (hγ i hi)
    injection h1 with h1
    injection h1 with h1
    subst h1
    have h4 : affine (γ i) (X.rows.getD i []) ^ 2 ≤ affine (γ i) (X.rows.getD i []) := by
      conv_rhs => rw [h3]
      exact Finset.single_le_sum (f := fun j : Fin X.rows.length => affine (γ i) (X.rows.getD j []) ^ 2) (fun _ _ => sq_nonneg _) (Finset.mem_univ (⟨i, hi⟩ : Fin X.rows.length))
    exact ⟨by nlinarith, by nlinarith, _, hγ i hi, C48_predict (γ i) (onlyRow X i) h2⟩
  · rw [Finset.sum_range]
    set A := toM X.rows.length (X.cols + 1) ⟨X.cols + 1, X.rows.map ((1 : ℝ) :: ·)⟩ with hA
    have hu : IsUnit (Aᵀ * A) := by
      rw [← Matrix.mulVec_injective_iff_isUnit]
      intro v w hvw
      obtain ⟨m, hm⟩ := (C48_succeeds_iff hs hr X hX (List.replicate X.rows.length 0) (by simp)).2 hI
      obtain ⟨β, -, -, -, h1, h2⟩ := linTrain_normal hs hX hm
      have h0 : (Aᵀ * A).mulVec (toV _ β + (v - w)) = Aᵀ.mulVec (toV _ (List.replicate X.rows.length 0)) := by
        rw [Matrix.mulVec_add, Matrix.mulVec_sub, hvw, sub_self, add_zero]
        exact h1
      have h3 := h2 _ h0
      rwa [add_eq_left, sub_eq_zero] at h3
    have hdet := (Matrix.isUnit_iff_isUnit_det _).1 hu
    have e : ∀ i : Fin X.rows.length, affine (γ i) (X.rows.getD i []) = (A * ((Aᵀ * A)⁻¹ * Aᵀ)) i i := by
      intro i
      obtain ⟨β, h1, -, hb, h2, -⟩ := linTrain_normal hs hX (hγ i i.2)
      injection h1 with h1
      injection h1 with h1
      rw [h1]
      have hne : β ≠ [] := by intro h; rw [h] at hb; simp at hb
      have h3 : toV _ β = ((Aᵀ * A)⁻¹ * Aᵀ).mulVec (toV _ (unitTargets X.rows.length i)) := by
        rw [← Matrix.mulVec_mulVec, ← h2, Matrix.mulVec_mulVec, Matrix.nonsing_inv_mul _ hdet, Matrix.one_mulVec]
      have h4 : affine β (X.rows.getD i []) = A.mulVec (toV _ β) i := by
        rw [hA, mulVec_row (withOnes_shape hX) hb, ← dot_inner, getD_map_lt _ _ [] _ _ i.2, dot_affine _ _ hne]
      have h5 : toV X.rows.length (unitTargets X.rows.length i) = Pi.single i 1 := by
        funext j
        unfold toV
        rw [unitTargets_getD j.2, Pi.single_apply]
        simp [Fin.ext_iff]
      rw [h4, h3, h5, Matrix.mulVec_mulVec, Matrix.mulVec_single_one]
      rfl
    simp only [e]
    change Matrix.trace (A * ((Aᵀ * A)⁻¹ * Aᵀ)) = _
    rw [Matrix.trace_mul_comm, Matrix.mul_assoc, Matrix.nonsing_inv_mul _ hdet, Matrix.trace_one]
    simp

end

/-! ### Gaussian processes -/

section matrix
variable {n m : ℕ} {A : Matrix (Fin n) (Fin n) ℝ} {ι : Fin m → Fin n} {i₀ : Fin n}

/-- A vector of a part, with zeros elsewhere. -/
def extendBy (ι : Fin m → Fin n) (u : Fin m → ℝ) : Fin n → ℝ := fun j => ∑ i, if ι i = j then u i else 0

theorem mulVec_extendBy (A : Matrix (Fin n) (Fin n) ℝ) (ι : Fin m → Fin n) (u : Fin m → ℝ) (j : Fin n) : A.mulVec (extendBy ι u) j = ∑ i, A j (ι i) * u i := by
  simp only [Matrix.mulVec, dotProduct, extendBy, Finset.mul_sum, mul_ite, mul_zero]
  rw [Finset.sum_comm]
  exact Finset.sum_congr rfl fun i _ => by rw [Finset.sum_ite_eq]; simp

theorem extendBy_none {ι : Fin m → Fin n} (h : ∀ i, ι i ≠ i₀) (u : Fin m → ℝ) : extendBy ι u i₀ = 0 := by
  unfold extendBy
  exact Finset.sum_eq_zero fun i _ => if_neg (h i)

/-- A vector that the matrix sends to a multiple of a unit vector. -/
theorem solve_unit (hA : IsUnit A.det) {v : Fin n → ℝ} {s : ℝ} (h : ∀ j, A.mulVec v j = if j = i₀ then s else 0) : v i₀ = s * A⁻¹ i₀ i₀ := by
  have e : A.mulVec v = s • Pi.single i₀ 1 := by
    funext j
    rw [h, Pi.smul_apply, Pi.single_apply]
    split <;> simp
  have h2 := congrArg A⁻¹.mulVec e
  rw [Matrix.mulVec_mulVec, Matrix.nonsing_inv_mul _ hA, Matrix.one_mulVec, Matrix.mulVec_smul, Matrix.mulVec_single_one] at h2
  have h3 := congrFun h2 i₀
  simpa using h3

end matrix

theorem onlyRow_shape {S : Mat ℝ} (h : HasShape S 1 1) : S = ⟨1, [[ent S 0 0]]⟩ := by
  obtain ⟨c, rows⟩ := S
  obtain ⟨h1, h2, h3⟩ := h
  simp only at h1 h2 h3
  subst h2
  obtain ⟨r, rfl⟩ := List.length_eq_one_iff.1 h1
  obtain ⟨x, rfl⟩ := List.length_eq_one_iff.1 (h3 r (by simp))
  simp [ent]

section gp
variable {lib : TriLib ℝ} (hl : TriLibOk lib) {g g₁ : Gp ℝ} {k : List ℝ → List ℝ → ℝ} (hk : IsKernel g.ker k) {a : ℝ} (hm : g.mean = constMean a)
  {X : Mat ℝ} (hX : X.WF) {y : List ℝ}
include hl hk hm hX

/-- **C111 (leave one out, Gaussian processes).** With a constant mean and positive noise, the model can also be trained without sample `i`. Its error at sample `i` is the error
of the model trained on all samples divided by `1 - h`, and the variance it gives to an observation there, its posterior variance plus the noise, is the noise divided by
`1 - h`. The leverage `h` is what a process with mean 0 predicts at sample `i` after training on targets that are 1 for this sample and 0 for the others. It is less than 1, and
not negative when the kernel is positive semi-definite. -/
theorem C111_gp (hn : 0 < g.noise) (h : g.train lib X y = ok g₁) {i : ℕ} (hi : i < X.rows.length) :
    ∃ g₂ u h p q v, g.train lib (withoutRow X i) (y.eraseIdx i) = ok g₂ ∧
      ({ g with mean := constMean 0 } : Gp ℝ).train lib X (unitTargets X.rows.length i) = ok u ∧ u.predict (onlyRow X i) = ok [h] ∧ h < 1 ∧
      (PSDKernel g.ker X.cols → 0 ≤ h) ∧ g₁.predict (onlyRow X i) = ok [p] ∧ g₂.posterior lib (onlyRow X i) = ok ([q], ⟨1, [[v]]⟩) ∧
      y.getD i 0 - q = (y.getD i 0 - p) / (1 - h) ∧ v + g.noise = g.noise / (1 - h) := by
  have hms : MeanSized g.mean := hm ▸ (C59_mean a).1
  have hms0 : MeanSized ({ g with mean := constMean 0 } : Gp ℝ).mean := (C59_mean 0).1
  have hk0 : IsKernel ({ g with mean := constMean 0 } : Gp ℝ).ker k := hk
  have hone : (onlyRow X i).WF := by
    intro r h
    simp only [onlyRow, List.mem_singleton] at h
    subst h
    rw [List.getD_eq_getElem _ _ hi]
    exact hX _ (List.getElem_mem hi)
  have hwo : (withoutRow X i).WF := fun r h => hX r (List.mem_of_mem_eraseIdx h)
  have hu := (Matrix.isUnit_iff_isUnit_det _).mp (C59_regular hl hk hms hX h)
  obtain ⟨l, alpha, hg₁, -, -, -, -, hy, hpd, ha, hA⟩ := gp_alpha hl hk hms hX h
  have hye : (y.eraseIdx i).length = (withoutRow X i).rows.length := by
    simp only [withoutRow]
    rw [List.length_eraseIdx_of_lt hi, List.length_eraseIdx_of_lt (by omega), hy]
  obtain ⟨g₂, h₂⟩ := C106_gp_part hl hk hms hwo hX (List.eraseIdx_sublist X.rows i) h hye
  obtain ⟨u, h₃⟩ := (C59_train_iff hl hk0 hms0 hX (unitTargets_length X.rows.length i)).1.2 hpd
  obtain ⟨p, p1, p2, p3⟩ := C59_predict hl hk hms hX h hone rfl
  obtain ⟨w, w1, w2, w3⟩ := C59_predict hl hk0 hms0 hX h₃ hone rfl
  obtain ⟨q, S, q1, q2, q3, q4, -⟩ := C59_posterior hl hk hms hwo h₂ hone rfl
  obtain ⟨q', q1', q2', q3'⟩ := C59_predict hl hk hms hwo h₂ hone rfl
  rw [q1] at q1'
  injection q1' with q1'
  subst q1'
  have huB := (Matrix.isUnit_iff_isUnit_det _).mp (C59_regular hl hk hms hwo h₂)
  set A := noisyGram k g.noise X with hAdef
  set B := noisyGram k g.noise (withoutRow X i) with hBdef
  have hlen : (withoutRow X i).rows.length = X.rows.length - 1 := by simp only [withoutRow]; rw [List.length_eraseIdx_of_lt hi]
  let i₀ : Fin X.rows.length := ⟨i, hi⟩
  let ι : Fin (withoutRow X i).rows.length → Fin X.rows.length := fun j => ⟨if j.1 < i then j.1 else j.1 + 1, by
    have := j.2
    split <;> omega⟩
  have hιinj : Function.Injective ι := by
    intro x z hxz
    have := congrArg Fin.val hxz
    simp only [ι] at this
    apply Fin.ext
    split at this <;> split at this <;> omega
  have hιne : ∀ j, ι j ≠ i₀ := by
    intro j h
    have := congrArg Fin.val h
    simp only [ι, i₀] at this
    split at this <;> omega
  have hιcov : ∀ j, j ≠ i₀ → ∃ j', ι j' = j := by
    intro j hj
    have hj' : j.1 ≠ i := fun h => hj (Fin.ext h)
    have := j.2
    by_cases hji : j.1 < i
    · exact ⟨⟨j.1, by omega⟩, Fin.ext (by simp [ι, hji])⟩
    · exact ⟨⟨j.1 - 1, by omega⟩, Fin.ext (by simp only [ι]; split <;> omega)⟩
  have hιrow : ∀ j : Fin (withoutRow X i).rows.length, (withoutRow X i).rows.getD j [] = X.rows.getD (ι j) [] := by
    intro j
    rw [List.getD_eq_getElem _ _ j.2, List.getD_eq_getElem _ _ (ι j).2]
    simp only [withoutRow, List.getElem_eraseIdx, ι]
    split <;> rfl
  have hιy : ∀ j : Fin (withoutRow X i).rows.length, (y.eraseIdx i).getD j 0 = y.getD (ι j) 0 := by
    intro j
    rw [List.getD_eq_getElem _ _ (by rw [hye]; exact j.2), List.getD_eq_getElem _ _ (by rw [hy]; exact (ι j).2)]
    simp only [List.getElem_eraseIdx, ι]
    split <;> rfl
  have hAB : ∀ j j', B j j' = A (ι j) (ι j') := noisyGram_part hιinj hιrow k g.noise
  have hmean : ∀ (Z : Mat ℝ) (j : Fin Z.rows.length), toV Z.rows.length (g.mean Z) j = a := by
    intro Z j
    unfold toV
    rw [List.getD_eq_getElem _ _ (by rw [hms]; exact j.2)]
    have h := (C59_mean a).2 Z
    rw [← hm] at h
    exact h _ (List.getElem_mem _)
  have hmean0 : ∀ (Z : Mat ℝ) (j : Fin Z.rows.length), toV Z.rows.length (constMean 0 Z) j = (0 : ℝ) := by
    intro Z j
    unfold toV
    rw [List.getD_eq_getElem _ _ (by rw [(C59_mean 0).1]; exact j.2)]
    exact (C59_mean 0).2 Z _ (List.getElem_mem _)
  have hAoff : ∀ j j', j ≠ j' → A j j' = k (X.rows.getD j []) (X.rows.getD j' []) := by
    intro j j' hne
    rw [hAdef]
    unfold noisyGram gram
    rw [Matrix.add_apply, Matrix.smul_apply, Matrix.one_apply_ne hne]
    simp
  have hAdiag : A i₀ i₀ = k (X.rows.getD i []) (X.rows.getD i []) + g.noise := by
    rw [hAdef]
    unfold noisyGram gram
    rw [Matrix.add_apply, Matrix.smul_apply, Matrix.one_apply_eq, smul_eq_mul, mul_one]
    rfl
  let z₀ : Fin (onlyRow X i).rows.length := ⟨0, Nat.one_pos⟩
  have hgram : ∀ v, (gram k (onlyRow X i) X).mulVec v z₀ = A.mulVec v i₀ - g.noise * v i₀ := by
    intro v
    rw [hAdef]
    unfold noisyGram
    rw [Matrix.add_mulVec, Matrix.smul_mulVec, Matrix.one_mulVec, Pi.add_apply, Pi.smul_apply, smul_eq_mul, add_sub_cancel_right]
    rfl
  have hgramB : ∀ v, (gram k (onlyRow X i) (withoutRow X i)).mulVec v z₀ = ∑ j, A i₀ (ι j) * v j := by
    intro v
    simp only [Matrix.mulVec, dotProduct]
    apply Finset.sum_congr rfl
    intro j _
    rw [hAoff i₀ (ι j) fun h => hιne j h.symm, ← hιrow]
    rfl
  have hpart : ∀ (v : Fin (withoutRow X i).rows.length → ℝ) j, ∑ j', A (ι j) (ι j') * v j' = B.mulVec v j := by
    intro v j
    simp only [Matrix.mulVec, dotProduct, hAB]
  -- the values
  have e0 : toV _ y i₀ = y.getD i 0 := rfl
  obtain ⟨pv, rfl⟩ := List.length_eq_one_iff.1 p2
  obtain ⟨hv, rfl⟩ := List.length_eq_one_iff.1 w2
  obtain ⟨qv, rfl⟩ := List.length_eq_one_iff.1 q2'
  have hone1 : (onlyRow X i).rows.length = 1 := rfl
  have hp0 : pv = y.getD i 0 - g.noise * A⁻¹.mulVec (toV _ y - toV _ (g.mean X)) i₀ := by
    have := congrFun p3 z₀
    rw [Pi.add_apply, hmean, hgram, Matrix.mulVec_mulVec, Matrix.mul_nonsing_inv _ hu, Matrix.one_mulVec, Pi.sub_apply, hmean, e0] at this
    rw [show pv = toV (onlyRow X i).rows.length [pv] z₀ from rfl, this]
    ring
  have hh0 : hv = 1 - g.noise * A⁻¹ i₀ i₀ := by
    have hunit : toV X.rows.length (unitTargets X.rows.length i) - toV _ (constMean 0 X) = Pi.single i₀ 1 := by
      funext j
      rw [Pi.sub_apply, hmean0, sub_zero, Pi.single_apply]
      unfold toV
      rw [unitTargets_getD j.2]
      simp [Fin.ext_iff, i₀]
    have := congrFun w3 z₀
    rw [Pi.add_apply, hunit, Matrix.mulVec_single_one, hgram, ← Matrix.mulVec_single_one, Matrix.mulVec_mulVec, Matrix.mul_nonsing_inv _ hu, Matrix.one_mulVec, Pi.single_eq_same] at this
    rw [show toV (onlyRow X i).rows.length (({ g with mean := constMean 0 } : Gp ℝ).mean (onlyRow X i)) z₀ = 0 from hmean0 _ _, zero_add,
      Matrix.mulVec_single_one] at this
    exact this
  have hq0 : toV _ y i₀ - a - ∑ j, A i₀ (ι j) * B⁻¹.mulVec (toV _ (y.eraseIdx i) - toV _ (g.mean (withoutRow X i))) j = y.getD i 0 - qv := by
    have := congrFun q3' z₀
    rw [Pi.add_apply, hmean, hgramB] at this
    rw [show qv = toV (onlyRow X i).rows.length [qv] z₀ from rfl, this, e0]
    ring
  have hres : A⁻¹.mulVec (toV _ y - toV _ (g.mean X)) i₀ = (y.getD i 0 - qv) * A⁻¹ i₀ i₀ := by
    set β := B⁻¹.mulVec (toV _ (y.eraseIdx i) - toV _ (g.mean (withoutRow X i))) with hβ
    have h1 := solve_unit hu (v := A⁻¹.mulVec (toV _ y - toV _ (g.mean X)) - extendBy ι β) (i₀ := i₀) (s := y.getD i 0 - qv) (by
      intro j
      rw [Matrix.mulVec_sub, Matrix.mulVec_mulVec, Matrix.mul_nonsing_inv _ hu, Matrix.one_mulVec, Pi.sub_apply, Pi.sub_apply, hmean, mulVec_extendBy]
      by_cases hj : j = i₀
      · subst hj
        rw [if_pos rfl, hq0]
      · obtain ⟨j', rfl⟩ := hιcov j hj
        rw [if_neg hj, hpart, hβ, Matrix.mulVec_mulVec, Matrix.mul_nonsing_inv _ huB, Matrix.one_mulVec, Pi.sub_apply, hmean]
        unfold toV
        rw [hιy]
        ring)
    rwa [Pi.sub_apply, extendBy_none hιne, sub_zero] at h1
  have hS0 : ent S 0 0 = k (X.rows.getD i []) (X.rows.getD i []) - ∑ j, A i₀ (ι j) * B⁻¹.mulVec (fun j => A (ι j) i₀) j := by
    have h1 : ent S 0 0 = toM (onlyRow X i).rows.length (onlyRow X i).rows.length S z₀ z₀ := rfl
    rw [h1, q4, Matrix.sub_apply, Matrix.mul_assoc]
    congr 1
    have h2 : (gram k (onlyRow X i) (withoutRow X i) * (B⁻¹ * gram k (withoutRow X i) (onlyRow X i))) z₀ z₀ =
        (gram k (onlyRow X i) (withoutRow X i)).mulVec (B⁻¹.mulVec fun j => gram k (withoutRow X i) (onlyRow X i) j z₀) z₀ := rfl
    rw [h2, hgramB]
    have h3 : (fun j => gram k (withoutRow X i) (onlyRow X i) j z₀) = fun j => A (ι j) i₀ := by
      funext j
      rw [hAoff _ _ (hιne j), ← hιrow]
      rfl
    rw [h3]
  have hvar : 1 = (ent S 0 0 + g.noise) * A⁻¹ i₀ i₀ := by
    set β := B⁻¹.mulVec (fun j => A (ι j) i₀) with hβ
    have h1 := solve_unit hu (v := Pi.single i₀ 1 - extendBy ι β) (i₀ := i₀) (s := ent S 0 0 + g.noise) (by
      intro j
      rw [Matrix.mulVec_sub, Matrix.mulVec_single_one, Pi.sub_apply, mulVec_extendBy]
      change A j i₀ - _ = _
      by_cases hj : j = i₀
      · subst hj
        rw [if_pos rfl, hAdiag, hS0]
        ring
      · obtain ⟨j', rfl⟩ := hιcov j hj
        rw [if_neg hj, hpart, hβ, Matrix.mulVec_mulVec, Matrix.mul_nonsing_inv _ huB, Matrix.one_mulVec, sub_self])
    rwa [Pi.sub_apply, extendBy_none hιne, sub_zero, Pi.single_eq_same] at h1
  have hc : 0 < A⁻¹ i₀ i₀ := by
    have hne : A⁻¹.mulVec (Pi.single i₀ 1) ≠ 0 := by
      intro h0
      have := congrArg A.mulVec h0
      rw [Matrix.mulVec_mulVec, Matrix.mul_nonsing_inv _ hu, Matrix.one_mulVec, Matrix.mulVec_zero] at this
      have := congrFun this i₀
      simp at this
    have := hpd.2 _ hne
    rw [Matrix.mulVec_mulVec, Matrix.mul_nonsing_inv _ hu, Matrix.one_mulVec, dotProduct_single_one, Matrix.mulVec_single_one] at this
    exact this
  have hpos : 0 < g.noise * A⁻¹ i₀ i₀ := mul_pos hn hc
  have hsub : 1 - hv = g.noise * A⁻¹ i₀ i₀ := by rw [hh0]; ring
  refine ⟨g₂, u, hv, pv, qv, ent S 0 0, h₂, h₃, w1, by linarith, ?_, p1, ?_, ?_, ?_⟩
  · intro hpsd
    obtain ⟨q', S', s1, s2⟩ := C59_posterior_psd hl hk hms hwo hpsd hn.le h₂ hone rfl
    rw [q2] at s1
    injection s1 with s1
    injection s1 with s1 s3
    subst s3
    have h1 := s2.2 (Pi.single z₀ 1)
    rw [Matrix.mulVec_single_one] at h1
    have h2 : 0 ≤ ent S 0 0 := by
      rw [single_one_dotProduct] at h1
      exact h1
    rw [hh0]
    nlinarith
  · rw [q2]
    conv_lhs => rw [onlyRow_shape q3]
  · rw [hsub, hp0, hres]
    field_simp
    ring
  · rw [hsub]
    field_simp
    linarith

end gp

/-! ### Instances -/

theorem pair_independent : AffinelyIndependent ⟨1, [[3], [4]]⟩ := by
  intro β hb h
  obtain ⟨a, b, rfl⟩ := List.length_eq_two.mp hb
  have h0 := h [3] (by simp)
  have h1 := h [4] (by simp)
  simp [affine, Spec.inner] at h0 h1
  obtain rfl : b = 0 := by linarith
  obtain rfl : a = 0 := by linarith
  rfl

/-- Three samples, the first of which can be left out: here `h = 13/14`, so the error without the sample is 14 times the error with it. -/
example : ∃ m m' u h p q, LinReg.train (gaussSolve (0 : ℝ)) ⟨1, [[1], [3], [4]]⟩ [2, 2, 7] = ok m ∧
    LinReg.train (gaussSolve (0 : ℝ)) ⟨1, [[3], [4]]⟩ [2, 7] = ok m' ∧ LinReg.train (gaussSolve (0 : ℝ)) ⟨1, [[1], [3], [4]]⟩ [1, 0, 0] = ok u ∧
    u.predict ⟨1, [[1]]⟩ = ok [h] ∧ 0 ≤ h ∧ h < 1 ∧ m.predict ⟨1, [[1]]⟩ = ok [p] ∧ m'.predict ⟨1, [[1]]⟩ = ok [q] ∧ 2 - q = (2 - p) / (1 - h) := by
  have hX : (⟨1, [[1], [3], [4]]⟩ : Mat ℝ).WF := by intro r hr; simp at hr; rcases hr with rfl | rfl | rfl <;> rfl
  have hX' : (⟨1, [[3], [4]]⟩ : Mat ℝ).WF := by intro r hr; simp at hr; rcases hr with rfl | rfl <;> rfl
  obtain ⟨m, h1⟩ := (C48_succeeds_iff (gaussSolve_exact 0 le_rfl) gaussSolve_regular ⟨1, [[1], [3], [4]]⟩ hX [2, 2, 7] rfl).2 units_independent
  obtain ⟨m', h2⟩ := (C48_succeeds_iff (gaussSolve_exact 0 le_rfl) gaussSolve_regular ⟨1, [[3], [4]]⟩ hX' [2, 7] rfl).2 pair_independent
  obtain ⟨u, h, p, q, h3, h4, h5, h6, h7, h8, h9⟩ := C111_leave_one_out (gaussSolve_exact 0 le_rfl) gaussSolve_regular hX (i := 0) (by simp) h1 h2
  have hu : unitTargets (⟨1, [[1], [3], [4]]⟩ : Mat ℝ).rows.length 0 = [1, 0, 0] := by
    simp only [unitTargets, List.length_cons, List.length_nil]
    norm_num [List.range_succ]
  rw [hu] at h3
  exact ⟨m, m', u, h, p, q, h1, h2, h3, h4, h5, h6, h7, h8, h9⟩

/-- The same three samples, split into two for training and one for testing; and their leverages add up to 2. -/
example : SplitInto ⟨1, [[1], [3], [4]]⟩ [2, 2, 7] ⟨1, [[4], [1]]⟩ [7, 2] ⟨1, [[3]]⟩ [2] ∧
    ∃ h : ℕ → ℝ, (∀ i < 3, 0 ≤ h i ∧ h i ≤ 1) ∧ h 0 + h 1 + h 2 = 2 := by
  refine ⟨⟨rfl, rfl, rfl, rfl, rfl, ?_⟩, ?_⟩
  · simp only [List.zip_cons_cons, List.zip_nil_right, List.cons_append, List.nil_append]
    exact (List.perm_append_comm (l₁ := [([1], 2), ([3], 2)]) (l₂ := [([4], (7 : ℝ))]))
  · have hX : (⟨1, [[1], [3], [4]]⟩ : Mat ℝ).WF := by intro r hr; simp at hr; rcases hr with rfl | rfl | rfl <;> rfl
    obtain ⟨h, h1, h2⟩ := C111_leverages (gaussSolve_exact 0 le_rfl) gaussSolve_regular hX units_independent
    refine ⟨h, fun i hi => ⟨(h1 i hi).1, (h1 i hi).2.1⟩, ?_⟩
    simp [Finset.sum_range_succ] at h2
    linarith

/-- A Gaussian process trained on three samples, without the second one, for all targets. -/
example (r s t : ℝ) : ∃ g₁ g₂ h p q v, (⟨sqExpKernel 1 2, constMean 1, 1 / 2, none, none, none⟩ : Gp ℝ).train exactLib ⟨1, [[0], [0], [1]]⟩ [r, s, t] = ok g₁ ∧
    (⟨sqExpKernel 1 2, constMean 1, 1 / 2, none, none, none⟩ : Gp ℝ).train exactLib ⟨1, [[0], [1]]⟩ [r, t] = ok g₂ ∧ 0 ≤ h ∧ h < 1 ∧
    g₁.predict ⟨1, [[0]]⟩ = ok [p] ∧ g₂.posterior exactLib ⟨1, [[0]]⟩ = ok ([q], ⟨1, [[v]]⟩) ∧ s - q = (s - p) / (1 - h) ∧ v + 1 / 2 = 1 / 2 / (1 - h) := by
  have hX : (⟨1, [[0], [0], [1]]⟩ : Mat ℝ).WF := by intro r hr; simp at hr; rcases hr with rfl | rfl | rfl <;> rfl
  have hk : IsKernel (sqExpKernel 1 2) (kernelValue (sqExpKernel 1 2)) := C59_kernels (.sqExp 1 2)
  have hp := C61_gram (.sqExp (by norm_num) (by norm_num) : PSDBuilt (sqExpKernel 1 2)) 1
  obtain ⟨g₁, h1⟩ := C59_train_psd exactLib_ok (g := ⟨sqExpKernel 1 2, constMean 1, 1 / 2, none, none, none⟩) (y := [r, s, t]) hk (C59_mean 1).1 hX hp (by norm_num) rfl
  obtain ⟨g₂, u, h, p, q, v, e1, -, -, e2, e3, e4, e5, e6, e7⟩ := C111_gp exactLib_ok hk (a := 1) rfl hX (by norm_num) h1 (i := 1) (by simp)
  exact ⟨g₁, g₂, h, p, q, v, h1, e1, e3 hp, e2, e4, e5, e6, e7⟩

end RM
