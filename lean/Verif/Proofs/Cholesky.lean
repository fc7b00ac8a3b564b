import Mathlib.LinearAlgebra.Matrix.Block
import Mathlib.Algebra.BigOperators.Field
import Verif.Base.Cholesky
import Verif.Spec.Cholesky
import Verif.Proofs.ToMatrix

/-! The Cholesky decomposition meets its contract, and what the contract implies. -/

set_option linter.unusedSectionVars false

namespace RM
open Outcome Scalar Spec Matrix

/-- The matrix of a list of rows. -/
def rowsM (n : ℕ) (rows : List (List ℝ)) : Matrix (Fin n) (Fin n) ℝ := toM n n ⟨n, rows⟩

theorem rowsM_apply {n : ℕ} (rows : List (List ℝ)) (i j : Fin n) : rowsM n rows i j = (rows.getD i []).getD j 0 := rfl

/-- The trailing block after the first step. -/
noncomputable def schur (rows : List (List ℝ)) : List (List ℝ) :=
  let col := rows.tail.map fun r => r.headD 0 / Real.sqrt ((rows.headD []).headD 0)
  List.zipWith (fun r c => List.zipWith (fun x d => x - c * d) r.tail col) rows.tail col

theorem schur_shape {n : ℕ} {rows : List (List ℝ)} (h : HasShape ⟨n + 1, rows⟩ (n + 1) (n + 1)) : HasShape ⟨n, schur rows⟩ n n := by
  obtain ⟨h1, -, h3⟩ := h
  simp only at h1
  refine ⟨by simp [schur, h1], rfl, ?_⟩
  intro r hr
  simp only [schur] at hr
  obtain ⟨i, hi, rfl⟩ := List.getElem_of_mem hr
  simp only [List.length_zipWith, List.length_tail, List.length_map, h1] at hi
  rw [List.getElem_zipWith, List.length_zipWith, List.length_tail, List.length_map, List.length_tail, h1]
  have : (rows.tail[i]'(by simp [h1]; omega)).length = n + 1 := h3 _ (List.mem_of_mem_tail (List.getElem_mem _))
  rw [this]
  simp

theorem schur_entry {n : ℕ} {rows : List (List ℝ)} (h : HasShape ⟨n + 1, rows⟩ (n + 1) (n + 1)) (ha : 0 < rowsM (n + 1) rows 0 0) (i j : Fin n) :
    rowsM n (schur rows) i j = rowsM (n + 1) rows i.succ j.succ - rowsM (n + 1) rows i.succ 0 * rowsM (n + 1) rows j.succ 0 / rowsM (n + 1) rows 0 0 := by
  obtain ⟨h1, -, h3⟩ := h
  simp only at h1 h3
  cases rows with
  | nil => simp at h1
  | cons r0 rs =>
    simp only [List.length_cons, Nat.add_right_cancel_iff] at h1
    have hi : (i : ℕ) < rs.length := by rw [h1]; exact i.2
    have hj : (j : ℕ) < rs.length := by rw [h1]; exact j.2
    have hrow : rs[i].length = n + 1 := h3 _ (List.mem_cons_of_mem _ (List.getElem_mem _))
    have hrowj : rs[j].length = n + 1 := h3 _ (List.mem_cons_of_mem _ (List.getElem_mem _))
    have h0 : (r0.headD 0) = r0.getD 0 0 := by cases r0 <;> rfl
    have hh : ∀ r : List ℝ, r.headD 0 = r[0]?.getD 0 := by intro r; cases r <;> rfl
    have hij : (j : ℕ) + 1 < rs[i].length := by rw [hrow]; omega
    simp only [rowsM_apply, schur, List.tail_cons, List.headD_cons, Fin.val_zero, Fin.val_succ, List.getD_cons_succ, List.getD_cons_zero] at ha ⊢
    simp only [List.getD_eq_getElem?_getD, List.getElem?_zipWith, List.getElem?_map, List.getElem?_tail, List.getElem?_eq_getElem hi,
      List.getElem?_eq_getElem hj, Option.map_some, Option.getD_some, hh] at ha ⊢
    have hij' : rs[(i : ℕ)][(j : ℕ) + 1]? = some (rs[(i : ℕ)][(j : ℕ) + 1]) := List.getElem?_eq_getElem hij
    rw [hij']
    simp only [Option.getD_some]
    have hs : Real.sqrt (r0[0]?.getD 0) * Real.sqrt (r0[0]?.getD 0) = r0[0]?.getD 0 := Real.mul_self_sqrt ha.le
    rw [div_mul_div_comm, hs]

theorem choleskyRows_succ (n : ℕ) (rows : List (List ℝ)) : choleskyRows (n + 1) rows =
    if 0 < rowsM (n + 1) rows 0 0 then do
      let L ← choleskyRows n (schur rows)
      ok ((Real.sqrt (rowsM (n + 1) rows 0 0) :: List.replicate n 0) ::
        List.zipWith (· :: ·) (rows.tail.map fun r => r.headD 0 / Real.sqrt (rowsM (n + 1) rows 0 0)) L)
    else err .LinearAlgebra := by
  have h0 : rowsM (n + 1) rows 0 0 = (rows.headD []).headD 0 := by
    rw [rowsM_apply]
    cases rows with
    | nil => rfl
    | cons r _ => cases r <;> rfl
  rw [h0]
  rw [choleskyRows]
  simp only [real_lt, real_zero, decide_eq_true_eq, real_sqrt, real_div, real_sub, real_mul]
  rfl

/-- The factor that a step builds from the factor of the trailing block. -/
theorem factor_entries {n : ℕ} {rows L : List (List ℝ)} (h1 : rows.length = n + 1) (hL : L.length = n) (l : ℝ) :
    let M := rowsM (n + 1) ((l :: List.replicate n 0) :: List.zipWith (· :: ·) (rows.tail.map fun r => r.headD 0 / l) L)
    M 0 0 = l ∧ (∀ j : Fin n, M 0 j.succ = 0) ∧ (∀ i : Fin n, M i.succ 0 = rowsM (n + 1) rows i.succ 0 / l) ∧
      ∀ i j : Fin n, M i.succ j.succ = rowsM n L i j := by
  intro M
  cases rows with
  | nil => simp at h1
  | cons r0 rs =>
    simp only [List.length_cons, Nat.add_right_cancel_iff] at h1
    refine ⟨rfl, ?_, ?_, ?_⟩
    · intro j
      simp [M, rowsM_apply, List.getD_eq_getElem?_getD]
    · intro i
      have hi : (i : ℕ) < rs.length := by rw [h1]; exact i.2
      have hi2 : (i : ℕ) < L.length := by rw [hL]; exact i.2
      simp [M, rowsM_apply, List.getD_eq_getElem?_getD, List.getElem?_zipWith, List.getElem?_eq_getElem hi, List.getElem?_eq_getElem hi2, List.head?_eq_getElem?]
    · intro i j
      have hi : (i : ℕ) < rs.length := by rw [h1]; exact i.2
      have hi2 : (i : ℕ) < L.length := by rw [hL]; exact i.2
      simp [M, rowsM_apply, List.getD_eq_getElem?_getD, List.getElem?_zipWith, List.getElem?_eq_getElem hi, List.getElem?_eq_getElem hi2]

theorem choleskyRows_exact : ∀ (n : ℕ) (rows L : List (List ℝ)), HasShape ⟨n, rows⟩ n n → (rowsM n rows)ᵀ = rowsM n rows → choleskyRows n rows = ok L →
    HasShape ⟨n, L⟩ n n ∧ LowerTriangular (rowsM n L) ∧ (∀ i, 0 < rowsM n L i i) ∧ rowsM n L * (rowsM n L)ᵀ = rowsM n rows := by
  intro n
  induction n with
  | zero =>
    intro rows L hS _ h
    injection h with h
    subst h
    refine ⟨⟨rfl, rfl, by simp⟩, fun i => i.elim0, fun i => i.elim0, ?_⟩
    ext i
    exact i.elim0
  | succ n ih =>
    intro rows L hS hsym h
    rw [choleskyRows_succ] at h
    split at h
    swap
    · cases h
    rename_i ha
    obtain ⟨L', hL', h⟩ := bind_eq_ok.mp h
    injection h with h
    have hsc := schur_shape hS
    have hsym' : ∀ i j, rowsM (n + 1) rows j i = rowsM (n + 1) rows i j := fun i j => congrFun (congrFun hsym i) j
    obtain ⟨s1, s2, s3, s4⟩ := ih (schur rows) L' hsc (by
      ext i j
      rw [transpose_apply, schur_entry hS ha, schur_entry hS ha, hsym' i.succ j.succ, mul_comm]) hL'
    have hl : L'.length = n := s1.1
    have hlen : rows.length = n + 1 := hS.1
    obtain ⟨e00, e0, ec, eb⟩ := factor_entries hlen hl (Real.sqrt (rowsM (n + 1) rows 0 0))
    rw [h] at e00 e0 ec eb
    refine ⟨?_, ?_, ?_, ?_⟩
    · rw [← h]
      refine ⟨by simp [hlen, hl], rfl, ?_⟩
      intro r hr
      rcases List.mem_cons.mp hr with rfl | hr
      · simp
      · obtain ⟨i, hi, rfl⟩ := List.getElem_of_mem hr
        simp only [List.length_zipWith] at hi
        rw [List.getElem_zipWith, List.length_cons]
        have := s1.2.2 (L'[i]'(by omega)) (List.getElem_mem _)
        simpa using this
    · intro i j hij
      induction i using Fin.cases with
      | zero =>
        induction j using Fin.cases with
        | zero => exact absurd hij (lt_irrefl _)
        | succ j => exact e0 j
      | succ i =>
        induction j using Fin.cases with
        | zero => exact absurd hij (by simp)
        | succ j => rw [eb]; exact s2 i j (Fin.succ_lt_succ_iff.mp hij)
    · intro i
      refine Fin.cases ?_ (fun i => ?_) i
      · rw [e00]; exact Real.sqrt_pos.mpr ha
      · rw [eb]; exact s3 i
    · have key : ∀ i j, ∑ k, rowsM (n + 1) L i k * rowsM (n + 1) L j k = rowsM (n + 1) rows i j := by
        have hs : Real.sqrt (rowsM (n + 1) rows 0 0) * Real.sqrt (rowsM (n + 1) rows 0 0) = rowsM (n + 1) rows 0 0 := Real.mul_self_sqrt ha.le
        have hsp : Real.sqrt (rowsM (n + 1) rows 0 0) ≠ 0 := (Real.sqrt_pos.mpr ha).ne'
        intro i j
        rw [Fin.sum_univ_succ]
        refine Fin.cases ?_ (fun i => ?_) i <;> refine Fin.cases ?_ (fun j => ?_) j
        · rw [e00, hs]; simp [e0]
        · rw [e00, ec]; simp only [e0, zero_mul, Finset.sum_const_zero, add_zero]
          rw [mul_div_cancel₀ _ hsp, hsym']
        · rw [e00, ec]; simp only [e0, mul_zero, Finset.sum_const_zero, add_zero]
          rw [div_mul_cancel₀ _ hsp]
        · rw [ec, ec, div_mul_div_comm, hs]
          simp only [eb]
          have := congrFun (congrFun s4 i) j
          rw [Matrix.mul_apply] at this
          simp only [transpose_apply] at this
          rw [this, schur_entry hS ha]
          ring
      ext i j
      rw [Matrix.mul_apply]
      exact key i j

theorem choleskyRows_posDef : ∀ (n : ℕ) (rows : List (List ℝ)), HasShape ⟨n, rows⟩ n n → PosDefinite (rowsM n rows) → ∃ L, choleskyRows n rows = ok L := by
  intro n
  induction n with
  | zero => intro rows _ _; exact ⟨[], rfl⟩
  | succ n ih =>
    intro rows hS hp
    have ha : 0 < rowsM (n + 1) rows 0 0 := by
      have := hp.2 (Pi.single 0 1) (by
        intro h
        have := congrFun h 0
        simp at this)
      simpa using this
    rw [choleskyRows_succ, if_pos ha]
    have hsym' : ∀ i j, rowsM (n + 1) rows j i = rowsM (n + 1) rows i j := fun i j => congrFun (congrFun hp.1 i) j
    obtain ⟨L, hL⟩ := ih (schur rows) (schur_shape hS) (by
      refine ⟨?_, ?_⟩
      · ext i j
        rw [transpose_apply, schur_entry hS ha, schur_entry hS ha, hsym' i.succ j.succ, mul_comm]
      · intro v hv
        set a := rowsM (n + 1) rows 0 0 with hadef
        set c := ∑ j, rowsM (n + 1) rows j.succ 0 * v j with hc
        have hw := hp.2 (Fin.cons (-c / a) v) (by
          intro h
          apply hv
          funext j
          have := congrFun h j.succ
          simpa using this)
        have e1 : ∀ i : Fin n, (rowsM (n + 1) rows).mulVec (Fin.cons (-c / a) v) i.succ = rowsM (n + 1) rows i.succ 0 * (-c / a) + ∑ j, rowsM (n + 1) rows i.succ j.succ * v j := by
          intro i
          rw [Matrix.mulVec, dotProduct, Fin.sum_univ_succ]
          simp
        have e0 : (rowsM (n + 1) rows).mulVec (Fin.cons (-c / a) v) 0 = 0 := by
          rw [Matrix.mulVec, dotProduct, Fin.sum_univ_succ]
          simp only [Fin.cons_zero, Fin.cons_succ]
          have : ∑ j, rowsM (n + 1) rows 0 (Fin.succ j) * v j = c := by
            rw [hc]; exact Finset.sum_congr rfl fun j _ => by rw [hsym']
          rw [this]
          field_simp
          ring
        rw [dotProduct, Fin.sum_univ_succ, e0] at hw
        simp only [Fin.cons_succ, mul_zero, zero_add, e1] at hw
        refine lt_of_lt_of_eq hw ?_
        rw [dotProduct]
        apply Finset.sum_congr rfl
        intro i _
        congr 1
        rw [Matrix.mulVec, dotProduct]
        simp only [schur_entry hS ha, ← hadef]
        simp only [sub_mul, Finset.sum_sub_distrib]
        have : ∑ x, rowsM (n + 1) rows i.succ 0 * rowsM (n + 1) rows x.succ 0 / a * v x = rowsM (n + 1) rows i.succ 0 * c / a := by
          rw [hc, Finset.mul_sum, Finset.sum_div]
          exact Finset.sum_congr rfl fun x _ => by ring
        rw [this]
        ring)
    rw [hL]
    exact ⟨_, rfl⟩

theorem choleskyFactor_exact : CholeskyExact (choleskyFactor (F := ℝ)) := by
  intro A L n hA hs h
  have hc : A.cols = n := hA.2.1
  have hr : A.rows.length = n := hA.1
  subst hc
  unfold choleskyFactor at h
  rw [if_pos hr] at h
  obtain ⟨L', hL, h⟩ := bind_eq_ok.mp h
  injection h with h
  subst h
  exact choleskyRows_exact _ _ _ hA hs hL

theorem choleskyFactor_posDef : CholeskyPosDef (choleskyFactor (F := ℝ)) := by
  intro A n hA hp
  have hc : A.cols = n := hA.2.1
  have hr : A.rows.length = n := hA.1
  subst hc
  obtain ⟨L, hL⟩ := choleskyRows_posDef _ _ hA hp
  unfold choleskyFactor
  rw [if_pos hr, hL]
  exact ⟨_, rfl⟩

/-- The determinant of a lower triangular matrix. -/
theorem lower_det {n : ℕ} {L : Matrix (Fin n) (Fin n) ℝ} (h : LowerTriangular L) (hd : ∀ i, L i i ≠ 0) : L.det ≠ 0 := by
  rw [Matrix.det_of_isLowerTriangular L (by intro i j hij; exact h i j hij)]
  exact Finset.prod_ne_zero_iff.mpr fun i _ => hd i

/-- Gaussian elimination solves triangular systems. -/
theorem gauss_lower : SolvesLower (gaussSolve (0 : ℝ)) := by
  intro L b n hL hl hd hb
  obtain ⟨x, hx⟩ := gaussSolve_regular L b n hL hb ((fullColumnRank_det hL).mpr (lower_det hl hd))
  obtain ⟨h1, h2, -⟩ := gaussSolve_exact 0 le_rfl L b x n hL hb hx
  exact ⟨x, hx, h1, (mulVec_eq_iff hL h1 hb).mp h2⟩

theorem gauss_upper : SolvesUpper (gaussSolve (0 : ℝ)) := by
  intro L b n hL hl hd hb
  obtain ⟨x, hx⟩ := gaussSolve_regular L b n hL hb ((fullColumnRank_det hL).mpr (by
    rw [← Matrix.det_transpose]; exact lower_det hl hd))
  obtain ⟨h1, h2, -⟩ := gaussSolve_exact 0 le_rfl L b x n hL hb hx
  exact ⟨x, hx, h1, (mulVec_eq_iff hL h1 hb).mp h2⟩

theorem choleskyRows_reports (n : ℕ) : ∀ rows : List (List ℝ), (∃ L, choleskyRows n rows = ok L) ∨ ∃ e, choleskyRows n rows = err e := by
  induction n with
  | zero => intro rows; exact Or.inl ⟨[], rfl⟩
  | succ n ih =>
    intro rows
    rw [choleskyRows]
    dsimp only
    split
    · rcases ih (List.zipWith (fun r c => List.zipWith (fun x d => x -. c *. d) r.tail
        (rows.tail.map fun r => r.headD Scalar.zero /. Scalar.sqrt ((rows.headD []).headD Scalar.zero))) rows.tail
        (rows.tail.map fun r => r.headD Scalar.zero /. Scalar.sqrt ((rows.headD []).headD Scalar.zero))) with ⟨L, hL⟩ | ⟨e, he⟩
      · exact Or.inl ⟨_, by rw [hL, ok_bind]⟩
      · exact Or.inr ⟨e, by rw [he]; rfl⟩
    · exact Or.inr ⟨_, rfl⟩

theorem choleskyFactor_reports : CholeskyReports (choleskyFactor (F := ℝ)) := by
  intro A n hA
  unfold choleskyFactor
  rw [if_pos (by rw [hA.1, hA.2.1])]
  rcases choleskyRows_reports A.cols A.rows with ⟨L, hL⟩ | ⟨e, he⟩
  · exact Or.inl ⟨_, by rw [hL, ok_bind]⟩
  · exact Or.inr ⟨e, by rw [he]; rfl⟩

end RM
