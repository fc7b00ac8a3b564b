import Verif.Base.Solve
import Verif.Spec.Solve
import Verif.Proofs.MatEnt
import Verif.Proofs.Argmax

/-! Gaussian elimination meets the contracts. -/

namespace RM
open Outcome Scalar Spec

theorem dot_cons_real (a b : ℝ) (u v : List ℝ) : dot (a :: u) (b :: v) = a * b + dot u v := by
  simp [dot_real]

theorem dot_elim (m : ℝ) : ∀ (u v x : List ℝ), u.length = v.length →
    dot (List.zipWith (fun a b => a -. m *. b) u v) x = dot u x - m * dot v x
  | [], [], x, _ => by simp [dot_real]
  | a :: u, b :: v, [], _ => by simp [dot_real]
  | a :: u, b :: v, c :: x, h => by
    rw [List.zipWith_cons_cons, dot_cons_real, dot_cons_real, dot_cons_real, dot_elim m u v x (by simpa using h)]
    simp only [real_sub, real_mul]; ring

theorem dot_zeroVec (u : List ℝ) (n : ℕ) : dot u (zeroVec n) = 0 := by
  rw [dot_real]
  unfold zeroVec
  induction u generalizing n with
  | nil => simp
  | cons a u ih => cases n with
    | zero => simp
    | succ n => simp [List.replicate_succ, ih]

theorem cons_of_length {l : List ℝ} {n : ℕ} (h : l.length = n + 1) : l = l.headD 0 :: l.tail ∧ l.tail.length = n := by
  cases l with
  | nil => simp at h
  | cons a l => exact ⟨rfl, by simpa using h⟩

/-- The pivot row and the others. -/
theorem pivot_perm (rows : List (List ℝ × ℝ)) (hne : rows ≠ []) :
    ∃ i m, argmaxBy Scalar.lt (rows.map fun r => Scalar.abs (r.1.headD Scalar.zero)) = ok (i, m) ∧ i < rows.length ∧
      (rows.getD i ([], Scalar.zero) :: rows.eraseIdx i).Perm rows ∧
      ∀ r ∈ rows, |r.1.headD 0| ≤ |(rows.getD i ([], Scalar.zero)).1.headD 0| := by
  obtain ⟨i, m, h1, h2, h3, h4⟩ := argmaxBy_spec (α := ℝ) Scalar.lt (fun a b => by simp) (rows.map fun r => Scalar.abs (r.1.headD Scalar.zero)) (by simpa using hne)
  have hi : i < rows.length := by
    by_contra hc
    rw [List.getElem?_eq_none (by simpa using hc)] at h2
    simp at h2
  refine ⟨i, m, h1, hi, ?_, ?_⟩
  · rw [List.getD_eq_getElem?_getD, List.getElem?_eq_getElem hi, Option.getD_some]
    exact List.getElem_cons_eraseIdx_perm hi
  · intro r hr
    have hm : m = |(rows.getD i ([], Scalar.zero)).1.headD 0| := by
      rw [List.getElem?_map, List.getElem?_eq_getElem hi] at h2
      simp only [Option.map_some, Option.some.injEq] at h2
      rw [← h2, List.getD_eq_getElem?_getD, List.getElem?_eq_getElem hi]
      simp
    rw [← hm]
    have := h3 (Scalar.abs (r.1.headD Scalar.zero)) (List.mem_map_of_mem hr)
    simpa using this

theorem gauss_sound (tol : ℝ) (ht : 0 ≤ tol) (n : ℕ) : ∀ (rows : List (List ℝ × ℝ)) (x : List ℝ), rows.length = n →
    (∀ r ∈ rows, r.1.length = n) → gauss tol n rows = ok x →
    x.length = n ∧ (∀ r ∈ rows, dot r.1 x = r.2) ∧ ∀ y : List ℝ, y.length = n → (∀ r ∈ rows, dot r.1 y = r.2) → y = x := by
  induction n with
  | zero =>
    intro rows x hl _ h
    rw [gauss] at h
    injection h with h
    subst h
    rw [List.length_eq_zero_iff] at hl
    subst hl
    exact ⟨rfl, by simp, fun y hy _ => List.length_eq_zero_iff.mp hy⟩
  | succ n ih =>
    intro rows x hl hr h
    obtain ⟨i, m, h1, hi, hp, _⟩ := pivot_perm rows (by intro hc; rw [hc] at hl; simp at hl)
    rw [gauss, h1, ok_bind] at h
    dsimp only at h
    generalize rows.getD i ([], Scalar.zero) = p at h hp
    generalize hrest : rows.eraseIdx i = rest at h hp
    have hrl : rest.length = n := by have := hp.length_eq; simp at this; omega
    split at h
    · rename_i hpiv
      have hp0 : p.1.headD 0 ≠ 0 := by
        intro hc
        simp only [real_lt, real_abs, real_zero, decide_eq_true_eq] at hpiv
        rw [hc, abs_zero] at hpiv
        linarith
      obtain ⟨x', hx', h⟩ := bind_eq_ok.mp h
      injection h with h
      have hmem : ∀ r, r ∈ rows ↔ r = p ∨ r ∈ rest := fun r => by rw [← hp.mem_iff, List.mem_cons]
      obtain ⟨hpc, hpl⟩ := cons_of_length (hr p ((hmem p).mpr (Or.inl rfl)))
      have hlen : ∀ r ∈ rest.map (eliminate p), r.1.length = n := by
        intro r hrm
        obtain ⟨s, hs, rfl⟩ := List.mem_map.mp hrm
        have := (cons_of_length (hr s ((hmem s).mpr (Or.inr hs)))).2
        simp [eliminate, this, hpl]
      obtain ⟨a1, a2, a3⟩ := ih _ x' (by simpa using hrl) hlen hx'
      have hel : ∀ s ∈ rest, ∀ y : List ℝ, dot (eliminate p s).1 y = dot s.1.tail y - s.1.headD 0 / p.1.headD 0 * dot p.1.tail y := by
        intro s hs y
        have := (cons_of_length (hr s ((hmem s).mpr (Or.inr hs)))).2
        exact dot_elim _ _ _ _ (by rw [this, hpl])
      refine ⟨by rw [← h]; simp [a1], ?_, ?_⟩
      · intro r hrr
        rcases (hmem r).mp hrr with rfl | hrest'
        · rw [← h, hpc, dot_cons_real]
          simp only [List.headD_cons, List.tail_cons, real_sub, real_div]
          rw [mul_div_cancel₀ _ hp0]; ring
        · have e := a2 _ (List.mem_map_of_mem hrest')
          rw [hel r hrest'] at e
          have e2 : (eliminate p r).2 = r.2 - r.1.headD 0 / p.1.headD 0 * p.2 := rfl
          rw [e2] at e
          obtain ⟨hrc, -⟩ := cons_of_length (hr r hrr)
          rw [← h, hrc, dot_cons_real]
          simp only [real_sub, real_div, real_zero]
          have : dot r.1.tail x' = r.2 - r.1.headD 0 / p.1.headD 0 * p.2 + r.1.headD 0 / p.1.headD 0 * dot p.1.tail x' := by linarith
          rw [this]; field_simp; ring
      · intro y hy hsol
        obtain ⟨hyc, hyl⟩ := cons_of_length hy
        have hpe := hsol p ((hmem p).mpr (Or.inl rfl))
        rw [hpc, hyc, dot_cons_real] at hpe
        have ht : y.tail = x' := by
          apply a3 _ hyl
          intro r hrm
          obtain ⟨s, hs, rfl⟩ := List.mem_map.mp hrm
          rw [hel s hs]
          have e2 : (eliminate p s).2 = s.2 - s.1.headD 0 / p.1.headD 0 * p.2 := rfl
          have hse := hsol s ((hmem s).mpr (Or.inr hs))
          obtain ⟨hsc, -⟩ := cons_of_length (hr s ((hmem s).mpr (Or.inr hs)))
          rw [hsc, hyc, dot_cons_real] at hse
          rw [e2, ← hse, ← hpe]
          field_simp; ring
        rw [hyc, ← h, ht]
        congr 1
        rw [ht] at hpe
        simp only [real_sub, real_div, real_zero]
        rw [← hpe]
        field_simp; ring
    · cases h

theorem gauss_complete (n : ℕ) : ∀ (rows : List (List ℝ × ℝ)), rows.length = n → (∀ r ∈ rows, r.1.length = n) →
    (∀ y : List ℝ, y.length = n → (∀ r ∈ rows, dot r.1 y = 0) → y = zeroVec n) → ∃ x, gauss 0 n rows = ok x := by
  induction n with
  | zero => intro rows _ _ _; exact ⟨[], rfl⟩
  | succ n ih =>
    intro rows hl hr hker
    obtain ⟨i, m, h1, hi, hp, hmax⟩ := pivot_perm rows (by intro hc; rw [hc] at hl; simp at hl)
    rw [gauss, h1, ok_bind]
    dsimp only
    generalize rows.getD i ([], Scalar.zero) = p at hp hmax ⊢
    generalize rows.eraseIdx i = rest at hp ⊢
    have hrl : rest.length = n := by have := hp.length_eq; simp at this; omega
    have hmem : ∀ r, r ∈ rows ↔ r = p ∨ r ∈ rest := fun r => by rw [← hp.mem_iff, List.mem_cons]
    have hp0 : p.1.headD 0 ≠ 0 := by
      intro hc
      rw [hc, abs_zero] at hmax
      have := hker (1 :: zeroVec n) (by simp [zeroVec]) (by
        intro r hrr
        obtain ⟨hrc, -⟩ := cons_of_length (hr r hrr)
        rw [hrc, dot_cons_real, dot_zeroVec, abs_nonpos_iff.mp (hmax r hrr)]; simp)
      simp [zeroVec, List.replicate_succ] at this
    have hpiv : ((0 : ℝ) <. Scalar.abs (p.1.headD Scalar.zero)) = true := by
      simp only [real_lt, real_abs, real_zero, decide_eq_true_eq]; exact abs_pos.mpr hp0
    rw [if_pos hpiv]
    obtain ⟨hpc, hpl⟩ := cons_of_length (hr p ((hmem p).mpr (Or.inl rfl)))
    obtain ⟨x, hx⟩ := ih (rest.map (eliminate p)) (by simpa using hrl)
      (by
        intro r hrm
        obtain ⟨s, hs, rfl⟩ := List.mem_map.mp hrm
        have := (cons_of_length (hr s ((hmem s).mpr (Or.inr hs)))).2
        simp [eliminate, this, hpl])
      (by
        intro y hy hsol
        have := hker (-(dot p.1.tail y) / p.1.headD 0 :: y) (by simp [hy]) (by
          intro r hrr
          obtain ⟨hrc, hrl'⟩ := cons_of_length (hr r hrr)
          rcases (hmem r).mp hrr with rfl | hs
          · rw [hpc, dot_cons_real]
            simp only [List.headD_cons, List.tail_cons]
            field_simp; ring
          · have e := hsol _ (List.mem_map_of_mem hs)
            have : dot (eliminate p r).1 y = dot r.1.tail y - r.1.headD 0 / p.1.headD 0 * dot p.1.tail y := dot_elim _ _ _ _ (by rw [hrl', hpl])
            rw [this] at e
            have e' : dot r.1.tail y = r.1.headD 0 / p.1.headD 0 * dot p.1.tail y := by linarith
            rw [hrc, dot_cons_real, e']
            field_simp; ring)
        simp only [zeroVec, List.replicate_succ, List.cons.injEq] at this
        exact this.2)
    exact ⟨_, by rw [hx, ok_bind]⟩

theorem mem_zip_rows {A : Mat ℝ} {b : List ℝ} {n : ℕ} (hA : HasShape A n n) {r : List ℝ × ℝ} (h : r ∈ A.rows.zip b) : r.1.length = n :=
  hA.2.2 _ (List.of_mem_zip h).1

theorem mulVec_iff {A : Mat ℝ} {x b : List ℝ} {n m : ℕ} (hA : HasShape A n m) (hx : x.length = m) (hb : b.length = n) :
    A.mulVec x = ok b ↔ ∀ r ∈ A.rows.zip b, dot r.1 x = r.2 := by
  unfold Mat.mulVec
  rw [if_pos (by rw [hA.2.1, hx])]
  have hl : A.rows.length = b.length := by rw [hA.1, hb]
  clear hA hb hx
  generalize A.rows = rows at hl
  constructor
  · intro h
    injection h with h
    subst h
    intro r hr
    clear hl
    induction rows with
    | nil => simp at hr
    | cons a rows ih =>
      rw [List.map_cons, List.zip_cons_cons, List.mem_cons] at hr
      rcases hr with rfl | hr
      · rfl
      · exact ih hr
  · intro h
    congr 1
    induction rows generalizing b with
    | nil => cases b with
      | nil => rfl
      | cons => simp at hl
    | cons a rows ih => cases b with
      | nil => simp at hl
      | cons c b =>
        rw [List.map_cons, ih (by simpa using hl) (fun r hr => h r (by simp [hr])), h (a, c) (by simp)]

/-- Gaussian elimination solves exactly. -/
theorem gaussSolve_exact (tol : ℝ) (ht : 0 ≤ tol) : SolvesExactly (gaussSolve tol) := by
  intro A b x n hA hb h
  unfold gaussSolve at h
  rw [if_pos ⟨by rw [hA.1, hA.2.1], by rw [hA.1, hb]⟩, hA.2.1] at h
  obtain ⟨h1, h2, h3⟩ := gauss_sound tol ht n _ x (by rw [List.length_zip, hA.1, hb, Nat.min_self]) (fun r hr => mem_zip_rows hA hr) h
  exact ⟨h1, (mulVec_iff hA h1 hb).mpr h2, fun y hy hys => h3 y hy ((mulVec_iff hA hy hb).mp hys)⟩

/-- With tolerance 0 it succeeds on every regular system. -/
theorem gaussSolve_regular : SolvesRegular (gaussSolve (0 : ℝ)) := by
  intro A b n hA hb hreg
  unfold gaussSolve
  rw [if_pos ⟨by rw [hA.1, hA.2.1], by rw [hA.1, hb]⟩, hA.2.1]
  apply gauss_complete n _ (by rw [List.length_zip, hA.1, hb, Nat.min_self]) (fun r hr => mem_zip_rows hA hr)
  intro y hy hk
  have := hreg y (by rw [hA.2.1, hy]) ((mulVec_iff hA hy (by simp [zeroVec, hA.1])).mpr ?_)
  · rwa [hA.2.1] at this
  · intro r hr
    obtain ⟨i, hi, hri⟩ := List.getElem_of_mem hr
    rw [List.length_zip] at hi
    have hib : i < b.length := by rw [hb, ← hA.1]; omega
    rw [List.getElem_zip] at hri
    have e2 : r.2 = 0 := by rw [← hri]; simp [zeroVec]
    rw [e2, ← hri]
    have := hk (A.rows[i], b[i]) (by rw [← List.getElem_zip (h := by rw [List.length_zip]; omega)]; exact List.getElem_mem _)
    exact this

theorem gauss_reports (tol : ℝ) (n : ℕ) : ∀ rows : List (List ℝ × ℝ), rows.length = n →
    (∃ x, gauss tol n rows = ok x) ∨ ∃ e, gauss tol n rows = err e := by
  induction n with
  | zero => intro rows _; exact Or.inl ⟨[], rfl⟩
  | succ n ih =>
    intro rows hl
    obtain ⟨i, m, h1, hi, hp, hmax⟩ := pivot_perm rows (by intro hc; rw [hc] at hl; simp at hl)
    rw [gauss, h1, ok_bind]
    dsimp only
    split
    · rcases ih ((rows.eraseIdx i).map (eliminate (rows.getD i ([], Scalar.zero)))) (by
        rw [List.length_map, List.length_eraseIdx_of_lt hi, hl]; rfl) with ⟨x, hx⟩ | ⟨e, he⟩
      · exact Or.inl ⟨_, by rw [hx, ok_bind]⟩
      · exact Or.inr ⟨e, by rw [he]; rfl⟩
    · exact Or.inr ⟨_, rfl⟩

/-- On square systems Gaussian elimination fails only with an error. -/
theorem gaussSolve_reports (tol : ℝ) : SolverReports (gaussSolve tol) := by
  intro A b n hA hb
  unfold gaussSolve
  rw [if_pos ⟨by rw [hA.1, hA.2.1], by rw [hA.1, hb]⟩, hA.2.1]
  exact gauss_reports tol n _ (by rw [List.length_zip, hA.1, hb, Nat.min_self])

end RM
