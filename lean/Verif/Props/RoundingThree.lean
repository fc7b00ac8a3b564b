import Verif.Props.RoundingMore
import Verif.Props.NaiveBayesOptimal

/-! # C86, continued: rounding in kernels, projections, scores, generalised linear models, Gaussian processes and naive Bayes -/

namespace RM
open Outcome Scalar Spec
variable {R : Rounding} {u : ℝ}

/-- The nearest representable number to `π`. -/
noncomputable instance instPiFl (R : Rounding) : ScalarPi (Fl R) := ⟨Fl.rnd R Real.pi⟩

/-! ### Normalising -/

/-- The Euclidean length of a row. -/
noncomputable def Spec.rowLength (x : List (Fl R)) : ℝ := Real.sqrt ((reals x).map fun t => t ^ 2).sum

theorem eucNorm_agree (h : Precise R u) (x : List (Fl R)) : 0 ≤ (eucNorm x).1 ∧ AgreeUpTo (growth u (x.length + 3)) (eucNorm x).1 (rowLength x) := by
  obtain ⟨h1, h2⟩ := agree_fsum h (m := 1) (fun t : Fl R => t *. t) (fun t => t.1 ^ 2) x (fun t _ => by
    refine ⟨fl_nonneg R (mul_self_nonneg _), sq_nonneg _, ?_⟩
    rw [sq]
    exact agree_fl h (mul_self_nonneg _))
  have e : dot x x = fsum (x.map fun t => t *. t) := by
    unfold dot
    rw [List.zipWith_self]
  have e2 : ((reals x).map fun t => t ^ 2).sum = (x.map fun t => t.1 ^ 2).sum := by rw [reals, List.map_map]; rfl
  rw [← e] at h1 h2
  have h3 : AgreeUpTo (growth u (1 + x.length + 1)) (R.fl ((Scalar.zero : Fl R).1 + (dot x x).1)) (x.map fun t => t.1 ^ 2).sum := by
    refine agree_fl_trans h ?_ ?_
    · change 0 ≤ 0 + (dot x x).1; rw [zero_add]; exact h1
    · change AgreeUpTo _ (0 + (dot x x).1) _; rw [zero_add]; exact h2
  have h4 := agree_fl_trans h (Real.sqrt_nonneg _) (agree_sqrt h3 (one_le_growth h _))
  refine ⟨fl_nonneg R (Real.sqrt_nonneg _), ?_⟩
  rw [rowLength, e2, show x.length + 3 = 1 + x.length + 1 + 1 by omega]
  exact h4

theorem rowLength_zero {x : List (Fl R)} (h : rowLength x = 0) : ∀ t ∈ x, t.1 = 0 := by
  intro t ht
  have hn : ∀ v ∈ (reals x).map fun t => t ^ 2, 0 ≤ v := by
    intro v hv
    obtain ⟨w, -, rfl⟩ := List.mem_map.1 hv
    positivity
  rw [rowLength, Real.sqrt_eq_zero (List.sum_nonneg hn)] at h
  have := List.single_le_sum hn (t.1 ^ 2) (List.mem_map.2 ⟨t.1, List.mem_map.2 ⟨t, ht, rfl⟩, rfl⟩)
  rw [h] at this
  exact pow_eq_zero_iff two_ne_zero |>.1 (le_antisymm this (sq_nonneg _))

/-- **C86 (normalizer).** Every entry of a row divided by its length is off by at most what `columns + 4` roundings make of its size. -/
theorem C86_normalizer (h : Precise R u) (X : Mat (Fl R)) : ∃ Y, normalizerTransform eucNorm X = ok Y ∧ Y.cols = X.cols ∧
    List.Forall₂ (fun x y => List.Forall₂ (fun (a b : Fl R) => |b.1 - a.1 / rowLength x| ≤ (growth u (x.length + 4) - 1) * (|a.1| / rowLength x)) x y) X.rows Y.rows := by
  have key : ∀ l : List (List (Fl R)), normalizeLoop (l.zip (l.map eucNorm)) =
      ok (l.map fun x => if (eucNorm x ==. Scalar.zero) = true then x else x.map fun t => t /. eucNorm x) := by
    intro l
    induction l with
    | nil => rfl
    | cons a l ih =>
      simp only [List.map_cons, List.zip_cons_cons, normalizeLoop]
      rw [if_neg (by simp [show Scalar.isFinite (eucNorm a) = true from rfl]), ih]
      rfl
  refine ⟨⟨X.cols, X.rows.map fun x => if (eucNorm x ==. Scalar.zero) = true then x else x.map fun t => t /. eucNorm x⟩, ?_, rfl, ?_⟩
  · unfold normalizerTransform
    dsimp only
    rw [key]
    rfl
  · rw [List.forall₂_map_right_iff, List.forall₂_same]
    intro x _
    obtain ⟨h1, h2⟩ := eucNorm_agree h x
    have hL0 : 0 ≤ rowLength x := Real.sqrt_nonneg _
    by_cases hz : (eucNorm x).1 = 0
    · rw [if_pos (show (eucNorm x ==. Scalar.zero) = true from decide_eq_true hz)]
      have hz' : rowLength x = 0 := le_antisymm (by have := h2.2; rw [hz, mul_zero] at this; exact this) hL0
      rw [List.forall₂_same]
      intro t ht
      rw [rowLength_zero hz' t ht, hz']
      simp
    · rw [if_neg (by intro hc; exact hz (of_decide_eq_true hc)), List.forall₂_map_right_iff, List.forall₂_same]
      intro t _
      have p1 : 0 < (eucNorm x).1 := lt_of_le_of_ne h1 (Ne.symm hz)
      have p2 : 0 < rowLength x := by
        refine lt_of_le_of_ne hL0 fun hc => ?_
        have := h2.1
        rw [← hc, mul_zero] at this
        linarith
      have h3 := err_fl h (err_div' h (err_exact u t.1) p2 p1 h2)
      have h4 := h3.2
      rw [show 0 + (x.length + 3) + 1 = x.length + 4 by omega] at h4
      exact h4

/-! ### Principal components -/

/-- **C86 (principal components).** The coordinates of a row along a component are off by at most what `columns + 2` roundings make of the sizes of their terms. -/
theorem C86_pca (h : Precise R u) (m : Pca (Fl R)) {C : Mat (Fl R)} {k : ℕ} (X : Mat (Fl R)) (hX : X.WF) (hf : m.nFeatures = some X.cols) (hC : m.components = some C)
    (hsh : if m.inv then HasShape C k X.cols else HasShape C X.cols k) {c : List (Fl R)} (hc : m.center = true → m.centers = some c) (hcl : c.length = X.cols) :
    ∃ Y, m.predict X = ok Y ∧ List.Forall₂ (fun x y => y.length = k ∧ ∀ l < k,
      |(y.getD l Scalar.zero).1 - ∑ j ∈ Finset.range X.cols, ((x.getD j Scalar.zero).1 - if m.center then (c.getD j Scalar.zero).1 else 0) * (if m.inv then entryR C l j else entryR C j l)| ≤
        (growth u (X.cols + 2) - 1) *
          ∑ j ∈ Finset.range X.cols, |((x.getD j Scalar.zero).1 - if m.center then (c.getD j Scalar.zero).1 else 0) * (if m.inv then entryR C l j else entryR C j l)|) X.rows Y.rows := by
  set M : Mat (Fl R) := if m.inv then C.transpose else C with hM
  have hMc : M.cols = k ∧ M.rows.length = X.cols ∧ ∀ l < k, colOf M.rows l = (List.range X.cols).map fun j => if m.inv then (C.rows.getD l []).getD j Scalar.zero else (C.rows.getD j []).getD l Scalar.zero := by
    by_cases hi : m.inv = true
    · rw [if_pos hi] at hsh
      simp only [hM, hi, if_true]
      refine ⟨hsh.1, by simp [Mat.transpose, transposeRows, hsh.2.1], fun l hl => ?_⟩
      have hw : C.WF := fun r hr => by rw [hsh.2.2 r hr, hsh.2.1]
      simp only [Mat.transpose, transposeRows, hsh.2.1, colOf]
      rw [List.filterMap_map]
      have e : ∀ j ∈ List.range X.cols, ((fun r : List (Fl R) => r[l]?) ∘ fun j => C.rows.filterMap fun r => r[j]?) j = some ((C.rows.getD l []).getD j Scalar.zero) := by
        intro j hj
        have hj : j < C.cols := by rw [hsh.2.1]; exact List.mem_range.1 hj
        have e2 := colOf_eq C Scalar.zero hw j hj
        unfold colOf at e2
        simp only [Function.comp_apply]
        rw [e2]
        have hl' : l < C.rows.length := by rw [hsh.1]; exact hl
        simp [hl']
      rw [List.filterMap_congr e, List.filterMap_eq_map']
    · rw [if_neg hi] at hsh
      simp only [hM, if_neg hi]
      have hw : C.WF := fun r hr => by rw [hsh.2.2 r hr, hsh.2.1]
      refine ⟨hsh.2.1, hsh.1, fun l hl => ?_⟩
      rw [colOf_eq C Scalar.zero hw l (by rw [hsh.2.1]; exact hl)]
      apply List.ext_getElem (by simp [hsh.1])
      intro j h1 h2
      have hj : j < C.rows.length := by simpa using h1
      simp [hj]
  obtain ⟨hM1, hM2, hM3⟩ := hMc
  set pre : List (Fl R) → List (Fl R) := fun x => if m.center then List.zipWith Scalar.sub x c else x with hpre
  refine ⟨⟨M.cols, X.rows.map fun x => (List.range M.cols).map fun l => dot (pre x) (colOf M.rows l)⟩, ?_, ?_⟩
  · have hproj : ∀ X, m.project C X = X.mul M := by
      intro X
      simp only [Pca.project, hM]
      split <;> rfl
    by_cases hcen : m.center = true
    · simp only [Pca.predict, hf, hC, hc hcen, hcen, if_true, ne_eq, not_true_eq_false, if_false, centering, hcl, lt_irrefl, false_and, ok_bind, hproj, Mat.mul, hM2, hpre, List.map_map]
      rfl
    · simp only [Pca.predict, hf, hC, hcen, if_false, ne_eq, not_true_eq_false, hproj, Mat.mul, hM2, hpre, if_true]
      rfl
  · rw [List.forall₂_map_right_iff, List.forall₂_same]
    intro x hx
    have hxl := hX x hx
    refine ⟨by simp [hM1], fun l hl => ?_⟩
    rw [hM1, getD_lt _ (by simpa using hl)]
    simp only [List.getElem_map, List.getElem_range]
    rw [hM3 l hl]
    set w : ℕ → Fl R := fun j => if m.inv then (C.rows.getD l []).getD j Scalar.zero else (C.rows.getD j []).getD l Scalar.zero with hw
    set p : ℕ → Fl R := fun j => if m.center then x.getD j Scalar.zero -. c.getD j Scalar.zero else x.getD j Scalar.zero with hp
    have hpx : pre x = (List.range X.cols).map p := by
      simp only [hpre, hp]
      by_cases hcen : m.center = true
      · simp only [hcen, if_true]
        apply List.ext_getElem (by simp [hxl, hcl])
        intro j h1 h2
        have hj : j < X.cols := by simpa using h2
        simp [hxl, hcl, hj]
      · simp only [if_neg hcen]
        apply List.ext_getElem (by simp [hxl])
        intro j h1 h2
        have hj : j < X.cols := by simpa using h2
        simp [hxl, hj]
    have hdot : dot (pre x) ((List.range X.cols).map w) = fsum ((List.range X.cols).map fun j => p j *. w j) := by
      rw [hpx, dot, List.zipWith_map, List.zipWith_self]
    have he := err_fsum_map h (m := 2) (List.range X.cols) (fun j => p j *. w j)
      (fun j => ((x.getD j Scalar.zero).1 - if m.center then (c.getD j Scalar.zero).1 else 0) * (w j).1)
      (fun j => |((x.getD j Scalar.zero).1 - if m.center then (c.getD j Scalar.zero).1 else 0) * (w j).1|) (by
        intro j _
        rw [abs_mul]
        refine err_fl h ?_
        have h1 : Err u 1 |(x.getD j Scalar.zero).1 - if m.center then (c.getD j Scalar.zero).1 else 0| (p j).1 ((x.getD j Scalar.zero).1 - if m.center then (c.getD j Scalar.zero).1 else 0) := by
          simp only [hp]
          by_cases hcen : m.center = true
          · simp only [hcen, if_true]
            exact err_fl h (err_exact u _)
          · simp only [if_neg hcen, sub_zero]
            exact err_mono h (Nat.zero_le 1) (err_exact u _)
        exact err_mul' h h1 (err_exact u (w j).1))
    rw [← hdot, lsum_range, lsum_range, List.length_range] at he
    have h2 := he.2
    rw [show 2 + X.cols = X.cols + 2 by omega] at h2
    have ew : ∀ j, (w j).1 = if m.inv then entryR C l j else entryR C j l := by
      intro j
      simp only [hw, entryR]
      split <;> rfl
    simp only [ew] at h2
    exact h2

/-! ### Kernels -/

/-- A computed exponential of a number that is not positive. -/
theorem exp_agree {f t' t : ℝ} (hf : 1 ≤ f) (ht' : 0 ≤ t') (ht : 0 ≤ t) (h : AgreeUpTo f t' t) : |Real.exp (-t') - Real.exp (-t)| ≤ f - 1 := by
  have key : ∀ a b : ℝ, 0 ≤ a → a ≤ b → b ≤ f * a → |Real.exp (-a) - Real.exp (-b)| ≤ f - 1 := by
    intro a b ha hab hb
    have hm : Real.exp (-b) ≤ Real.exp (-a) := Real.exp_le_exp.2 (by linarith)
    rw [abs_of_nonneg (by linarith)]
    have e1 : Real.exp (-b) = Real.exp (-a) * Real.exp (-(b - a)) := by rw [← Real.exp_add]; congr 1; ring
    have h4 := Real.add_one_le_exp (-(b - a))
    have h5 : Real.exp (-a) - Real.exp (-b) ≤ Real.exp (-a) * (b - a) := by
      rw [e1]
      nlinarith [Real.exp_pos (-a)]
    have h7 : Real.exp (-a) * a ≤ 1 := by
      have := Real.add_one_le_exp a
      rw [Real.exp_neg, inv_mul_le_iff₀ (Real.exp_pos _)]
      linarith
    have h8 : Real.exp (-a) * (b - a) ≤ Real.exp (-a) * ((f - 1) * a) := mul_le_mul_of_nonneg_left (by linarith) (Real.exp_pos _).le
    nlinarith
  rcases le_total t' t with hc | hc
  · exact key t' t ht' hc h.2
  · rw [abs_sub_comm]
    exact key t t' ht hc h.1

theorem diff_dot (a b : List (Fl R)) : dot (List.zipWith Scalar.sub a b) (List.zipWith Scalar.sub a b) = fsum (List.zipWith (fun x y : Fl R => (x -. y) *. (x -. y)) a b) := by
  unfold dot
  rw [List.zipWith_self, List.map_zipWith]

theorem ampl_exp_err (h : Precise R u) (ampl : Fl R) {t' : Fl R} {t : ℝ} {m : ℕ} (ht' : 0 ≤ -t'.1) (ht : 0 ≤ t) (ha : AgreeUpTo (growth u m) (-t'.1) t) :
    |(ampl *. Scalar.exp t').1 - ampl.1 * Real.exp (-t)| ≤ (growth u (m + 2) - 1) * |ampl.1| := by
  have h1 : Err u m 1 (Real.exp (t'.1)) (Real.exp (-t)) := by
    refine ⟨by rw [abs_of_pos (Real.exp_pos _)]; rw [← Real.exp_zero]; exact Real.exp_le_exp.2 (by linarith), ?_⟩
    have := exp_agree (one_le_growth h m) ht' ht ha
    rw [neg_neg] at this
    rw [mul_one]
    exact this
  have h2 := err_fl h (err_mul' h (err_exact u ampl.1) (err_fl h h1))
  have h3 := h2.2
  rw [mul_one, show 0 + (m + 1) + 1 = m + 2 by omega] at h3
  exact h3

theorem mul_ls_agree (h : Precise R u) {ls c' : Fl R} {c : ℝ} {m : ℕ} (hls : ls.1 ≠ 0) (hc' : 0 < c'.1) (hc : 0 < c) (ha : AgreeUpTo (growth u m) c'.1 c) :
    0 < ((c' *. ls) *. ls).1 ∧ AgreeUpTo (growth u (m + 2)) ((c' *. ls) *. ls).1 (c * ls.1 ^ 2) := by
  have hp : 0 < |ls.1| := abs_pos.2 hls
  have habs : ∀ x : ℝ, |R.fl x| = R.fl |x| := by
    intro x
    rcases le_total 0 x with hx | hx
    · rw [abs_of_nonneg hx, abs_of_nonneg (fl_nonneg R hx)]
    · have hn := fl_nonneg R (neg_nonneg.2 hx)
      rw [abs_of_nonpos hx, R.odd]
      rw [R.odd] at hn
      exact abs_of_nonpos (by linarith)
  have e1 : |R.fl (c'.1 * ls.1)| = R.fl (c'.1 * |ls.1|) := by rw [habs, abs_mul, abs_of_pos hc']
  have h3 : AgreeUpTo (growth u (m + 1)) |R.fl (c'.1 * ls.1)| (c * |ls.1|) := by
    rw [e1]
    have := agree_mul ha (AgreeUpTo.refl |ls.1|) hc'.le hc.le hp.le hp.le
    rw [mul_one] at this
    exact agree_fl_trans h (mul_pos hc' hp).le this
  have hsgn : 0 < R.fl (c'.1 * ls.1) * ls.1 := by
    rcases lt_or_gt_of_ne hls with hc | hc
    · have : 0 < R.fl (c'.1 * -ls.1) := fl_pos h (mul_pos hc' (by linarith))
      rw [mul_neg, R.odd] at this
      nlinarith
    · exact mul_pos (fl_pos h (mul_pos hc' hc)) hc
  have e2 : R.fl (c'.1 * ls.1) * ls.1 = |R.fl (c'.1 * ls.1)| * |ls.1| := by rw [← abs_mul, abs_of_pos hsgn]
  have h4 := agree_mul h3 (AgreeUpTo.refl |ls.1|) (abs_nonneg _) (by positivity) hp.le hp.le
  rw [mul_one, ← e2] at h4
  have e3 : (c' *. ls *. ls).1 = R.fl (R.fl (c'.1 * ls.1) * ls.1) := rfl
  rw [e3]
  refine ⟨fl_pos h hsgn, ?_⟩
  have e4 : c * ls.1 ^ 2 = c * |ls.1| * |ls.1| := by rw [mul_assoc, abs_mul_abs_self]; ring
  rw [e4]
  exact agree_fl_trans h hsgn.le h4

theorem two_agree (h : Precise R u) : 0 < (Scalar.ofNat 2 : Fl R).1 ∧ AgreeUpTo (growth u 1) (Scalar.ofNat 2 : Fl R).1 2 := by
  have e : (Scalar.ofNat 2 : Fl R).1 = R.fl ((2 : ℕ) : ℝ) := rfl
  rw [e]
  push_cast
  exact ⟨fl_pos h (by norm_num), agree_fl h (by norm_num)⟩

theorem two_ls_agree (h : Precise R u) {ls : Fl R} (hls : ls.1 ≠ 0) : 0 < ((Scalar.ofNat 2 *. ls) *. ls).1 ∧ AgreeUpTo (growth u 3) ((Scalar.ofNat 2 *. ls) *. ls).1 (2 * ls.1 ^ 2) :=
  mul_ls_agree h hls (two_agree h).1 two_pos (two_agree h).2

/-- **C86 (squared exponential and exponential kernels).** The values are off by at most what `columns + 9` (`columns + 10`) roundings make of the amplitude, however far apart the points
are. -/
theorem C86_exp_kernels (h : Precise R u) (ls ampl : Fl R) (hls : ls.1 ≠ 0) (a b : List (Fl R)) (hab : a.length = b.length) :
    (∃ v, sqExpKernel ls ampl a b = ok v ∧ |v.1 - ampl.1 * Real.exp (-(sqDist (reals a) (reals b) / (2 * ls.1 ^ 2)))| ≤ (growth u (a.length + 9) - 1) * |ampl.1|) ∧
    ∃ v, expKernel ls ampl a b = ok v ∧ |v.1 - ampl.1 * Real.exp (-(eucl (reals a) (reals b) / (2 * ls.1 ^ 2)))| ≤ (growth u (a.length + 10) - 1) * |ampl.1| := by
  obtain ⟨h1, h2⟩ := sqSum_agree h a b a.length (by omega)
  obtain ⟨d1, d2⟩ := two_ls_agree h hls
  have hls2 : 0 < 2 * ls.1 ^ 2 := by positivity
  have hs0 := sqDist_nonneg (reals a) (reals b)
  rw [← diff_dot] at h1 h2
  have hneg : ∀ (s D : Fl R), -(Scalar.neg s /. D).1 = R.fl (s.1 / D.1) := by
    intro s D
    change -R.fl (-s.1 / D.1) = _
    rw [neg_div, R.odd, neg_neg]
  constructor
  · refine ⟨ampl *. Scalar.exp (Scalar.neg (dot (List.zipWith Scalar.sub a b) (List.zipWith Scalar.sub a b)) /. ((Scalar.ofNat 2 *. ls) *. ls)), ?_, ?_⟩
    · unfold sqExpKernel
      simp [hab, vecZip, assert]
    · have h3 := agree_fl_trans h (div_nonneg h1 d1.le) (by rw [growth_add]; exact agree_div h2 d2 h1 hs0 d1 hls2 : AgreeUpTo (growth u (a.length + 3 + 3)) _ _)
      rw [← hneg] at h3
      have := ampl_exp_err h ampl (by rw [hneg]; exact fl_nonneg R (div_nonneg h1 d1.le)) (div_nonneg hs0 hls2.le) h3
      rw [show a.length + 3 + 3 + 1 + 2 = a.length + 9 by omega] at this
      exact this
  · refine ⟨ampl *. Scalar.exp (Scalar.neg (Scalar.sqrt (dot (List.zipWith Scalar.sub a b) (List.zipWith Scalar.sub a b))) /. ((Scalar.ofNat 2 *. ls) *. ls)), ?_, ?_⟩
    · unfold expKernel
      simp [hab, vecZip, assert]
    · have hsq := agree_fl_trans h (Real.sqrt_nonneg _) (agree_sqrt h2 (one_le_growth h _))
      have hp := fl_nonneg R (Real.sqrt_nonneg (dot (List.zipWith Scalar.sub a b) (List.zipWith Scalar.sub a b)).1)
      have h3 := agree_fl_trans h (div_nonneg hp d1.le) (by
        rw [growth_add]; exact agree_div hsq d2 hp (Real.sqrt_nonneg _) d1 hls2 : AgreeUpTo (growth u (a.length + 3 + 1 + 3)) _ _)
      have e : R.fl (R.fl (Real.sqrt (dot (List.zipWith Scalar.sub a b) (List.zipWith Scalar.sub a b)).1) / ((Scalar.ofNat 2 *. ls) *. ls).1) =
          -(Scalar.neg (Scalar.sqrt (dot (List.zipWith Scalar.sub a b) (List.zipWith Scalar.sub a b))) /. ((Scalar.ofNat 2 *. ls) *. ls)).1 :=
        (hneg (Scalar.sqrt (dot (List.zipWith Scalar.sub a b) (List.zipWith Scalar.sub a b))) ((Scalar.ofNat 2 *. ls) *. ls)).symm
      rw [e] at h3
      have := ampl_exp_err h ampl (by rw [hneg]; exact fl_nonneg R (div_nonneg hp d1.le)) (div_nonneg (Real.sqrt_nonneg _) hls2.le) h3
      rw [show a.length + 3 + 1 + 3 + 1 + 2 = a.length + 10 by omega] at this
      exact this

/-- **C86 (multiquadric kernel).** -/
theorem C86_multiquadric (h : Precise R u) (c : Fl R) (a b : List (Fl R)) (hab : a.length = b.length) :
    ∃ v, multiquadricKernel c a b = ok v ∧ AgreeUpTo (growth u (2 * a.length + 11)) v.1 (Real.sqrt (sqDist (reals a) (reals b) + c.1 ^ 2)) := by
  obtain ⟨h1, h2⟩ := sqSum_agree h a b a.length (by omega)
  rw [← diff_dot] at h1 h2
  refine ⟨Scalar.sqrt (Scalar.sqrt (dot (List.zipWith Scalar.sub a b) (List.zipWith Scalar.sub a b)) *. Scalar.sqrt (dot (List.zipWith Scalar.sub a b) (List.zipWith Scalar.sub a b)) +. c *. c), ?_, ?_⟩
  · unfold multiquadricKernel
    simp [hab, vecZip, assert]
  · have hs0 : 0 ≤ sqDist (reals a) (reals b) := by
      apply List.sum_nonneg
      intro x hx
      rw [← List.map_uncurry_zip_eq_zipWith] at hx
      obtain ⟨p, _, rfl⟩ := List.mem_map.1 hx
      exact sq_nonneg _
    have hsq := agree_fl_trans h (Real.sqrt_nonneg _) (agree_sqrt h2 (one_le_growth h _))
    have hp := fl_nonneg R (Real.sqrt_nonneg (dot (List.zipWith Scalar.sub a b) (List.zipWith Scalar.sub a b)).1)
    have h3 := agree_mul hsq hsq hp (Real.sqrt_nonneg _) hp (Real.sqrt_nonneg _)
    rw [← growth_add, Real.mul_self_sqrt hs0] at h3
    have h4 := agree_fl_trans h (mul_nonneg hp hp) h3
    have h5 : AgreeUpTo (growth u 1) (R.fl (c.1 * c.1)) (c.1 ^ 2) := by rw [sq]; exact agree_fl h (mul_self_nonneg _)
    have p5 := fl_nonneg R (mul_self_nonneg c.1)
    have h6 := agree_add h4 (agree_mono h5 p5 (sq_nonneg _) (growth_mono h (by omega : 1 ≤ a.length + 3 + 1 + (a.length + 3 + 1) + 1)))
    have p6 := add_nonneg (fl_nonneg R (mul_nonneg hp hp)) p5
    have h7 := agree_fl_trans h p6 h6
    have h8 := agree_fl_trans h (Real.sqrt_nonneg _) (agree_sqrt h7 (one_le_growth h _))
    rw [show 2 * a.length + 11 = a.length + 3 + 1 + (a.length + 3 + 1) + 1 + 1 + 1 by omega]
    exact h8

/-- **C86 (rational quadratic kernel).** -/
theorem C86_rational_quadratic (h : Precise R u) (alpha ls : Fl R) (ha : 0 < alpha.1) (hls : ls.1 ≠ 0) (a b : List (Fl R)) (hab : a.length = b.length) :
    ∃ v, rationalQuadraticKernel alpha ls a b = ok v ∧
      AgreeUpTo (growth u 1 * growth u (a.length + 9) ^ alpha.1) v.1 ((1 + sqDist (reals a) (reals b) / (2 * alpha.1 * ls.1 ^ 2)) ^ (-alpha.1)) := by
  obtain ⟨h1, h2⟩ := sqSum_agree h a b a.length (by omega)
  rw [← diff_dot] at h1 h2
  have hs0 := sqDist_nonneg (reals a) (reals b)
  obtain ⟨t1, t2⟩ := two_agree h
  have hc' : 0 < (Scalar.ofNat 2 *. alpha : Fl R).1 := fl_pos h (mul_pos t1 ha)
  have hc : AgreeUpTo (growth u 2) (Scalar.ofNat 2 *. alpha : Fl R).1 (2 * alpha.1) := by
    have := agree_mul t2 (AgreeUpTo.refl alpha.1) t1.le two_pos.le ha.le ha.le
    rw [mul_one] at this
    exact agree_fl_trans h (mul_pos t1 ha).le this
  obtain ⟨d1, d2⟩ := mul_ls_agree h hls hc' (mul_pos two_pos ha) hc
  have hd : 0 < 2 * alpha.1 * ls.1 ^ 2 := by positivity
  refine ⟨Scalar.powf (Scalar.one +. dot (List.zipWith Scalar.sub a b) (List.zipWith Scalar.sub a b) /. (((Scalar.ofNat 2 *. alpha) *. ls) *. ls)) (Scalar.neg alpha), ?_, ?_⟩
  · unfold rationalQuadraticKernel
    simp [hab, vecZip]
  · have h3 := agree_fl_trans h (div_nonneg h1 d1.le) (by rw [growth_add]; exact agree_div h2 d2 h1 hs0 d1 hd : AgreeUpTo (growth u (a.length + 3 + (2 + 2))) _ _)
    have p3 := fl_nonneg R (div_nonneg h1 d1.le)
    have o1 : AgreeUpTo (growth u 1) (R.fl 1) 1 := agree_fl h zero_le_one
    have o2 : 0 < R.fl 1 := fl_pos h one_pos
    have h4 := agree_fl_trans h (add_nonneg o2.le p3) (agree_add (agree_mono o1 o2.le zero_le_one (growth_mono h (by omega : 1 ≤ a.length + 3 + (2 + 2) + 1))) h3)
    have p4 : 0 < R.fl (R.fl 1 + R.fl ((dot (List.zipWith Scalar.sub a b) (List.zipWith Scalar.sub a b)).1 / (Scalar.ofNat 2 *. alpha *. ls *. ls).1)) :=
      fl_pos h (add_pos_of_pos_of_nonneg o2 p3)
    have p5 : 0 < 1 + sqDist (reals a) (reals b) / (2 * alpha.1 * ls.1 ^ 2) := by positivity
    rw [show a.length + 3 + (2 + 2) + 1 + 1 = a.length + 9 by omega] at h4
    set b' := R.fl (R.fl 1 + R.fl ((dot (List.zipWith Scalar.sub a b) (List.zipWith Scalar.sub a b)).1 / (Scalar.ofNat 2 *. alpha *. ls *. ls).1)) with hb'
    set b₀ := 1 + sqDist (reals a) (reals b) / (2 * alpha.1 * ls.1 ^ 2) with hb₀
    have hg := growth_pos h (a.length + 9)
    have key : ∀ x y : ℝ, 0 < x → 0 < y → y ≤ growth u (a.length + 9) * x → x ^ (-alpha.1) ≤ growth u (a.length + 9) ^ alpha.1 * y ^ (-alpha.1) := by
      intro x y hx hy hxy
      have h5 := Real.rpow_le_rpow hy.le hxy ha.le
      rw [Real.mul_rpow hg.le hx.le] at h5
      rw [Real.rpow_neg hx.le, Real.rpow_neg hy.le, ← div_eq_mul_inv, le_div_iff₀ (Real.rpow_pos_of_pos hy _), inv_mul_le_iff₀ (Real.rpow_pos_of_pos hx _), mul_comm]
      exact h5
    have h6 : AgreeUpTo (growth u (a.length + 9) ^ alpha.1) (b' ^ (-alpha.1)) (b₀ ^ (-alpha.1)) := ⟨key _ _ p4 p5 h4.2, key _ _ p5 p4 h4.1⟩
    exact agree_trans (agree_fl h (Real.rpow_pos_of_pos p4 _).le) h6 (growth_pos h 1).le (Real.rpow_pos_of_pos hg _).le

/-- **C86 (hyperbolic tangent kernel).** -/
theorem C86_hyperbolic_kernel (h : Precise R u) (alpha c : Fl R) (a b : List (Fl R)) (hab : a.length = b.length) :
    ∃ v, hyperTanKernel alpha c a b = ok v ∧ |v.1 - Real.tanh (alpha.1 * (List.zipWith (· * ·) (reals a) (reals b)).sum + c.1)| ≤
      (growth u (a.length + 4) - 1) * (|alpha.1| * (List.zipWith (fun x y => |x * y|) (reals a) (reals b)).sum + |c.1|) := by
  refine ⟨_, rfl, ?_⟩
  have h1 := err_fsum_zipWith h (m := 1) (fun x y : Fl R => x *. y) (fun x y => x.1 * y.1) (fun x y => |x.1 * y.1|) (fun x y => err_fl h (err_exact u (x.1 * y.1))) a b
  rw [← hab, min_self] at h1
  have h2 := err_fl h (err_mul' h (err_exact u alpha.1) h1)
  have h3 := err_fl h (err_add' h2 (err_mono h (Nat.zero_le _) (err_exact u c.1)))
  have e1 : List.zipWith (fun x y : Fl R => x.1 * y.1) a b = List.zipWith (· * ·) (reals a) (reals b) := by rw [reals, reals, List.zipWith_map]
  have e2 : List.zipWith (fun x y : Fl R => |x.1 * y.1|) a b = List.zipWith (fun x y => |x * y|) (reals a) (reals b) := by rw [reals, reals, List.zipWith_map]
  rw [e1, e2, show 0 + (1 + a.length) + 1 + 1 = a.length + 3 by omega] at h3
  set A := |alpha.1| * (List.zipWith (fun x y => |x * y|) (reals a) (reals b)).sum + |c.1|
  set t := alpha.1 * (List.zipWith (· * ·) (reals a) (reals b)).sum + c.1
  have hm : ∀ x y : ℝ, |Real.tanh x - Real.tanh y| ≤ |x - y| := by
    intro x y
    have := tanh_move x y
    rw [one_mul] at this
    exact this
  have h4 : Err u (a.length + 3) A (Real.tanh (alpha *. dot a b +. c).1) (Real.tanh t) := by
    refine ⟨?_, (hm _ _).trans h3.2⟩
    have := hm t 0
    rw [Real.tanh_zero, sub_zero, sub_zero] at this
    exact this.trans h3.1
  exact (err_fl h h4).2

/-! ### Generalised linear models and Gaussian processes -/

/-- **C86 (generalised linear models).** A prediction is the inverse link, up to a few roundings, of a score that is off by as much as a prediction of a linear regression. -/
theorem C86_glm (h : Precise R u) (m : Glm (Fl R)) (b : Fl R) (w : List (Fl R)) (hm : m.parameters = some (b :: w)) (X : Mat (Fl R)) (hX : X.WF) (hw : w.length = X.cols) :
    ∃ p, m.predict X = ok p ∧ List.Forall₂ (fun x y => ∃ s : ℝ,
      |s - (b.1 + (List.zipWith (· * ·) (reals w) (reals x)).sum)| ≤
        (growth u (X.cols + 3) - 1) * (|b.1| + (List.zipWith (fun a c => |a * c|) (reals w) (reals x)).sum) ∧
      match m.family with
      | .normal => y.1 = s
      | .poisson => AgreeUpTo (growth u 1) y.1 (Real.exp s)
      | _ => AgreeUpTo (growth u 4) y.1 (1 / (1 + Real.exp (-s)))) X.rows p := by
  refine ⟨X.rows.map fun x => m.family.link.funcInv (dot (Scalar.one :: x) (b :: w)), ?_, ?_⟩
  · simp only [Glm.predict, hm, withOnes_eq, ok_bind, Mat.mulVec]
    rw [if_pos (by simp [hw]), ok_bind, List.map_map, List.map_map]
    rfl
  · rw [List.forall₂_map_right_iff, List.forall₂_same]
    intro x hx
    refine ⟨(dot (Scalar.one :: x) (b :: w)).1, ?_, ?_⟩
    · rw [← hw]
      exact (affine_err h b w x (by rw [hX x hx, hw])).2
    · cases m.family with
      | normal => rfl
      | poisson => exact agree_fl h (Real.exp_pos _).le
      | bernoulli => exact sigmoid_agree h _
      | binomial _ => exact sigmoid_agree h _

/-- **C86 (Gaussian process).** With a kernel computed up to `m` roundings of `K`, every prediction is off by at most what `m + samples + 2` roundings make of the sizes of its terms. -/
theorem C86_gp (h : Precise R u) (g : Gp (Fl R)) (alpha : List (Fl R)) (T : Mat (Fl R)) (ha : g.alpha = some alpha) (hT : g.trainData = some T) (hal : alpha.length = T.rows.length)
    (k K : List (Fl R) → List (Fl R) → ℝ) (m : ℕ) (Z : Mat (Fl R)) (hc : Z.cols = T.cols) (hmean : (g.mean Z).length = Z.rows.length)
    (hk : ∀ z ∈ Z.rows, ∀ t ∈ T.rows, ∃ v : Fl R, g.ker z t = ok v ∧ |k z t| ≤ K z t ∧ |v.1 - k z t| ≤ (growth u m - 1) * K z t) :
    ∃ p, g.predict Z = ok p ∧ p.length = Z.rows.length ∧ ∀ i < Z.rows.length,
      |(reals p).getD i 0 - ((reals (g.mean Z)).getD i 0 + ∑ l ∈ Finset.range T.rows.length, k (Z.rows.getD i []) (T.rows.getD l []) * (reals alpha).getD l 0)| ≤
        (growth u (m + T.rows.length + 2) - 1) *
          (|(reals (g.mean Z)).getD i 0| + ∑ l ∈ Finset.range T.rows.length, K (Z.rows.getD i []) (T.rows.getD l []) * |(reals alpha).getD l 0|) := by
  set vf : List (Fl R) → List (Fl R) → Fl R := fun z t => match g.ker z t with | .ok v => v | _ => Scalar.zero with hvf
  have hv : ∀ z ∈ Z.rows, ∀ t ∈ T.rows, g.ker z t = ok (vf z t) ∧ Err u m (K z t) (vf z t).1 (k z t) := by
    intro z hz t ht
    obtain ⟨v, v1, v2, v3⟩ := hk z hz t ht
    have : vf z t = v := by simp only [hvf, v1]
    rw [this]
    exact ⟨v1, v2, v3⟩
  refine ⟨List.zipWith Scalar.add (g.mean Z) (Z.rows.map fun z => dot (T.rows.map (vf z)) alpha), ?_, by simp [hmean], ?_⟩
  · unfold Gp.predict
    simp only [ha, hT]
    unfold kerMat
    rw [if_neg (by simp [hc])]
    rw [mapM_ok_map (fun r1 => T.rows.mapM fun r2 => g.ker r1 r2) (fun z => T.rows.map (vf z)) _ (fun z hz => mapM_ok_map _ _ _ fun t ht => (hv z hz t ht).1)]
    simp only [ok_bind, Mat.mulVec]
    rw [if_pos (by simp [hal])]
    simp only [ok_bind, List.map_map, vecZip]
    rw [if_pos (by simp [hmean])]
    rfl
  · intro i hi
    have hz : Z.rows.getD i [] ∈ Z.rows := by rw [getD_lt _ hi]; exact List.getElem_mem hi
    have hdot : dot (T.rows.map (vf (Z.rows.getD i []))) alpha =
        fsum ((List.range T.rows.length).map fun l => vf (Z.rows.getD i []) (T.rows.getD l []) *. alpha.getD l Scalar.zero) := by
      unfold dot
      congr 1
      apply List.ext_getElem (by simp [hal])
      intro l h1 h2
      have hl : l < T.rows.length := by simpa using h2
      simp [hl, hal]
    have he := err_fsum_map h (m := m + 0 + 1) (List.range T.rows.length) (fun l => vf (Z.rows.getD i []) (T.rows.getD l []) *. alpha.getD l Scalar.zero)
      (fun l => k (Z.rows.getD i []) (T.rows.getD l []) * (reals alpha).getD l 0)
      (fun l => K (Z.rows.getD i []) (T.rows.getD l []) * |(reals alpha).getD l 0|) (by
        intro l hl
        have hl : l < T.rows.length := List.mem_range.1 hl
        have h1 := (hv _ hz (T.rows.getD l []) (by rw [getD_lt _ hl]; exact List.getElem_mem hl)).2
        rw [reals_getD]
        exact err_fl h (err_mul' h h1 (err_exact u _)))
    rw [← hdot, lsum_range, lsum_range, List.length_range] at he
    have h2 := (err_fl h (err_add' (err_mono h (Nat.zero_le _) (err_exact u ((reals (g.mean Z)).getD i 0))) he)).2
    rw [show m + 0 + 1 + T.rows.length + 1 = m + T.rows.length + 2 by omega] at h2
    have e : (reals (List.zipWith Scalar.add (g.mean Z) (Z.rows.map fun z => dot (T.rows.map (vf z)) alpha))).getD i 0 =
        R.fl ((reals (g.mean Z)).getD i 0 + (dot (T.rows.map (vf (Z.rows.getD i []))) alpha).1) := by
      rw [reals_getD, reals_getD]
      rw [List.getD_eq_getElem?_getD, List.getElem?_eq_getElem (by simp [hmean, hi])]
      simp only [Option.getD_some, List.getElem_zipWith, List.getElem_map]
      rw [getD_lt _ (by omega : i < (g.mean Z).length), getD_lt _ hi]
      rfl
    rw [e]
    exact h2

/-! ### Naive Bayes -/

/-- The computed logarithm of a number known up to a factor. -/
theorem ln_err (h : Precise R u) {y' y : ℝ} {m : ℕ} (hy' : 0 < y') (hy : 0 < y) (ha : AgreeUpTo (growth u m) y' y) : Err u m (|Real.log y| + 1) (Real.log y') (Real.log y) := by
  have hg := one_le_growth h m
  have hl : Real.log (growth u m) ≤ growth u m - 1 := Real.log_le_sub_one_of_pos (growth_pos h m)
  have key : ∀ x z : ℝ, 0 < x → 0 < z → x ≤ growth u m * z → Real.log x - Real.log z ≤ growth u m - 1 := by
    intro x z hx hz hxz
    have := Real.log_le_log hx hxz
    rw [Real.log_mul (growth_pos h m).ne' hz.ne'] at this
    linarith
  refine ⟨by linarith, ?_⟩
  have h1 : |Real.log y' - Real.log y| ≤ growth u m - 1 := abs_le.2 ⟨by linarith [key y y' hy hy' ha.2], key y' y hy' hy ha.1⟩
  nlinarith [abs_nonneg (Real.log y)]

/-- Every row gets a class whose exact score is largest up to the rounding errors of the two scores. -/
theorem nb_round (_h : Precise R u) {D : Type} (B : NBDistr D (Fl R)) (mdl : NaiveBayes D (Fl R)) {d : D} {prior : List (Fl R)} {k : ℕ} (hd : mdl.distr = some d) (hp : mdl.classPrior = some prior)
    (hk : mdl.clusterCount = some k) (hk0 : 0 < k) (X : Mat (Fl R)) (g : ℕ → List (Fl R) → Fl R)
    (hj : B.jointLogLik d X prior = ok ⟨k, X.rows.map fun x => (List.range k).map fun c => g c x⟩) {s S : ℕ → List (Fl R) → ℝ} {m : ℕ}
    (he : ∀ x ∈ X.rows, ∀ c < k, Err u m (S c x) (g c x).1 (s c x)) :
    ∃ Y, nbPredict B mdl X = ok Y ∧ List.Forall₂ (fun x y => ∃ c < k, y = (List.replicate k Scalar.zero).set c Scalar.one ∧
      ∀ c' < k, s c' x - s c x ≤ (growth u m - 1) * (S c x + S c' x)) X.rows Y.rows := by
  have hrow : ∀ x : List (Fl R), ∃ c < k, (do
      let r ← argmaxBy Scalar.lt ((List.range k).map fun c => g c x)
      ok r.1) = ok c ∧ ∀ c' < k, (g c' x).1 ≤ (g c x).1 := by
    intro x
    obtain ⟨i, v, h1, h2, h3, -⟩ := argmaxBy_spec Scalar.lt (OrdScalar.lt_iff (F := Fl R)) ((List.range k).map fun c => g c x) (by simp; omega)
    obtain ⟨hi, hv⟩ := List.getElem?_eq_some_iff.1 h2
    have hik : i < k := by simpa using hi
    refine ⟨i, hik, by rw [h1]; rfl, fun c' hc' => ?_⟩
    have h4 := h3 (g c' x) (List.mem_map.2 ⟨c', List.mem_range.2 hc', rfl⟩)
    have e : v = g i x := by rw [← hv]; simp
    rw [e] at h4
    exact h4
  choose cl hcl1 hcl2 hcl3 using hrow
  refine ⟨⟨k, X.rows.map fun x => (List.replicate k Scalar.zero).set (cl x) Scalar.one⟩, ?_, ?_⟩
  · unfold nbPredict nbLogProbs
    simp only [hd, hp, hk, hj, ok_bind]
    rw [List.mapM_map]
    rw [mapM_ok_map ((fun row => argmaxBy Scalar.lt row >>= fun r => ok r.1) ∘ fun x => (List.range k).map fun c => g c x) cl _ (fun x _ => hcl2 x)]
    simp only [ok_bind, List.mapM_map]
    rw [mapM_ok_map _ (fun x => (List.replicate k (Scalar.zero : Fl R)).set (cl x) Scalar.one) _ (fun x _ => by simp [setAt, hcl1 x])]
    simp only [ok_bind]
    rw [Mat.new_flatten (by simp) (by intro r hr; obtain ⟨x, -, rfl⟩ := List.mem_map.1 hr; simp)]
  · rw [List.forall₂_map_right_iff, List.forall₂_same]
    intro x hx
    refine ⟨cl x, hcl1 x, rfl, fun c' hc' => ?_⟩
    have h1 := abs_le.1 (he x hx c' hc').2
    have h2 := abs_le.1 (he x hx (cl x) (hcl1 x)).2
    have h3 := hcl3 x c' hc'
    rw [mul_add]
    linarith [h1.1, h2.2]

/-- The sizes of the terms of the logarithm of `gaussianJoint`. -/
noncomputable def Spec.gaussianTerms (d : ℕ) (q : ℕ → ℝ) (μ v : ℕ → ℕ → ℝ) (c : ℕ) (x : List ℝ) : ℝ :=
  (∑ j ∈ Finset.range d, (coord x j - μ c j) ^ 2 / v c j) / 2 + (∑ j ∈ Finset.range d, (|Real.log (2 * Real.pi * v c j)| + 1)) / 2 + |Real.log (q c)|

theorem log_gaussianJoint (d : ℕ) (q : ℕ → ℝ) (μ v : ℕ → ℕ → ℝ) (c : ℕ) (x : List ℝ) (hq : 0 < q c) (hv : ∀ j < d, 0 < v c j) :
    Real.log (gaussianJoint d q μ v c x) = -((∑ j ∈ Finset.range d, (coord x j - μ c j) ^ 2 / v c j) * (1 / 2)) + -1 / 2 * ∑ j ∈ Finset.range d, Real.log (2 * Real.pi * v c j) + Real.log (q c) := by
  unfold gaussianJoint
  have hp : ∀ j ∈ Finset.range d, normalPdf (μ c j) (v c j) (coord x j) ≠ 0 := by
    intro j hj
    have := hv j (Finset.mem_range.1 hj)
    unfold normalPdf
    have h1 : 0 < 2 * Real.pi * v c j := by positivity
    have := Real.sqrt_pos.2 h1
    positivity
  rw [Real.log_mul hq.ne' (Finset.prod_ne_zero_iff.2 hp), Real.log_prod hp]
  have e : ∀ j ∈ Finset.range d, Real.log (normalPdf (μ c j) (v c j) (coord x j)) = -((coord x j - μ c j) ^ 2 / v c j * (1 / 2)) + -1 / 2 * Real.log (2 * Real.pi * v c j) := by
    intro j hj
    have := hv j (Finset.mem_range.1 hj)
    unfold normalPdf
    have h1 : 0 < 2 * Real.pi * v c j := by positivity
    rw [Real.log_mul (inv_ne_zero (Real.sqrt_pos.2 h1).ne') (Real.exp_pos _).ne', Real.log_exp, Real.log_inv, Real.log_sqrt h1.le]
    field_simp
    ring
  rw [Finset.sum_congr rfl e, Finset.sum_add_distrib, Finset.sum_neg_distrib, Finset.sum_mul, Finset.mul_sum]
  ring

/-- **C86 (naive Bayes, Gaussian).** A row gets a class under which its density, times the prior, is the largest up to the rounding errors. -/
theorem C86_nb_gaussian (h : Precise R u) (mdl : NaiveBayes (GaussD (Fl R)) (Fl R)) {d : GaussD (Fl R)} {prior : List (Fl R)} (hd : mdl.distr = some d) (hp : mdl.classPrior = some prior)
    (hk : mdl.clusterCount = some prior.length) (hk0 : prior ≠ []) (X : Mat (Fl R)) (hX : X.WF) (ht : IsTable prior.length X.cols d.theta) (hs : IsTable prior.length X.cols d.sigma)
    (hq : ∀ p ∈ prior, 0 < p.1) (hv : ∀ r ∈ d.sigma.rows, ∀ v ∈ r, 0 < v.1) :
    ∃ Y, nbPredict gaussDistr mdl X = ok Y ∧ List.Forall₂ (fun x y => ∃ c < prior.length, y = (List.replicate prior.length Scalar.zero).set c Scalar.one ∧
      ∀ c' < prior.length,
        Real.log (gaussianJoint X.cols (fun c => (reals prior).getD c 0) (entryR d.theta) (entryR d.sigma) c' (reals x)) -
          Real.log (gaussianJoint X.cols (fun c => (reals prior).getD c 0) (entryR d.theta) (entryR d.sigma) c (reals x)) ≤
        (growth u (X.cols + 9) - 1) * (gaussianTerms X.cols (fun c => (reals prior).getD c 0) (entryR d.theta) (entryR d.sigma) c (reals x) +
          gaussianTerms X.cols (fun c => (reals prior).getD c 0) (entryR d.theta) (entryR d.sigma) c' (reals x))) X.rows Y.rows := by
  have hk1 : 0 < prior.length := List.length_pos_iff.2 hk0
  refine nb_round h gaussDistr mdl hd hp hk hk1 X (fun c x => gaussRow d c (prior.getD c Scalar.zero) x) ?_ ?_
  · simp only [gaussDistr]
    have hf : ∀ p ∈ prior.zipIdx, GaussFits d X.cols p.2 := by
      intro p hp
      have hi : p.2 < prior.length := by
        have := List.snd_lt_of_mem_zipIdx hp
        simpa using this
      exact ⟨by rw [hs.2.1]; exact hi, by rw [ht.2.1]; exact hi, ht.1.symm, hs.1.symm⟩
    rw [mapM_ok_map _ (fun p : Fl R × ℕ => X.rows.map (gaussRow d p.2 p.1)) prior.zipIdx fun p hpm => gaussClassLik_fits d X p.2 p.1 (hf p hpm)]
    have := new_transpose X.rows prior.zipIdx fun p row => gaussRow d p.2 p.1 row
    rw [List.length_zipIdx] at this
    rw [ok_bind, this]
    congr 2
    apply List.map_congr_left
    intro x _
    apply List.ext_getElem (by simp)
    intro i h1 h2
    have hi : i < prior.length := by simpa using h1
    simp [hi]
  · intro x hx c hc
    have hc1 : c < d.theta.rows.length := by rw [ht.2.1]; exact hc
    have hc2 : c < d.sigma.rows.length := by rw [hs.2.1]; exact hc
    have hx1 := hX x hx
    set th := d.theta.rows.getD c [] with hth
    set sg := d.sigma.rows.getD c [] with hsg
    have hth1 : th.length = X.cols := by rw [hth, getD_lt _ hc1, ht.2.2 _ (List.getElem_mem hc1), ht.1]
    have hsg1 : sg.length = X.cols := by rw [hsg, getD_lt _ hc2, hs.2.2 _ (List.getElem_mem hc2), hs.1]
    have hsgm : sg ∈ d.sigma.rows := by rw [hsg, getD_lt _ hc2]; exact List.getElem_mem hc2
    have hvj : ∀ j < X.cols, 0 < (sg.getD j Scalar.zero).1 := by
      intro j hj
      rw [getD_lt _ (by omega : j < sg.length)]
      exact hv sg hsgm _ (List.getElem_mem _)
    have hpc : 0 < (prior.getD c Scalar.zero).1 := by
      rw [getD_lt _ hc]
      exact hq _ (List.getElem_mem _)
    -- the squares
    have hQ : List.zipWith Scalar.div ((List.zipWith Scalar.sub x th).map fun t => t *. t) sg =
        (List.range X.cols).map fun j => ((x.getD j Scalar.zero -. th.getD j Scalar.zero) *. (x.getD j Scalar.zero -. th.getD j Scalar.zero)) /. sg.getD j Scalar.zero := by
      apply List.ext_getElem (by simp [hx1, hth1, hsg1])
      intro j h1 h2
      have hj : j < X.cols := by simpa using h2
      simp [hx1, hth1, hsg1, hj]
    have hQ2 := agree_fsum h (m := 4) (fun j => ((x.getD j Scalar.zero -. th.getD j Scalar.zero) *. (x.getD j Scalar.zero -. th.getD j Scalar.zero)) /. sg.getD j Scalar.zero)
      (fun j => (coord (reals x) j - entryR d.theta c j) ^ 2 / entryR d.sigma c j) (List.range X.cols) (by
        intro j hj
        have hj : j < X.cols := List.mem_range.1 hj
        obtain ⟨q1, q2, q3⟩ := sq_agree h (x.getD j Scalar.zero) (th.getD j Scalar.zero)
        have e : coord (reals x) j = (x.getD j Scalar.zero).1 := reals_getD x j
        rw [e]
        change 0 ≤ R.fl _ ∧ 0 ≤ ((x.getD j Scalar.zero).1 - (th.getD j Scalar.zero).1) ^ 2 / (sg.getD j Scalar.zero).1 ∧ AgreeUpTo _ (R.fl _) (((x.getD j Scalar.zero).1 - (th.getD j Scalar.zero).1) ^ 2 / (sg.getD j Scalar.zero).1)
        have hp := hvj j hj
        refine ⟨fl_nonneg R (div_nonneg q1 hp.le), div_nonneg q2 hp.le, ?_⟩
        have := agree_div q3 (AgreeUpTo.refl (sg.getD j Scalar.zero).1) q1 q2 hp hp
        rw [mul_one] at this
        exact agree_fl_trans h (div_nonneg q1 hp.le) this)
    rw [← hQ, lsum_range, List.length_range] at hQ2
    obtain ⟨Q0, Q1⟩ := hQ2
    set Q := ∑ j ∈ Finset.range X.cols, (coord (reals x) j - entryR d.theta c j) ^ 2 / entryR d.sigma c j with hQdef
    have hQn : 0 ≤ Q := by
      rw [hQdef]
      refine Finset.sum_nonneg fun j hj => div_nonneg (sq_nonneg _) ?_
      exact (hvj j (Finset.mem_range.1 hj)).le
    have eQ : Err u (4 + X.cols) Q (fsum (List.zipWith Scalar.div ((List.zipWith Scalar.sub x th).map fun t => t *. t) sg)).1 Q :=
      ⟨by rw [abs_of_nonneg hQn], agree_err (one_le_growth h _) hQn Q1⟩
    have hhalf : Err u 1 (1 / 2) (Scalar.ofRat (1 / 2) : Fl R).1 (1 / 2) := by
      have e : (Scalar.ofRat (1 / 2) : Fl R).1 = R.fl (((1 / 2 : ℚ)) : ℝ) := rfl
      have e2 : (((1 / 2 : ℚ)) : ℝ) = 1 / 2 := by norm_num
      rw [e, e2]
      have := err_fl h (err_exact u (1 / 2 : ℝ))
      rwa [abs_of_pos (by norm_num : (0 : ℝ) < 1 / 2)] at this
    have hnhalf : Err u 1 (1 / 2) (Scalar.ofRat (-1 / 2) : Fl R).1 (-1 / 2) := by
      have e : (Scalar.ofRat (-1 / 2) : Fl R).1 = R.fl (((-1 / 2 : ℚ)) : ℝ) := rfl
      have e2 : (((-1 / 2 : ℚ)) : ℝ) = -1 / 2 := by norm_num
      rw [e, e2]
      have := err_fl h (err_exact u (-1 / 2 : ℝ))
      rwa [show |(-1 / 2 : ℝ)| = 1 / 2 by norm_num [abs_of_neg]] at this
    have t1 := err_fl h (err_mul' h (err_neg eQ) hhalf)
    -- the logarithms of the variances
    have hL : sg.map (fun t => Scalar.ln ((t *. Scalar.ofRat 2) *. ScalarPi.pi)) = (List.range X.cols).map fun j => Scalar.ln ((sg.getD j Scalar.zero *. Scalar.ofRat 2) *. ScalarPi.pi) := by
      apply List.ext_getElem (by simp [hsg1])
      intro j h1 h2
      have hj : j < X.cols := by simpa using h2
      simp [hsg1, hj]
    have eL := err_fsum_map h (m := 5) (List.range X.cols) (fun j => Scalar.ln ((sg.getD j Scalar.zero *. Scalar.ofRat 2) *. ScalarPi.pi))
      (fun j => Real.log (2 * Real.pi * entryR d.sigma c j)) (fun j => |Real.log (2 * Real.pi * entryR d.sigma c j)| + 1) (by
        intro j hj
        have hp := hvj j (List.mem_range.1 hj)
        have e2 : (Scalar.ofRat 2 : Fl R).1 = R.fl 2 := by
          change R.fl (((2 : ℚ)) : ℝ) = _
          norm_num
        have a2 : AgreeUpTo (growth u 1) (Scalar.ofRat 2 : Fl R).1 2 := by rw [e2]; exact agree_fl h (by norm_num)
        have p2 : 0 < (Scalar.ofRat 2 : Fl R).1 := by rw [e2]; exact fl_pos h (by norm_num)
        have aπ : AgreeUpTo (growth u 1) (ScalarPi.pi : Fl R).1 Real.pi := agree_fl h Real.pi_pos.le
        have pπ : 0 < (ScalarPi.pi : Fl R).1 := fl_pos h Real.pi_pos
        have b1 := agree_mul (AgreeUpTo.refl (sg.getD j Scalar.zero).1) a2 hp.le hp.le p2.le two_pos.le
        rw [one_mul] at b1
        have b2 := agree_fl_trans h (mul_pos hp p2).le b1
        have pp := fl_pos h (mul_pos hp p2)
        have b3 := agree_mul b2 aπ pp.le (mul_pos hp two_pos).le pπ.le Real.pi_pos.le
        rw [← growth_add] at b3
        have b4 := agree_fl_trans h (mul_pos pp pπ).le b3
        have e3 : 2 * Real.pi * entryR d.sigma c j = (sg.getD j Scalar.zero).1 * 2 * Real.pi := by
          change 2 * Real.pi * (sg.getD j Scalar.zero).1 = _
          ring
        rw [e3]
        exact err_fl h (ln_err h (fl_pos h (mul_pos pp pπ)) (by positivity) b4))
    rw [← hL, lsum_range, lsum_range, List.length_range] at eL
    have t2 := err_fl h (err_mul' h hnhalf eL)
    have t3 := err_fl h (err_add' (err_mono h (by omega : 4 + X.cols + 1 + 1 ≤ 1 + (5 + X.cols) + 1) t1) t2)
    have t4 : Err u 1 |Real.log (prior.getD c Scalar.zero).1| (Scalar.ln (prior.getD c Scalar.zero)).1 (Real.log (prior.getD c Scalar.zero).1) := err_fl h (err_exact u _)
    have t5 := err_fl h (err_add' t3 (err_mono h (by omega) t4))
    rw [show 1 + (5 + X.cols) + 1 + 1 + 1 = X.cols + 9 by omega] at t5
    have eprior : (reals prior).getD c 0 = (prior.getD c Scalar.zero).1 := reals_getD prior c
    rw [log_gaussianJoint X.cols _ _ _ c (reals x) (by rw [eprior]; exact hpc) (fun j hj => hvj j hj)]
    have eT : gaussianTerms X.cols (fun c => (reals prior).getD c 0) (entryR d.theta) (entryR d.sigma) c (reals x) =
        Q * (1 / 2) + 1 / 2 * ∑ j ∈ Finset.range X.cols, (|Real.log (2 * Real.pi * entryR d.sigma c j)| + 1) + |Real.log (prior.getD c Scalar.zero).1| := by
      unfold gaussianTerms
      beta_reduce
      rw [eprior, ← hQdef]
      ring
    rw [eT, eprior, ← hQdef, show -(Q * (1 / 2)) = -Q * (1 / 2) by ring]
    exact t5

/-- **C86 (naive Bayes, multinomial).** A row gets a class whose exact score is the largest up to the rounding errors. -/
theorem C86_nb_multinomial (h : Precise R u) (mdl : NaiveBayes (LogProbsD (Fl R)) (Fl R)) {d : LogProbsD (Fl R)} {prior : List (Fl R)} (hd : mdl.distr = some d) (hp : mdl.classPrior = some prior)
    (hk : mdl.clusterCount = some prior.length) (hk0 : prior ≠ []) (X : Mat (Fl R)) (hX : X.WF) (ht : IsTable prior.length X.cols d.logProbs) :
    ∃ Y, nbPredict multDistr mdl X = ok Y ∧ List.Forall₂ (fun x y => ∃ c < prior.length, y = (List.replicate prior.length Scalar.zero).set c Scalar.one ∧
      ∀ c' < prior.length,
        (∑ j ∈ Finset.range X.cols, coord (reals x) j * entryR d.logProbs c' j + Real.log ((reals prior).getD c' 0)) -
          (∑ j ∈ Finset.range X.cols, coord (reals x) j * entryR d.logProbs c j + Real.log ((reals prior).getD c 0)) ≤
        (growth u (X.cols + 2) - 1) * ((∑ j ∈ Finset.range X.cols, |coord (reals x) j * entryR d.logProbs c j| + |Real.log ((reals prior).getD c 0)|) +
          (∑ j ∈ Finset.range X.cols, |coord (reals x) j * entryR d.logProbs c' j| + |Real.log ((reals prior).getD c' 0)|))) X.rows Y.rows := by
  have hk1 : 0 < prior.length := List.length_pos_iff.2 hk0
  have hw : d.logProbs.WF := ht.2.2
  have hcol : ∀ c < prior.length, colOf d.logProbs.transpose.rows c = d.logProbs.rows.getD c [] := by
    intro c hc
    have hc' : c < d.logProbs.rows.length := by rw [ht.2.1]; exact hc
    rw [getD_lt _ hc']
    simp only [Mat.transpose, transposeRows, colOf]
    rw [List.filterMap_map]
    have e : ∀ j ∈ List.range d.logProbs.cols, ((fun r : List (Fl R) => r[c]?) ∘ fun j => d.logProbs.rows.filterMap fun r => r[j]?) j = some (d.logProbs.rows[c].getD j Scalar.zero) := by
      intro j hj
      have e2 := colOf_eq d.logProbs Scalar.zero hw j (List.mem_range.1 hj)
      unfold colOf at e2
      simp only [Function.comp_apply]
      rw [e2]
      simp [hc']
    rw [List.filterMap_congr e, List.filterMap_eq_map']
    apply List.ext_getElem (by simp [hw _ (List.getElem_mem hc')])
    intro j h1 h2
    simp [h2]
  refine nb_round h multDistr mdl hd hp hk hk1 X (fun c x => dot x (d.logProbs.rows.getD c []) +. Scalar.ln (prior.getD c Scalar.zero)) ?_ ?_
  · simp only [multDistr]
    have e1 : X.mul d.logProbs.transpose = ok ⟨prior.length, X.rows.map fun r => (List.range prior.length).map fun c => dot r (d.logProbs.rows.getD c [])⟩ := by
      unfold Mat.mul
      have e3 : d.logProbs.transpose.cols = prior.length := ht.2.1
      have e4 : d.logProbs.transpose.rows.length = X.cols := by simp [Mat.transpose, transposeRows, ht.1]
      rw [if_pos e4.symm, e3]
      congr 2
      apply List.map_congr_left
      intro x _
      apply List.map_congr_left
      intro c hc
      rw [hcol c (List.mem_range.1 hc)]
    rw [e1, ok_bind]
    have := addClassRow_eq prior.length (X.rows.map fun r => (List.range prior.length).map fun c => dot r (d.logProbs.rows.getD c [])) (prior.map Scalar.ln)
    rw [List.length_map, List.length_map, if_pos rfl, List.map_map] at this
    rw [this]
    congr 2
    apply List.map_congr_left
    intro x _
    apply List.ext_getElem (by simp)
    intro i h1 h2
    have hi : i < prior.length := by simpa using h2
    simp [hi]
  · intro x hx c hc
    have hc' : c < d.logProbs.rows.length := by rw [ht.2.1]; exact hc
    have hl : (d.logProbs.rows.getD c []).length = X.cols := by rw [getD_lt _ hc', hw _ (List.getElem_mem hc'), ht.1]
    have hx1 := hX x hx
    have hdot : dot x (d.logProbs.rows.getD c []) = fsum ((List.range X.cols).map fun j => x.getD j Scalar.zero *. (d.logProbs.rows.getD c []).getD j Scalar.zero) := by
      unfold dot
      congr 1
      apply List.ext_getElem (by rw [List.length_zipWith, hl, hx1]; simp)
      intro j h1 h2
      have hj : j < X.cols := by simpa using h2
      rw [List.getElem_zipWith, List.getElem_map, List.getElem_range, getD_lt _ (by omega : j < x.length), getD_lt _ (by omega : j < (d.logProbs.rows.getD c []).length)]
    have he := err_fsum_map h (m := 1) (List.range X.cols) (fun j => x.getD j Scalar.zero *. (d.logProbs.rows.getD c []).getD j Scalar.zero)
      (fun j => coord (reals x) j * entryR d.logProbs c j) (fun j => |coord (reals x) j * entryR d.logProbs c j|) (by
        intro j _
        have e : coord (reals x) j = (x.getD j Scalar.zero).1 := reals_getD x j
        rw [e]
        exact err_fl h (err_exact u _))
    rw [← hdot, lsum_range, lsum_range, List.length_range] at he
    have t4 : Err u 1 |Real.log (prior.getD c Scalar.zero).1| (Scalar.ln (prior.getD c Scalar.zero)).1 (Real.log (prior.getD c Scalar.zero).1) := err_fl h (err_exact u _)
    have t5 := err_fl h (err_add' he (err_mono h (by omega : 1 ≤ 1 + X.cols) t4))
    rw [show 1 + X.cols + 1 = X.cols + 2 by omega, ← reals_getD prior c] at t5
    exact t5

/-! ### Precision, recall and F1 -/

/-- Adding one again and again. -/
def addOnes {F : Type} [Scalar F] (n : ℕ) (a : F) : F := (fun t => t +. Scalar.one)^[n] a

theorem addOnes_agree (h : Precise R u) (n : ℕ) : 0 ≤ (addOnes n (Scalar.zero : Fl R)).1 ∧ (0 < n → 0 < (addOnes n (Scalar.zero : Fl R)).1) ∧ AgreeUpTo (growth u (n + 1)) (addOnes n (Scalar.zero : Fl R)).1 n := by
  induction n with
  | zero =>
    refine ⟨le_of_eq rfl, by simp, ?_⟩
    change AgreeUpTo _ (0 : ℝ) ((0 : ℕ) : ℝ)
    simp [AgreeUpTo]
  | succ n ih =>
    obtain ⟨h1, h2, h3⟩ := ih
    have e : (addOnes (n + 1) (Scalar.zero : Fl R)).1 = R.fl ((addOnes n (Scalar.zero : Fl R)).1 + R.fl 1) := by
      unfold addOnes
      rw [Function.iterate_succ_apply']
      rfl
    have o1 : AgreeUpTo (growth u 1) (R.fl 1) 1 := agree_fl h zero_le_one
    have o2 : 0 < R.fl 1 := fl_pos h one_pos
    have hp : 0 < (addOnes n (Scalar.zero : Fl R)).1 + R.fl 1 := add_pos_of_nonneg_of_pos h1 o2
    rw [e]
    refine ⟨fl_nonneg R hp.le, fun _ => fl_pos h hp, ?_⟩
    push_cast
    exact agree_fl_trans h hp.le (agree_add h3 (agree_mono o1 o2.le zero_le_one (growth_mono h (by omega))))

variable {T : Type} (isZero isOne : T → Bool)

theorem precisionLoop_ones {F : Type} [Scalar F] : ∀ (P : List (T × T)) (a b : F), (∀ p ∈ P, notTwoClass isZero isOne p.1 p.2 = false) →
    precisionLoop isZero isOne P a b = ok (addOnes (P.countP fun p => isOne p.1) a, addOnes (P.countP fun p => isOne p.1 && isOne p.2) b)
  | [], a, b, _ => rfl
  | (o, t) :: P, a, b, h => by
    have ih := fun (a b : F) => precisionLoop_ones P a b fun p hp => h p (List.mem_cons_of_mem _ hp)
    simp only [precisionLoop, h (o, t) List.mem_cons_self, ih, List.countP_cons]
    cases isOne o <;> cases isOne t <;> simp [addOnes]

theorem recallLoop_ones {F : Type} [Scalar F] : ∀ (P : List (T × T)) (a b : F), (∀ p ∈ P, notTwoClass isZero isOne p.1 p.2 = false) →
    recallLoop isZero isOne P a b = ok (addOnes (P.countP fun p => isOne p.2) a, addOnes (P.countP fun p => isOne p.1 && isOne p.2) b)
  | [], a, b, _ => rfl
  | (o, t) :: P, a, b, h => by
    have ih := fun (a b : F) => recallLoop_ones P a b fun p hp => h p (List.mem_cons_of_mem _ hp)
    simp only [recallLoop, h (o, t) List.mem_cons_self, ih, List.countP_cons]
    cases isOne o <;> cases isOne t <;> simp [addOnes]

theorem f1Loop_ones {F : Type} [Scalar F] : ∀ (P : List (T × T)) (a b c : F), (∀ p ∈ P, notTwoClass isZero isOne p.1 p.2 = false) →
    f1Loop isZero isOne P a b c = ok (addOnes (P.countP fun p => isOne p.1 && isOne p.2) a, addOnes (P.countP fun p => !isOne p.1 && isOne p.2) b, addOnes (P.countP fun p => isOne p.1 && !isOne p.2) c)
  | [], a, b, c, _ => rfl
  | (o, t) :: P, a, b, c, h => by
    have ih := fun (a b c : F) => f1Loop_ones P a b c fun p hp => h p (List.mem_cons_of_mem _ hp)
    simp only [f1Loop, h (o, t) List.mem_cons_self, ih, List.countP_cons]
    cases isOne o <;> cases isOne t <;> simp [addOnes]

theorem ratio_agree (h : Precise R u) {a b : ℕ} (n : ℕ) (ha : a ≤ n) (hb : b ≤ n) (hb0 : 0 < b) :
    AgreeUpTo (growth u (2 * n + 3)) (addOnes a (Scalar.zero : Fl R) /. addOnes b Scalar.zero).1 ((a : ℝ) / b) := by
  obtain ⟨a1, -, a3⟩ := addOnes_agree h a
  obtain ⟨-, b2, b3⟩ := addOnes_agree h b
  have hbr : (0 : ℝ) < b := by exact_mod_cast hb0
  have hp := b2 hb0
  have h1 := agree_div a3 b3 a1 (Nat.cast_nonneg a) hp hbr
  rw [← growth_add] at h1
  have h2 := agree_fl_trans h (div_nonneg a1 hp.le) h1
  exact agree_mono h2 (fl_nonneg R (div_nonneg a1 hp.le)) (by positivity) (growth_mono h (by omega))

/-- **C86 (precision, recall and F1).** For labels of two classes each score agrees with the exact fraction of counts. -/
theorem C86_scores (h : Precise R u) (P : List (T × T)) (hP : ∀ p ∈ P, notTwoClass isZero isOne p.1 p.2 = false) :
    (0 < P.countP (fun p => isOne p.1) → ∃ v : Fl R, precision isZero isOne (P.map Prod.fst) (P.map Prod.snd) = ok v ∧
      AgreeUpTo (growth u (2 * P.length + 3)) v.1 ((P.countP fun p => isOne p.1 && isOne p.2 : ℕ) / (P.countP fun p => isOne p.1 : ℕ))) ∧
    (0 < P.countP (fun p => isOne p.2) → ∃ v : Fl R, recall isZero isOne (P.map Prod.fst) (P.map Prod.snd) = ok v ∧
      AgreeUpTo (growth u (2 * P.length + 3)) v.1 ((P.countP fun p => isOne p.1 && isOne p.2 : ℕ) / (P.countP fun p => isOne p.2 : ℕ))) ∧
    (0 < P.countP (fun p => isOne p.1) + P.countP (fun p => isOne p.2) → ∃ v : Fl R, f1 isZero isOne (P.map Prod.fst) (P.map Prod.snd) = ok v ∧
      AgreeUpTo (growth u (2 * P.length + 9)) v.1 (2 * (P.countP fun p => isOne p.1 && isOne p.2 : ℕ) / ((P.countP fun p => isOne p.1 : ℕ) + (P.countP fun p => isOne p.2 : ℕ)))) := by
  have hz : (P.map Prod.fst).zip (P.map Prod.snd) = P := by rw [List.zip_map', List.map_id'']; exact fun _ => rfl
  refine ⟨fun h0 => ?_, fun h0 => ?_, fun h0 => ?_⟩
  · refine ⟨addOnes (P.countP fun p => isOne p.1 && isOne p.2) (Scalar.zero : Fl R) /. addOnes (P.countP fun p => isOne p.1) Scalar.zero, ?_, ?_⟩
    · simp only [precision, assert, List.length_map, decide_true, if_true, hz, precisionLoop_ones isZero isOne P _ _ hP, ok_bind]
    · exact ratio_agree h P.length List.countP_le_length List.countP_le_length h0
  · refine ⟨addOnes (P.countP fun p => isOne p.1 && isOne p.2) (Scalar.zero : Fl R) /. addOnes (P.countP fun p => isOne p.2) Scalar.zero, ?_, ?_⟩
    · simp only [recall, assert, List.length_map, decide_true, if_true, hz, recallLoop_ones isZero isOne P _ _ hP, ok_bind]
    · exact ratio_agree h P.length List.countP_le_length List.countP_le_length h0
  · refine ⟨(Scalar.ofNat 2 *. addOnes (P.countP fun p => isOne p.1 && isOne p.2) (Scalar.zero : Fl R)) /.
      ((Scalar.ofNat 2 *. addOnes (P.countP fun p => isOne p.1 && isOne p.2) Scalar.zero) +. addOnes (P.countP fun p => isOne p.1 && !isOne p.2) Scalar.zero +.
        addOnes (P.countP fun p => !isOne p.1 && isOne p.2) Scalar.zero), ?_, ?_⟩
    · simp only [f1, assert, List.length_map, decide_true, if_true, hz, f1Loop_ones isZero isOne P _ _ _ hP, ok_bind]
    · have e1 : P.countP (fun p => isOne p.1) = P.countP (fun p => isOne p.1 && isOne p.2) + P.countP (fun p => isOne p.1 && !isOne p.2) := by
        clear hz h0 hP
        induction P with
        | nil => rfl
        | cons p P ih =>
          simp only [List.countP_cons, ih]
          cases isOne p.1 <;> cases isOne p.2 <;> simp <;> omega
      have e2 : P.countP (fun p => isOne p.2) = P.countP (fun p => isOne p.1 && isOne p.2) + P.countP (fun p => !isOne p.1 && isOne p.2) := by
        clear hz h0 hP e1
        induction P with
        | nil => rfl
        | cons p P ih =>
          simp only [List.countP_cons, ih]
          cases isOne p.1 <;> cases isOne p.2 <;> simp <;> omega
      have l1 : P.countP (fun p => isOne p.1 && isOne p.2) ≤ P.length := List.countP_le_length
      have l2 : P.countP (fun p => isOne p.1 && !isOne p.2) ≤ P.length := List.countP_le_length
      have l3 : P.countP (fun p => !isOne p.1 && isOne p.2) ≤ P.length := List.countP_le_length
      rw [e1, e2] at h0 ⊢
      generalize P.countP (fun p => isOne p.1 && isOne p.2) = a at *
      generalize P.countP (fun p => isOne p.1 && !isOne p.2) = b at *
      generalize P.countP (fun p => !isOne p.1 && isOne p.2) = c at *
      obtain ⟨a1, a2, a3⟩ := addOnes_agree h a
      obtain ⟨b1, b2, b3⟩ := addOnes_agree h b
      obtain ⟨c1, c2, c3⟩ := addOnes_agree h c
      obtain ⟨t1, t2⟩ := two_agree h
      have up : ∀ {m : ℕ} {x y : ℝ}, AgreeUpTo (growth u m) x y → 0 ≤ x → 0 ≤ y → ∀ k, m ≤ k → AgreeUpTo (growth u k) x y := fun q q1 q2 k hk => agree_mono q q1 q2 (growth_mono h hk)
      have ca := Nat.cast_nonneg (α := ℝ) a
      have cb := Nat.cast_nonneg (α := ℝ) b
      have cc := Nat.cast_nonneg (α := ℝ) c
      have m1 := agree_mul t2 (up a3 a1 ca (P.length + 1) (by omega)) t1.le two_pos.le a1 ca
      rw [← growth_add] at m1
      have m2 := agree_fl_trans h (mul_nonneg t1.le a1) m1
      have n2 := fl_nonneg R (mul_nonneg t1.le a1)
      have m3 := agree_fl_trans h (add_nonneg n2 b1) (agree_add m2 (up b3 b1 cb (1 + (P.length + 1) + 1) (by omega)))
      have n3 := fl_nonneg R (add_nonneg n2 b1)
      have m4 := agree_fl_trans h (add_nonneg n3 c1) (agree_add m3 (up c3 c1 cc (1 + (P.length + 1) + 1 + 1) (by omega)))
      have n4 : 0 < R.fl (R.fl (R.fl ((Scalar.ofNat 2 : Fl R).1 * (addOnes a (Scalar.zero : Fl R)).1) + (addOnes b (Scalar.zero : Fl R)).1) + (addOnes c (Scalar.zero : Fl R)).1) := by
        refine fl_pos h ?_
        rcases Nat.eq_zero_or_pos a with ha0 | ha0
        · rcases Nat.eq_zero_or_pos b with hb0 | hb0
          · exact add_pos_of_nonneg_of_pos n3 (c2 (by omega))
          · exact add_pos_of_pos_of_nonneg (fl_pos h (add_pos_of_nonneg_of_pos n2 (b2 hb0))) c1
        · exact add_pos_of_pos_of_nonneg (fl_pos h (add_pos_of_pos_of_nonneg (fl_pos h (mul_pos t1 (a2 ha0))) b1)) c1
      have hden : (0 : ℝ) < 2 * a + b + c := by
        have : 0 < 2 * a + b + c := by omega
        exact_mod_cast this
      have m5 := agree_div m2 m4 n2 (by positivity) n4 hden
      rw [← growth_add] at m5
      have m6 := agree_fl_trans h (div_nonneg n2 n4.le) m5
      rw [show 1 + (P.length + 1) + 1 + (1 + (P.length + 1) + 1 + 1 + 1) + 1 = 2 * P.length + 9 by omega] at m6
      have e3 : (2 * (a : ℝ)) / (((a + b : ℕ) : ℝ) + ((a + c : ℕ) : ℝ)) = 2 * a / (2 * a + b + c) := by
        push_cast
        congr 1
        ring
      rw [e3]
      exact m6

/-! ### The hypotheses hold -/

/-- The squared exponential kernel of two points with 53 bits: off by at most `2⁻⁴⁸` of the amplitude. -/
example (ampl x y z w : Fl (truncBits 52)) : ∃ v, sqExpKernel fl16 ampl [x, y] [z, w] = ok v ∧
    |v.1 - ampl.1 * Real.exp (-(((x.1 - z.1) ^ 2 + (y.1 - w.1) ^ 2) / (2 * fl16.1 ^ 2)))| ≤ 1 / 2 ^ 48 * |ampl.1| := by
  obtain ⟨v, h1, h2⟩ := (C86_exp_kernels C86_witness.1 fl16 ampl (by linarith [fl_sizes.2.2.2]) [x, y] [z, w] rfl).1
  refine ⟨v, h1, ?_⟩
  have e : sqDist (reals [x, y]) (reals [z, w]) = (x.1 - z.1) ^ 2 + (y.1 - w.1) ^ 2 := by simp [sqDist, reals]
  rw [e] at h2
  refine h2.trans (mul_le_mul_of_nonneg_right ?_ (abs_nonneg _))
  refine (C86_growth C86_witness.1 11 (by norm_num)).2.2.trans ?_
  norm_num

/-- Two classes with two features, with 53 bits. -/
example (x y : Fl (truncBits 52)) : ∃ Y, nbPredict gaussDistr
      (⟨some ⟨⟨2, [[fl0, fl1], [fl16, fl0]]⟩, ⟨2, [[fl1, fl16], [fl1, fl1]]⟩⟩, some 2, some [fl1, fl16], [1, 16]⟩ : NaiveBayes (GaussD (Fl (truncBits 52))) (Fl (truncBits 52)))
      ⟨2, [[x, y]]⟩ = ok Y ∧ Y.rows.length = 1 := by
  obtain ⟨h0, h1, h2, h3⟩ := fl_sizes
  have p1 : 0 < fl1.1 := by linarith
  have p16 : 0 < fl16.1 := by linarith
  obtain ⟨Y, e1, e2⟩ := C86_nb_gaussian C86_witness.1
    (⟨some ⟨⟨2, [[fl0, fl1], [fl16, fl0]]⟩, ⟨2, [[fl1, fl16], [fl1, fl1]]⟩⟩, some 2, some [fl1, fl16], [1, 16]⟩ : NaiveBayes (GaussD (Fl (truncBits 52))) (Fl (truncBits 52)))
    rfl rfl rfl (by simp) ⟨2, [[x, y]]⟩ (by intro r hr; simp at hr; subst hr; rfl)
    ⟨rfl, rfl, by intro r hr; simp at hr; rcases hr with rfl | rfl <;> rfl⟩ ⟨rfl, rfl, by intro r hr; simp at hr; rcases hr with rfl | rfl <;> rfl⟩
    (by intro p hp; simp at hp; rcases hp with rfl | rfl <;> assumption)
    (by
      intro r hr v hv
      simp at hr
      rcases hr with rfl | rfl <;> simp at hv
      · rcases hv with rfl | rfl <;> assumption
      · rw [hv]; exact p1)
  exact ⟨Y, e1, by rw [← e2.length_eq]; rfl⟩

/-- Precision, recall and F1 of four predictions, with 53 bits. -/
example : (∃ v : Fl (truncBits 52), precision (· == 0) (· == 1) [1, 1, 0, 1] [1, 0, 1, 1] = ok v ∧ AgreeUpTo (growth (1 / 2 ^ 52) 11) v.1 (2 / 3)) ∧
    (∃ v : Fl (truncBits 52), f1 (· == 0) (· == 1) [1, 1, 0, 1] [1, 0, 1, 1] = ok v ∧ AgreeUpTo (growth (1 / 2 ^ 52) 17) v.1 (4 / 6)) := by
  obtain ⟨h1, -, h3⟩ := C86_scores (T := ℕ) (· == 0) (· == 1) C86_witness.1 [(1, 1), (1, 0), (0, 1), (1, 1)] (by simp [notTwoClass])
  obtain ⟨v, v1, v2⟩ := h1 (by decide)
  obtain ⟨w, w1, w2⟩ := h3 (by decide)
  refine ⟨⟨v, v1, ?_⟩, ⟨w, w1, ?_⟩⟩
  · simpa [List.countP_cons] using v2
  · have e : (2 * ((2 : ℕ) : ℝ) / (((3 : ℕ) : ℝ) + ((3 : ℕ) : ℝ))) = 4 / 6 := by norm_num
    rw [← e]
    exact w2

/-- Normalising a row with 53 bits. -/
example (x y : Fl (truncBits 52)) : ∃ a b, normalizerTransform eucNorm (⟨2, [[x, y]]⟩ : Mat (Fl (truncBits 52))) = ok ⟨2, [[a, b]]⟩ ∧
    |a.1 - x.1 / Real.sqrt (x.1 ^ 2 + y.1 ^ 2)| ≤ (growth (1 / 2 ^ 52) 6 - 1) * (|x.1| / Real.sqrt (x.1 ^ 2 + y.1 ^ 2)) := by
  obtain ⟨Y, h1, h2, h3⟩ := C86_normalizer C86_witness.1 (⟨2, [[x, y]]⟩ : Mat (Fl (truncBits 52)))
  obtain ⟨c, rows⟩ := Y
  cases h3 with
  | cons h4 h5 =>
    cases h5
    cases h4 with
    | @cons _ a _ _ h6 h7 =>
      cases h7 with
      | @cons _ b _ _ h8 h9 =>
        cases h9
        refine ⟨a, b, ?_, ?_⟩
        · rw [show c = 2 from h2] at h1
          exact h1
        · simpa [rowLength, reals] using h6

end RM
