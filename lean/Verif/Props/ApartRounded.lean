import Verif.Props.ApartLabels
import Verif.Props.Rounding
import Verif.Props.Stability

/-! C136: groups that lie apart are found in spite of rounding errors. -/

namespace RM
open Outcome Scalar Spec

variable {R : Rounding} {u : ℝ} {grp : List ℝ → ℕ}

/-! ### k-means -/

theorem reals_length (x : List (Fl R)) : (reals x).length = x.length := by simp [reals]

theorem reals_getD_val (x : List (Fl R)) (j : ℕ) : (x.getD j Scalar.zero).1 = (reals x).getD j 0 := by
  by_cases hr : j < x.length
  · rw [getD_lt _ hr, getD_lt _ (by simpa [reals] using hr)]; simp [reals]
  · rw [getD_ge _ (by omega), getD_ge _ (by simpa [reals] using hr)]; rfl

/-- The square of the length of a vector. -/
theorem sqDist_zeros (d : ℕ) (x : List ℝ) (hx : x.length = d) : sqDist (List.replicate d 0) x = (x.map (· ^ 2)).sum := by
  subst hx
  induction x with
  | nil => rfl
  | cons a x ih =>
    have : sqDist (List.replicate (a :: x).length 0) (a :: x) = (0 - a) ^ 2 + sqDist (List.replicate x.length 0) x := by
      simp [sqDist, List.replicate_succ]
    rw [this, ih]
    simp

/-- The computed mean of rows of length at most `M` is off by at most the rounding errors times `M`. -/
theorem mean_error (h : Precise R u) (X : Mat (Fl R)) (hX : X.WF) (hn : X.rows ≠ []) (N : ℕ) (hN : X.rows.length ≤ N) (M : ℝ) (hM : 0 ≤ M)
    (hsz : ∀ x ∈ realRows X, (x.map (· ^ 2)).sum ≤ M ^ 2) :
    eucl (reals X.meanRow) (centroidOf X.cols (realRows X)) ≤ (growth u (N + 2) - 1) * M := by
  have hg := one_le_growth h (X.rows.length + 2)
  have hgN := growth_mono h (Nat.add_le_add_right hN 2)
  have hlen : ∀ r ∈ realRows X, r.length = X.cols := by
    intro r hr
    obtain ⟨x, hx, rfl⟩ := List.mem_map.1 hr
    rw [reals_length, hX x hx]
  set T := (realRows X).map (List.map fun v => |v|) with hT
  have hTl : ∀ r ∈ T, r.length = X.cols := by
    intro r hr
    obtain ⟨x, hx, rfl⟩ := List.mem_map.1 hr
    rw [List.length_map, hlen x hx]
  have h1 : sqDist (List.replicate X.cols 0) (centroidOf X.cols T) ≤ M ^ 2 := by
    refine sqDist_mean_le X.cols T hTl (by simpa [hT, realRows] using hn) _ (by simp) ?_
    intro y hy
    rw [sqDist_zeros _ _ (hTl y hy)]
    obtain ⟨x, hx, rfl⟩ := List.mem_map.1 hy
    have := hsz x hx
    simpa [List.map_map, Function.comp_def, sq_abs] using this
  have hne : (realRows X).length = X.rows.length := by simp [realRows]
  have h2 : sqDist (reals X.meanRow) (centroidOf X.cols (realRows X)) ≤
      (growth u (X.rows.length + 2) - 1) ^ 2 * sqDist (List.replicate X.cols 0) (centroidOf X.cols T) := by
    rw [sqDist_range X.cols _ _ (by rw [reals_length, meanRow_length]) (centroidOf_length _ _),
      sqDist_range X.cols _ _ (by simp) (centroidOf_length _ _), ← List.sum_map_mul_left]
    apply List.sum_le_sum
    intro j hj
    have hj := List.mem_range.1 hj
    have e := C86_mean h X hX (List.length_pos_iff.2 hn) j hj
    rw [reals_getD_val] at e
    have hc : ∀ L : List (List ℝ), (centroidOf X.cols L).getD j 0 = (L.map fun r => r.getD j 0).sum / L.length := by
      intro L
      unfold centroidOf
      rw [getD_lt _ (by simpa using hj)]
      simp [Spec.mean]
    have hz : (List.replicate X.cols (0 : ℝ)).getD j 0 = 0 := by
      rw [getD_lt _ (by simpa using hj)]
      simp
    have hTj : (T.map fun r => r.getD j 0) = (realRows X).map fun r => |r.getD j 0| := by
      rw [hT, List.map_map]
      apply List.map_congr_left
      intro r hr
      have hr := hlen r hr
      simp only [Function.comp]
      rw [getD_lt _ (by simpa [hr] using hj), getD_lt _ (by simpa [hr] using hj), List.getElem_map]
    rw [hc, hc, hz, hTj, hne, show T.length = X.rows.length by rw [hT, List.length_map, hne], zero_sub, neg_sq, ← mul_pow]
    exact sq_le_sq' (by linarith [neg_le_of_abs_le e]) (le_of_abs_le e)
  rw [eucl_sqDist]
  refine (Real.sqrt_le_sqrt (h2.trans (mul_le_mul_of_nonneg_left h1 (sq_nonneg _)))).trans ?_
  rw [← mul_pow, Real.sqrt_sq (mul_nonneg (by linarith) hM)]
  exact mul_le_mul_of_nonneg_right (by linarith) hM

/-- Each row is near to the centroid at the place of its group and, up to a factor, not near to the others. -/
def FitsBy (rows : List (List ℝ)) (grp : List ℝ → ℕ) (f D : ℝ) (gs : List ℕ) (C : List (List ℝ)) : Prop :=
  C.length = gs.length ∧ ∀ x ∈ rows, ∀ (j : ℕ) c g, C[j]? = some c → gs[j]? = some g → if grp x = g then eucl x c ≤ D else f * D < eucl x c

theorem labels_of_fitsBy {f D : ℝ} (hf0 : 0 ≤ f) {Z : List (List (Fl R))} {gs : List ℕ} {C : List (List ℝ)} (hg : gs.Nodup)
    (hall : ∀ z ∈ Z, grp (reals z) ∈ gs) (hf : FitsBy (Z.map reals) grp f D gs C)
    {P : List (Fl R) → ℕ → Prop} (hP : ∀ z j, P z j → ∃ c, C[j]? = some c ∧ ∀ c' ∈ C, eucl (reals z) c ≤ f * eucl (reals z) c') {labels : List ℕ}
    (hl : List.Forall₂ P Z labels) : labels = Z.map fun z => gs.idxOf (grp (reals z)) := by
  induction hl with
  | nil => rfl
  | @cons z j Z labels h hl ih =>
    rw [List.map_cons, ← ih (fun z hz => hall z (List.mem_cons_of_mem _ hz)) ⟨hf.1, fun x hx => hf.2 x (by rw [List.map_cons]; exact List.mem_cons_of_mem _ hx)⟩]
    congr 1
    obtain ⟨c, h1, h2⟩ := hP z j h
    have hz : reals z ∈ (z :: Z).map reals := by simp
    have hm := hall z List.mem_cons_self
    have hi : gs.idxOf (grp (reals z)) < gs.length := List.idxOf_lt_length_of_mem hm
    have hgi : gs[gs.idxOf (grp (reals z))]? = some (grp (reals z)) := by rw [List.getElem?_eq_getElem hi, List.getElem_idxOf]
    have hjl : j < gs.length := hf.1 ▸ (List.getElem?_eq_some_iff.1 h1).1
    have hci : gs.idxOf (grp (reals z)) < C.length := hf.1 ▸ hi
    have e1 := hf.2 _ hz _ _ _ (List.getElem?_eq_getElem hci) hgi
    rw [if_pos rfl] at e1
    have e2 := hf.2 _ hz j c _ h1 (List.getElem?_eq_getElem hjl)
    have e3 := h2 _ (List.getElem_mem hci)
    by_cases he : grp (reals z) = gs[j]
    · rw [he]
      exact (hg.idxOf_getElem j hjl).symm
    · rw [if_neg he] at e2
      have := mul_le_mul_of_nonneg_left e1 hf0
      linarith

/-- The labels that `predict` computes with centroids that fit. -/
theorem labels_rounded (h : Precise R u) {D : ℝ} {gs : List ℕ} (hg : gs.Nodup) (c Z : Mat (Fl R)) (hne : gs ≠ []) (hZ : Z.WF) (hc : c.cols = Z.cols)
    (hall : ∀ z ∈ Z.rows, grp (reals z) ∈ gs) (hf : FitsBy (realRows Z) grp (growth u (Z.cols + 3)) D gs (realRows c)) :
    ∃ ds, findClosest c Z = ok (Z.rows.map (fun z => gs.idxOf (grp (reals z))), ds) := by
  have hcne : c.rows ≠ [] := by
    intro he
    have := hf.1
    rw [realRows, he] at this
    exact hne (List.length_eq_zero_iff.1 this.symm)
  obtain ⟨labels, hp, hl⟩ := C86_kmeans_predict h ⟨0, 0, some c⟩ c Z rfl hcne hZ hc
  have hlab := labels_of_fitsBy (growth_pos h _).le hg hall hf (P := fun x l => ∃ a, (realRows c)[l]? = some a ∧
      ∀ b ∈ realRows c, sqDist (reals x) a ≤ growth u (2 * (Z.cols + 3)) * sqDist (reals x) b) (by
    rintro z j ⟨a, ha, hb⟩
    refine ⟨a, ha, fun c' hc' => ?_⟩
    have := Real.sqrt_le_sqrt (hb c' hc')
    rw [two_mul, growth_add, ← sq, Real.sqrt_mul (sq_nonneg _), Real.sqrt_sq (growth_pos h _).le] at this
    exact this) hl
  unfold kmPredict at hp
  simp only at hp
  cases hr : findClosest c Z with
  | ok r =>
    rw [hr, ok_bind] at hp
    cases hp
    exact ⟨r.2, by rw [← hlab]⟩
  | err e => rw [hr] at hp; cases hp
  | panic => rw [hr] at hp; cases hp
  | ub => rw [hr] at hp; cases hp

/-- The computed centroids: they stand in the order of the groups of `cs` and are the means of the groups up to an error of length `r`. -/
def AreMeans (X : Mat (Fl R)) (grp : List ℝ → ℕ) (cs : List (List (Fl R))) (r : ℝ) (C : Mat (Fl R)) : Prop :=
  C.cols = X.cols ∧ C.rows.length = cs.length ∧ ∀ (j : ℕ) c0 c, cs[j]? = some c0 → C.rows[j]? = some c → c.length = X.cols ∧
    eucl (reals c) (centroidOf X.cols (groupOf (realRows X) grp (reals c0))) ≤ r

variable {X : Mat (Fl R)} {cs : List (List (Fl R))} {D S : ℝ}

theorem eucl_le_of_sq {x y : List ℝ} {D : ℝ} (hD : 0 ≤ D) (h : sqDist x y ≤ D ^ 2) : eucl x y ≤ D := by
  rw [eucl_sqDist]
  exact (Real.sqrt_le_sqrt h).trans_eq (Real.sqrt_sq hD)

theorem le_eucl_of_sq {x y : List ℝ} {S : ℝ} (hS : 0 ≤ S) (h : S ^ 2 ≤ sqDist x y) : S ≤ eucl x y := by
  rw [eucl_sqDist]
  exact (Real.sqrt_sq hS).symm.trans_le (Real.sqrt_le_sqrt h)

theorem realRows_length (hX : X.WF) : ∀ r ∈ realRows X, r.length = X.cols := by
  intro r hr
  obtain ⟨x, hx, rfl⟩ := List.mem_map.1 hr
  rw [reals_length, hX x hx]

theorem fitsBy_means (hX : X.WF) {Z : List (List ℝ)} (hZ : ∀ z ∈ Z, z.length = X.cols) (hD : 0 ≤ D) (hS : 0 ≤ S) {f r : ℝ}
    (hnear : ∀ z ∈ Z, ∀ y ∈ realRows X, grp z = grp y → sqDist z y ≤ D ^ 2) (hfar : ∀ z ∈ Z, ∀ y ∈ realRows X, grp z ≠ grp y → S ^ 2 ≤ sqDist z y)
    (h : Grouped (realRows X) grp (D ^ 2) (S ^ 2)) (hDS : (f + 1) * (D + r) < S) (hc : OneOfEach (realRows X) grp (cs.map reals)) {C : Mat (Fl R)}
    (hC : AreMeans X grp cs r C) : FitsBy Z grp f (D + r) ((cs.map reals).map grp) (realRows C) := by
  obtain ⟨-, hCl, hCm⟩ := hC
  refine ⟨by simp [realRows, hCl], ?_⟩
  intro z hz j c g h1 h2
  rw [realRows, List.getElem?_map] at h1
  rw [List.getElem?_map, List.getElem?_map] at h2
  obtain ⟨c, hcj, rfl⟩ := Option.map_eq_some_iff.1 h1
  obtain ⟨_, h3, rfl⟩ := Option.map_eq_some_iff.1 h2
  obtain ⟨c0, hc0, rfl⟩ := Option.map_eq_some_iff.1 h3
  obtain ⟨hcl, hcr⟩ := hCm j c0 c hc0 hcj
  have hm := hc.mem (reals c0) (List.mem_map_of_mem (List.mem_of_getElem? hc0))
  have hlen := realRows_length hX
  set G := groupOf (realRows X) grp (reals c0) with hG
  have hGw : ∀ r ∈ G, r.length = X.cols := fun r hr => hlen r (List.mem_filter.1 hr).1
  have hGne : G ≠ [] := List.ne_nil_of_mem (List.mem_filter.2 ⟨hm, by simp⟩)
  have hml : (centroidOf X.cols G).length = X.cols := centroidOf_length _ _
  split
  · rename_i he
    have a : eucl z (centroidOf X.cols G) ≤ D := by
      refine eucl_le_of_sq hD (sqDist_mean_le X.cols _ hGw hGne z (hZ z hz) ?_)
      intro y hy
      obtain ⟨hy1, hy2⟩ := List.mem_filter.1 hy
      exact hnear z hz y hy1 (he.trans (of_decide_eq_true hy2).symm)
    have t := eucl_triangle z (centroidOf X.cols G) (reals c) ((hZ z hz).trans hml.symm)
    rw [eucl_comm (centroidOf X.cols G)] at t
    linarith
  · rename_i he
    have a : eucl (reals c0) (centroidOf X.cols G) ≤ D := by
      refine eucl_le_of_sq hD (sqDist_mean_le X.cols _ hGw hGne _ (hlen _ hm) ?_)
      intro y hy
      obtain ⟨hy1, hy2⟩ := List.mem_filter.1 hy
      exact h.near _ hm y hy1 (of_decide_eq_true hy2).symm
    have b := le_eucl_of_sq hS (hfar z hz _ hm he)
    have t1 := eucl_triangle z (reals c) (reals c0) (by rw [hZ z hz, reals_length, hcl])
    have t2 := eucl_triangle (reals c) (centroidOf X.cols G) (reals c0) (by rw [hml, reals_length, hcl])
    rw [eucl_comm (centroidOf X.cols G) (reals c0)] at t2
    linarith

theorem fitsBy_start (hD : 0 ≤ D) (hS : 0 ≤ S) {f r : ℝ} (hr : 0 ≤ r)
    (h : Grouped (realRows X) grp (D ^ 2) (S ^ 2)) (hDS : (f + 1) * (D + r) < S) (hc : OneOfEach (realRows X) grp (cs.map reals)) :
    FitsBy (realRows X) grp f (D + r) ((cs.map reals).map grp) (cs.map reals) := by
  refine ⟨by simp, ?_⟩
  intro x hx j c g h1 h2
  rw [List.getElem?_map, h1] at h2
  cases h2
  have hcr := hc.mem c (List.mem_of_getElem? h1)
  split
  · rename_i he
    have := eucl_le_of_sq hD (h.near x hx c hcr he)
    linarith
  · rename_i he
    have := le_eucl_of_sq hS (h.far x hx c hcr he)
    linarith

/-- One iteration from centroids that fit ends at the means of the groups. -/
theorem update_rounded (h : Precise R u) (hX : X.WF) {M : ℝ} (hM : 0 ≤ M) (hsz : ∀ x ∈ realRows X, (x.map (· ^ 2)).sum ≤ M ^ 2)
    (hc : OneOfEach (realRows X) grp (cs.map reals)) :
    ∃ C, updateCentroids cs.length X (X.rows.map fun z => ((cs.map reals).map grp).idxOf (grp (reals z))) = ok C ∧
      AreMeans X grp cs ((growth u (X.rows.length + 2) - 1) * M) C := by
  refine ⟨_, updateCentroids_eq _ X _ (by simp), rfl, by simp, ?_⟩
  intro j c0 c hj hcj
  have hjl := (List.getElem?_eq_some_iff.1 hj).1
  have hj' : cs[j] = c0 := (List.getElem?_eq_some_iff.1 hj).2
  rw [List.getElem?_map, List.getElem?_range hjl, Option.map_some, Option.some.injEq] at hcj
  have hgr : (realRows (⟨X.cols, labelled j X.rows (X.rows.map fun z => ((cs.map reals).map grp).idxOf (grp (reals z)))⟩ : Mat (Fl R))) =
      groupOf (realRows X) grp (reals c0) := by
    unfold realRows groupOf
    rw [labelled_map_self, List.filter_map]
    congr 1
    apply List.filter_congr
    intro x hx
    simp only [Function.comp]
    rw [decide_eq_decide]
    have hi := List.idxOf_lt_length_of_mem (hc.all (reals x) (List.mem_map_of_mem hx))
    constructor
    · intro he
      have := List.getElem_idxOf hi
      simp only [he, List.getElem_map, hj'] at this
      exact this.symm
    · intro he
      rw [he]
      have := hc.once.idxOf_getElem j (by simpa using hjl)
      simpa [hj'] using this
  have hm := hc.mem (reals c0) (List.mem_map_of_mem (List.mem_of_getElem? hj))
  subst hcj
  refine ⟨meanRow_length _, ?_⟩
  have hsub : ∀ x ∈ labelled j X.rows (X.rows.map fun z => ((cs.map reals).map grp).idxOf (grp (reals z))), x ∈ X.rows := by
    rw [labelled_map_self]
    exact fun x hx => (List.mem_filter.1 hx).1
  have := mean_error h (⟨X.cols, labelled j X.rows (X.rows.map fun z => ((cs.map reals).map grp).idxOf (grp (reals z)))⟩ : Mat (Fl R))
    (fun r hr => hX r (hsub r hr)) (by
      intro he
      have h0 : reals c0 ∈ groupOf (realRows X) grp (reals c0) := List.mem_filter.2 ⟨hm, by simp⟩
      rw [← hgr, realRows] at h0
      simp only at he
      rw [he] at h0
      cases h0) X.rows.length (by rw [labelled_map_self]; exact List.length_filter_le _ _) M hM
    (by
      intro x hx
      rw [hgr] at hx
      exact hsz x (List.mem_filter.1 hx).1)
  rw [hgr] at this
  exact this

theorem loop_rounded (h : Precise R u) (hX : X.WF) {M : ℝ} (hM : 0 ≤ M) (hsz : ∀ x ∈ realRows X, (x.map (· ^ 2)).sum ≤ M ^ 2) (hD : 0 ≤ D) (hS : 0 ≤ S)
    (hG : Grouped (realRows X) grp (D ^ 2) (S ^ 2)) (hne : cs ≠ []) (hc : OneOfEach (realRows X) grp (cs.map reals))
    (hDS : (growth u (X.cols + 3) + 1) * (D + (growth u (X.rows.length + 2) - 1) * M) < S) :
    ∀ (n : ℕ) (cost : Fl R) (C : Mat (Fl R)), C.cols = X.cols →
    FitsBy (realRows X) grp (growth u (X.cols + 3)) (D + (growth u (X.rows.length + 2) - 1) * M) ((cs.map reals).map grp) (realRows C) →
    ∃ C', kmLoop cs.length X (n + 1) cost C = ok C' ∧ AreMeans X grp cs ((growth u (X.rows.length + 2) - 1) * M) C' := by
  obtain ⟨C₁, e1, hC₁⟩ := update_rounded h hX hM hsz hc
  have hfit := fitsBy_means (f := growth u (X.cols + 3)) hX (realRows_length hX) hD hS hG.near hG.far hG hDS hc hC₁
  intro n
  induction n with
  | zero =>
    intro cost C hcol hf
    obtain ⟨ds, e2⟩ := labels_rounded h hc.once C X (by simpa using hne) hX hcol (fun z hz => hc.all _ (List.mem_map_of_mem hz)) hf
    refine ⟨C₁, ?_, hC₁⟩
    unfold kmLoop
    rw [e2, ok_bind]
    simp only
    rw [e1, ok_bind]
    split <;> rfl
  | succ n ih =>
    intro cost C hcol hf
    obtain ⟨ds, e2⟩ := labels_rounded h hc.once C X (by simpa using hne) hX hcol (fun z hz => hc.all _ (List.mem_map_of_mem hz)) hf
    unfold kmLoop
    rw [e2, ok_bind]
    simp only
    rw [e1, ok_bind]
    split
    · exact ⟨C₁, rfl, hC₁⟩
    · exact ih _ C₁ hC₁.1 hfit

/-- **C136 (k-means).** In arithmetic whose operations round with relative error `u`: let rows of one group lie within distance `D` and rows of different groups at
distance `S` or more, let no row be longer than `M`, and let `S` be more than about `2 D` (the factors tend to 1 and the term with `M` to 0 with `u`). If the training
starts at one row of every group then, with one iteration or more, the stored centroids are the means of the groups up to rounding errors, and predicting the
training data says exactly which rows are in one group. New rows that lie with one of the groups get the number of that group. -/
theorem C136_kmeans (h : Precise R u) (init : ℕ → Mat (Fl R) → Outcome (Mat (Fl R))) (m : KMeans (Fl R)) (X : Mat (Fl R)) (hX : X.WF) (hit : 0 < m.iters)
    (D S M : ℝ) (hD : 0 ≤ D) (hS : 0 ≤ S) (hM : 0 ≤ M) (hsz : ∀ x ∈ realRows X, (x.map (· ^ 2)).sum ≤ M ^ 2)
    (hG : Grouped (realRows X) grp (D ^ 2) (S ^ 2))
    (hDS : (growth u (X.cols + 3) + 1) * (D + (growth u (X.rows.length + 2) - 1) * M) < S)
    (cs : List (List (Fl R))) (hne : cs ≠ []) (hc : OneOfEach (realRows X) grp (cs.map reals)) (hk : m.k = cs.length) (hi : init m.k X = ok ⟨X.cols, cs⟩) :
    ∃ m' C labels, kmTrain init m X = (m', ok ()) ∧ m'.centroids = some C ∧ C.rows.length = cs.length ∧
      (∀ (j : ℕ) c0 c, cs[j]? = some c0 → C.rows[j]? = some c →
        eucl (reals c) (centroidOf X.cols (groupOf (realRows X) grp (reals c0))) ≤ (growth u (X.rows.length + 2) - 1) * M) ∧
      kmPredict m' X = ok labels ∧ SaysGroups (realRows X) grp labels ∧
      ∀ Z : Mat (Fl R), Z.WF → Z.cols = X.cols → (∀ z ∈ realRows Z, ∃ x ∈ realRows X, grp z = grp x) →
        (∀ z ∈ realRows Z, ∀ x ∈ realRows X, grp z = grp x → sqDist z x ≤ D ^ 2) → (∀ z ∈ realRows Z, ∀ x ∈ realRows X, grp z ≠ grp x → S ^ 2 ≤ sqDist z x) →
        ∃ new, kmPredict m' Z = ok new ∧ SaysGroups (realRows X ++ realRows Z) grp (labels ++ new) := by
  obtain ⟨n, hn⟩ : ∃ n, m.iters = n + 1 := ⟨m.iters - 1, by omega⟩
  have he : 0 ≤ growth u (X.rows.length + 2) - 1 := by linarith [one_le_growth h (X.rows.length + 2)]
  obtain ⟨C, e1, hC⟩ := loop_rounded h hX hM hsz hD hS hG hne hc hDS n Scalar.zero ⟨X.cols, cs⟩ rfl
    (fitsBy_start hD hS (mul_nonneg he hM) hG hDS hc)
  have hle : cs.length ≤ X.rows.length := by
    have h0 : (cs.map reals).map grp ⊆ (realRows X).map grp := by
      intro g hg
      obtain ⟨c, hcm, rfl⟩ := List.mem_map.1 hg
      exact List.mem_map.2 ⟨c, hc.mem c hcm, rfl⟩
    simpa [realRows] using (List.subperm_of_subset hc.once h0).length_le
  have htr : kmTrain init m X = ({ m with centroids := some C }, ok ()) := by
    unfold kmTrain kmInit
    rw [if_neg (by omega), hi, ok_bind, if_neg (by simpa using hk.symm), if_neg (by simp)]
    simp only [hk, hn, e1]
  obtain ⟨ds, e2⟩ := labels_rounded h hc.once C X (by simpa using hne) hX hC.1 (fun z hz => hc.all _ (List.mem_map_of_mem hz))
    (fitsBy_means (f := growth u (X.cols + 3)) hX (realRows_length hX) hD hS hG.near hG.far hG hDS hc hC)
  refine ⟨_, C, X.rows.map fun z => ((cs.map reals).map grp).idxOf (grp (reals z)), htr, rfl, hC.2.1, fun j c0 c h1 h2 => (hC.2.2 j c0 c h1 h2).2, ?_, ?_, ?_⟩
  · unfold kmPredict
    simp only
    rw [e2]
    rfl
  · have := saysGroups_idxOf (rows := realRows X) (grp := grp) hc.all
    rw [realRows, List.map_map] at this
    exact this
  · intro Z hZ hcols hall hnear hfar
    have hall' : ∀ z ∈ realRows Z, grp z ∈ (cs.map reals).map grp := by
      intro z hz
      obtain ⟨x, hx, he⟩ := hall z hz
      rw [he]
      exact hc.all x hx
    obtain ⟨ds', e3⟩ := labels_rounded h hc.once C Z (by simpa using hne) hZ (hC.1.trans hcols.symm) (fun z hz => hall' _ (List.mem_map_of_mem hz))
      (fitsBy_means (f := growth u (Z.cols + 3)) hX (fun z hz => (realRows_length hZ z hz).trans hcols) hD hS hnear hfar hG (by rw [hcols]; exact hDS) hc hC)
    refine ⟨Z.rows.map fun z => ((cs.map reals).map grp).idxOf (grp (reals z)), ?_, ?_⟩
    · unfold kmPredict
      simp only
      rw [e3]
      rfl
    · have := saysGroups_idxOf (rows := realRows X ++ realRows Z) (grp := grp) (gs := (cs.map reals).map grp) (by
        intro x hx
        rcases List.mem_append.1 hx with hx | hx
        · exact hc.all x hx
        · exact hall' x hx)
      rw [List.map_append, realRows, realRows, List.map_map (l := X.rows), List.map_map (l := Z.rows)] at this
      exact this

/-! ### Nearest neighbours -/

/-- **C136 (nearest neighbours).** In rounded arithmetic the brute-force classifier gives a sample the class `l` if more than `k / 2` training rows of this class are
nearer to it, by more than the rounding errors, than every row of another class. -/
theorem C136_knn (h : Precise R u) (k : ℕ) (hk : 1 ≤ k) (X : Mat (Fl R)) (y : List ℕ) (hy : X.rows.length = y.length) (hkn : k ≤ X.rows.length) (Z : Mat (Fl R))
    (hZ : Z.WF) (want : List ℕ)
    (hw : List.Forall₂ (fun z l => ∃ s : Finset ℕ, k < 2 * s.card ∧ (∀ i ∈ s, y[i]? = some l) ∧
      ∀ i ∈ s, ∀ (j : ℕ) c, y[j]? = some c → c ≠ l →
        growth u (2 * (Z.cols + 4)) * eucl (reals z) (reals (X.rows.getD i [])) < eucl (reals z) (reals (X.rows.getD j []))) Z.rows want) :
    ∃ c, knnTrain bruteSearcher ⟨k, none, none⟩ X y = (c, ok ()) ∧ knnPredict bruteSearcher c Z = ok want := by
  refine knn_of_near k hk X y hy hkn Z want ?_
  have key : List.Forall₂ (fun z l => z ∈ Z.rows → ∃ s : Finset ℕ, k < 2 * s.card ∧ (∀ i ∈ s, y[i]? = some l) ∧
      ∀ i ∈ s, ∀ (j : ℕ) c, y[j]? = some c → c ≠ l → knnDist z (X.rows.getD i []) < knnDist z (X.rows.getD j [])) Z.rows want := by
    refine hw.imp ?_
    rintro z l ⟨s, h1, h2, h3⟩ hz
    refine ⟨s, h1, h2, ?_⟩
    intro i hi j c hj hcl
    have e := h3 i hi j c hj hcl
    have a := (C86_distance h z (X.rows.getD i [])).1
    have b := (C86_distance h z (X.rows.getD j [])).2
    rw [hZ z hz] at a b
    have g := growth_pos h (Z.cols + 4)
    rw [two_mul, growth_add, mul_assoc] at e
    have e' := e.trans_le b
    exact a.trans_lt (lt_of_mul_lt_mul_left e' g.le)
  have : ∀ (zs : List (List (Fl R))) (ls : List ℕ), (∀ z ∈ zs, z ∈ Z.rows) → List.Forall₂ (fun z l => z ∈ Z.rows → ∃ s : Finset ℕ, k < 2 * s.card ∧ (∀ i ∈ s, y[i]? = some l) ∧
      ∀ i ∈ s, ∀ (j : ℕ) c, y[j]? = some c → c ≠ l → knnDist z (X.rows.getD i []) < knnDist z (X.rows.getD j [])) zs ls →
      List.Forall₂ (fun z l => ∃ s : Finset ℕ, k < 2 * s.card ∧ (∀ i ∈ s, y[i]? = some l) ∧
      ∀ i ∈ s, ∀ (j : ℕ) c, y[j]? = some c → c ≠ l → knnDist z (X.rows.getD i []) < knnDist z (X.rows.getD j [])) zs ls := by
    intro zs ls hin hk
    induction hk with
    | nil => exact List.Forall₂.nil
    | @cons z l zs ls h0 _ ih => exact List.Forall₂.cons (h0 (hin z List.mem_cons_self)) (ih fun w hw => hin w (List.mem_cons_of_mem _ hw))
  exact this _ _ (fun z hz => hz) key

/-! ### Density clustering -/

/-- **C136 (DBSCAN).** In rounded arithmetic: let the rows fall into groups of `min_points` rows or more, with distances at most `D` within a group and at least `S`
between groups, and let the radius lie between `D` and `S` by more than the rounding errors. Then no sample is noise and two samples get the same label exactly if
they are in one group. -/
theorem C136_dbscan (h : Precise R u) (m : Dbscan (Fl R)) (X : Mat (Fl R)) (hX : X.WF) (D S : ℝ) (hD : 0 ≤ D) (hS : 0 ≤ S)
    (hG : Grouped (realRows X) grp (D ^ 2) (S ^ 2)) (hDe : growth u (X.cols + 4) * D < m.eps.1) (heS : growth u (X.cols + 4) * m.eps.1 ≤ S)
    (hsz : ∀ x ∈ realRows X, m.minPoints ≤ (groupOf (realRows X) grp x).length) :
    ∃ labels : List ℕ, SaysGroups (realRows X) grp labels ∧ (∃ fuel₀, ∀ fuel, fuel₀ ≤ fuel → ∃ m', dbTrain fuel m X = some (ok m')) ∧
      ∀ fuel r, dbTrain fuel m X = some r → ∃ m', r = ok m' ∧ m'.clusters = some (labels.map some) := by
  obtain ⟨near, L, h1, h2, hL, hrun, hres⟩ := C86_dbscan h m X hX
  have hlen : (realRows X).length = X.rows.length := by simp [realRows]
  have hget : ∀ i, i < X.rows.length → (realRows X).getD i [] ∈ realRows X ∧ reals (X.rows.getD i []) = (realRows X).getD i [] := by
    intro i hi
    rw [getD_lt [] (hlen ▸ hi), getD_lt [] hi]
    exact ⟨List.getElem_mem _, by simp [realRows]⟩
  have hg := growth_pos h (X.cols + 4)
  obtain ⟨labels, e1, e2⟩ := density_says_groups (rows := realRows X) (grp := grp) (minPts := m.minPoints) (near := near) (L := L) (by rw [hlen]; exact hL) (by
    intro i j hi hj
    obtain ⟨a1, a2⟩ := hget i (hlen ▸ hi)
    obtain ⟨b1, b2⟩ := hget j (hlen ▸ hj)
    constructor
    · intro hn
      have hlt := h2 i j hn
      unfold sampleDist at hlt
      rw [a2, b2] at hlt
      by_contra hne
      have := le_eucl_of_sq hS (hG.far _ a1 _ b1 hne)
      linarith
    · intro he
      apply h1 i j
      unfold sampleDist
      rw [a2, b2]
      exact (mul_le_mul_of_nonneg_left (eucl_le_of_sq hD (hG.near _ a1 _ b1 he)) hg.le).trans_lt hDe) hsz
  exact ⟨labels, e1, hrun, e2 ▸ hres⟩

/-! ### The hypotheses are met -/

theorem growth_tiny (m : ℕ) (hm : m ≤ 20) : growth (1 / 2 ^ 52) m ≤ 1 + 1 / 1000 := by
  have hm' : (m : ℝ) ≤ 20 := by exact_mod_cast hm
  have h1 : (m : ℝ) * (1 / 2 ^ 52) ≤ 1 / 2000 := by
    refine (mul_le_mul_of_nonneg_right hm' (by positivity)).trans ?_
    norm_num
  refine (C86_growth C86_witness.1 m (by linarith)).2.1.trans ?_
  rw [div_le_iff₀ (by linarith)]
  nlinarith

theorem fl_tiny : fl0.1 = 0 ∧ 9 / 10 ≤ fl1.1 ∧ fl1.1 ≤ 11 / 10 ∧ 15 ≤ fl16.1 ∧ fl16.1 ≤ 17 := by
  have hg := growth_tiny 1 (by norm_num)
  have h1 : AgreeUpTo (growth (1 / 2 ^ 52) 1) fl1.1 1 := agree_fl C86_witness.1 zero_le_one
  have h2 : AgreeUpTo (growth (1 / 2 ^ 52) 1) fl16.1 (16 : ℕ) := ofNat_agree C86_witness.1 16
  have p1 : 0 < fl1.1 := fl_pos C86_witness.1 one_pos
  have p2 : 0 < fl16.1 := fl_pos C86_witness.1 (by norm_num : (0 : ℝ) < (16 : ℕ))
  refine ⟨rfl, ?_, ?_, ?_, ?_⟩
  · have := h1.2; nlinarith
  · have := h1.1; linarith
  · have := h2.2; push_cast at this; nlinarith
  · have := h2.1; push_cast at this; linarith

/-- 0 and 1 are a group and so is 16. -/
noncomputable def lowHigh : Mat (Fl (truncBits 52)) := ⟨1, [[fl16], [fl0], [fl1]]⟩
noncomputable def isHigh (x : List ℝ) : ℕ := if x.getD 0 0 < 5 then 0 else 1

theorem isHigh_vals : isHigh [fl16.1] = 1 ∧ isHigh [fl0.1] = 0 ∧ isHigh [fl1.1] = 0 := by
  obtain ⟨h0, h1, h2, h3, h4⟩ := fl_tiny
  refine ⟨if_neg ?_, if_pos ?_, if_pos ?_⟩ <;> simp only [List.getD_cons_zero] <;> linarith

theorem lowHigh_wf : lowHigh.WF := by
  intro r hr
  simp only [lowHigh, List.mem_cons, List.not_mem_nil, or_false] at hr
  rcases hr with rfl | rfl | rfl <;> rfl

theorem lowHigh_grouped : Grouped (realRows lowHigh) isHigh ((6 / 5) ^ 2) (13 ^ 2) := by
  obtain ⟨h0, h1, h2, h3, h4⟩ := fl_tiny
  obtain ⟨v1, v2, v3⟩ := isHigh_vals
  constructor
  · intro x hx y hy he
    simp only [realRows, lowHigh, List.map_cons, List.map_nil, List.mem_cons, List.not_mem_nil, or_false, reals] at hx hy
    rcases hx with rfl | rfl | rfl <;> rcases hy with rfl | rfl | rfl <;> simp only [v1, v2, v3] at he <;>
      (simp only [sqDist, List.zipWith_cons_cons, List.zipWith_nil_left, List.sum_cons, List.sum_nil]; nlinarith)
  · intro x hx y hy he
    simp only [realRows, lowHigh, List.map_cons, List.map_nil, List.mem_cons, List.not_mem_nil, or_false, reals] at hx hy
    rcases hx with rfl | rfl | rfl <;> rcases hy with rfl | rfl | rfl <;> simp only [v1, v2, v3] at he <;>
      first | (exact absurd rfl he) | (simp only [sqDist, List.zipWith_cons_cons, List.zipWith_nil_left, List.sum_cons, List.sum_nil]; nlinarith)

/-- k-means from the second and the first row. -/
example : ∃ m' labels, kmTrain (fun _ _ => ok ⟨1, [[fl1], [fl16]]⟩) (⟨100, 2, none⟩ : KMeans (Fl (truncBits 52))) lowHigh = (m', ok ()) ∧
    kmPredict m' lowHigh = ok labels ∧ SaysGroups (realRows lowHigh) isHigh labels := by
  obtain ⟨h0, h1, h2, h3, h4⟩ := fl_tiny
  obtain ⟨v1, v2, v3⟩ := isHigh_vals
  have g1 := growth_tiny (1 + 3) (by norm_num)
  have g2 := growth_tiny (3 + 2) (by norm_num)
  obtain ⟨m', C, labels, e1, -, -, -, e2, e3, -⟩ := C136_kmeans (grp := isHigh) C86_witness.1 (fun _ _ => ok ⟨1, [[fl1], [fl16]]⟩)
    (⟨100, 2, none⟩ : KMeans (Fl (truncBits 52))) lowHigh lowHigh_wf (by norm_num) (6 / 5) 13 17 (by norm_num) (by norm_num) (by norm_num) (by
      intro x hx
      simp only [realRows, lowHigh, List.map_cons, List.map_nil, List.mem_cons, List.not_mem_nil, or_false, reals] at hx
      rcases hx with rfl | rfl | rfl <;> simp only [List.map_cons, List.map_nil, List.sum_cons, List.sum_nil] <;> nlinarith) lowHigh_grouped (by
      change (growth _ (1 + 3) + 1) * (6 / 5 + (growth _ (3 + 2) - 1) * 17) < 13
      have p := one_le_growth C86_witness.1 (1 + 3)
      nlinarith) [[fl1], [fl16]] (by simp) (by
      refine ⟨?_, ?_, ?_⟩
      · simp [realRows, lowHigh, reals]
      · simp [reals, v1, v3]
      · simp [realRows, lowHigh, reals, v1, v2, v3]) rfl rfl
  exact ⟨m', labels, e1, e2, e3⟩

/-- DBSCAN with a radius of about 2 (here 1 + 1). -/
example : ∃ labels : List ℕ, SaysGroups (realRows lowHigh) isHigh labels ∧
    ∀ fuel r, dbTrain fuel ⟨Scalar.ofNat 2, 1, none, false, [], none⟩ lowHigh = some r → ∃ m', r = ok m' ∧ m'.clusters = some (labels.map some) := by
  have g1 := growth_tiny (1 + 4) (by norm_num)
  have g0 := growth_tiny 1 (by norm_num)
  have h2 : AgreeUpTo (growth (1 / 2 ^ 52) 1) (Scalar.ofNat 2 : Fl (truncBits 52)).1 (2 : ℕ) := ofNat_agree C86_witness.1 2
  have a := h2.1
  have b := h2.2
  push_cast at a b
  have pos : 0 < (Scalar.ofNat 2 : Fl (truncBits 52)).1 := fl_pos C86_witness.1 (by norm_num : (0 : ℝ) < (2 : ℕ))
  obtain ⟨labels, e1, -, e2⟩ := C136_dbscan (grp := isHigh) C86_witness.1 ⟨Scalar.ofNat 2, 1, none, false, [], none⟩ lowHigh lowHigh_wf (6 / 5) 13 (by norm_num)
    (by norm_num) lowHigh_grouped (by change growth _ (1 + 4) * _ < (Scalar.ofNat 2 : Fl (truncBits 52)).1; nlinarith)
    (by change growth _ (1 + 4) * (Scalar.ofNat 2 : Fl (truncBits 52)).1 ≤ _; nlinarith [one_le_growth C86_witness.1 (1 + 4)]) (by
      intro x hx
      exact List.length_pos_iff.2 (List.ne_nil_of_mem (List.mem_filter.2 ⟨hx, by simp⟩)))
  exact ⟨labels, e1, e2⟩

/-- One neighbour: 0 is classified like 1. -/
example : ∃ c, knnTrain bruteSearcher ⟨1, none, none⟩ (⟨1, [[fl16], [fl1]]⟩ : Mat (Fl (truncBits 52))) [7, 3] = (c, ok ()) ∧
    knnPredict bruteSearcher c ⟨1, [[fl0]]⟩ = ok [3] := by
  obtain ⟨h0, h1, h2, h3, h4⟩ := fl_tiny
  refine C136_knn C86_witness.1 1 le_rfl _ [7, 3] rfl (by decide) ⟨1, [[fl0]]⟩ (by unfold Mat.WF; simp) [3] (List.Forall₂.cons ⟨{1}, by simp, by simp, ?_⟩ List.Forall₂.nil)
  intro i hi j c hj hc
  have hi : i = 1 := by simpa using hi
  subst hi
  have hj : j = 0 := by
    rcases j with _ | _ | j
    · rfl
    · simp at hj; exact absurd hj.symm hc
    · simp at hj
  subst hj
  have hg := growth_tiny (2 * (1 + 4)) (by norm_num)
  have e1 : eucl (reals [fl0]) (reals [fl1]) = fl1.1 := by simp [reals, eucl_one, h0, abs_of_nonneg (by linarith : 0 ≤ fl1.1)]
  have e2 : eucl (reals [fl0]) (reals [fl16]) = fl16.1 := by simp [reals, eucl_one, h0, abs_of_nonneg (by linarith : 0 ≤ fl16.1)]
  change growth _ (2 * (1 + 4)) * eucl (reals [fl0]) (reals [fl1]) < eucl (reals [fl0]) (reals [fl16])
  rw [e1, e2]
  nlinarith

end RM
