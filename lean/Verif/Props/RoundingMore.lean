import Verif.Props.Rounding
import Verif.Props.Stability
import Mathlib.Topology.Algebra.Order.Field

/-! C86, continued: networks, support vector machines, variances, scores and distributions computed with rounding. -/

namespace RM
open Outcome Scalar Spec
variable {R : Rounding} {u : ℝ}

/-! ### Specification -/

/-- The rounded function `A'` computes `A`: off by at most the fraction `rel` of the exact value; `A` is nowhere steeper than `slope`. -/
structure Spec.RoundedActiv (A' : Activ (Fl R)) (A : Activ ℝ) (slope rel : ℝ) : Prop where
  slope_nonneg : 0 ≤ slope
  steep : ∀ a b : ℝ, |A.func a - A.func b| ≤ slope * |a - b|
  close : ∀ x : Fl R, |(A'.func x).1 - A.func x.1| ≤ rel * |A.func x.1|

/-- The same layer for rounded and for exact numbers. -/
inductive Spec.SameLayer (R : Rounding) (slope rel : Activ ℝ → ℝ) : NetLayer (Fl R) → NetLayer ℝ → Prop
  | linear (k o : ℕ) (bias : Bool) : SameLayer R slope rel (.linear k o bias) (.linear k o bias)
  | activ {A' : Activ (Fl R)} {A : Activ ℝ} (h : RoundedActiv A' A (slope A) (rel A)) : SameLayer R slope rel (.activ A') (.activ A)

/-- How far the outputs of a network can be off when the inputs are at most `B` in size and off by at most `e`: every layer passes the error on, multiplied by its
gain, and adds its own roundings. -/
noncomputable def Spec.netError (u : ℝ) (slope rel : Activ ℝ → ℝ) : List (NetLayer ℝ) → List ℝ → ℝ → ℝ → ℝ
  | [], _, _, e => e
  | .linear k o bias :: ls, w, B, e =>
    netError u slope rel ls (w.drop (k * o)) (layerGain k o false w * max B 1)
      (layerGain k o bias w * e + (growth u (k + 2) - 1) * (layerGain k o false w * (max B 1 + e)))
  | .activ A :: ls, w, B, e =>
    netError u slope rel ls w (|A.func 0| + slope A * B) (slope A * e + rel A * (|A.func 0| + slope A * (B + e)))

/-! ### Networks -/

theorem reals_getD (l : List (Fl R)) (i : ℕ) : (reals l).getD i 0 = (l.getD i Scalar.zero).1 := by
  by_cases hi : i < l.length
  · rw [getD_lt _ hi, getD_lt _ (by simpa [reals] using hi)]; simp [reals]
  · rw [getD_ge (l := l) _ (by omega), getD_ge _ (by simpa [reals] using hi)]; rfl

theorem reals_drop (l : List (Fl R)) (n : ℕ) : reals (l.drop n) = (reals l).drop n := by simp [reals]

/-- A weighted sum of numbers of size at most `B`. -/
theorem wsum_size {B : ℝ} (hB : 0 ≤ B) : ∀ (w x : List ℝ), (∀ t ∈ x, |t| ≤ B) →
    (List.zipWith (fun a c => |a * c|) w x).sum ≤ (w.map fun a => |a|).sum * B
  | [], x, _ => by simp
  | a :: w, [], _ => by
    simp only [List.zipWith_nil_right, List.sum_nil]
    exact mul_nonneg (List.sum_nonneg (by simp only [List.mem_map]; rintro _ ⟨t, -, rfl⟩; positivity)) hB
  | a :: w, c :: x, h => by
    have ih := wsum_size hB w x fun t ht => h t (by simp [ht])
    simp only [List.zipWith_cons_cons, List.sum_cons, List.map_cons, abs_mul, add_mul]
    rw [show (fun a c : ℝ => |a| * |c|) = fun a c => |a * c| from by funext a c; rw [abs_mul]]
    have := mul_le_mul_of_nonneg_left (h c (by simp)) (abs_nonneg a)
    linarith

theorem wdot_size {B : ℝ} (hB : 0 ≤ B) (w x : List ℝ) (h : ∀ t ∈ x, |t| ≤ B) :
    |(List.zipWith (· * ·) x w).sum| ≤ (w.map fun a => |a|).sum * B := by
  refine le_trans ?_ (wsum_size hB w x h)
  clear h
  induction w generalizing x with
  | nil => simp
  | cons a w ih =>
    cases x with
    | nil => simp
    | cons c x =>
      simp only [List.zipWith_cons_cons, List.sum_cons]
      refine (abs_add_le _ _).trans (add_le_add (le_of_eq (by rw [mul_comm])) (ih x))

/-- One output of a linear layer: rounded against exact, at the same rounded inputs. -/
theorem layer_round (h : Precise R u) (bias : Bool) (k o j : ℕ) (w x : List (Fl R)) (hx : (if bias then x.length + 1 else x.length) = k) {B : ℝ} (hB1 : 1 ≤ B)
    (hB : ∀ t ∈ reals x, |t| ≤ B) :
    |(dot (if bias then Scalar.one :: x else x) ((List.range k).map fun i => w.getD (i * o + j) Scalar.zero)).1 -
      dot (if bias then Scalar.one :: reals x else reals x) ((List.range k).map fun i => (reals w).getD (i * o + j) 0)| ≤
      (growth u (k + 2) - 1) * (((List.range k).map fun i => |(reals w).getD (i * o + j) 0|).sum * B) := by
  have hg0 : 0 ≤ growth u (k + 2) - 1 := by linarith [one_le_growth h (k + 2)]
  have hB0 : (0 : ℝ) ≤ B := by linarith
  have hr : ∀ f : ℕ → ℕ, reals ((List.range k).map fun i => w.getD (f i) Scalar.zero) = (List.range k).map fun i => (reals w).getD (f i) 0 := by
    intro f
    rw [reals, List.map_map]
    exact List.map_congr_left fun i _ => (reals_getD w (f i)).symm
  cases bias with
  | false =>
    simp only [Bool.false_eq_true, if_false] at hx ⊢
    have h1 := C86_dot h x ((List.range k).map fun i => w.getD (i * o + j) Scalar.zero)
    rw [hr (fun i => i * o + j)] at h1
    rw [dot_real]
    refine h1.trans ?_
    have h2 := wsum_size hB0 ((List.range k).map fun i => (reals w).getD (i * o + j) 0) (reals x) hB
    rw [List.map_map, List.zipWith_comm] at h2
    have h3 : (List.zipWith (fun x y => |x * y|) (reals x) ((List.range k).map fun i => (reals w).getD (i * o + j) 0)).sum ≤
        ((List.range k).map fun i => |(reals w).getD (i * o + j) 0|).sum * B := by
      refine le_trans (le_of_eq ?_) h2
      congr 2
      funext a b
      rw [mul_comm]
    refine mul_le_mul ?_ h3 ?_ hg0
    · have := growth_mono h (show x.length + 1 ≤ k + 2 by omega)
      linarith
    · refine List.sum_nonneg fun t ht => ?_
      rw [← List.map_uncurry_zip_eq_zipWith] at ht
      obtain ⟨q, -, rfl⟩ := List.mem_map.1 ht
      exact abs_nonneg _
  | true =>
    simp only [if_true] at hx ⊢
    subst hx
    rw [List.range_succ_eq_map]
    simp only [List.map_cons, List.map_map, Function.comp_def, List.sum_cons]
    have h1 := (affine_err h (w.getD (0 * o + j) Scalar.zero) ((List.range x.length).map fun i => w.getD (Nat.succ i * o + j) Scalar.zero) x (by simp)).2
    have hr' : reals ((List.range x.length).map fun i => w.getD (Nat.succ i * o + j) Scalar.zero) = (List.range x.length).map fun i => (reals w).getD (Nat.succ i * o + j) 0 := by
      rw [reals, List.map_map]
      exact List.map_congr_left fun i _ => (reals_getD w _).symm
    rw [hr', ← reals_getD, List.length_map, List.length_range] at h1
    have h2 := wsum_size hB0 ((List.range x.length).map fun i => (reals w).getD (Nat.succ i * o + j) 0) (reals x) hB
    rw [List.map_map] at h2
    have h3 : dot (Scalar.one :: reals x) ((reals w).getD (0 * o + j) 0 :: (List.range x.length).map fun i => (reals w).getD (Nat.succ i * o + j) 0) =
        (reals w).getD (0 * o + j) 0 + (List.zipWith (· * ·) ((List.range x.length).map fun i => (reals w).getD (Nat.succ i * o + j) 0) (reals x)).sum := by
      rw [dot_real, List.zipWith_cons_cons, List.sum_cons, List.zipWith_comm]
      congr 1
      · exact one_mul _
      · simp only [mul_comm]
    rw [h3]
    refine h1.trans (mul_le_mul_of_nonneg_left ?_ hg0)
    rw [add_mul]
    refine add_le_add ?_ h2
    exact le_mul_of_one_le_right (abs_nonneg _) hB1

theorem netRow_round (h : Precise R u) (slope rel : Activ ℝ → ℝ) (hrel : ∀ A, 0 ≤ rel A) {ls' : List (NetLayer (Fl R))} {ls : List (NetLayer ℝ)}
    (hs : List.Forall₂ (SameLayer R slope rel) ls' ls) : ∀ {c d : ℕ}, LinesUp ls' c d → ∀ (w x' : List (Fl R)) (x : List ℝ) (B e : ℝ), 0 ≤ e → 0 ≤ B → x'.length = c → x.length = c →
      (∀ i < c, |x.getD i 0| ≤ B ∧ |(x'.getD i Scalar.zero).1 - x.getD i 0| ≤ e) →
      (netRow ls (reals w) x).length = (netRow ls' w x').length ∧
      ∀ i < (netRow ls' w x').length, |((netRow ls' w x').getD i Scalar.zero).1 - (netRow ls (reals w) x).getD i 0| ≤ netError u slope rel ls (reals w) B e := by
  induction hs with
  | nil =>
    intro c d hl w x' x B e he hB h1 h2 h3
    simp only [netRow, netError]
    exact ⟨by omega, fun i hi => (h3 i (by omega)).2⟩
  | cons hsl hs ih =>
    intro c d hl w x' x B e he hB h1 h2 h3
    cases hsl with
    | activ hA =>
      rename_i A' A
      cases hl with
      | activ _ hl =>
        simp only [netRow, netError]
        refine ih hl w (x'.map A'.func) (x.map A.func) _ _ ?_ ?_ (by simpa using h1) (by simpa using h2) ?_
        · have := hA.slope_nonneg
          have := hrel A
          positivity
        · have := hA.slope_nonneg
          positivity
        · intro i hi
          have hi1 : i < x'.length := by omega
          have hi2 : i < x.length := by omega
          have e1 : (x'.map A'.func).getD i Scalar.zero = A'.func (x'.getD i Scalar.zero) := by simp [List.getD_eq_getElem?_getD, hi1]
          have e2 : (x.map A.func).getD i 0 = A.func (x.getD i 0) := by simp [List.getD_eq_getElem?_getD, hi2]
          rw [e1, e2]
          obtain ⟨b1, b2⟩ := h3 i hi
          have s0 := hA.slope_nonneg
          have size : ∀ t : ℝ, |A.func t| ≤ |A.func 0| + slope A * |t| := by
            intro t
            have := hA.steep t 0
            rw [sub_zero] at this
            have h4 : |A.func t| ≤ |A.func t - A.func 0| + |A.func 0| := by
              have := abs_add_le (A.func t - A.func 0) (A.func 0)
              simpa using this
            linarith
          refine ⟨(size _).trans (by gcongr), ?_⟩
          have h5 := hA.close (x'.getD i Scalar.zero)
          have h6 := hA.steep (x'.getD i Scalar.zero).1 (x.getD i 0)
          have h7 : |(x'.getD i Scalar.zero).1| ≤ B + e := by
            have := abs_add_le ((x'.getD i Scalar.zero).1 - x.getD i 0) (x.getD i 0)
            rw [sub_add_cancel] at this
            linarith
          have h8 : rel A * |A.func (x'.getD i Scalar.zero).1| ≤ rel A * (|A.func 0| + slope A * (B + e)) :=
            mul_le_mul_of_nonneg_left ((size _).trans (by gcongr)) (hrel A)
          have h9 : slope A * |(x'.getD i Scalar.zero).1 - x.getD i 0| ≤ slope A * e := mul_le_mul_of_nonneg_left b2 s0
          have h10 := abs_sub_le (A'.func (x'.getD i Scalar.zero)).1 (A.func (x'.getD i Scalar.zero).1) (A.func (x.getD i 0))
          linarith
    | linear k o bias =>
      cases hl with
      | linear _ hk hl =>
        simp only [netRow, netError]
        rw [← reals_drop]
        refine ih hl (w.drop (k * o)) _ _ _ _ ?_ ?_ (by simp) (by simp) ?_
        · have := foldr_max_nonneg
          have g1 : 0 ≤ layerGain k o bias (reals w) := foldr_max_nonneg _
          have g2 : 0 ≤ layerGain k o false (reals w) := foldr_max_nonneg _
          have g3 : 0 ≤ growth u (k + 2) - 1 := by linarith [one_le_growth h (k + 2)]
          have g4 : 0 ≤ max B 1 := hB.trans (le_max_left _ _)
          positivity
        · exact mul_nonneg (foldr_max_nonneg _) (hB.trans (le_max_left _ _))
        · intro j hj
          have e1 : ∀ f : ℕ → ℝ, ((List.range o).map f).getD j 0 = f j := fun f => by simp [List.getD_eq_getElem?_getD, hj]
          have e2 : ∀ f : ℕ → Fl R, ((List.range o).map f).getD j Scalar.zero = f j := fun f => by simp [List.getD_eq_getElem?_getD, hj]
          have hx1 : ∀ t ∈ reals x', |t| ≤ max B 1 + e := by
            intro t ht
            obtain ⟨i, hi, rfl⟩ := List.getElem_of_mem ht
            have hi' : i < x'.length := by simpa [reals] using hi
            obtain ⟨b1, b2⟩ := h3 i (by omega)
            have e3 : (reals x')[i] = (x'.getD i Scalar.zero).1 := by rw [← reals_getD, getD_lt _ hi]
            rw [e3]
            have := abs_add_le ((x'.getD i Scalar.zero).1 - x.getD i 0) (x.getD i 0)
            rw [sub_add_cancel] at this
            linarith [le_max_left B 1]
          have hx2 : ∀ t ∈ x, |t| ≤ max B 1 := by
            intro t ht
            obtain ⟨i, hi, rfl⟩ := List.getElem_of_mem ht
            have := (h3 i (by omega)).1
            rw [getD_lt _ hi] at this
            exact this.trans (le_max_left _ _)
          have hj' : j < ((List.range o).map fun j => dot (if bias then Scalar.one :: reals x' else reals x')
              ((List.range k).map fun i => (reals w).getD (i * o + j) Scalar.zero)).length := by simpa using hj
          have hmove := (netRow_move slope [.linear k o bias] (reals w) (reals x') x e he (by simp) (by simp [reals]; omega) (by
            intro i hi
            rw [reals_getD]
            exact (h3 i (by simp [reals] at hi; omega)).2)).2 j (by simpa [netRow] using hj)
          simp only [netRow, netGain, mul_one] at hmove
          rw [e1, e1] at hmove
          rw [e1, e2]
          have hround := layer_round h bias k o j w x' (by rw [h1]; exact hk) (B := max B 1 + e) (by linarith [le_max_right B 1]) hx1
          have hg : (((List.range k)).map fun i => |(reals w).getD (i * o + j) 0|).sum ≤ layerGain k o false (reals w) := by
            refine le_foldr_max (List.mem_map.mpr ⟨j, List.mem_range.mpr hj, ?_⟩)
            simp
          have g3 : 0 ≤ growth u (k + 2) - 1 := by linarith [one_le_growth h (k + 2)]
          have g4 : 0 ≤ max B 1 := hB.trans (le_max_left _ _)
          constructor
          · rw [dot_real]
            refine (wdot_size g4 ((List.range k).map fun i => (reals w).getD (i * o + j) Scalar.zero) (if bias then Scalar.one :: x else x) ?_).trans ?_
            · cases bias with
              | false => simpa using hx2
              | true =>
                intro t ht
                rcases List.mem_cons.1 ht with rfl | ht
                · exact le_trans (le_of_eq abs_one) (le_max_right _ _)
                · exact hx2 t ht
            · rw [List.map_map]
              exact mul_le_mul_of_nonneg_right hg g4
          · have h10 := abs_sub_le (dot (if bias then Scalar.one :: x' else x') ((List.range k).map fun i => w.getD (i * o + j) Scalar.zero)).1
              (dot (if bias then Scalar.one :: reals x' else reals x') ((List.range k).map fun i => (reals w).getD (i * o + j) 0))
              (dot (if bias then Scalar.one :: x else x) ((List.range k).map fun i => (reals w).getD (i * o + j) 0))
            have h11 : (growth u (k + 2) - 1) * ((((List.range k)).map fun i => |(reals w).getD (i * o + j) 0|).sum * (max B 1 + e)) ≤
                (growth u (k + 2) - 1) * (layerGain k o false (reals w) * (max B 1 + e)) :=
              mul_le_mul_of_nonneg_left (mul_le_mul_of_nonneg_right hg (by linarith)) g3
            have h12 := hround.trans h11
            refine h10.trans ?_
            rw [add_comm (layerGain k o bias (reals w) * e)]
            exact add_le_add h12 hmove

theorem linesUp_same {slope rel : Activ ℝ → ℝ} {ls' : List (NetLayer (Fl R))} {ls : List (NetLayer ℝ)} (hs : List.Forall₂ (SameLayer R slope rel) ls' ls) :
    ∀ {c d : ℕ}, LinesUp ls' c d → LinesUp ls c d ∧ totalParams ls = totalParams ls' := by
  induction hs with
  | nil => intro c d h; cases h; exact ⟨.nil _, rfl⟩
  | cons hsl hs ih =>
    intro c d h
    cases hsl with
    | linear k o bias =>
      cases h with
      | linear _ hk h =>
        obtain ⟨h1, h2⟩ := ih h
        exact ⟨.linear _ hk h1, by simpa [totalParams] using h2⟩
    | activ hA =>
      cases h with
      | activ _ h =>
        obtain ⟨h1, h2⟩ := ih h
        exact ⟨.activ _ h1, by simpa [totalParams] using h2⟩

/-- **C86 (networks).** The outputs of a network computed with rounding differ from those of the same network computed exactly by at most `netError`. -/
theorem C86_network (h : Precise R u) (slope rel : Activ ℝ → ℝ) (hrel : ∀ A, 0 ≤ rel A) (net : BaseNet (Fl R)) (exact : BaseNet ℝ)
    (hs : List.Forall₂ (SameLayer R slope rel) net.layers exact.layers) (hwt : exact.weights = reals net.weights)
    {n c d : ℕ} {X : Mat (Fl R)} (hX : HasShape X n c) (hl : LinesUp net.layers c d) (hw : net.weights.length = totalParams net.layers)
    {B : ℝ} (hB0 : 0 ≤ B) (hB : ∀ r ∈ X.rows, ∀ t ∈ r, |t.1| ≤ B) :
    ∃ Y Y', net.forwardProp X = ok Y ∧ exact.forwardProp ⟨c, realRows X⟩ = ok Y' ∧ HasShape Y n d ∧ HasShape Y' n d ∧
      ∀ i < n, ∀ j < d, |entryR Y i j - (Y'.rows.getD i []).getD j 0| ≤ netError u slope rel exact.layers exact.weights B 0 := by
  obtain ⟨hl', ht⟩ := linesUp_same hs hl
  have hX' : HasShape (⟨c, realRows X⟩ : Mat ℝ) n c := by
    refine ⟨by simp [realRows, hX.1], rfl, ?_⟩
    intro r hr
    obtain ⟨x, hx, rfl⟩ := List.mem_map.mp hr
    simpa [reals] using hX.2.2 x hx
  refine ⟨_, _, forwardProp_ok hX hl hw, forwardProp_ok hX' hl' (by rw [hwt, ht, ← hw]; simp [reals]), ?_, ?_, ?_⟩
  · refine ⟨by simp [hX.1], rfl, ?_⟩
    intro r hr
    obtain ⟨x, hx, rfl⟩ := List.mem_map.mp hr
    exact netRow_length hl _ _ (hX.2.2 x hx)
  · refine ⟨by simp [realRows, hX.1], rfl, ?_⟩
    intro r hr
    obtain ⟨x, hx, rfl⟩ := List.mem_map.mp hr
    exact netRow_length hl' _ _ (hX'.2.2 x hx)
  · intro i hi j hj
    have hi' : i < X.rows.length := by rw [hX.1]; exact hi
    have hx := hX.2.2 X.rows[i] (List.getElem_mem hi')
    have e1 : (X.rows.map (netRow net.layers net.weights)).getD i [] = netRow net.layers net.weights X.rows[i] := by
      simp [List.getD_eq_getElem?_getD, hi']
    have e2 : ((realRows X).map (netRow exact.layers exact.weights)).getD i [] = netRow exact.layers exact.weights (reals X.rows[i]) := by
      simp [List.getD_eq_getElem?_getD, hi', realRows]
    simp only [entryR]
    rw [e1, e2, hwt]
    refine (netRow_round h slope rel hrel hs hl net.weights X.rows[i] (reals X.rows[i]) B 0 le_rfl hB0 hx (by simpa [reals] using hx) ?_).2 j ?_
    · intro t ht
      have ht' : t < (X.rows[i]).length := by omega
      rw [reals_getD, sub_self, abs_zero]
      refine ⟨?_, le_rfl⟩
      rw [getD_lt _ ht']
      exact hB _ (List.getElem_mem hi') _ (List.getElem_mem ht')
    · rw [netRow_length hl _ _ hx]
      exact hj

/-- **C86 (activations).** The sigmoid, the identity and the hyperbolic tangent with rounding: four roundings, none and one. -/
theorem C86_activations (h : Precise R u) : RoundedActiv (R := R) sigmoid sigmoid (1 / 4) (growth u 4 - 1) ∧
    RoundedActiv (R := R) linearActiv linearActiv 1 0 ∧ RoundedActiv (R := R) tanhActiv tanhActiv 1 u := by
  refine ⟨⟨by norm_num, C108_slopes.1, fun x => ?_⟩, ⟨by norm_num, C108_slopes.2.1, fun x => ?_⟩, ⟨by norm_num, C108_slopes.2.2.1, fun x => ?_⟩⟩
  · have h1 := sigmoid_agree h x
    have e : (sigmoid.func x.1 : ℝ) = 1 / (1 + Real.exp (-x.1)) := rfl
    have hp : 0 < 1 / (1 + Real.exp (-x.1)) := by positivity
    rw [e, abs_of_pos hp]
    exact agree_err (one_le_growth h 4) hp.le h1
  · simp [linearActiv]
  · exact h.rel (Real.tanh x.1)

/-- The error bound vanishes with the unit of rounding: nothing but rounding is in it. -/
theorem C86_network_limit (slope : Activ ℝ → ℝ) (m : Activ ℝ → ℕ) (ls : List (NetLayer ℝ)) (w : List ℝ) (B : ℝ) :
    Filter.Tendsto (fun u => netError u slope (fun A => growth u (m A) - 1) ls w B 0) (nhds 0) (nhds 0) := by
  have hg : ∀ k, Filter.Tendsto (fun u => growth u k - 1) (nhds 0) (nhds 0) := by
    intro k
    have hc : ContinuousAt (fun u : ℝ => growth u k - 1) 0 := by
      unfold growth
      refine ContinuousAt.sub (ContinuousAt.pow (ContinuousAt.div continuousAt_const (by fun_prop) (by norm_num)) k) continuousAt_const
    have := hc.tendsto
    simpa [growth] using this
  have key : ∀ (ls : List (NetLayer ℝ)) (w : List ℝ) (B : ℝ) (e : ℝ → ℝ), Filter.Tendsto e (nhds 0) (nhds 0) →
      Filter.Tendsto (fun u => netError u slope (fun A => growth u (m A) - 1) ls w B (e u)) (nhds 0) (nhds 0) := by
    intro ls
    induction ls with
    | nil => intro w B e he; exact he
    | cons l ls ih =>
      intro w B e he
      cases l with
      | linear k o bias =>
        simp only [netError]
        refine ih _ _ (fun u => layerGain k o bias w * e u + (growth u (k + 2) - 1) * (layerGain k o false w * (max B 1 + e u))) ?_
        have h1 := (he.const_mul (layerGain k o bias w)).add ((hg (k + 2)).mul ((he.const_add (max B 1)).const_mul (layerGain k o false w)))
        simpa using h1
      | activ A =>
        simp only [netError]
        refine ih _ _ (fun u => slope A * e u + (growth u (m A) - 1) * (|A.func 0| + slope A * (B + e u))) ?_
        have h1 := (he.const_mul (slope A)).add ((hg (m A)).mul (((he.const_add B).const_mul (slope A)).const_add |A.func 0|))
        simpa using h1
  exact key ls w B (fun _ => 0) tendsto_const_nhds

/-! ### Support vector machines -/

/-- **C86 (SVM).** Let the rounded kernel values be off by what `m` roundings make of their sizes. If the decision value of a row, computed exactly from the
stored multipliers, is larger than what `m + n + 3` roundings make of the sizes of its terms, then rounding does not change the predicted class. -/
theorem C86_svm (h : Precise R u) (s : Svm (Fl R)) (alpha y : List (Fl R)) (T : Mat (Fl R)) (ha : s.alpha = some alpha) (hy : s.trainTargets = some y) (hT : s.trainInputs = some T)
    (hal : alpha.length = T.rows.length) (hyl : y.length = T.rows.length) (hlam : 0 < s.lambda.1)
    (k K : List (Fl R) → List (Fl R) → ℝ) (m : ℕ) (Z : Mat (Fl R)) (hZ : Z.WF) (hc : T.cols = Z.cols + 1)
    (hk : ∀ z ∈ Z.rows, ∀ t ∈ T.rows, ∃ v : Fl R, s.ker (Scalar.one :: z) t = ok v ∧ |k z t| ≤ K z t ∧ |v.1 - k z t| ≤ (growth u m - 1) * K z t) :
    ∃ p, s.predict Z = ok p ∧ List.Forall₂ (fun z (q : Fl R) =>
      (growth u (m + T.rows.length + 3) - 1) * ((List.range T.rows.length).map fun i =>
          K z (T.rows.getD i []) * (|(reals alpha).getD i 0 * (reals y).getD i 0| / s.lambda.1)).sum <
        |((List.range T.rows.length).map fun i => k z (T.rows.getD i []) * ((reals alpha).getD i 0 * (reals y).getD i 0 / s.lambda.1)).sum| →
      (0 < ((List.range T.rows.length).map fun i => k z (T.rows.getD i []) * ((reals alpha).getD i 0 * (reals y).getD i 0 / s.lambda.1)).sum → q = Scalar.one) ∧
      (((List.range T.rows.length).map fun i => k z (T.rows.getD i []) * ((reals alpha).getD i 0 * (reals y).getD i 0 / s.lambda.1)).sum < 0 → q = Scalar.neg Scalar.one)) Z.rows p := by
  set vf : List (Fl R) → List (Fl R) → Fl R := fun z t => match s.ker (Scalar.one :: z) t with | .ok v => v | _ => Scalar.zero with hvf
  have hv : ∀ z ∈ Z.rows, ∀ t ∈ T.rows, s.ker (Scalar.one :: z) t = ok (vf z t) ∧ Err u m (K z t) (vf z t).1 (k z t) := by
    intro z hz t ht
    obtain ⟨v, v1, v2, v3⟩ := hk z hz t ht
    have : vf z t = v := by simp only [hvf, v1]
    rw [this]
    exact ⟨v1, v2, v3⟩
  set W : List (Fl R) := (List.zipWith Scalar.mul alpha y).map fun x => x /. s.lambda with hW
  refine ⟨Z.rows.map fun z => signum (dot (T.rows.map (vf z)) W), ?_, ?_⟩
  · unfold Svm.predict
    rw [withOnes_eq]
    simp only [ok_bind, ha, hy, hT]
    unfold kerMat
    rw [if_neg (by simp [hc])]
    simp only [List.mapM_map]
    rw [mapM_ok_map ((fun r1 => T.rows.mapM fun r2 => s.ker r1 r2) ∘ fun x => Scalar.one :: x) (fun z => T.rows.map (vf z)) _ (fun z hz => mapM_ok_map _ _ _ fun t ht => (hv z hz t ht).1)]
    simp only [ok_bind, vecZip, Mat.mulVec]
    rw [if_pos (by omega)]
    simp only [ok_bind]
    rw [if_pos (by simp; omega)]
    simp only [ok_bind, List.map_map]
    rfl
  · rw [List.forall₂_map_right_iff, List.forall₂_same]
    intro z hz
    have hWl : W.length = T.rows.length := by simp [hW, hal, hyl]
    have hdot : dot (T.rows.map (vf z)) W = fsum ((List.range T.rows.length).map fun i => vf z (T.rows.getD i []) *. W.getD i Scalar.zero) := by
      unfold dot
      congr 1
      apply List.ext_getElem (by simp [hWl])
      intro i h1 h2
      have hi : i < T.rows.length := by simpa using h2
      simp [hi, hWl]
    have hWi : ∀ i < T.rows.length, Err u 2 (|(reals alpha).getD i 0 * (reals y).getD i 0| / s.lambda.1) (W.getD i Scalar.zero).1
        ((reals alpha).getD i 0 * (reals y).getD i 0 / s.lambda.1) := by
      intro i hi
      have e : W.getD i Scalar.zero = (alpha.getD i Scalar.zero *. y.getD i Scalar.zero) /. s.lambda := by
        simp [hW, hi, hal, hyl]
      rw [e, reals_getD, reals_getD]
      refine err_fl h ?_
      have := err_div' h (err_fl h (err_exact u ((alpha.getD i Scalar.zero).1 * (y.getD i Scalar.zero).1))) hlam hlam (k := 0)
        (by rw [growth_zero]; exact AgreeUpTo.refl _)
      exact this
    have herr := err_fsum_map h (m := m + 2 + 1) (List.range T.rows.length) (fun i => vf z (T.rows.getD i []) *. W.getD i Scalar.zero)
      (fun i => k z (T.rows.getD i []) * ((reals alpha).getD i 0 * (reals y).getD i 0 / s.lambda.1))
      (fun i => K z (T.rows.getD i []) * (|(reals alpha).getD i 0 * (reals y).getD i 0| / s.lambda.1)) (by
        intro i hi
        have hi : i < T.rows.length := List.mem_range.1 hi
        have h1 := (hv z hz (T.rows.getD i []) (by rw [getD_lt _ hi]; exact List.getElem_mem hi)).2
        exact err_fl h (err_mul' h h1 (hWi i hi)))
    rw [← hdot, List.length_range] at herr
    have h2 := herr.2
    rw [show m + 2 + 1 + T.rows.length = m + T.rows.length + 3 by omega] at h2
    set f := ((List.range T.rows.length).map fun i => k z (T.rows.getD i []) * ((reals alpha).getD i 0 * (reals y).getD i 0 / s.lambda.1)).sum with hf
    set d := dot (T.rows.map (vf z)) W with hd
    intro hbig
    have hlt := abs_lt.1 (lt_of_le_of_lt h2 hbig)
    have hsig : signum d = if d.1 < 0 then Scalar.neg Scalar.one else Scalar.one := by
      unfold signum
      change (if false = true then d else if decide (d.1 < 0) = true then _ else _) = _
      simp
    rw [hsig]
    constructor
    · intro hp
      rw [abs_of_pos hp] at hlt
      rw [if_neg (by linarith [hlt.1])]
    · intro hp
      rw [abs_of_neg hp] at hlt
      rw [if_pos (by linarith [hlt.2])]

/-! ### Kernels -/

/-- **C86 (linear kernel).** -/
theorem C86_linear_kernel (h : Precise R u) (c : Fl R) (a b : List (Fl R)) (hab : a.length = b.length) :
    ∃ v, linearKernel c a b = ok v ∧
      |v.1 - ((List.zipWith (· * ·) (reals a) (reals b)).sum + c.1)| ≤ (growth u (a.length + 2) - 1) * ((List.zipWith (fun x y => |x * y|) (reals a) (reals b)).sum + |c.1|) := by
  refine ⟨_, rfl, ?_⟩
  have h1 := err_fsum_zipWith h (m := 1) (fun x y : Fl R => x *. y) (fun x y => x.1 * y.1) (fun x y => |x.1 * y.1|)
    (fun x y => err_fl h (err_exact u (x.1 * y.1))) a b
  have h2 := err_fl h (err_add' h1 (err_mono h (Nat.zero_le _) (err_exact u c.1)))
  have h3 := (err_mono h (k := a.length + 2) (by omega) h2).2
  rw [reals, reals, List.zipWith_map, List.zipWith_map]
  exact h3

/-! ### Accuracy -/

/-- **C86 (accuracy).** Three roundings; and rounding never reverses the order of two predictions for the same targets. -/
theorem C86_accuracy (h : Precise R u) {T : Type} (eqb : T → T → Bool) (outputs outputs' targets : List T) (hl : outputs.length = targets.length)
    (hl' : outputs'.length = targets.length) (hn : targets ≠ []) :
    ∃ (s s' : Fl R) (a a' : ℝ), accuracy eqb outputs targets = ok s ∧ accuracy eqb outputs' targets = ok s' ∧ accuracy eqb outputs targets = ok a ∧ accuracy eqb outputs' targets = ok a' ∧
      AgreeUpTo (growth u 3) s.1 a ∧ (a ≤ a' → s.1 ≤ s'.1) := by
  have hn' : (0 : ℝ) < targets.length := by
    have := List.length_pos_iff.2 hn
    exact_mod_cast this
  have e : ∀ {F : Type} [Scalar F] (o : List T), o.length = targets.length → accuracy (F := F) eqb o targets =
      ok (Scalar.ofNat ((o.zip targets).filter fun p => eqb p.1 p.2).length /. Scalar.ofNat targets.length) := by
    intro F _ o ho
    unfold accuracy
    rw [ho]
    simp
  refine ⟨_, _, _, _, e _ hl, e _ hl', e _ hl, e _ hl', ?_, ?_⟩
  · have h1 := agree_div (ofNat_agree h ((outputs.zip targets).filter fun p => eqb p.1 p.2).length) (ofNat_agree h targets.length) (fl_nonneg R (Nat.cast_nonneg _))
      (Nat.cast_nonneg _) (fl_pos h hn') hn'
    rw [← growth_add] at h1
    exact agree_fl_trans h (div_nonneg (fl_nonneg R (Nat.cast_nonneg _)) (fl_nonneg R hn'.le)) h1
  · intro hle
    have hle' : (((outputs.zip targets).filter fun p => eqb p.1 p.2).length : ℝ) / targets.length ≤ (((outputs'.zip targets).filter fun p => eqb p.1 p.2).length : ℝ) / targets.length := hle
    rw [div_le_div_iff_of_pos_right hn'] at hle'
    exact R.mono (div_le_div_of_nonneg_right (R.mono hle') (fl_nonneg R hn'.le))

/-! ### The exponential distribution -/

/-- A number known up to the fraction `u`, in the exponent. -/
theorem exp_err (hu0 : 0 ≤ u) (hu1 : u < 1) {t s : ℝ} (ht : 0 ≤ t) (hs : |s - t| ≤ u * t) : |Real.exp (-s) - Real.exp (-t)| ≤ u / (1 - u) := by
  have hpos : 0 < 1 - u := by linarith
  have hst := abs_le.1 hs
  have key : ∀ a b : ℝ, (1 - u) * t ≤ a → a ≤ b → b - a ≤ u * t → |Real.exp (-a) - Real.exp (-b)| ≤ u / (1 - u) := by
    intro a b h1 h2 h3
    have hm : Real.exp (-b) ≤ Real.exp (-a) := Real.exp_le_exp.2 (by linarith)
    rw [abs_of_nonneg (by linarith)]
    have e1 : Real.exp (-b) = Real.exp (-a) * Real.exp (-(b - a)) := by rw [← Real.exp_add]; congr 1; ring
    have h4 := Real.add_one_le_exp (-(b - a))
    have h5 : Real.exp (-a) - Real.exp (-b) ≤ Real.exp (-a) * (b - a) := by
      rw [e1]
      nlinarith [Real.exp_pos (-a)]
    have h6 : Real.exp (-a) ≤ Real.exp (-((1 - u) * t)) := Real.exp_le_exp.2 (by linarith)
    have h7 : Real.exp (-((1 - u) * t)) * ((1 - u) * t) ≤ 1 := by
      have := Real.add_one_le_exp ((1 - u) * t)
      rw [Real.exp_neg, inv_mul_le_iff₀ (Real.exp_pos _)]
      linarith
    rw [le_div_iff₀ hpos]
    calc (Real.exp (-a) - Real.exp (-b)) * (1 - u) ≤ (Real.exp (-((1 - u) * t)) * (u * t)) * (1 - u) := by
          refine mul_le_mul_of_nonneg_right (h5.trans ?_) hpos.le
          exact mul_le_mul h6 h3 (by linarith) (Real.exp_pos _).le
      _ = u * (Real.exp (-((1 - u) * t)) * ((1 - u) * t)) := by ring
      _ ≤ u * 1 := mul_le_mul_of_nonneg_left h7 hu0
      _ = u := mul_one u
  rcases le_total s t with hc | hc
  · exact key s t (by linarith [hst.1]) hc (by linarith [hst.1])
  · rw [abs_sub_comm]
    exact key t s (by nlinarith) hc (by linarith [hst.2])

/-- **C86 (exponential distribution).** The distribution function is computed with an absolute error of at most four roundings of one, whatever the rate and the argument. -/
theorem C86_exponential_cdf (h : Precise R u) (d : ExpDist (Fl R)) (hd : 0 ≤ d.lambda.1) (x : Fl R) (hx : 0 ≤ x.1) :
    ∃ p, d.cdf x = ok p ∧ |p.1 - (1 - Real.exp (-(d.lambda.1 * x.1)))| ≤ growth u 4 - 1 := by
  have hle : (Scalar.zero <=. x) = true := decide_eq_true hx
  have hu0 := h.nonneg
  have hu1 := h.lt_one
  refine ⟨Scalar.one -. Scalar.exp (Scalar.neg x *. d.lambda), ?_, ?_⟩
  · unfold ExpDist.cdf
    rw [hle]
    rfl
  · set t := d.lambda.1 * x.1 with ht
    have ht0 : 0 ≤ t := mul_nonneg hd hx
    set s := -(Scalar.neg x *. d.lambda).1 with hs
    have e1 : s = R.fl t := by
      rw [hs, ht]
      change -R.fl (-x.1 * d.lambda.1) = _
      rw [← R.odd]
      congr 1
      ring
    have hs0 : 0 ≤ s := by rw [e1]; exact fl_nonneg R ht0
    have h1 : |s - t| ≤ u * t := by
      have := h.rel t
      rw [abs_of_nonneg ht0] at this
      rw [e1]; exact this
    have h2 := exp_err hu0 hu1 ht0 h1
    set p := R.fl (Real.exp (-s)) with hp
    have hexp : Real.exp (-s) ≤ 1 := by rw [← Real.exp_zero]; exact Real.exp_le_exp.2 (by linarith)
    have h3 : |p - Real.exp (-s)| ≤ u := by
      refine (h.rel _).trans ?_
      rw [abs_of_pos (Real.exp_pos _)]
      nlinarith
    have h4 := h.rel 1
    rw [abs_one, mul_one] at h4
    have hp1 : p ≤ R.fl 1 := R.mono hexp
    have hp0 : 0 ≤ p := fl_nonneg R (Real.exp_pos _).le
    have h5 := h.rel (R.fl 1 - p)
    rw [abs_of_nonneg (sub_nonneg.2 hp1)] at h5
    have e2 : (Scalar.one -. Scalar.exp (Scalar.neg x *. d.lambda)).1 = R.fl (R.fl 1 - p) := by
      rw [hp, hs, neg_neg]
      rfl
    rw [e2]
    have hv : u / (1 - u) = u + u * (u / (1 - u)) := by
      have : (1 - u) ≠ 0 := by linarith
      field_simp
      ring
    have hv0 : u ≤ u / (1 - u) := by rw [le_div_iff₀ (by linarith)]; nlinarith
    have hg : 4 * (u / (1 - u)) ≤ growth u 4 - 1 := by
      have e3 : 1 / (1 - u) = 1 + u / (1 - u) := by
        have : (1 - u) ≠ 0 := by linarith
        field_simp
        ring
      unfold growth
      rw [e3]
      have := one_add_mul_le_pow (a := u / (1 - u)) (by linarith) 4
      push_cast at this
      linarith
    have a1 := abs_le.1 h2
    have a2 := abs_le.1 h3
    have a3 := abs_le.1 h4
    have a4 := abs_le.1 h5
    have a5 : u * (R.fl 1 - p) ≤ u / (1 - u) := by
      have : u * (R.fl 1 - p) ≤ u * (1 + u) := mul_le_mul_of_nonneg_left (by linarith) hu0
      have : u * u ≤ u * (u / (1 - u)) := mul_le_mul_of_nonneg_left hv0 hu0
      linarith
    rw [abs_le]
    constructor <;> linarith

/-! ### Variances -/

/-- **C86 (variance).** The computed variance of a column against the exact one. The rounding of the mean enters with its square. -/
theorem C86_variance (h : Precise R u) (X : Mat (Fl R)) (hX : X.WF) (hn : 2 ≤ X.rows.length) (j : ℕ) (hj : j < X.cols) :
    ∃ v δ, X.varianceRow = ok v ∧
      |δ| ≤ (growth u (X.rows.length + 2) - 1) * (((realRows X).map fun r => |r.getD j 0|).sum / X.rows.length) ∧
      AgreeUpTo (growth u (X.rows.length + 5)) (v.getD j Scalar.zero).1
        ((((realRows X).map fun r => (r.getD j 0 - ((realRows X).map fun r => r.getD j 0).sum / X.rows.length) ^ 2).sum + X.rows.length * δ ^ 2) / (X.rows.length - 1)) := by
  have hcol : colOf X.rows j = X.rows.map fun r => r.getD j Scalar.zero := by
    unfold colOf
    have hw : ∀ r ∈ X.rows, j < r.length := fun r hr => by rw [hX r hr]; exact hj
    generalize X.rows = rows at hw
    induction rows with
    | nil => rfl
    | cons r rows ih =>
      have hr := hw r (by simp)
      rw [List.filterMap_cons_some (by rw [List.getElem?_eq_getElem hr]), ih (fun s hs => hw s (by simp [hs])), List.map_cons,
        getD_lt _ hr]
  have hn' : (0 : ℝ) < X.rows.length := by exact_mod_cast (by omega : 0 < X.rows.length)
  have hn1 : (0 : ℝ) < ((X.rows.length - 1 : ℕ) : ℝ) := by exact_mod_cast (by omega : 0 < X.rows.length - 1)
  set mu : Fl R := fsum (colOf X.rows j) /. Scalar.ofNat X.rows.length with hmu
  have hm : X.meanRow.getD j Scalar.zero = mu := by
    unfold Mat.meanRow Mat.sumRows
    rw [getD_lt _ (by simpa using hj)]
    simp [hmu]
  have hmean := C86_mean h X hX (by omega) j hj
  rw [hm] at hmean
  set M := ((realRows X).map fun r => r.getD j 0).sum / X.rows.length with hM
  have hv : ∃ v, X.varianceRow = ok v ∧ v.getD j Scalar.zero = fsum (X.rows.map fun r => (r.getD j Scalar.zero -. mu) *. (r.getD j Scalar.zero -. mu)) /. Scalar.ofNat (X.rows.length - 1) := by
    refine ⟨_, if_neg (by omega), ?_⟩
    rw [getD_lt _ (by simpa using hj)]
    simp only [List.getElem_map, List.getElem_range]
    rw [hcol, List.map_map] 
    congr 2
    rw [hmu, hcol]
    rfl
  obtain ⟨v, v1, v2⟩ := hv
  refine ⟨v, mu.1 - M, v1, hmean, ?_⟩
  rw [v2]
  obtain ⟨s0, s1⟩ := agree_fsum h (m := 3) (fun r : List (Fl R) => (r.getD j Scalar.zero -. mu) *. (r.getD j Scalar.zero -. mu)) (fun r => ((r.getD j Scalar.zero).1 - mu.1) ^ 2) X.rows
    (fun r _ => sq_agree h _ mu)
  have hs : (X.rows.map fun r => ((r.getD j Scalar.zero).1 - mu.1) ^ 2).sum =
      ((realRows X).map fun r => (r.getD j 0 - M) ^ 2).sum + X.rows.length * (mu.1 - M) ^ 2 := by
    have hz : ∀ l : List ℝ, ∀ m : ℝ, (l.map fun t => (t - m) ^ 2).sum = (l.map fun t => (t - M) ^ 2).sum - 2 * (m - M) * (l.sum - l.length * M) + l.length * (m - M) ^ 2 := by
      intro l m
      induction l with
      | nil => simp
      | cons a l ih =>
        simp only [List.map_cons, List.sum_cons, List.length_cons, ih]
        push_cast
        ring
    have e1 : ∀ f : ℝ → ℝ, (X.rows.map fun r => f (r.getD j Scalar.zero).1) = (((realRows X).map fun r => r.getD j 0).map f) := by
      intro f
      simp only [realRows, List.map_map, Function.comp_def, reals_getD]
    have e2 := hz ((realRows X).map fun r => r.getD j 0) mu.1
    rw [e1 (fun t => (t - mu.1) ^ 2), e2, List.map_map]
    have e3 : ((realRows X).map fun r => r.getD j 0).sum - (((realRows X).map fun r => r.getD j 0).length : ℝ) * M = 0 := by
      rw [hM]
      simp only [realRows, List.length_map]
      field_simp
      ring
    rw [e3, mul_zero, sub_zero]
    simp [realRows, Function.comp_def]
  rw [hs] at s1
  have hE0 : 0 ≤ ((realRows X).map fun r => (r.getD j 0 - M) ^ 2).sum + X.rows.length * (mu.1 - M) ^ 2 := by
    rw [← hs]
    refine List.sum_nonneg fun t ht => ?_
    obtain ⟨r, -, rfl⟩ := List.mem_map.1 ht
    positivity
  have hq := agree_div s1 (ofNat_agree h (X.rows.length - 1)) s0 hE0 (fl_pos h hn1) hn1
  rw [← growth_add] at hq
  have hq := agree_fl_trans h (div_nonneg s0 (fl_nonneg R hn1.le)) hq
  rw [show 3 + X.rows.length + 1 + 1 = X.rows.length + 5 by omega] at hq
  have e4 : ((X.rows.length - 1 : ℕ) : ℝ) = (X.rows.length : ℝ) - 1 := by
    rw [Nat.cast_sub (by omega)]; simp
  rw [← e4]
  exact hq

/-! ### The hypotheses are met -/

/-- A network with two hidden sigmoid units and any weights, in arithmetic with 53 bits, on an input of size at most 1. -/
example (w : List (Fl (truncBits 52))) (hw : w.length = 7) (x : Fl (truncBits 52)) (hx : |x.1| ≤ 1) : ∃ Y Y',
    (⟨[.new 1 2, .activ sigmoid, .new 2 1], w, ⟨.mse, .none⟩⟩ : BaseNet (Fl (truncBits 52))).forwardProp ⟨1, [[x]]⟩ = ok Y ∧
    (⟨[.new 1 2, .activ sigmoid, .new 2 1], reals w, ⟨.mse, .none⟩⟩ : BaseNet ℝ).forwardProp ⟨1, [[x.1]]⟩ = ok Y' ∧
    |entryR Y 0 0 - (Y'.rows.getD 0 []).getD 0 0| ≤
      netError (1 / 2 ^ 52) (fun _ => 1 / 4) (fun _ => growth (1 / 2 ^ 52) 4 - 1) [.new 1 2, .activ sigmoid, .new 2 1] (reals w) 1 0 := by
  have hg : 0 ≤ growth (1 / 2 ^ 52) 4 - 1 := by linarith [one_le_growth C86_witness.1 4]
  obtain ⟨Y, Y', h1, h2, -, -, h3⟩ := C86_network C86_witness.1 (fun _ => 1 / 4) (fun _ => growth (1 / 2 ^ 52) 4 - 1) (fun _ => hg)
    ⟨[.new 1 2, .activ sigmoid, .new 2 1], w, ⟨.mse, .none⟩⟩ ⟨[.new 1 2, .activ sigmoid, .new 2 1], reals w, ⟨.mse, .none⟩⟩
    (.cons (.linear 2 2 true) (.cons (.activ (C86_activations C86_witness.1).1) (.cons (.linear 3 1 true) .nil))) rfl
    (n := 1) (c := 1) (d := 1) (X := ⟨1, [[x]]⟩) ⟨rfl, rfl, by simp⟩ (.linear true rfl (.activ _ (.linear true rfl (.nil 1)))) (by rw [hw]; rfl)
    (B := 1) (by norm_num) (by intro r hr t ht; simp at hr; subst hr; simp at ht; subst ht; exact hx)
  exact ⟨Y, Y', h1, h2, h3 0 (by norm_num) 0 (by norm_num)⟩

/-- A machine with a linear kernel trained on the two rows 1 and -1 with multipliers 1: rows far enough from 0 get their class. -/
example (lam c : Fl (truncBits 52)) (hl : 0 < lam.1) (a y z t q : Fl (truncBits 52)) : ∃ p,
    Svm.predict ⟨linearKernel c, lam, 100, some [a], some ⟨2, [[t, q]]⟩, some [y]⟩ (⟨1, [[z]]⟩ : Mat (Fl (truncBits 52))) = ok [p] ∧
    ((growth (1 / 2 ^ 52) 8 - 1) * ((|(Scalar.one : Fl (truncBits 52)).1 * t.1| + |z.1 * q.1| + |c.1|) * (|a.1 * y.1| / lam.1)) <
        |((Scalar.one : Fl (truncBits 52)).1 * t.1 + z.1 * q.1 + c.1) * (a.1 * y.1 / lam.1)| →
      0 < ((Scalar.one : Fl (truncBits 52)).1 * t.1 + z.1 * q.1 + c.1) * (a.1 * y.1 / lam.1) → p = Scalar.one) := by
  obtain ⟨p, h1, h2⟩ := C86_svm C86_witness.1 ⟨linearKernel c, lam, 100, some [a], some ⟨2, [[t, q]]⟩, some [y]⟩ [a] [y] ⟨2, [[t, q]]⟩ rfl rfl rfl rfl rfl hl
    (fun z t => (List.zipWith (· * ·) (reals (Scalar.one :: z)) (reals t)).sum + c.1)
    (fun z t => (List.zipWith (fun x y => |x * y|) (reals (Scalar.one :: z)) (reals t)).sum + |c.1|) 4 ⟨1, [[z]]⟩ (by intro r hr; simp at hr; subst hr; rfl) rfl (by
      intro z' hz' t' ht'
      simp at hz' ht'
      subst hz' ht'
      obtain ⟨v, v1, v2⟩ := C86_linear_kernel C86_witness.1 c [Scalar.one, z] [t, q] rfl
      refine ⟨v, v1, ?_, v2⟩
      refine (abs_add_le _ _).trans (add_le_add ?_ le_rfl)
      simpa [reals] using abs_add_le ((Scalar.one : Fl (truncBits 52)).1 * t.1) (z.1 * q.1))
  obtain ⟨p, rfl⟩ : ∃ p', p = [p'] := by
    cases h2 with
    | cons _ h => cases h; exact ⟨_, rfl⟩
  refine ⟨p, h1, ?_⟩
  cases h2 with
  | cons h3 _ =>
    intro hbig hpos
    refine (h3 ?_).1 ?_
    · simpa [reals, add_assoc] using hbig
    · simpa [reals, add_assoc] using hpos

/-- The variance of two numbers, with 53 bits. -/
example (x y : Fl (truncBits 52)) : ∃ v δ : ℝ, ∃ w, (⟨1, [[x], [y]]⟩ : Mat (Fl (truncBits 52))).varianceRow = ok w ∧ v = (w.getD 0 Scalar.zero).1 ∧
    |δ| ≤ (growth (1 / 2 ^ 52) 4 - 1) * ((|x.1| + |y.1|) / 2) ∧
    AgreeUpTo (growth (1 / 2 ^ 52) 7) v ((x.1 - (x.1 + y.1) / 2) ^ 2 + (y.1 - (x.1 + y.1) / 2) ^ 2 + 2 * δ ^ 2) := by
  obtain ⟨w, δ, h1, h2, h3⟩ := C86_variance C86_witness.1 (⟨1, [[x], [y]]⟩ : Mat (Fl (truncBits 52))) (by intro r hr; simp at hr; rcases hr with rfl | rfl <;> rfl) (by simp) 0 (by simp)
  refine ⟨_, δ, w, h1, rfl, by simpa [realRows, reals] using h2, ?_⟩
  have e : (1 : ℝ) + 1 - 1 = 1 := by norm_num
  simpa [realRows, reals, add_assoc, one_add_one_eq_two, show (2 : ℝ) - 1 = 1 by norm_num] using h3

/-- The exponential distribution with 53 bits: an absolute error of at most `2⁻⁴⁹`. -/
example (l x : Fl (truncBits 52)) (hl : 0 ≤ l.1) (hx : 0 ≤ x.1) : ∃ p, (⟨l⟩ : ExpDist (Fl (truncBits 52))).cdf x = ok p ∧ |p.1 - (1 - Real.exp (-(l.1 * x.1)))| ≤ 1 / 2 ^ 49 := by
  obtain ⟨p, h1, h2⟩ := C86_exponential_cdf C86_witness.1 ⟨l⟩ hl x hx
  refine ⟨p, h1, h2.trans ((C86_growth C86_witness.1 4 (by norm_num)).2.2.trans ?_)⟩
  norm_num

end RM
