import Verif.Props.HiddenUnits
import Verif.Props.KMeans
import Verif.Props.Dbscan
import Verif.Props.KNN
import Verif.Props.Svm
import Verif.Props.Gp
import Verif.Props.Score
import Verif.Props.Activ
import Verif.Props.MoreData
import Mathlib.Analysis.Calculus.MeanValue
import Mathlib.Analysis.SpecialFunctions.Trigonometric.DerivHyp

/-! C108: how much predictions can change when inputs or targets change a little. -/

namespace RM
open Outcome Scalar Spec Matrix

/-! ### Specification -/

/-- The Euclidean length of a list of numbers. -/
noncomputable def Spec.norm2 (w : List ℝ) : ℝ := Real.sqrt ((w.map (· ^ 2)).sum)

/-- The largest sum of absolute weights into one output of a layer with `k` inputs, of which the first is the constant if `bias`, and `o` outputs. -/
noncomputable def Spec.layerGain (k o : ℕ) (bias : Bool) (w : List ℝ) : ℝ :=
  ((List.range o).map fun j => (((List.range k).drop (if bias then 1 else 0)).map fun i => |w.getD (i * o + j) 0|).sum).foldr max 0

/-- The product over the layers: the largest sum of absolute weights for a linear layer, the steepest slope for an activation. -/
noncomputable def Spec.netGain (slope : Activ ℝ → ℝ) : List (NetLayer ℝ) → List ℝ → ℝ
  | [], _ => 1
  | .linear k o bias :: ls, w => layerGain k o bias w * netGain slope ls (w.drop (k * o))
  | .activ A :: ls, w => slope A * netGain slope ls w

/-! ### Distances -/

theorem eucl_triangle (u v w : List ℝ) (h : u.length = v.length) : eucl u w ≤ eucl u v + eucl v w := by
  have := knnDist_triangle u v w h
  simpa only [C19_C21_C22_distance_is_euclidean] using this

theorem eucl_nonneg (u v : List ℝ) : 0 ≤ eucl u v := Real.sqrt_nonneg _

theorem eucl_move (z z' x : List ℝ) (h : z.length = z'.length) : |eucl z x - eucl z' x| ≤ eucl z z' := by
  have h1 := eucl_triangle z z' x h
  have h2 := eucl_triangle z' z x h.symm
  rw [eucl_comm z' z] at h2
  rw [abs_le]
  constructor <;> linarith

theorem sqSum_nonneg (u v : List ℝ) : 0 ≤ (List.zipWith (fun x y => (x - y) ^ 2) u v).sum := by
  apply List.sum_nonneg
  intro a ha
  obtain ⟨i, hi, rfl⟩ := List.mem_iff_getElem.1 ha
  simp only [List.getElem_zipWith]
  exact sq_nonneg _

/-- Cauchy and Schwarz, for two points and a list of weights. -/
theorem inner_move : ∀ (w x x' : List ℝ), x.length = x'.length → (Spec.inner x w - Spec.inner x' w) ^ 2 ≤
    (w.map (· ^ 2)).sum * (List.zipWith (fun a b => (a - b) ^ 2) x x').sum
  | w, [], [], _ => by simp [Spec.inner]
  | _, [], _ :: _, h => by simp at h
  | _, _ :: _, [], h => by simp at h
  | [], a :: x, b :: x', _ => by simp [Spec.inner]
  | v :: w, a :: x, b :: x', h => by
    have ih := inner_move w x x' (by simpa using h)
    have hw : 0 ≤ (w.map (· ^ 2)).sum := List.sum_nonneg (by simp only [List.mem_map]; rintro _ ⟨t, -, rfl⟩; positivity)
    have hd := sqSum_nonneg x x'
    simp only [Spec.inner, List.zipWith_cons_cons, List.sum_cons, List.map_cons] at ih ⊢
    set W := (w.map (· ^ 2)).sum
    set D := (List.zipWith (fun a b => (a - b) ^ 2) x x').sum
    set s := (List.zipWith (· * ·) x w).sum
    set s' := (List.zipWith (· * ·) x' w).sum
    have e : a * v + s - (b * v + s') = v * (a - b) + (s - s') := by ring
    rw [e]
    have h1 : 2 * (v * (a - b)) * (s - s') ≤ v ^ 2 * D + W * (a - b) ^ 2 := by
      have hle : |s - s'| ≤ Real.sqrt W * Real.sqrt D := by
        rw [← Real.sqrt_mul hw]
        exact Real.abs_le_sqrt ih
      have h2 : 2 * (v * (a - b)) * (s - s') ≤ 2 * (|v| * |a - b|) * (Real.sqrt W * Real.sqrt D) := by
        calc 2 * (v * (a - b)) * (s - s') ≤ |2 * (v * (a - b)) * (s - s')| := le_abs_self _
          _ = 2 * (|v| * |a - b|) * |s - s'| := by rw [abs_mul, abs_mul, abs_mul]; norm_num
          _ ≤ _ := by gcongr
      have h3 := sq_nonneg (|v| * Real.sqrt D - Real.sqrt W * |a - b|)
      have e1 := Real.sq_sqrt hw
      have e2 := Real.sq_sqrt hd
      have e3 := sq_abs v
      have e4 := sq_abs (a - b)
      nlinarith
    nlinarith

theorem affine_move (b : ℝ) (w x x' : List ℝ) (h : x.length = x'.length) :
    |affine (b :: w) x - affine (b :: w) x'| ≤ norm2 w * eucl x x' := by
  have e : affine (b :: w) x - affine (b :: w) x' = Spec.inner x w - Spec.inner x' w := by simp [affine]
  have hw : 0 ≤ (w.map (· ^ 2)).sum := List.sum_nonneg (by simp only [List.mem_map]; rintro _ ⟨t, -, rfl⟩; positivity)
  rw [e]
  unfold norm2 eucl
  rw [← Real.sqrt_mul hw]
  exact Real.abs_le_sqrt (inner_move w x x' h)

/-! ### Regression -/

theorem getD_map_row {X : Mat ℝ} {f : List ℝ → ℝ} {i : ℕ} (h : i < X.rows.length) : (X.rows.map f).getD i 0 = f (X.rows.getD i []) := by
  simp [List.getD_eq_getElem?_getD, h]

/-- **C108 (linear regression).** When a row moves, its prediction moves by at most the length of the slopes times the distance. -/
theorem C108_linear (b : ℝ) (w : List ℝ) {X X' : Mat ℝ} {n : ℕ} (hX : HasShape X n w.length) (hX' : HasShape X' n w.length) :
    ∃ p p', LinReg.predict ⟨some (b :: w)⟩ X = ok p ∧ LinReg.predict ⟨some (b :: w)⟩ X' = ok p' ∧
      ∀ i < n, |p.getD i 0 - p'.getD i 0| ≤ norm2 w * eucl (X.rows.getD i []) (X'.rows.getD i []) := by
  obtain ⟨x1, x2, x3⟩ := hX
  obtain ⟨y1, y2, y3⟩ := hX'
  refine ⟨_, _, C48_predict (b :: w) X (by simp [x2]), C48_predict (b :: w) X' (by simp [y2]), fun i hi => ?_⟩
  have h1 : i < X.rows.length := by omega
  have h2 : i < X'.rows.length := by omega
  rw [getD_map_row h1, getD_map_row h2]
  refine affine_move b w _ _ ?_
  have a1 := x3 (X.rows.getD i []) (by simp [List.getD_eq_getElem?_getD, h1])
  have a2 := y3 (X'.rows.getD i []) (by simp [List.getD_eq_getElem?_getD, h2])
  omega

/-- The logistic function is nowhere steeper than `1/4`. -/
theorem sigmoid_move (a b : ℝ) : |sigmoid.func a - sigmoid.func b| ≤ 1 / 4 * |a - b| := by
  have hd : ∀ x : ℝ, HasDerivAt (fun t : ℝ => sigmoid.func t) (sigmoid.funcGrad x) x := fun x => C41_sigmoid.deriv x
  have hb : ∀ x : ℝ, ‖(sigmoid.funcGrad x : ℝ)‖ ≤ 1 / 4 := by
    intro x
    have e : (sigmoid.funcGrad x : ℝ) = (1 / (1 + Real.exp (-x))) * (1 - 1 / (1 + Real.exp (-x))) := rfl
    set y := 1 / (1 + Real.exp (-x)) with hy
    have hpos : 0 < 1 + Real.exp (-x) := by positivity
    have h0 : 0 ≤ y := by positivity
    have h1 : y ≤ 1 := by
      rw [hy, div_le_one hpos]
      have := Real.exp_pos (-x)
      linarith
    rw [e, Real.norm_eq_abs, abs_of_nonneg (mul_nonneg h0 (by linarith))]
    nlinarith [sq_nonneg (y - 1 / 2)]
  have := Convex.norm_image_sub_le_of_norm_hasDerivWithin_le (f := fun t : ℝ => (sigmoid.func t : ℝ)) (s := Set.univ) (C := 1 / 4)
    (fun x _ => (hd x).hasDerivWithinAt) (fun x _ => hb x) convex_univ (Set.mem_univ b) (Set.mem_univ a)
  simpa [Real.norm_eq_abs] using this

theorem tanh_move (a b : ℝ) : |tanhActiv.func a - tanhActiv.func b| ≤ 1 * |a - b| := by
  have hd : ∀ x : ℝ, HasDerivAt (fun t : ℝ => tanhActiv.func t) (tanhActiv.funcGrad x) x := fun x => C41_tanh.deriv x
  have hb : ∀ x : ℝ, ‖(tanhActiv.funcGrad x : ℝ)‖ ≤ 1 := by
    intro x
    have e : (tanhActiv.funcGrad x : ℝ) = 1 - Real.tanh x * Real.tanh x := rfl
    have h1 := Real.neg_one_lt_tanh x
    have h2 := Real.tanh_lt_one x
    rw [e, Real.norm_eq_abs, abs_of_nonneg (by nlinarith)]
    nlinarith [mul_self_nonneg (Real.tanh x)]
  have := Convex.norm_image_sub_le_of_norm_hasDerivWithin_le (f := fun t : ℝ => (tanhActiv.func t : ℝ)) (s := Set.univ) (C := 1)
    (fun x _ => (hd x).hasDerivWithinAt) (fun x _ => hb x) convex_univ (Set.mem_univ b) (Set.mem_univ a)
  simpa [Real.norm_eq_abs] using this

/-- **C108 (logistic regression).** When a row moves, its probability moves by at most a quarter of the length of the slopes times the distance. -/
theorem C108_logistic (b : ℝ) (w : List ℝ) {X X' : Mat ℝ} {n : ℕ} (hX : HasShape X n w.length) (hX' : HasShape X' n w.length) :
    ∃ p p', LogReg.predict ⟨some (b :: w)⟩ X = ok p ∧ LogReg.predict ⟨some (b :: w)⟩ X' = ok p' ∧
      ∀ i < n, |p.getD i 0 - p'.getD i 0| ≤ 1 / 4 * (norm2 w * eucl (X.rows.getD i []) (X'.rows.getD i [])) := by
  have hp : ∀ Y : Mat ℝ, Y.cols = w.length → LogReg.predict ⟨some (b :: w)⟩ Y = ok (Y.rows.map fun x => sigmoid.func (affine (b :: w) x)) := by
    intro Y hY
    unfold LogReg.predict
    dsimp only
    rw [withOnes_ok, ok_bind]
    unfold Mat.mulVec
    rw [if_pos (by simp [hY]), ok_bind, List.map_map, List.map_map]
    congr 1
    apply List.map_congr_left
    intro x _
    simp only [Function.comp]
    rw [dot_affine x (b :: w) (by simp)]
  obtain ⟨x1, x2, x3⟩ := hX
  obtain ⟨y1, y2, y3⟩ := hX'
  refine ⟨_, _, hp X x2, hp X' y2, fun i hi => ?_⟩
  have h1 : i < X.rows.length := by omega
  have h2 : i < X'.rows.length := by omega
  rw [getD_map_row h1, getD_map_row h2]
  refine (sigmoid_move _ _).trans ?_
  have a1 := x3 (X.rows.getD i []) (by simp [List.getD_eq_getElem?_getD, h1])
  have a2 := y3 (X'.rows.getD i []) (by simp [List.getD_eq_getElem?_getD, h2])
  have := affine_move b w (X.rows.getD i []) (X'.rows.getD i []) (by omega)
  linarith

/-! ### Networks -/

/-- **C108 (activations).** The steepest slopes of the activation functions of the library: `1/4` for the sigmoid, 1 for the identity and for the hyperbolic
tangent; the exponential has none. -/
theorem C108_slopes : (∀ a b : ℝ, |sigmoid.func a - sigmoid.func b| ≤ 1 / 4 * |a - b|) ∧ (∀ a b : ℝ, |linearActiv.func a - linearActiv.func b| ≤ 1 * |a - b|) ∧
    (∀ a b : ℝ, |tanhActiv.func a - tanhActiv.func b| ≤ 1 * |a - b|) ∧
    ∀ L : ℝ, ∃ a b : ℝ, L * |a - b| < |expActiv.func a - expActiv.func b| := by
  refine ⟨sigmoid_move, fun a b => by simp [linearActiv], tanh_move, fun L => ?_⟩
  refine ⟨|L| + 1, |L|, ?_⟩
  have e : (expActiv.func (|L| + 1) : ℝ) - expActiv.func |L| = Real.exp |L| * (Real.exp 1 - 1) := by
    show Real.exp (|L| + 1) - Real.exp |L| = _
    rw [Real.exp_add]; ring
  have h1 := Real.add_one_le_exp |L|
  have h2 := Real.add_one_lt_exp (x := 1) (by norm_num)
  have h3 := le_abs_self L
  have hpos : 0 < Real.exp |L| * (Real.exp 1 - 1) := mul_pos (Real.exp_pos _) (by linarith)
  rw [e, abs_of_pos hpos, show |L| + 1 - |L| = 1 by ring, abs_one, mul_one]
  have := abs_nonneg L
  nlinarith [Real.exp_pos |L|]

theorem le_foldr_max {l : List ℝ} {a : ℝ} (h : a ∈ l) : a ≤ l.foldr max 0 := by
  induction l with
  | nil => simp at h
  | cons b l ih =>
    rcases List.mem_cons.mp h with rfl | h
    · exact le_max_left _ _
    · exact (ih h).trans (le_max_right _ _)

theorem foldr_max_nonneg (l : List ℝ) : 0 ≤ l.foldr max 0 := by
  induction l with
  | nil => simp
  | cons b l ih => exact ih.trans (le_max_right _ _)

/-- A weighted sum moves by at most the sum of the absolute weights times the largest move of a coordinate. -/
theorem dot_sup {δ : ℝ} (hδ : 0 ≤ δ) : ∀ (w x x' : List ℝ), x.length = x'.length → (∀ i < x.length, |x.getD i 0 - x'.getD i 0| ≤ δ) →
    |(List.zipWith (· * ·) x w).sum - (List.zipWith (· * ·) x' w).sum| ≤ (w.map fun a => |a|).sum * δ
  | w, [], [], _, _ => by
    simp only [List.zipWith_nil_left, List.sum_nil, sub_self, abs_zero]
    exact mul_nonneg (List.sum_nonneg (by simp only [List.mem_map]; rintro _ ⟨t, -, rfl⟩; positivity)) hδ
  | _, [], _ :: _, h, _ => by simp at h
  | _, _ :: _, [], h, _ => by simp at h
  | [], a :: x, b :: x', _, _ => by simp
  | v :: w, a :: x, b :: x', h, hd => by
    have ih := dot_sup hδ w x x' (by simpa using h) fun i hi => by simpa using hd (i + 1) (by simpa using hi)
    have h0 := hd 0 (by simp)
    simp only [List.getD_cons_zero] at h0
    simp only [List.zipWith_cons_cons, List.sum_cons, List.map_cons]
    have e : a * v + (List.zipWith (· * ·) x w).sum - (b * v + (List.zipWith (· * ·) x' w).sum) =
        v * (a - b) + ((List.zipWith (· * ·) x w).sum - (List.zipWith (· * ·) x' w).sum) := by ring
    rw [e]
    refine (abs_add_le _ _).trans ?_
    rw [abs_mul, add_mul]
    have := mul_le_mul_of_nonneg_left h0 (abs_nonneg v)
    linarith

theorem netRow_move (slope : Activ ℝ → ℝ) : ∀ (ls : List (NetLayer ℝ)) (w x x' : List ℝ) (δ : ℝ), 0 ≤ δ →
    (∀ A, NetLayer.activ A ∈ ls → 0 ≤ slope A ∧ ∀ a b : ℝ, |A.func a - A.func b| ≤ slope A * |a - b|) → x.length = x'.length →
    (∀ i < x.length, |x.getD i 0 - x'.getD i 0| ≤ δ) →
    (netRow ls w x).length = (netRow ls w x').length ∧
      ∀ i < (netRow ls w x).length, |(netRow ls w x).getD i 0 - (netRow ls w x').getD i 0| ≤ netGain slope ls w * δ
  | [], w, x, x', δ, _, _, hl, h => ⟨hl, fun i hi => by simpa [netRow, netGain] using h i hi⟩
  | .activ A :: ls, w, x, x', δ, hδ, hA, hl, h => by
    obtain ⟨s0, s1⟩ := hA A (by simp)
    simp only [netRow, netGain]
    have := netRow_move slope ls w (x.map A.func) (x'.map A.func) (slope A * δ) (mul_nonneg s0 hδ) (fun B hB => hA B (by simp [hB])) (by simpa using hl) (by
      intro i hi
      have hi1 : i < x.length := by simpa using hi
      have hi2 : i < x'.length := by omega
      have e1 : (x.map A.func).getD i 0 = A.func (x.getD i 0) := by simp [List.getD_eq_getElem?_getD, hi1]
      have e2 : (x'.map A.func).getD i 0 = A.func (x'.getD i 0) := by simp [List.getD_eq_getElem?_getD, hi2]
      rw [e1, e2]
      exact (s1 _ _).trans (mul_le_mul_of_nonneg_left (h i hi1) s0))
    rw [mul_comm (slope A), mul_assoc]
    exact this
  | .linear k o bias :: ls, w, x, x', δ, hδ, hA, hl, h => by
    simp only [netRow, netGain]
    have := netRow_move slope ls (w.drop (k * o))
      ((List.range o).map fun j => dot (if bias then Scalar.one :: x else x) ((List.range k).map fun i => w.getD (i * o + j) Scalar.zero))
      ((List.range o).map fun j => dot (if bias then Scalar.one :: x' else x') ((List.range k).map fun i => w.getD (i * o + j) Scalar.zero))
      (layerGain k o bias w * δ) (mul_nonneg (foldr_max_nonneg _) hδ) (fun B hB => hA B (by simp [hB])) (by simp) (by
      intro j hj
      have hj : j < o := by simpa using hj
      have e : ∀ f : ℕ → ℝ, ((List.range o).map f).getD j 0 = f j := fun f => by simp [List.getD_eq_getElem?_getD, hj]
      rw [e, e, dot_real, dot_real]
      have hg : (((List.range k).drop (if bias then 1 else 0)).map fun i => |w.getD (i * o + j) 0|).sum ≤ layerGain k o bias w :=
        le_foldr_max (List.mem_map.mpr ⟨j, List.mem_range.mpr hj, rfl⟩)
      refine le_trans ?_ (mul_le_mul_of_nonneg_right hg hδ)
      cases bias with
      | false =>
        have := dot_sup hδ ((List.range k).map fun i => w.getD (i * o + j) 0) x x' hl h
        rw [List.map_map] at this
        simpa [Function.comp_def] using this
      | true =>
        cases k with
        | zero => simp
        | succ k =>
          have := dot_sup hδ ((List.range k).map fun i => w.getD ((i + 1) * o + j) 0) x x' hl h
          rw [List.map_map] at this
          rw [List.range_succ_eq_map]
          simpa [Function.comp_def] using this)
    rw [mul_comm (layerGain k o bias w), mul_assoc]
    exact this

/-- **C108 (networks).** When no coordinate of an input row moves by more than `δ`, no output of the network moves by more than the product of the largest
absolute weight sums of the linear layers and the slopes of the activations, times `δ`. -/
theorem C108_network (slope : Activ ℝ → ℝ) (net : BaseNet ℝ) {n c d : ℕ} {X X' : Mat ℝ} (hX : HasShape X n c) (hX' : HasShape X' n c)
    (hl : LinesUp net.layers c d) (hw : net.weights.length = totalParams net.layers)
    (hA : ∀ A, NetLayer.activ A ∈ net.layers → 0 ≤ slope A ∧ ∀ a b : ℝ, |A.func a - A.func b| ≤ slope A * |a - b|) :
    ∃ Y Y', net.forwardProp X = ok Y ∧ net.forwardProp X' = ok Y' ∧ HasShape Y n d ∧ HasShape Y' n d ∧
      ∀ i < n, ∀ δ : ℝ, (∀ j < c, |(X.rows.getD i []).getD j 0 - (X'.rows.getD i []).getD j 0| ≤ δ) → 0 ≤ δ →
        ∀ j < d, |(Y.rows.getD i []).getD j 0 - (Y'.rows.getD i []).getD j 0| ≤ netGain slope net.layers net.weights * δ := by
  have hsh : ∀ {Z : Mat ℝ}, HasShape Z n c → HasShape (⟨d, Z.rows.map (netRow net.layers net.weights)⟩ : Mat ℝ) n d := by
    rintro Z ⟨z1, z2, z3⟩
    refine ⟨by simp [z1], rfl, ?_⟩
    intro r hr
    obtain ⟨x, hx, rfl⟩ := List.mem_map.mp hr
    exact netRow_length hl _ _ (z3 x hx)
  refine ⟨_, _, forwardProp_ok hX hl hw, forwardProp_ok hX' hl hw, hsh hX, hsh hX', ?_⟩
  intro i hi δ hδ h0 j hj
  obtain ⟨x1, x2, x3⟩ := hX
  obtain ⟨y1, y2, y3⟩ := hX'
  have h1 : i < X.rows.length := by omega
  have h2 : i < X'.rows.length := by omega
  have e1 : (X.rows.map (netRow net.layers net.weights)).getD i [] = netRow net.layers net.weights (X.rows.getD i []) := by
    simp [List.getD_eq_getElem?_getD, h1]
  have e2 : (X'.rows.map (netRow net.layers net.weights)).getD i [] = netRow net.layers net.weights (X'.rows.getD i []) := by
    simp [List.getD_eq_getElem?_getD, h2]
  have a1 := x3 (X.rows.getD i []) (by simp [List.getD_eq_getElem?_getD, h1])
  have a2 := y3 (X'.rows.getD i []) (by simp [List.getD_eq_getElem?_getD, h2])
  simp only
  rw [e1, e2]
  refine (netRow_move slope net.layers net.weights _ _ δ h0 hA (by omega) (fun t ht => hδ t (by omega))).2 j ?_
  rw [netRow_length hl _ _ a1]
  exact hj

/-! ### Nearest neighbours -/

/-- The rows listed by a search are those of a set whose members are strictly closer than the other rows. -/
theorem kNearest_set {n k : ℕ} {d : ℕ → ℝ} {r : List ℕ × List ℝ} (h : KNearestOf n d k r) {S : Finset ℕ} (hS : S.card = k) (hn : ∀ a ∈ S, a < n)
    (hd : ∀ a ∈ S, ∀ b < n, b ∉ S → d a < d b) : r.1.toFinset = S := by
  refine Finset.eq_of_subset_of_card_le ?_ (by rw [hS, List.toFinset_card_of_nodup h.distinct, h.count])
  intro i hi
  rw [List.mem_toFinset] at hi
  by_contra hiS
  obtain ⟨a, ha, ha'⟩ : ∃ a ∈ S, a ∉ r.1.toFinset := by
    by_contra hcon
    push Not at hcon
    have hsub : S ⊆ r.1.toFinset := hcon
    have := Finset.eq_of_subset_of_card_le hsub (by rw [hS, List.toFinset_card_of_nodup h.distinct, h.count])
    exact hiS (this ▸ List.mem_toFinset.mpr hi)
  rw [List.mem_toFinset] at ha'
  have h1 := h.nearest a (hn a ha) ha' (d i) (by rw [h.distances]; exact List.mem_map_of_mem hi)
  exact absurd (hd a ha i (h.rows i hi) hiS) (not_lt.mpr h1)

theorem majority_perm {a b : List ℕ} (h : a.Perm b) {l l' : ℕ} (hl : MajorityLabel a l) (hl' : MajorityLabel b l') : l = l' := by
  have e : ∀ t, a.count t = b.count t := fun t => h.count_eq t
  have h1 : a.count l' = a.count l := le_antisymm (hl.most l') (by rw [e, e]; exact hl'.most l)
  have h2 : b.count l = b.count l' := by rw [← e, ← e]; exact h1.symm
  exact le_antisymm (hl.smallest l' h1) (hl'.smallest l h2)

theorem mapM_forall₂_congr {α β : Type} {f g : α → Outcome β} : ∀ {l l' : List α}, List.Forall₂ (fun a b => f a = g b) l l' → l.mapM f = l'.mapM g
  | _, _, .nil => rfl
  | _, _, .cons h t => by rw [List.mapM_cons, List.mapM_cons, h, mapM_forall₂_congr t]

/-- **C108 (nearest neighbours).** Let the search list the `k` nearest rows. When some `k` training rows are closer to the query than all others by more than
twice the distance by which the query is moved, the moved query gets the same class. -/
theorem C108_knn {S : Type} (R : Searcher ℝ S) (c : KNNClassifier S) (t : List ℕ) (ht : c.target = some t) {X Z Z' : Mat ℝ} (htl : t.length = X.rows.length)
    (hk : 1 ≤ c.k)
    (hs : ∀ z : List ℝ, z.length = X.cols → ∃ r, R.search c.searcher z c.k = ok r ∧ KNearestOf X.rows.length (fun i => eucl z (X.rows.getD i [])) c.k r)
    (hZ : Z.WF) (hZ' : Z'.WF) (hc : Z.cols = X.cols) (hc' : Z'.cols = X.cols)
    (hfar : List.Forall₂ (fun z z' => ∃ N : Finset ℕ, N.card = c.k ∧ (∀ a ∈ N, a < X.rows.length) ∧
      ∀ a ∈ N, ∀ b < X.rows.length, b ∉ N → eucl z (X.rows.getD a []) + 2 * eucl z z' < eucl z (X.rows.getD b [])) Z.rows Z'.rows) :
    knnPredict R c Z' = knnPredict R c Z ∧ ∃ ls, knnPredict R c Z = ok ls := by
  have hstep : List.Forall₂ (fun z z' => (do let (idx, _) ← R.search c.searcher z c.k; knnVote t idx) =
      (do let (idx, _) ← R.search c.searcher z' c.k; knnVote t idx)) Z.rows Z'.rows := by
    have hrows : ∀ {zs zs' : List (List ℝ)}, (∀ z ∈ zs, z.length = X.cols) → (∀ z ∈ zs', z.length = X.cols) →
        List.Forall₂ (fun z z' => ∃ N : Finset ℕ, N.card = c.k ∧ (∀ a ∈ N, a < X.rows.length) ∧
          ∀ a ∈ N, ∀ b < X.rows.length, b ∉ N → eucl z (X.rows.getD a []) + 2 * eucl z z' < eucl z (X.rows.getD b [])) zs zs' →
        List.Forall₂ (fun z z' => (do let (idx, _) ← R.search c.searcher z c.k; knnVote t idx) =
          (do let (idx, _) ← R.search c.searcher z' c.k; knnVote t idx)) zs zs' := by
      intro zs zs' h1 h2 h
      induction h with
      | nil => exact .nil
      | @cons z z' zs zs' hz _ ih =>
        refine .cons ?_ (ih (fun a ha => h1 a (by simp [ha])) fun a ha => h2 a (by simp [ha]))
        obtain ⟨N, n1, n2, n3⟩ := hz
        have l1 := h1 z (by simp)
        have l2 := h2 z' (by simp)
        obtain ⟨r, r1, r2⟩ := hs z l1
        obtain ⟨r', r1', r2'⟩ := hs z' l2
        have hδ := eucl_nonneg z z'
        have s1 := kNearest_set r2 n1 n2 fun a ha b hb hb' => by have := n3 a ha b hb hb'; linarith
        have s2 := kNearest_set r2' n1 n2 fun a ha b hb hb' => by
          have h3 := n3 a ha b hb hb'
          have h4 := abs_le.mp (eucl_move z z' (X.rows.getD a []) (l1.trans l2.symm))
          have h5 := abs_le.mp (eucl_move z z' (X.rows.getD b []) (l1.trans l2.symm))
          linarith [h4.1, h5.2]
        have hperm : r.1.Perm r'.1 := by
          rw [List.perm_ext_iff_of_nodup r2.distinct r2'.distinct]
          intro a
          rw [← List.mem_toFinset, ← List.mem_toFinset, s1, s2]
        have key : ∀ r : List ℕ × List ℝ, KNearestOf X.rows.length (fun i => eucl z (X.rows.getD i [])) c.k r ∨
            KNearestOf X.rows.length (fun i => eucl z' (X.rows.getD i [])) c.k r →
            ∃ l, knnVote t r.1 = ok l ∧ MajorityLabel (r.1.map fun i => t.getD i 0) l := by
          intro r hr
          have hc : r.1.length = c.k := hr.elim (fun h => h.count) fun h => h.count
          have hb : ∀ i ∈ r.1, i < t.length := by rw [htl]; exact hr.elim (fun h => h.rows) fun h => h.rows
          refine C24_vote_is_majority t r.1 _ (by intro h0; rw [h0] at hc; simp at hc; omega) ?_
          rw [List.map_map]
          apply List.map_congr_left
          intro i hi
          have := hb i hi
          simp [List.getD_eq_getElem?_getD, this]
        obtain ⟨l, v1, v2⟩ := key r (Or.inl r2)
        obtain ⟨l', v1', v2'⟩ := key r' (Or.inr r2')
        have hll := majority_perm (hperm.map _) v2 v2'
        rw [r1, r1']
        show knnVote t r.1 = knnVote t r'.1
        rw [v1, v1', hll]
    exact hrows (fun z hz => (hZ z hz).trans hc) (fun z hz => (hZ' z hz).trans hc') hfar
  unfold knnPredict
  rw [ht]
  refine ⟨(mapM_forall₂_congr hstep).symm, ?_⟩
  have := mapM_forall₂ (fun row => (do let (idx, _) ← R.search c.searcher row c.k; knnVote t idx)) (fun _ _ => True) Z.rows (by
    intro z hz
    obtain ⟨r, r1, r2⟩ := hs z ((hZ z hz).trans hc)
    obtain ⟨l, v1, -⟩ := C24_vote_is_majority t r.1 (r.1.map fun i => t.getD i 0) (by
        intro h0
        have := r2.count
        rw [h0] at this
        simp at this
        omega) (by
      rw [List.map_map]
      apply List.map_congr_left
      intro i hi
      have : i < t.length := by rw [htl]; exact r2.rows i hi
      simp [List.getD_eq_getElem?_getD, this])
    refine ⟨l, ?_, trivial⟩
    rw [r1]
    exact v1)
  exact ⟨this.choose, this.choose_spec.1⟩

/-- **C108 (brute force).** The condition on the search holds for the brute force search. -/
theorem C108_knn_brute {X Z Z' : Mat ℝ} {k : ℕ} (t : List ℕ) (htl : t.length = X.rows.length) (hk : 1 ≤ k) (hkn : k ≤ X.rows.length)
    (hZ : Z.WF) (hZ' : Z'.WF) (hc : Z.cols = X.cols) (hc' : Z'.cols = X.cols)
    (hfar : List.Forall₂ (fun z z' => ∃ N : Finset ℕ, N.card = k ∧ (∀ a ∈ N, a < X.rows.length) ∧
      ∀ a ∈ N, ∀ b < X.rows.length, b ∉ N → eucl z (X.rows.getD a []) + 2 * eucl z z' < eucl z (X.rows.getD b [])) Z.rows Z'.rows) :
    knnPredict (F := ℝ) bruteSearcher ⟨k, some X, some t⟩ Z' = knnPredict bruteSearcher ⟨k, some X, some t⟩ Z ∧ ∃ ls, knnPredict bruteSearcher ⟨k, some X, some t⟩ Z = ok ls :=
  C108_knn bruteSearcher ⟨k, some X, some t⟩ t rfl htl hk (fun z _ => C19_brute_force_exact X z k hk hkn) hZ hZ' hc hc' hfar

/-! ### Clusters -/

theorem sqDist_eucl (u v : List ℝ) : eucl u v = Real.sqrt (sqDist u v) := rfl

/-- **C108 (k-means).** When one centroid is closer to a row than all others by more than twice the distance by which the row is moved, the moved row is
assigned to the same centroid. -/
theorem C108_kmeans (m : KMeans XR) (c X X' : Mat ℝ) (hm : m.centroids = some (finMat c)) (hX : X.WF) (hX' : X'.WF) (hcols : c.cols = X.cols) (hcols' : c.cols = X'.cols)
    (hfar : List.Forall₂ (fun x x' => ∃ (i : ℕ) (a : List ℝ), c.rows[i]? = some a ∧
      ∀ (j : ℕ) b, j ≠ i → c.rows[j]? = some b → eucl x a + 2 * eucl x x' < eucl x b) X.rows X'.rows) :
    ∃ ls, kmPredict m (finMat X) = ok ls ∧ kmPredict m (finMat X') = ok ls := by
  have hne : c.rows ≠ [] ∨ X.rows = [] := by
    cases h : X.rows with
    | nil => exact Or.inr rfl
    | cons x xs =>
      left
      rw [h] at hfar
      obtain ⟨x', xs', hx, -, -⟩ := List.forall₂_cons_left_iff.mp hfar
      · obtain ⟨i, a, h1, -⟩ := hx
        intro h0
        rw [h0] at h1
        simp at h1
  rcases hne with hne | hnil
  · obtain ⟨ls, p1, p2⟩ := C30_predict_nearest m c X hm hne hX hcols
    obtain ⟨ls', p1', p2'⟩ := C30_predict_nearest m c X' hm hne hX' hcols'
    refine ⟨ls, p1, ?_⟩
    rw [p1']
    congr 1
    have hlen : ∀ x ∈ X.rows, x.length = X.cols := hX
    have hlen' : ∀ x ∈ X'.rows, x.length = X'.cols := hX'
    rw [← hcols] at hlen
    rw [← hcols'] at hlen'
    clear p1 p1' hX hX' hcols hcols'
    have key : ∀ {xs xs' : List (List ℝ)} {ls ls' : List ℕ}, (∀ x ∈ xs, x.length = c.cols) → (∀ x ∈ xs', x.length = c.cols) →
        List.Forall₂ (fun x x' => ∃ (i : ℕ) (a : List ℝ), c.rows[i]? = some a ∧
          ∀ (j : ℕ) b, j ≠ i → c.rows[j]? = some b → eucl x a + 2 * eucl x x' < eucl x b) xs xs' →
        List.Forall₂ (IsNearestIndex c.rows) xs ls → List.Forall₂ (IsNearestIndex c.rows) xs' ls' → ls' = ls := by
      intro xs xs' ls ls' h1 h2 h
      induction h generalizing ls ls' with
      | nil => intro q q'; cases q; cases q'; rfl
      | @cons x x' xs xs' hx _ ih =>
        intro q q'
        cases q with
        | cons q1 q2 =>
        cases q' with
        | cons q1' q2' =>
        rw [ih (fun a ha => h1 a (by simp [ha])) (fun a ha => h2 a (by simp [ha])) q2 q2']
        congr 1
        obtain ⟨i, a, i1, i2⟩ := hx
        have hδ := eucl_nonneg x x'
        have hl : x.length = x'.length := (h1 x (by simp)).trans (h2 x' (by simp)).symm
        have ma := abs_le.mp (eucl_move x x' a hl)
        have hn : IsNearestIndex c.rows x i := by
          have hlt : ∀ (j : ℕ) b, j ≠ i → c.rows[j]? = some b → sqDist x a < sqDist x b := by
            intro j b hj hb
            have := i2 j b hj hb
            refine lt_of_not_ge fun hge => ?_
            have := Real.sqrt_le_sqrt hge
            rw [← sqDist_eucl, ← sqDist_eucl] at this
            linarith
          refine ⟨a, i1, ?_, fun t b ht hb => hlt t b (by omega) hb⟩
          intro b hb
          obtain ⟨j, hj, rfl⟩ := List.mem_iff_getElem.mp hb
          by_cases hji : j = i
          · subst hji
            rw [List.getElem?_eq_getElem hj] at i1
            rw [Option.some.inj i1]
          · exact (hlt j _ hji (List.getElem?_eq_getElem hj)).le
        have hn' : IsNearestIndex c.rows x' i := by
          have hlt : ∀ (j : ℕ) b, j ≠ i → c.rows[j]? = some b → sqDist x' a < sqDist x' b := by
            intro j b hj hb
            have := i2 j b hj hb
            have mb := abs_le.mp (eucl_move x x' b hl)
            refine lt_of_not_ge fun hge => ?_
            have := Real.sqrt_le_sqrt hge
            rw [← sqDist_eucl, ← sqDist_eucl] at this
            linarith [ma.1, mb.2]
          refine ⟨a, i1, ?_, fun t b ht hb => hlt t b (by omega) hb⟩
          intro b hb
          obtain ⟨j, hj, rfl⟩ := List.mem_iff_getElem.mp hb
          by_cases hji : j = i
          · subst hji
            rw [List.getElem?_eq_getElem hj] at i1
            rw [Option.some.inj i1]
          · exact (hlt j _ hji (List.getElem?_eq_getElem hj)).le
        rw [C30_nearest_unique q1 hn, C30_nearest_unique q1' hn']
    exact key hlen hlen' hfar p2 p2'
  · have hnil' : X'.rows = [] := by
      rw [hnil] at hfar
      exact List.forall₂_nil_left_iff.mp hfar
    refine ⟨[], ?_, ?_⟩ <;> · unfold kmPredict findClosest; rw [hm]; simp [finMat, hnil, hnil']

/-- **C108 (DBSCAN).** When one training row is closer to a query than all others by more than twice the distance by which the query is moved, and that distance
does not carry it across the radius, the moved query gets the same cluster or stays noise. -/
theorem C108_dbscan (m : Dbscan ℝ) (hp : m.predictive = true) (X : Mat ℝ) (hw : X.WF) (hne : X.rows ≠ []) (fuel : ℕ) (m' : Dbscan ℝ)
    (ht : dbTrain fuel m X = some (ok m')) {Q Q' : Mat ℝ} (hQ : Q.WF) (hQ' : Q'.WF) (hc : Q.cols = X.cols) (hc' : Q'.cols = X.cols)
    (hfar : List.Forall₂ (fun q q' => ∃ (i : ℕ) (a : List ℝ), X.rows[i]? = some a ∧
      (∀ (j : ℕ) b, j ≠ i → X.rows[j]? = some b → eucl q a + 2 * eucl q q' < eucl q b) ∧
      (eucl q a + eucl q q' < m.eps ∨ m.eps + eucl q q' ≤ eucl q a)) Q.rows Q'.rows) :
    ∃ ls, dbPredict m' Q = ok ls ∧ dbPredict m' Q' = ok ls := by
  obtain ⟨labels, ls, l1, l2, l3⟩ := C28_predict m hp X hw hne fuel m' ht Q hQ hc
  obtain ⟨labels', ls', l1', l2', l3'⟩ := C28_predict m hp X hw hne fuel m' ht Q' hQ' hc'
  have hlab : labels' = labels := by rw [l1] at l1'; exact (Option.some.inj l1').symm
  subst hlab
  refine ⟨ls, l2, ?_⟩
  rw [l2']
  congr 1
  have hlen : ∀ x ∈ Q.rows, x.length = X.cols := fun x hx => (hQ x hx).trans hc
  have hlen' : ∀ x ∈ Q'.rows, x.length = X.cols := fun x hx => (hQ' x hx).trans hc'
  clear l2 l2' hQ hQ' hc hc'
  generalize hqs : Q.rows = qs at *
  generalize hqs' : Q'.rows = qs' at *
  clear hqs hqs'
  induction hfar generalizing ls ls' with
  | nil => cases l3; cases l3'; rfl
  | @cons q q' qs qs' hx _ ih =>
    cases l3 with
    | cons q1 q2 =>
    cases l3' with
    | cons q1' q2' =>
    rw [ih _ _ q2 (fun a ha => hlen a (by simp [ha])) q2' (fun a ha => hlen' a (by simp [ha]))]
    congr 1
    obtain ⟨i, a, i1, i2, i3⟩ := hx
    have hl : q.length = q'.length := (hlen q (by simp)).trans (hlen' q' (by simp)).symm
    have hδ := eucl_nonneg q q'
    have ma := abs_le.mp (eucl_move q q' a hl)
    obtain ⟨j, row, j1, j2, j3, j4⟩ := q1
    obtain ⟨j', row', j1', j2', j3', j4'⟩ := q1'
    have hj : j = i := by
      by_contra hji
      have h1 := i2 j row hji j1
      have h2 := (j2 i a i1).1
      linarith
    have hj' : j' = i := by
      by_contra hji
      have h1 := i2 j' row' hji j1'
      have h2 := (j2' i a i1).1
      have mb := abs_le.mp (eucl_move q q' row' hl)
      linarith [ma.1, mb.2]
    subst hj
    rw [hj'] at j1' j3'
    have e1 : row = a := by rw [i1] at j1; exact (Option.some.inj j1).symm
    have e2 : row' = a := by rw [i1] at j1'; exact (Option.some.inj j1').symm
    subst e1
    subst e2
    rcases i3 with h | h
    · have h1 := j3 (by linarith)
      have h2 := j3' (by linarith [ma.1])
      rw [h1] at h2
      exact (Option.some.inj h2).symm
    · rw [j4 (by linarith), j4' (by linarith [ma.2])]

/-! ### Changed targets -/

theorem sqDist_fin {u v : List ℝ} {n : ℕ} (hu : u.length = n) (hv : v.length = n) : sqDist u v = ∑ i : Fin n, (toV n u i - toV n v i) ^ 2 := by
  rw [sqDist_eq_range hu hv, Finset.sum_range]
  rfl

/-- **C108 (least squares).** Changed targets: the fitted values do not move further than the targets do. -/
theorem C108_linear_fitted {solve : Mat ℝ → List ℝ → Outcome (List ℝ)} (hs : SolvesExactly solve) (X : Mat ℝ) (hX : X.WF) (y y' : List ℝ) (m m' : LinReg ℝ)
    (h : LinReg.train solve X y = ok m) (h' : LinReg.train solve X y' = ok m') :
    ∃ p p', m.predict X = ok p ∧ m'.predict X = ok p' ∧ p.length = y.length ∧ p'.length = y'.length ∧ eucl p p' ≤ eucl y y' := by
  obtain ⟨β, rfl, hy, hb, h1, -⟩ := linTrain_normal hs hX h
  obtain ⟨β', rfl, hy', hb', h1', -⟩ := linTrain_normal hs hX h'
  refine ⟨_, _, C48_predict β X hb, C48_predict β' X hb', by simp [hy], by simp [hy'], ?_⟩
  rw [sqDist_eucl, sqDist_eucl]
  apply Real.sqrt_le_sqrt
  rw [sqDist_fin (n := X.rows.length) (by simp) (by simp), sqDist_fin hy hy']
  set A := toM X.rows.length (X.cols + 1) ⟨X.cols + 1, X.rows.map ((1 : ℝ) :: ·)⟩ with hA
  have hp : ∀ b : List ℝ, b.length = X.cols + 1 → toV X.rows.length (X.rows.map (affine b)) = A.mulVec (toV _ b) := by
    intro b hb
    funext i
    rw [hA, mulVec_row (withOnes_shape hX) hb, ← dot_inner, getD_map_lt _ _ [] _ _ i.2, dot_affine _ _ (by intro h; rw [h] at hb; simp at hb)]
    unfold toV
    rw [getD_map_lt _ _ [] _ _ i.2]
  rw [hp β hb, hp β' hb']
  have key := least_squares A (toV _ y - toV _ y') (toV _ β - toV _ β') 0 (by rw [Matrix.mulVec_sub, Matrix.mulVec_sub, h1, h1'])
  have e1 : ∀ i : Fin X.rows.length, (toV X.rows.length y - toV X.rows.length y') i - A.mulVec 0 i = toV X.rows.length y i - toV X.rows.length y' i := by
    intro i; simp
  have e2 : ∀ i, (A.mulVec (0 - (toV _ β - toV _ β')) i) ^ 2 = (A.mulVec (toV _ β) i - A.mulVec (toV _ β') i) ^ 2 := by
    intro i
    rw [zero_sub, Matrix.mulVec_neg, Pi.neg_apply, neg_sq, Matrix.mulVec_sub, Pi.sub_apply]
  simp only [e1, e2] at key
  rw [key]
  exact le_add_of_nonneg_left (Finset.sum_nonneg fun i _ => sq_nonneg _)

section gp
variable {lib : TriLib ℝ} (hl : TriLibOk lib) {g : Gp ℝ} {k : List ℝ → List ℝ → ℝ} (hk : IsKernel g.ker k) (hm : MeanSized g.mean)
  {X : Mat ℝ} (hX : X.WF)
include hl hk hm hX

/-- **C108 (Gaussian processes, changed targets).** With a positive semi-definite kernel and noise that is not negative, the fitted values do not move further than
the targets do. -/
theorem C108_gp_fitted (hp : PSDKernel g.ker X.cols) (hn : 0 ≤ g.noise) {y y' : List ℝ} {g₁ g₂ : Gp ℝ} (h : g.train lib X y = ok g₁) (h' : g.train lib X y' = ok g₂) :
    ∃ p p', g₁.predict X = ok p ∧ g₂.predict X = ok p' ∧ p.length = y.length ∧ p'.length = y'.length ∧ eucl p p' ≤ eucl y y' := by
  obtain ⟨p, p1, p2, p3⟩ := C59_predict hl hk hm hX h hX rfl
  obtain ⟨p', p1', p2', p3'⟩ := C59_predict hl hk hm hX h' hX rfl
  obtain ⟨_, _, _, _, _, _, _, hy, hpd, _⟩ := gp_alpha hl hk hm hX h
  obtain ⟨_, _, _, _, _, _, _, hy', _⟩ := gp_alpha hl hk hm hX h'
  refine ⟨p, p', p1, p1', p2.trans hy.symm, p2'.trans hy'.symm, ?_⟩
  rw [sqDist_eucl, sqDist_eucl]
  apply Real.sqrt_le_sqrt
  rw [sqDist_fin p2 p2', sqDist_fin hy hy']
  have hu := (Matrix.isUnit_iff_isUnit_det _).mp (C59_regular hl hk hm hX h)
  set A := noisyGram k g.noise X with hA
  set u := A⁻¹.mulVec (toV X.rows.length y - toV _ y') with hu'
  have hd : toV X.rows.length y - toV _ y' = (gram k X X).mulVec u + g.noise • u := by
    have : A.mulVec u = toV X.rows.length y - toV _ y' := by rw [hu', Matrix.mulVec_mulVec, Matrix.mul_nonsing_inv _ hu, Matrix.one_mulVec]
    rw [← this, hA]
    unfold noisyGram
    rw [Matrix.add_mulVec, Matrix.smul_mulVec, Matrix.one_mulVec]
  have hpp : toV X.rows.length p - toV _ p' = (gram k X X).mulVec u := by
    rw [p3, p3', add_sub_add_left_eq_sub, ← Matrix.mulVec_sub, ← Matrix.mulVec_sub, sub_sub_sub_cancel_right]
  obtain ⟨G, hG, hpsd⟩ := hp X.rows.length (fun i => X.rows.getD i []) fun i => getD_row_length hX i.2
  have hGe : ∀ i j, gram k X X i j = G i j := by
    intro i j
    have := hG i j
    rw [hk.value _ _ (by rw [getD_row_length hX i.2, getD_row_length hX j.2])] at this
    injection this
  have hq : 0 ≤ u ⬝ᵥ (gram k X X).mulVec u := by
    have := hpsd.2 u
    rw [bilin]
    exact this.trans_eq (Finset.sum_congr rfl fun i _ => Finset.sum_congr rfl fun j _ => by rw [hGe])
  have e1 : ∀ i, toV X.rows.length p i - toV _ p' i = (gram k X X).mulVec u i := fun i => congrFun hpp i
  have e2 : ∀ i, toV X.rows.length y i - toV _ y' i = (gram k X X).mulVec u i + g.noise * u i := fun i => congrFun hd i
  simp only [e1, e2]
  have e3 : ∑ i, ((gram k X X).mulVec u i + g.noise * u i) ^ 2 = ∑ i, ((gram k X X).mulVec u i) ^ 2 +
      (2 * g.noise * (u ⬝ᵥ (gram k X X).mulVec u) + g.noise ^ 2 * ∑ i, (u i) ^ 2) := by
    simp only [dotProduct, Finset.mul_sum, ← Finset.sum_add_distrib]
    exact Finset.sum_congr rfl fun i _ => by ring
  rw [e3]
  have : 0 ≤ ∑ i, (u i) ^ 2 := Finset.sum_nonneg fun i _ => sq_nonneg _
  have : 0 ≤ 2 * g.noise * (u ⬝ᵥ (gram k X X).mulVec u) + g.noise ^ 2 * ∑ i, (u i) ^ 2 := by positivity
  linarith

/-- **C108 (Gaussian processes, moved queries).** With a constant mean, when the kernel with each training row changes by at most `L` times the distance, so do
the predictions, up to the sum of the absolute weights. -/
theorem C108_gp {a : ℝ} (hmean : g.mean = constMean a) {y : List ℝ} {g' : Gp ℝ} (h : g.train lib X y = ok g') {Z Z' : Mat ℝ} {n : ℕ} (hZ : HasShape Z n X.cols)
    (hZ' : HasShape Z' n X.cols) {L : ℝ} (hL : ∀ x ∈ X.rows, ∀ z z' : List ℝ, z.length = X.cols → z'.length = X.cols → |k z x - k z' x| ≤ L * eucl z z') :
    ∃ al p p', g'.alpha = some al ∧ g'.predict Z = ok p ∧ g'.predict Z' = ok p' ∧
      ∀ i < n, |p.getD i 0 - p'.getD i 0| ≤ (al.map fun t => |t|).sum * (L * eucl (Z.rows.getD i []) (Z'.rows.getD i [])) := by
  have hZw : Z.WF := fun r hr => (hZ.2.2 r hr).trans hZ.2.1.symm
  have hZw' : Z'.WF := fun r hr => (hZ'.2.2 r hr).trans hZ'.2.1.symm
  obtain ⟨p, p1, p2, p3⟩ := C59_predict hl hk hm hX h hZw hZ.2.1
  obtain ⟨p', p1', p2', p3'⟩ := C59_predict hl hk hm hX h hZw' hZ'.2.1
  obtain ⟨l, al, e, _, _, _, _, hy, hpd, hal, hA⟩ := gp_alpha hl hk hm hX h
  refine ⟨al, p, p', by rw [e], p1, p1', ?_⟩
  have hu := (Matrix.isUnit_iff_isUnit_det _).mp (C59_regular hl hk hm hX h)
  have hinv : (noisyGram k g.noise X)⁻¹.mulVec (toV X.rows.length y - toV _ (g.mean X)) = toV _ al := by
    rw [← hA, Matrix.mulVec_mulVec, Matrix.nonsing_inv_mul _ hu, Matrix.one_mulVec]
  rw [hinv] at p3 p3'
  have hval : ∀ {W : Mat ℝ} {q : List ℝ}, toV W.rows.length q = toV _ (g.mean W) + (gram k W X).mulVec (toV _ al) → ∀ i < W.rows.length,
      q.getD i 0 = a + ∑ j : Fin X.rows.length, k (W.rows.getD i []) (X.rows.getD j []) * al.getD j 0 := by
    intro W q hq i hi
    have := congrFun hq ⟨i, hi⟩
    rw [hmean] at this
    refine this.trans ?_
    rw [Pi.add_apply]
    congr 1
    unfold toV constMean
    simp [List.getD_eq_getElem?_getD, hi]
  intro i hi
  have hi1 : i < Z.rows.length := by rw [hZ.1]; exact hi
  have hi2 : i < Z'.rows.length := by rw [hZ'.1]; exact hi
  rw [hval p3 i hi1, hval p3' i hi2, add_sub_add_left_eq_sub, ← Finset.sum_sub_distrib]
  refine (Finset.abs_sum_le_sum_abs _ _).trans ?_
  have hsum : (al.map fun t => |t|).sum = ∑ j : Fin X.rows.length, |al.getD j 0| := by
    subst_vars
    conv_lhs => rw [← ofFn_getD hal 0]
    rw [List.map_ofFn, List.sum_ofFn]
    rfl
  rw [hsum, Finset.sum_mul]
  apply Finset.sum_le_sum
  intro j _
  rw [← sub_mul, abs_mul, mul_comm]
  refine mul_le_mul_of_nonneg_left ?_ (abs_nonneg _)
  have hmem : ∀ {W : Mat ℝ} {t : ℕ}, t < W.rows.length → W.rows.getD t [] ∈ W.rows := by
    intro W t ht
    simp [List.getD_eq_getElem?_getD, ht]
  exact hL _ (hmem j.2) _ _ (hZ.2.2 _ (hmem hi1)) (hZ'.2.2 _ (hmem hi2))

end gp

/-- The function `t exp(-t²/2)` has its maximum at 1. -/
theorem mul_exp_le (t : ℝ) : |t| * Real.exp (-t ^ 2 / 2) ≤ Real.exp (-1 / 2) := by
  have h1 : t ^ 2 ≤ Real.exp (t ^ 2 - 1) := by have := Real.add_one_le_exp (t ^ 2 - 1); linarith
  have h2 : |t| ≤ Real.exp ((t ^ 2 - 1) / 2) := by
    refine abs_le_of_sq_le_sq ?_ (Real.exp_pos _).le
    calc t ^ 2 ≤ Real.exp (t ^ 2 - 1) := h1
      _ = Real.exp ((t ^ 2 - 1) / 2) ^ 2 := by rw [← Real.exp_nat_mul]; congr 1; push_cast; ring
  calc |t| * Real.exp (-t ^ 2 / 2) ≤ Real.exp ((t ^ 2 - 1) / 2) * Real.exp (-t ^ 2 / 2) := by gcongr
    _ = Real.exp (-1 / 2) := by rw [← Real.exp_add]; congr 1; ring

/-- **C108 (kernels).** The squared exponential kernel changes by at most `|ampl| e^(-1/2) / |ls|` times the distance, the linear kernel by the length of the other
point times the distance. -/
theorem C108_kernels : (∀ (ls ampl : ℝ), ls ≠ 0 → ∀ x z z' : List ℝ, z.length = x.length → z'.length = x.length →
      |kernelValue (sqExpKernel ls ampl) z x - kernelValue (sqExpKernel ls ampl) z' x| ≤ |ampl| * Real.exp (-1 / 2) / |ls| * eucl z z') ∧
    ∀ (c : ℝ) (x z z' : List ℝ), z.length = x.length → z'.length = x.length →
      |kernelValue (linearKernel c) z x - kernelValue (linearKernel c) z' x| ≤ norm2 x * eucl z z' := by
  constructor
  · intro ls ampl hls x z z' hz hz'
    have hv : ∀ u : List ℝ, u.length = x.length → kernelValue (sqExpKernel ls ampl) u x = ampl * Real.exp (-(eucl u x / ls) ^ 2 / 2) := by
      intro u hu
      unfold kernelValue
      rw [(C60_values u x hu 0 0 0 ls ampl).2.2.2.1]
      simp only
      congr 2
      rw [sqDist_eucl, div_pow, Real.sq_sqrt (sqDist_nonneg u x)]
      field_simp
    rw [hv z hz, hv z' hz', ← mul_sub, abs_mul]
    have hd : ∀ r : ℝ, HasDerivAt (fun r : ℝ => Real.exp (-(r / ls) ^ 2 / 2)) (Real.exp (-(r / ls) ^ 2 / 2) * (-(r / ls) / ls)) r := by
      intro r
      have h1 : HasDerivAt (fun r : ℝ => -(r / ls) ^ 2 / 2) (-(r / ls) / ls) r := by
        have := ((((hasDerivAt_id r).div_const ls).pow 2).neg).div_const 2
        refine this.congr_deriv ?_
        simp
        ring
      exact h1.exp
    have hb : ∀ r : ℝ, ‖Real.exp (-(r / ls) ^ 2 / 2) * (-(r / ls) / ls)‖ ≤ Real.exp (-1 / 2) / |ls| := by
      intro r
      rw [Real.norm_eq_abs, abs_mul, abs_div, abs_neg, abs_of_pos (Real.exp_pos _), ← mul_div_assoc, mul_comm]
      gcongr
      exact mul_exp_le (r / ls)
    have := Convex.norm_image_sub_le_of_norm_hasDerivWithin_le (f := fun r : ℝ => Real.exp (-(r / ls) ^ 2 / 2)) (s := Set.univ)
      (fun r _ => (hd r).hasDerivWithinAt) (fun r _ => hb r) convex_univ (Set.mem_univ (eucl z' x)) (Set.mem_univ (eucl z x))
    rw [Real.norm_eq_abs, Real.norm_eq_abs] at this
    have h2 := eucl_move z z' x (hz.trans hz'.symm)
    calc |ampl| * _ ≤ |ampl| * (Real.exp (-1 / 2) / |ls| * eucl z z') := by
          refine mul_le_mul_of_nonneg_left (this.trans ?_) (abs_nonneg _)
          exact mul_le_mul_of_nonneg_left h2 (by positivity)
      _ = _ := by ring
  · intro c x z z' hz hz'
    have hv : ∀ u : List ℝ, u.length = x.length → kernelValue (linearKernel c) u x = affine (c :: x) u := by
      intro u hu
      unfold kernelValue
      rw [(C60_values u x hu 0 c 0 0 0).1]
      simp [affine, Spec.inner, innerProd, add_comm]
    rw [hv z hz, hv z' hz']
    exact affine_move c x z z' (hz.trans hz'.symm)

/-! ### Support vector machines -/

/-- **C108 (support vector machines).** Let the targets have absolute value at most `B`, and let the kernel with each training row change by at most `L` times the
distance. Then the decision values change by at most `B L / λ` times the distance by which a query is moved, and a query whose decision value is larger than that
in absolute value keeps its class. -/
theorem C108_svm {m : Svm XR} {k : List ℝ → List ℝ → ℝ} (hk : FiniteKernel m.ker k) {lambda : ℝ} (hm : m.lambda = XR.fin lambda) (hl : 0 < lambda)
    {X : Mat ℝ} (hX : X.WF) {y : List ℝ} (hy : y.length = X.rows.length) (hn : X.rows ≠ []) (hT : 0 < m.optimIters) (draws : ℕ → ℕ)
    {B L : ℝ} (hB : ∀ t ∈ y, |t| ≤ B) (hL0 : 0 ≤ L)
    (hL : ∀ x ∈ X.rows, ∀ z z' : List ℝ, z.length = X.cols → z'.length = X.cols → |k (1 :: z) (1 :: x) - k (1 :: z') (1 :: x)| ≤ L * eucl z z') :
    ∃ m' a, m.train draws (finMat X) (fins y) = ok m' ∧ m'.alpha = some ((List.range X.rows.length).map fun i => XR.fin (a i)) ∧
      (∀ z z' : List ℝ, z.length = X.cols → z'.length = X.cols →
        |decision k lambda X y a z - decision k lambda X y a z'| ≤ B * L / lambda * eucl z z') ∧
      ∀ Z Z' : Mat ℝ, Z.WF → Z'.WF → Z.cols = X.cols → Z'.cols = X.cols →
        List.Forall₂ (fun z z' => B * L / lambda * eucl z z' < |decision k lambda X y a z|) Z.rows Z'.rows →
        m'.predict (finMat Z') = m'.predict (finMat Z) := by
  obtain ⟨m', h1, h2, h3, h4, h5, h6⟩ := C68_multipliers_partial hk hm hl hX hy hn hT draws
  obtain ⟨a', a1, a2, a3⟩ := C58_multipliers m m' draws (finMat X) (fins y) hT h1
  have hlen : (finMat X).rows.length = X.rows.length := by simp [finMat]
  rw [hlen] at a1 a3
  have hB0 : 0 ≤ B := by
    cases y with
    | nil => exact absurd (List.eq_nil_of_length_eq_zero (by simpa using hy.symm)) hn
    | cons t y => exact (abs_nonneg t).trans (hB t (by simp))
  have hmove : ∀ z z' : List ℝ, z.length = X.cols → z'.length = X.cols →
        |decision k lambda X y a' z - decision k lambda X y a' z'| ≤ B * L / lambda * eucl z z' := by
    intro z z' hz hz'
    unfold decision
    rw [← sub_div, abs_div, abs_of_pos hl, div_mul_eq_mul_div]
    refine div_le_div_of_nonneg_right ?_ hl.le
    rw [← Finset.sum_sub_distrib]
    refine (Finset.abs_sum_le_sum_abs _ _).trans ?_
    have hδ := eucl_nonneg z z'
    calc ∑ j ∈ Finset.range X.rows.length, |a' j * y.getD j 0 * k (1 :: z) (lifted X j) - a' j * y.getD j 0 * k (1 :: z') (lifted X j)|
        ≤ ∑ j ∈ Finset.range X.rows.length, a' j * (B * L * eucl z z') := by
          apply Finset.sum_le_sum
          intro j hj
          have hj : j < X.rows.length := Finset.mem_range.mp hj
          have hx := hL (X.rows.getD j []) (by simp [List.getD_eq_getElem?_getD, hj]) z z' hz hz'
          have ht := hB (y.getD j 0) (by simp [List.getD_eq_getElem?_getD, hy, hj])
          rw [← mul_sub, abs_mul, abs_mul, abs_of_nonneg (a2 j).1, mul_assoc, mul_assoc]
          refine mul_le_mul_of_nonneg_left ?_ (a2 j).1
          exact mul_le_mul ht hx (abs_nonneg _) hB0
      _ = (∑ j ∈ Finset.range X.rows.length, a' j) * (B * L * eucl z z') := by rw [Finset.sum_mul]
      _ ≤ 1 * (B * L * eucl z z') := mul_le_mul_of_nonneg_right a3 (by positivity)
      _ = B * L * eucl z z' := one_mul _
  refine ⟨m', a', h1, a1, hmove, ?_⟩
  intro Z Z' hZ hZ' hc hc' hfar
  have hpr : ∀ W : Mat ℝ, W.WF → W.cols = X.cols → m'.predict (finMat W) = ok (fins (W.rows.map fun z => if 0 ≤ decision k lambda X y a' z then 1 else -1)) :=
    fun W hW hc => svm_predict_fin (by rw [h2]; exact hk) (h3.trans hm) hl.ne' hX hW hc hy _ a1 h4 h5
  rw [hpr Z hZ hc, hpr Z' hZ' hc']
  congr 2
  have hl1 : ∀ z ∈ Z.rows, z.length = X.cols := fun z hz => (hZ z hz).trans hc
  have hl2 : ∀ z ∈ Z'.rows, z.length = X.cols := fun z hz => (hZ' z hz).trans hc'
  generalize Z.rows = zs at *
  generalize Z'.rows = zs' at *
  induction hfar with
  | nil => rfl
  | @cons z z' zs zs' hz _ ih =>
    rw [List.map_cons, List.map_cons, ih (fun q hq => hl1 q (by simp [hq])) (fun q hq => hl2 q (by simp [hq]))]
    congr 1
    have hmv := abs_le.mp (hmove z z' (hl1 z (by simp)) (hl2 z' (by simp)))
    have hd : (0 ≤ decision k lambda X y a' z') ↔ (0 ≤ decision k lambda X y a' z) := by
      rcases lt_abs.mp hz with h | h
      · constructor <;> intro _ <;> linarith [hmv.1, hmv.2, eucl_nonneg z z', mul_nonneg (div_nonneg (mul_nonneg hB0 hL0) hl.le) (eucl_nonneg z z')]
      · constructor <;> intro h0 <;> exfalso <;> linarith [hmv.1, hmv.2, mul_nonneg (div_nonneg (mul_nonneg hB0 hL0) hl.le) (eucl_nonneg z z')]
    simp only [hd]

/-! ### Scores -/

/-- **C108 (accuracy).** Changing `m` of `n` predictions changes the accuracy by at most `m / n`. -/
theorem C108_accuracy {T : Type} [DecidableEq T] (outputs outputs' targets : List T) (hl : outputs.length = targets.length) (hl' : outputs'.length = targets.length)
    (hn : targets ≠ []) :
    ∃ a a' : ℝ, accuracy (fun x y => decide (x = y)) outputs targets = ok a ∧ accuracy (fun x y => decide (x = y)) outputs' targets = ok a' ∧
      |a - a'| ≤ ((List.zip outputs outputs').countP fun p => decide (p.1 ≠ p.2) : ℕ) / (targets.length : ℝ) := by
  have e := (C10_accuracy_value (fun x y => decide (x = y)) outputs targets).2 hl
  have e' := (C10_accuracy_value (fun x y => decide (x = y)) outputs' targets).2 hl'
  refine ⟨_, _, e, e', ?_⟩
  have hc : ∀ (u : List T), u.length = targets.length → testCount (fun x y => decide (x = y)) u targets = (u.zip targets).countP fun p => decide (p.1 = p.2) := by
    intro u hu
    unfold testCount
    rw [countPos_zip (fun p : T × T => decide (p.1 = p.2)) _ _ _ hu (by intro i a b h1 h2; simp [h1, h2])]
  rw [hc _ hl, hc _ hl', hl, hl', ← sub_div, abs_div, abs_of_nonneg (show (0 : ℝ) ≤ targets.length from Nat.cast_nonneg _)]
  refine div_le_div_of_nonneg_right ?_ (Nat.cast_nonneg _)
  have key : ∀ (u u' v : List T), u.length = v.length → u'.length = v.length →
      ((u.zip v).countP fun p => decide (p.1 = p.2)) ≤ ((u'.zip v).countP fun p => decide (p.1 = p.2)) + ((u.zip u').countP fun p => decide (p.1 ≠ p.2)) ∧
      ((u'.zip v).countP fun p => decide (p.1 = p.2)) ≤ ((u.zip v).countP fun p => decide (p.1 = p.2)) + ((u.zip u').countP fun p => decide (p.1 ≠ p.2)) := by
    intro u
    induction u with
    | nil =>
      intro u' v h1 h2
      have : v = [] := List.eq_nil_of_length_eq_zero (by simpa using h1.symm)
      subst this
      simp
    | cons a u ih =>
      intro u' v h1 h2
      cases v with
      | nil => simp at h1
      | cons c v =>
        cases u' with
        | nil => simp at h2
        | cons b u' =>
          have := ih u' v (by simpa using h1) (by simpa using h2)
          simp only [List.zip_cons_cons, List.countP_cons, decide_eq_true_eq]
          have hex : a = c → b = c → ¬ a ≠ b := fun h1 h2 h3 => h3 (h1.trans h2.symm)
          have hex1 : a = c → ¬ b = c → a ≠ b := fun h1 h2 h3 => h2 (h3 ▸ h1)
          have hex2 : ¬ a = c → b = c → a ≠ b := fun h1 h2 h3 => h1 (h3.trans h2)
          by_cases hac : a = c
          · by_cases hbc : b = c
            · rw [if_pos hac, if_pos hbc, if_neg (hex hac hbc)]
              omega
            · rw [if_pos hac, if_neg hbc, if_pos (hex1 hac hbc)]
              omega
          · by_cases hbc : b = c
            · rw [if_neg hac, if_pos hbc, if_pos (hex2 hac hbc)]
              omega
            · rw [if_neg hac, if_neg hbc]
              omega
  obtain ⟨k1, k2⟩ := key outputs outputs' targets hl hl'
  have k1 : (((outputs.zip targets).countP fun p => decide (p.1 = p.2) : ℕ) : ℝ) ≤ ((outputs'.zip targets).countP fun p => decide (p.1 = p.2) : ℕ) +
    ((outputs.zip outputs').countP fun p => decide (p.1 ≠ p.2) : ℕ) := by exact_mod_cast k1
  have k2 : (((outputs'.zip targets).countP fun p => decide (p.1 = p.2) : ℕ) : ℝ) ≤ ((outputs.zip targets).countP fun p => decide (p.1 = p.2) : ℕ) +
    ((outputs.zip outputs').countP fun p => decide (p.1 ≠ p.2) : ℕ) := by exact_mod_cast k2
  rw [abs_le]
  constructor <;> linarith

/-! ### The hypotheses can be met -/

/-- Two rows, the second moved by `(3, 4) / 5`; slopes 3 and 4. -/
example : ∃ p p', LinReg.predict ⟨some [7, 3, 4]⟩ ⟨2, [[1, 1], [0, 0]]⟩ = ok p ∧ LinReg.predict ⟨some [7, 3, 4]⟩ ⟨2, [[1, 1], [3 / 5, 4 / 5]]⟩ = ok p' ∧
    ∀ i < 2, |p.getD i 0 - p'.getD i 0| ≤ norm2 [3, 4] * eucl (([[1, 1], [0, 0]] : List (List ℝ)).getD i []) (([[1, 1], [3 / 5, 4 / 5]] : List (List ℝ)).getD i []) :=
  C108_linear 7 [3, 4] (X := ⟨2, [[1, 1], [0, 0]]⟩) (X' := ⟨2, [[1, 1], [3 / 5, 4 / 5]]⟩) ⟨rfl, rfl, by simp⟩ ⟨rfl, rfl, by simp⟩

/-- One hidden layer of two sigmoid units, then one linear output. The largest weight sums are 3 and 9, so the bound is `3 * (1/4) * 9`. -/
example : ∃ Y Y', (⟨[.new 1 2, .activ sigmoid, .new 2 1], [5, 6, 2, -3, 7, 4, 5], ⟨.mse, .none⟩⟩ : BaseNet ℝ).forwardProp ⟨1, [[0]]⟩ = ok Y ∧
    (⟨[.new 1 2, .activ sigmoid, .new 2 1], [5, 6, 2, -3, 7, 4, 5], ⟨.mse, .none⟩⟩ : BaseNet ℝ).forwardProp ⟨1, [[1 / 10]]⟩ = ok Y' ∧
    |(Y.rows.getD 0 []).getD 0 0 - (Y'.rows.getD 0 []).getD 0 0| ≤ 27 / 4 * (1 / 10) := by
  obtain ⟨Y, Y', h1, h2, -, -, h3⟩ := C108_network (fun _ => 1 / 4)
    (⟨[.new 1 2, .activ sigmoid, .new 2 1], [5, 6, 2, -3, 7, 4, 5], ⟨.mse, .none⟩⟩ : BaseNet ℝ) (n := 1) (c := 1) (d := 1) (X := ⟨1, [[0]]⟩) (X' := ⟨1, [[1 / 10]]⟩)
    ⟨rfl, rfl, by simp⟩ ⟨rfl, rfl, by simp⟩ (.linear true rfl (.activ _ (.linear true rfl (.nil 1)))) rfl (by
      intro A hA
      simp [NetLayer.new] at hA
      subst hA
      exact ⟨by norm_num, sigmoid_move⟩)
  refine ⟨Y, Y', h1, h2, ?_⟩
  have := h3 0 (by norm_num) (1 / 10) (by intro j hj; interval_cases j; norm_num) (by norm_num) 0 (by norm_num)
  refine this.trans (le_of_eq ?_)
  simp [netGain, layerGain, NetLayer.new, List.range_succ]
  norm_num


/-- Two neighbours of four rows: 0 and 1 are at distances 1 and 2 of the query, the others at 9 and 10. Moving the query by 3 changes nothing. -/
example : knnPredict (F := ℝ) bruteSearcher ⟨2, some ⟨1, [[1], [2], [9], [10]]⟩, some [4, 4, 5, 5]⟩ ⟨1, [[3]]⟩ =
    knnPredict (F := ℝ) bruteSearcher ⟨2, some ⟨1, [[1], [2], [9], [10]]⟩, some [4, 4, 5, 5]⟩ ⟨1, [[0]]⟩ := by
  refine (C108_knn_brute (X := ⟨1, [[1], [2], [9], [10]]⟩) (Z := ⟨1, [[0]]⟩) (Z' := ⟨1, [[3]]⟩) (k := 2) [4, 4, 5, 5] rfl (by norm_num) (by simp)
    (by intro r hr; simp at hr; subst hr; rfl) (by intro r hr; simp at hr; subst hr; rfl) rfl rfl (.cons ⟨{0, 1}, rfl, ?_, ?_⟩ .nil)).1
  · intro a ha
    simp at ha
    rcases ha with rfl | rfl <;> simp
  · intro a ha b hb hb'
    simp at ha hb hb'
    have hb2 : b = 2 ∨ b = 3 := by omega
    rcases ha with rfl | rfl <;> rcases hb2 with rfl | rfl <;> simp [eucl_one] <;> norm_num [abs_of_pos, abs_of_neg]

/-- Centroids at 0 and 10: the row 1 can be moved to 4. -/
example (m : KMeans XR) (hm : m.centroids = some (finMat ⟨1, [[0], [10]]⟩)) :
    ∃ ls, kmPredict m (finMat ⟨1, [[1]]⟩) = ok ls ∧ kmPredict m (finMat ⟨1, [[4]]⟩) = ok ls := by
  refine C108_kmeans m ⟨1, [[0], [10]]⟩ ⟨1, [[1]]⟩ ⟨1, [[4]]⟩ hm (by intro r hr; simp at hr; subst hr; rfl) (by intro r hr; simp at hr; subst hr; rfl) rfl rfl
    (.cons ⟨0, [0], rfl, ?_⟩ .nil)
  intro j b hj hb
  have hj1 : j = 1 := by
    have := (List.getElem?_eq_some_iff.mp hb).1
    simp at this
    omega
  subst hj1
  simp at hb
  subst hb
  rw [eucl_one, eucl_one, eucl_one]
  norm_num [abs_of_pos, abs_of_neg]

/-- Three points on a line and any two lists of targets. -/
example (a b c a' b' c' : ℝ) : ∃ m m' p p', LinReg.train (gaussSolve 0) ⟨1, [[0], [1], [2]]⟩ [a, b, c] = ok m ∧
    LinReg.train (gaussSolve 0) ⟨1, [[0], [1], [2]]⟩ [a', b', c'] = ok m' ∧ m.predict ⟨1, [[0], [1], [2]]⟩ = ok p ∧ m'.predict ⟨1, [[0], [1], [2]]⟩ = ok p' ∧
    eucl p p' ≤ eucl [a, b, c] [a', b', c'] := by
  have hs := gaussSolve_exact 0 le_rfl
  have hX : (⟨1, [[0], [1], [2]]⟩ : Mat ℝ).WF := by intro r hr; simp at hr; rcases hr with rfl | rfl | rfl <;> rfl
  obtain ⟨m, hm⟩ := (C48_succeeds_iff hs gaussSolve_regular ⟨1, [[0], [1], [2]]⟩ hX [a, b, c] rfl).mpr line_independent
  obtain ⟨m', hm'⟩ := (C48_succeeds_iff hs gaussSolve_regular ⟨1, [[0], [1], [2]]⟩ hX [a', b', c'] rfl).mpr line_independent
  obtain ⟨p, p', h1, h2, -, -, h3⟩ := C108_linear_fitted hs _ hX _ _ _ _ hm hm'
  exact ⟨m, m', p, p', hm, hm', h1, h2, h3⟩

/-- A Gaussian process with the squared exponential kernel on three points, two of them equal, with noise 1/10; any two lists of targets; a query moved from 1 to 1.1. -/
example (a b c a' b' c' : ℝ) : ∃ g g' p p' al q q',
    Gp.train exactLib ⟨sqExpKernel 1 1, constMean 0, 1 / 10, none, none, none⟩ ⟨1, [[0], [0], [2]]⟩ [a, b, c] = ok g ∧
    Gp.train exactLib ⟨sqExpKernel 1 1, constMean 0, 1 / 10, none, none, none⟩ ⟨1, [[0], [0], [2]]⟩ [a', b', c'] = ok g' ∧
    g.predict ⟨1, [[0], [0], [2]]⟩ = ok p ∧ g'.predict ⟨1, [[0], [0], [2]]⟩ = ok p' ∧ eucl p p' ≤ eucl [a, b, c] [a', b', c'] ∧
    g.alpha = some al ∧ g.predict ⟨1, [[1]]⟩ = ok q ∧ g.predict ⟨1, [[11 / 10]]⟩ = ok q' ∧
    |q.getD 0 0 - q'.getD 0 0| ≤ (al.map fun t => |t|).sum * (Real.exp (-1 / 2) * |1 - 11 / 10|) := by
  have hX : (⟨1, [[0], [0], [2]]⟩ : Mat ℝ).WF := by intro r hr; simp at hr; rcases hr with rfl | rfl | rfl <;> rfl
  have hk : IsKernel (sqExpKernel (1 : ℝ) 1) _ := C59_kernels (Built.sqExp 1 1)
  have hp : PSDKernel (sqExpKernel (1 : ℝ) 1) 1 := C61_gram (PSDBuilt.sqExp one_ne_zero zero_le_one) 1
  obtain ⟨g, hg⟩ := C59_train_psd (g := ⟨sqExpKernel 1 1, constMean 0, 1 / 10, none, none, none⟩) exactLib_ok hk (C59_mean 0).1 hX hp (by norm_num) (y := [a, b, c]) rfl
  obtain ⟨g', hg'⟩ := C59_train_psd (g := ⟨sqExpKernel 1 1, constMean 0, 1 / 10, none, none, none⟩) exactLib_ok hk (C59_mean 0).1 hX hp (by norm_num) (y := [a', b', c']) rfl
  obtain ⟨p, p', h1, h2, -, -, h3⟩ := C108_gp_fitted (g := ⟨sqExpKernel 1 1, constMean 0, 1 / 10, none, none, none⟩) exactLib_ok hk (C59_mean 0).1 hX hp (by norm_num) hg hg'
  obtain ⟨al, q, q', k1, k2, k3, k4⟩ := C108_gp (g := ⟨sqExpKernel 1 1, constMean 0, 1 / 10, none, none, none⟩) exactLib_ok hk (C59_mean 0).1 hX rfl hg
    (Z := ⟨1, [[1]]⟩) (Z' := ⟨1, [[11 / 10]]⟩) (n := 1) ⟨rfl, rfl, by simp⟩ ⟨rfl, rfl, by simp⟩ (L := |1| * Real.exp (-1 / 2) / |1|)
    (fun x hx z z' hz hz' => C108_kernels.1 1 1 one_ne_zero x z z' (hz.trans (hX x hx).symm) (hz'.trans (hX x hx).symm))
  refine ⟨g, g', p, p', al, q, q', hg, hg', h1, h2, h3, k1, k2, k3, ?_⟩
  have := k4 0 (by norm_num)
  simpa [eucl_one] using this

/-- The default machine: any draws. -/
example (draws : ℕ → ℕ) : ∃ (k : List ℝ → List ℝ → ℝ) (m' : Svm XR) (a : ℕ → ℝ), (Svm.default : Svm XR).train draws (finMat badX) (fins [1, -1]) = ok m' ∧
    ∀ z z' : List ℝ, z.length = badX.cols → z'.length = badX.cols →
      |decision k (3 / 10) badX [1, -1] a z - decision k (3 / 10) badX [1, -1] a z'| ≤ 1 * Real.exp (-1 / 2) / (3 / 10) * eucl z z' := by
  have hv : ∀ u v : List ℝ, u.length = v.length → 1 * Real.exp (-rdot (List.zipWith (· - ·) u v) (List.zipWith (· - ·) u v) / (2 * 1 * 1)) = kernelValue (sqExpKernel 1 1) u v := by
    intro u v huv
    unfold kernelValue
    rw [(C60_values u v huv 0 0 0 1 1).2.2.2.1]
    simp only
    have e : rdot (List.zipWith (· - ·) u v) (List.zipWith (· - ·) u v) = sqDist u v := by
      clear huv
      induction u generalizing v with
      | nil => simp [rdot, sqDist]
      | cons a u ih => cases v with
        | nil => simp [rdot, sqDist]
        | cons b v => simpa [rdot, sqDist, pow_two] using ih v
    rw [e]
    norm_num
  obtain ⟨m', a, h1, -, h2, -⟩ := C108_svm (m := Svm.default) (C58_kernels.2 1 1 one_ne_zero) (lambda := 3 / 10) (by simp [Svm.default]) (by norm_num)
    (X := badX) (by intro r hr; simp [badX] at hr; rcases hr with rfl | rfl <;> rfl) (y := [1, -1]) rfl (by simp [badX]) (by change 0 < 100; norm_num) draws
    (B := 1) (L := Real.exp (-1 / 2)) (by simp) (Real.exp_pos _).le (by
      intro x hx z z' hz hz'
      have hxl : x.length = badX.cols := by simp [badX] at hx ⊢; rcases hx with rfl | rfl <;> rfl
      rw [hv _ _ (by simp [hz, hxl]), hv _ _ (by simp [hz', hxl])]
      have := C108_kernels.1 1 1 one_ne_zero (1 :: x) (1 :: z) (1 :: z') (by simp [hz, hxl]) (by simp [hz', hxl])
      have e : eucl (1 :: z) (1 :: z') = eucl z z' := by simp [eucl]
      rw [e] at this
      simpa using this)
  exact ⟨_, m', a, h1, h2⟩

/-- Rows 0, 1 and 10 with radius 2: the query 0.2 can be moved to 0.4. -/
example : ∃ fuel m' ls, dbTrain fuel ⟨2, 1, none, true, [], none⟩ (⟨1, [[0], [1], [10]]⟩ : Mat ℝ) = some (ok m') ∧
    dbPredict m' ⟨1, [[1 / 5]]⟩ = ok ls ∧ dbPredict m' ⟨1, [[2 / 5]]⟩ = ok ls := by
  have hX : (⟨1, [[0], [1], [10]]⟩ : Mat ℝ).WF := by intro r hr; simp at hr; rcases hr with rfl | rfl | rfl <;> rfl
  obtain ⟨-, -, ⟨f, hf⟩, -⟩ := C26_train (⟨2, 1, none, true, [], none⟩ : Dbscan ℝ) ⟨1, [[0], [1], [10]]⟩ hX
  obtain ⟨m', hm'⟩ := hf f le_rfl
  obtain ⟨ls, h1, h2⟩ := C108_dbscan _ rfl ⟨1, [[0], [1], [10]]⟩ hX (by simp) f m' hm' (Q := ⟨1, [[1 / 5]]⟩) (Q' := ⟨1, [[2 / 5]]⟩)
    (by intro r hr; simp at hr; subst hr; rfl) (by intro r hr; simp at hr; subst hr; rfl) rfl rfl
    (.cons ⟨0, [0], rfl, by
      intro j b hj hb
      have hj1 : j = 1 ∨ j = 2 := by
        have := (List.getElem?_eq_some_iff.mp hb).1
        simp at this
        omega
      rcases hj1 with rfl | rfl <;> simp at hb <;> subst hb <;> rw [eucl_one, eucl_one, eucl_one] <;> norm_num [abs_of_pos, abs_of_neg], by
      left
      rw [eucl_one, eucl_one]
      norm_num [abs_of_pos, abs_of_neg]⟩ .nil)
  exact ⟨f, m', ls, hm', h1, h2⟩

/-- One of four predictions is changed, and the accuracy moves by exactly a quarter. -/
example : ∃ a a' : ℝ, accuracy (fun x y => decide (x = y)) [1, 2, 3, 4] [1, 2, 3, 5] = ok a ∧ accuracy (fun x y => decide (x = y)) [1, 2, 3, 5] [1, 2, 3, 5] = ok a' ∧
    |a - a'| ≤ 1 / 4 := by
  obtain ⟨a, a', h1, h2, h3⟩ := C108_accuracy [1, 2, 3, 4] [1, 2, 3, 5] [1, 2, 3, 5] rfl rfl (by simp)
  exact ⟨a, a', h1, h2, by simpa using h3⟩

end RM
