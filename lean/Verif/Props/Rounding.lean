import Verif.Proofs.RoundErr
import Verif.Proofs.Argmax
import Verif.Props.KNN
import Verif.Props.KMeans
import Verif.Props.Dbscan
import Verif.Props.RowWise
import Verif.Model.Score
import Verif.Model.Transforms

/-! # C86: rounding errors -/

namespace RM
open Outcome Scalar Spec
variable {R : Rounding} {u : ℝ}

/-- C86: `m` roundings change a result by at most the factor `1 / (1 - m u)`. -/
theorem C86_growth (h : Precise R u) (m : ℕ) (hm : m * u < 1) :
    1 ≤ growth u m ∧ growth u m ≤ 1 / (1 - m * u) ∧ growth u m - 1 ≤ m * u / (1 - m * u) := by
  have h1 : growth u m ≤ 1 / (1 - m * u) := by
    unfold growth
    have hu := h.lt_one
    rw [div_pow, one_pow]
    have hb : 1 - m * u ≤ (1 - u) ^ m := by
      have := one_add_mul_le_pow (a := -u) (by linarith) m
      have e : (1 : ℝ) + -u = 1 - u := by ring
      rw [e] at this
      linarith
    exact one_div_le_one_div_of_le (by linarith) hb
  refine ⟨one_le_growth h m, h1, ?_⟩
  have : (1 : ℝ) / (1 - m * u) - 1 = m * u / (1 - m * u) := by
    have : (1 : ℝ) - m * u ≠ 0 := by linarith
    field_simp
    ring
  linarith

/-! ### Sums and dot products -/

/-- C86: a computed sum is off by at most what `n` roundings make of the sum of the absolute values. -/
theorem C86_sum (h : Precise R u) (l : List (Fl R)) :
    |(fsum l).1 - (reals l).sum| ≤ (growth u l.length - 1) * ((reals l).map fun x => |x|).sum := by
  have := (err_fsum_map h l id (fun x => x.1) (fun x => |x.1|) (fun a _ => err_exact u a.1)).2
  simpa [reals, Function.comp_def] using this

/-- A way of adding up numbers: a binary tree of additions with the positions of the summands at its leaves. -/
inductive SumOrder
  | term (i : ℕ)
  | plus (a b : SumOrder)

/-- The positions used, from left to right. -/
def SumOrder.leaves : SumOrder → List ℕ
  | .term i => [i]
  | .plus a b => a.leaves ++ b.leaves

/-- The number of additions on the longest path. -/
def SumOrder.depth : SumOrder → ℕ
  | .term _ => 0
  | .plus a b => max a.depth b.depth + 1

/-- The sum computed in this order. -/
noncomputable def SumOrder.eval (l : List (Fl R)) : SumOrder → Fl R
  | .term i => l.getD i Scalar.zero
  | .plus a b => a.eval l +. b.eval l

theorem sumOrder_err (h : Precise R u) (l : List (Fl R)) : ∀ t : SumOrder,
    Err u t.depth ((t.leaves.map fun i => |(l.getD i Scalar.zero).1|).sum) (t.eval l).1 ((t.leaves.map fun i => (l.getD i Scalar.zero).1).sum)
  | .term i => by simpa [SumOrder.leaves, SumOrder.depth, SumOrder.eval] using err_exact u (l.getD i Scalar.zero).1
  | .plus a b => by
    have ha := err_mono h (le_max_left a.depth b.depth) (sumOrder_err h l a)
    have hb := err_mono h (le_max_right a.depth b.depth) (sumOrder_err h l b)
    simp only [SumOrder.leaves, SumOrder.depth, List.map_append, List.sum_append]
    exact err_fl h (err_add' ha hb)

theorem sumOrder_depth_lt : ∀ t : SumOrder, t.depth < t.leaves.length
  | .term i => by simp [SumOrder.depth, SumOrder.leaves]
  | .plus a b => by
    have := sumOrder_depth_lt a
    have := sumOrder_depth_lt b
    simp only [SumOrder.depth, SumOrder.leaves, List.length_append]
    omega

/-- C86: the bound does not depend on the order in which the summands are added. -/
theorem C86_sum_any_order (h : Precise R u) (l : List (Fl R)) (t : SumOrder) (ht : t.leaves.Perm (List.range l.length)) :
    |(t.eval l).1 - (reals l).sum| ≤ (growth u t.depth - 1) * ((reals l).map fun x => |x|).sum ∧ t.depth < l.length := by
  have hr : ∀ f : Fl R → ℝ, ((t.leaves.map fun i => f (l.getD i Scalar.zero)).sum) = (l.map f).sum := by
    intro f
    rw [(ht.map _).sum_eq]
    congr 1
    apply List.ext_getElem (by simp)
    intro i h1 h2
    have : i < l.length := by simpa using h2
    simp [this]
  constructor
  · have := (sumOrder_err h l t).2
    rw [hr (fun x => |x.1|), hr (fun x => x.1)] at this
    simpa [reals, Function.comp_def] using this
  · have := sumOrder_depth_lt t
    rw [ht.length_eq, List.length_range] at this
    exact this

/-- C86: a computed dot product. -/
theorem C86_dot (h : Precise R u) (a b : List (Fl R)) :
    |(dot a b).1 - (List.zipWith (· * ·) (reals a) (reals b)).sum| ≤
      (growth u (a.length + 1) - 1) * (List.zipWith (fun x y => |x * y|) (reals a) (reals b)).sum := by
  have h1 := err_fsum_zipWith h (m := 1) (fun x y : Fl R => x *. y) (fun x y => x.1 * y.1) (fun x y => |x.1 * y.1|)
    (fun x y => err_fl h (err_exact u (x.1 * y.1))) a b
  have h2 := (err_mono h (k := a.length + 1) (by omega) h1).2
  simpa [reals, List.zipWith_map, dot] using h2

/-! ### Predictions of linear models -/

theorem fl_one_err (h : Precise R u) : Err u 1 1 (Scalar.one : Fl R).1 1 := by
  have := err_fl h (err_exact u 1)
  rw [abs_one] at this
  exact this

theorem affine_err (h : Precise R u) (b : Fl R) (w x : List (Fl R)) (hl : x.length = w.length) :
    Err u (w.length + 3) (|b.1| + (List.zipWith (fun a c => |a * c|) (reals w) (reals x)).sum) (dot (Scalar.one :: x) (b :: w)).1
      (b.1 + (List.zipWith (· * ·) (reals w) (reals x)).sum) := by
  have h1 := err_fsum_map h (m := 2) ((Scalar.one, (1 : ℝ), b) :: List.zipWith (fun p q : Fl R => (p, p.1, q)) x w)
    (fun p : Fl R × ℝ × Fl R => p.1 *. p.2.2) (fun p => p.2.1 * p.2.2.1) (fun p => |p.2.1| * |p.2.2.1|) (by
      intro p hp
      have he : Err u 1 |p.2.1| p.1.1 p.2.1 := by
        rcases List.mem_cons.1 hp with rfl | hp
        · simpa using fl_one_err h
        · rw [← List.map_uncurry_zip_eq_zipWith] at hp
          obtain ⟨q, _, rfl⟩ := List.mem_map.1 hp
          exact err_mono h (Nat.zero_le 1) (err_exact u q.1.1)
      exact err_fl h (err_mul' h he (err_exact u p.2.2.1)))
  simp only [List.length_cons, List.length_zipWith, hl, min_self, List.map_cons, List.map_zipWith, List.sum_cons] at h1
  have e1 : (List.zipWith (fun p q : Fl R => |p.1| * |q.1|) x w) = List.zipWith (fun a c => |a * c|) (reals w) (reals x) := by
    rw [reals, reals, List.zipWith_map, List.zipWith_comm]
    congr 1; funext p q; rw [abs_mul, mul_comm]
  have e2 : (List.zipWith (fun p q : Fl R => p.1 * q.1) x w) = List.zipWith (· * ·) (reals w) (reals x) := by
    rw [reals, reals, List.zipWith_map, List.zipWith_comm]
    congr 1; funext p q; rw [mul_comm]
  rw [e1, e2, abs_one, one_mul, one_mul] at h1
  have e3 : 2 + (w.length + 1) = w.length + 3 := by omega
  rw [e3] at h1
  exact h1

/-- C86: every prediction of a trained linear regression is off by at most what `columns + 3` roundings make of the sum of
the absolute values of its terms. -/
theorem C86_linear_predict (h : Precise R u) (b : Fl R) (w : List (Fl R)) (X : Mat (Fl R)) (hX : X.WF) (hw : w.length = X.cols) :
    ∃ p, LinReg.predict ⟨some (b :: w)⟩ X = ok p ∧ List.Forall₂ (fun x y =>
      |y.1 - (b.1 + (List.zipWith (· * ·) (reals w) (reals x)).sum)| ≤
        (growth u (X.cols + 3) - 1) * (|b.1| + (List.zipWith (fun a c => |a * c|) (reals w) (reals x)).sum)) X.rows p := by
  refine ⟨X.rows.map fun x => dot (Scalar.one :: x) (b :: w), ?_, ?_⟩
  · simp only [LinReg.predict, withOnes_eq, ok_bind, Mat.mulVec]
    rw [if_pos (by simp [hw]), List.map_map]
    rfl
  · rw [List.forall₂_map_right_iff, List.forall₂_same]
    intro x hx
    rw [← hw]
    exact (affine_err h b w x (by rw [hX x hx, hw])).2

theorem sigmoid_agree (h : Precise R u) (s : Fl R) : AgreeUpTo (growth u 4) (sigmoid.func s).1 (1 / (1 + Real.exp (-s.1))) := by
  have he : 0 < Real.exp (-s.1) := Real.exp_pos _
  have h1 : AgreeUpTo (growth u 1) (R.fl (Real.exp (-s.1))) (Real.exp (-s.1)) := agree_fl h he.le
  have h2 : AgreeUpTo (growth u 1) (R.fl 1) 1 := agree_fl h zero_le_one
  have p1 : 0 < R.fl (Real.exp (-s.1)) := fl_pos h he
  have p2 : 0 < R.fl 1 := fl_pos h one_pos
  have h3 := agree_fl_trans h (add_pos p2 p1).le (agree_add h2 h1)
  have p3 : 0 < R.fl (R.fl 1 + R.fl (Real.exp (-s.1))) := fl_pos h (add_pos p2 p1)
  have h4 := agree_div h2 h3 p2.le zero_le_one p3 (by positivity)
  rw [← growth_add] at h4
  exact agree_fl_trans h (div_pos p2 p3).le h4

/-- C86: every probability predicted by a trained logistic regression agrees up to four roundings with the logistic function
of a score, which is off by at most as much as a prediction of a linear regression. -/
theorem C86_logistic_predict (h : Precise R u) (b : Fl R) (w : List (Fl R)) (X : Mat (Fl R)) (hX : X.WF) (hw : w.length = X.cols) :
    ∃ p, LogReg.predict ⟨some (b :: w)⟩ X = ok p ∧ List.Forall₂ (fun x y => ∃ s : ℝ,
      |s - (b.1 + (List.zipWith (· * ·) (reals w) (reals x)).sum)| ≤
        (growth u (X.cols + 3) - 1) * (|b.1| + (List.zipWith (fun a c => |a * c|) (reals w) (reals x)).sum) ∧
      AgreeUpTo (growth u 4) y.1 (1 / (1 + Real.exp (-s)))) X.rows p := by
  refine ⟨X.rows.map fun x => sigmoid.func (dot (Scalar.one :: x) (b :: w)), ?_, ?_⟩
  · simp only [LogReg.predict, withOnes_eq, ok_bind, Mat.mulVec]
    rw [if_pos (by simp [hw]), ok_bind, List.map_map, List.map_map]
    rfl
  · rw [List.forall₂_map_right_iff, List.forall₂_same]
    intro x hx
    refine ⟨(dot (Scalar.one :: x) (b :: w)).1, ?_, sigmoid_agree h _⟩
    rw [← hw]
    exact (affine_err h b w x (by rw [hX x hx, hw])).2

/-! ### Distances -/

/-- A computed squared difference. -/
theorem sq_agree (h : Precise R u) (x y : Fl R) : 0 ≤ ((x -. y) *. (x -. y)).1 ∧ 0 ≤ (x.1 - y.1) ^ 2 ∧
    AgreeUpTo (growth u 3) ((x -. y) *. (x -. y)).1 ((x.1 - y.1) ^ 2) := by
  have hd : AgreeUpTo (growth u 1) |R.fl (x.1 - y.1)| |x.1 - y.1| := by
    rcases le_total 0 (x.1 - y.1) with hc | hc
    · rw [abs_of_nonneg hc, abs_of_nonneg (fl_nonneg R hc)]
      exact agree_fl h hc
    · have := agree_fl h (neg_nonneg.2 hc)
      have hn := fl_nonneg R (neg_nonneg.2 hc)
      rw [R.odd] at this hn
      rwa [abs_of_nonpos hc, abs_of_nonpos (by linarith)]
  have hm := agree_mul hd hd (abs_nonneg _) (abs_nonneg _) (abs_nonneg _) (abs_nonneg _)
  rw [abs_mul_abs_self, abs_mul_abs_self, ← growth_add] at hm
  refine ⟨fl_nonneg R (mul_self_nonneg _), sq_nonneg _, ?_⟩
  have := agree_fl_trans h (mul_self_nonneg _) hm
  rw [pow_two]
  exact this

theorem sqSum_agree (h : Precise R u) (a b : List (Fl R)) (n : ℕ) (hn : min a.length b.length ≤ n) :
    0 ≤ (fsum (List.zipWith (fun x y : Fl R => (x -. y) *. (x -. y)) a b)).1 ∧
    AgreeUpTo (growth u (n + 3)) (fsum (List.zipWith (fun x y : Fl R => (x -. y) *. (x -. y)) a b)).1 (sqDist (reals a) (reals b)) := by
  obtain ⟨h1, h2⟩ := agree_fsum h (m := 3) (fun p : Fl R × Fl R => (p.1 -. p.2) *. (p.1 -. p.2)) (fun p => (p.1.1 - p.2.1) ^ 2) (a.zip b)
    (fun p _ => sq_agree h p.1 p.2)
  have e : (List.zipWith (fun x y : Fl R => (x -. y) *. (x -. y)) a b) = (a.zip b).map fun p => (p.1 -. p.2) *. (p.1 -. p.2) := by
    rw [List.zip, List.map_zipWith]
  have e2 : sqDist (reals a) (reals b) = ((a.zip b).map fun p => (p.1.1 - p.2.1) ^ 2).sum := by
    rw [sqDist, reals, reals, List.zipWith_map, List.zip, List.map_zipWith]
  rw [e, e2]
  refine ⟨h1, agree_mono h2 h1 ?_ (growth_mono h (by simp; omega))⟩
  apply List.sum_nonneg
  intro x hx
  obtain ⟨p, _, rfl⟩ := List.mem_map.1 hx
  positivity

/-- C86: computed squared distances. -/
theorem C86_squared_distance (h : Precise R u) (x c : List (Fl R)) :
    AgreeUpTo (growth u (x.length + 3)) (kmDist x c).1 (sqDist (reals x) (reals c)) := by
  have := (sqSum_agree h c x x.length (by omega)).2
  rw [sqDist_comm] at this
  unfold kmDist
  rw [List.map_zipWith]
  exact this

/-- C86: the distances of the neighbour searchers. -/
theorem C86_distance (h : Precise R u) (a b : List (Fl R)) :
    AgreeUpTo (growth u (a.length + 4)) (knnDist a b).1 (eucl (reals a) (reals b)) := by
  obtain ⟨h1, h2⟩ := sqSum_agree h a b a.length (by omega)
  exact agree_fl_trans h (Real.sqrt_nonneg _) (agree_sqrt h2 (one_le_growth h _))

/-- C86: the distances of DBSCAN. -/
theorem C86_dbscan_distance (h : Precise R u) (a b : List (Fl R)) (n : ℕ) (hn : min a.length b.length ≤ n) :
    AgreeUpTo (growth u (n + 4)) (dbD a b).1 (eucl (reals a) (reals b)) := by
  obtain ⟨h1, h2⟩ := sqSum_agree h a b n hn
  have e : List.zipWith Scalar.mul (List.zipWith Scalar.sub a b) (List.zipWith Scalar.sub a b) =
      List.zipWith (fun x y : Fl R => (x -. y) *. (x -. y)) a b := by
    rw [List.zipWith_self, List.map_zipWith]
  unfold dbD dot
  rw [e]
  exact agree_fl_trans h (Real.sqrt_nonneg _) (agree_sqrt h2 (one_le_growth h _))

/-- The exact distance of a point to row `i`. -/
noncomputable def trueDist (data : Mat (Fl R)) (point : List (Fl R)) (i : ℕ) : ℝ := eucl (reals point) ((realRows data).getD i [])

theorem trueDist_eq (data : Mat (Fl R)) (point : List (Fl R)) (i : ℕ) :
    trueDist data point i = eucl (reals point) (reals (data.rows.getD i [])) := by
  unfold trueDist realRows
  congr 1
  by_cases hi : i < data.rows.length
  · simp [hi]
  · rw [getD_ge _ (by simpa using hi), getD_ge _ (by simpa using hi)]; rfl

/-- C86: with rounding, the brute-force searcher returns `k` different rows; the distances it returns are the exact ones up to
`columns + 4` roundings; and the exact distance of a returned row exceeds that of a row that is left out at most by twice
as many roundings. -/
theorem C86_knn (h : Precise R u) (data : Mat (Fl R)) (point : List (Fl R)) (k : ℕ) (h1 : 1 ≤ k) (hk : k ≤ data.rows.length) :
    ∃ r, bruteSearch (some data) point k = ok r ∧ r.1.length = k ∧ r.1.Nodup ∧ (∀ i ∈ r.1, i < data.rows.length) ∧
      List.Forall₂ (fun i (d : Fl R) => AgreeUpTo (growth u (point.length + 4)) d.1 (trueDist data point i)) r.1 r.2 ∧
      ∀ j ∈ r.1, ∀ i, i < data.rows.length → i ∉ r.1 →
        trueDist data point j ≤ growth u (2 * (point.length + 4)) * trueDist data point i := by
  obtain ⟨r, hr, hs⟩ := C19_brute_force_k_nearest data point k h1 hk
  refine ⟨r, hr, hs.count, hs.distinct, hs.rows, ?_, ?_⟩
  · rw [hs.distances, List.forall₂_map_right_iff, List.forall₂_same]
    intro i _
    rw [trueDist_eq]
    exact C86_distance h _ _
  · intro j hj i hi hni
    have hd := hs.nearest i hi hni (knnDist point (data.rows.getD j [])) (by rw [hs.distances]; exact List.mem_map_of_mem hj)
    have hd : (knnDist point (data.rows.getD j [])).1 ≤ (knnDist point (data.rows.getD i [])).1 := hd
    have hg := growth_pos h (point.length + 4)
    rw [trueDist_eq, trueDist_eq, two_mul, growth_add, mul_assoc]
    refine (C86_distance h point (data.rows.getD j [])).2.trans (mul_le_mul_of_nonneg_left ?_ hg.le)
    exact hd.trans (C86_distance h point (data.rows.getD i [])).1

/-- C86: when the `k` nearest rows are separated from the others by more than the rounding errors, the brute-force
searcher returns exactly these rows. -/
theorem C86_knn_exact (h : Precise R u) (data : Mat (Fl R)) (point : List (Fl R)) (k : ℕ) (h1 : 1 ≤ k) (hk : k ≤ data.rows.length)
    (S : Finset ℕ) (hS : S.card = k) (hSn : ∀ i ∈ S, i < data.rows.length)
    (hsep : ∀ j ∈ S, ∀ i, i < data.rows.length → i ∉ S →
      growth u (2 * (point.length + 4)) * trueDist data point j < trueDist data point i) :
    ∃ r, bruteSearch (some data) point k = ok r ∧ r.1.Nodup ∧ ∀ i, i ∈ r.1 ↔ i ∈ S := by
  obtain ⟨r, hr, hc, hnd, hlt, _, hnear⟩ := C86_knn h data point k h1 hk
  have hcard : r.1.toFinset.card = S.card := by rw [List.toFinset_card_of_nodup hnd, hc, hS]
  have hsub : r.1.toFinset ⊆ S := by
    intro j hj
    by_contra hjS
    have hj' : j ∈ r.1 := by simpa using hj
    obtain ⟨i, hi, hir⟩ : ∃ i ∈ S, i ∉ r.1.toFinset := by
      by_contra hcon
      push Not at hcon
      have : S = r.1.toFinset := Finset.eq_of_subset_of_card_le hcon hcard.le
      exact hjS (this ▸ hj)
    have h2 := hnear j hj' i (hSn i hi) (by simpa using hir)
    have h3 := hsep i hi j (hlt j hj') hjS
    linarith
  have heq := Finset.eq_of_subset_of_card_le hsub hcard.ge
  exact ⟨r, hr, hnd, fun i => by rw [← heq]; simp⟩

/-- C86: with rounding, k-means assigns every row to a centroid whose exact squared distance is smallest up to
`2 (columns + 3)` roundings. -/
theorem C86_kmeans_predict (h : Precise R u) (m : KMeans (Fl R)) (c X : Mat (Fl R)) (hm : m.centroids = some c) (hne : c.rows ≠ [])
    (hX : X.WF) (hc : c.cols = X.cols) :
    ∃ labels, kmPredict m X = ok labels ∧ List.Forall₂ (fun x l => ∃ a, (realRows c)[l]? = some a ∧
      ∀ b ∈ realRows c, sqDist (reals x) a ≤ growth u (2 * (X.cols + 3)) * sqDist (reals x) b) X.rows labels := by
  have hrow : ∀ x ∈ X.rows, ∃ l, closestTo c X.cols x = ok l ∧ ∃ a, (realRows c)[l.1]? = some a ∧
      ∀ b ∈ realRows c, sqDist (reals x) a ≤ growth u (2 * (X.cols + 3)) * sqDist (reals x) b := by
    intro x hx
    rw [← hc, closestTo_eq]
    obtain ⟨i, v, h1, h2, h3, _⟩ := argminBy_spec Scalar.lt (OrdScalar.lt_iff (F := Fl R)) (c.rows.map (kmDist x)) (by simpa using hne)
    refine ⟨(i, v), h1, ?_⟩
    rw [List.getElem?_map] at h2
    obtain ⟨a, ha, rfl⟩ := Option.map_eq_some_iff.1 h2
    refine ⟨reals a, by simp [realRows, ha], ?_⟩
    intro b hb
    obtain ⟨b, hb', rfl⟩ := List.mem_map.1 hb
    have hd : (kmDist x a).1 ≤ (kmDist x b).1 := h3 _ (List.mem_map_of_mem hb')
    have hg := growth_pos h (x.length + 3)
    rw [← show x.length = c.cols from by rw [hX x hx, hc], two_mul, growth_add, mul_assoc]
    refine (C86_squared_distance h x a).2.trans (mul_le_mul_of_nonneg_left ?_ hg.le)
    exact hd.trans (C86_squared_distance h x b).1
  obtain ⟨bs, h1, h2⟩ := mapM_forall₂ (closestTo c X.cols) _ X.rows hrow
  refine ⟨bs.map Prod.fst, ?_, ?_⟩
  · unfold kmPredict findClosest
    rw [hm]
    simp only [h1, ok_bind]
  · rw [List.forall₂_map_right_iff]
    exact h2

/-- C86: a row that is nearer to one centroid than to all others by more than the rounding errors gets its number. -/
theorem C86_kmeans_exact (h : Precise R u) (m : KMeans (Fl R)) (c X : Mat (Fl R)) (hm : m.centroids = some c) (hne : c.rows ≠ [])
    (hX : X.WF) (hc : c.cols = X.cols) (labels : List ℕ) (hp : kmPredict m X = ok labels) (i l : ℕ) (x a : List (Fl R))
    (hi : X.rows[i]? = some x) (hl : c.rows[l]? = some a)
    (hsep : ∀ l' b, c.rows[l']? = some b → l' ≠ l →
      growth u (2 * (X.cols + 3)) * sqDist (reals x) (reals a) < sqDist (reals x) (reals b)) :
    labels[i]? = some l := by
  obtain ⟨labels', h1, h2⟩ := C86_kmeans_predict h m c X hm hne hX hc
  rw [hp] at h1
  cases h1
  have hil : i < X.rows.length := (List.getElem?_eq_some_iff.1 hi).1
  have hil' : i < labels.length := by rw [← h2.length_eq]; exact hil
  obtain ⟨a', ha', hall⟩ := (List.forall₂_iff_get.1 h2).2 i hil hil'
  have hx : X.rows.get ⟨i, hil⟩ = x := (List.getElem?_eq_some_iff.1 hi).2
  rw [hx] at hall
  rw [List.getElem?_eq_getElem hil']
  congr 1
  by_contra hcon
  simp only [realRows, List.getElem?_map, List.get_eq_getElem] at ha'
  obtain ⟨b, hb, rfl⟩ := Option.map_eq_some_iff.1 ha'
  have h3 := hsep _ b hb hcon
  have h4 := hall (reals a) (List.mem_map_of_mem (List.mem_of_getElem? hl))
  linarith

/-! ### DBSCAN -/

theorem dbD_comm_fl (a b : List (Fl R)) : dbD a b = dbD b a := dbD_comm_of MonoScalar.sq_comm a b

/-- The exact distance of samples `i` and `j`. -/
noncomputable def sampleDist (X : Mat (Fl R)) (i j : ℕ) : ℝ := eucl (reals (X.rows.getD i [])) (reals (X.rows.getD j []))

/-- C86: with rounding, DBSCAN computes the density clustering of a neighbourhood relation that agrees with "closer than
`eps`" except for pairs whose exact distance is `eps` up to `columns + 4` roundings. -/
theorem C86_dbscan (h : Precise R u) (m : Dbscan (Fl R)) (X : Mat (Fl R)) (hw : X.WF) :
    ∃ (near : ℕ → ℕ → Prop) (labels : List (Option ℕ)),
      (∀ i j, growth u (X.cols + 4) * sampleDist X i j < m.eps.1 → near i j) ∧
      (∀ i j, near i j → sampleDist X i j < growth u (X.cols + 4) * m.eps.1) ∧
      IsDensityClustering X.rows.length m.minPoints near labels ∧
      (∃ fuel₀, ∀ fuel, fuel₀ ≤ fuel → ∃ m', dbTrain fuel m X = some (ok m')) ∧
      ∀ fuel r, dbTrain fuel m X = some r → ∃ m', r = ok m' ∧ m'.clusters = some labels := by
  obtain ⟨labels, visited, h1, h2⟩ := dbTrain_spec dbD_comm_fl m X hw _ (le_refl _)
  have hag : ∀ i j, AgreeUpTo (growth u (X.cols + 4)) (dbD (X.rows.getD j []) (X.rows.getD i [])).1 (sampleDist X i j) := by
    intro i j
    unfold sampleDist
    rw [eucl_comm]
    apply C86_dbscan_distance h
    by_cases hj : j < X.rows.length
    · rw [getD_lt _ hj, hw _ (List.getElem_mem hj)]; omega
    · rw [getD_ge _ (by omega)]; simp
  have hlt : ∀ i j, nearF m.eps X i j ↔ (dbD (X.rows.getD j []) (X.rows.getD i [])).1 < m.eps.1 := by
    intro i j
    exact OrdScalar.lt_iff _ _
  have hg := growth_pos h (X.cols + 4)
  refine ⟨nearF m.eps X, labels, ?_, ?_, h2, ⟨(X.rows.length + 1) * (X.rows.length + 1), fun fuel hf => ?_⟩, ?_⟩
  · intro i j hij
    rw [hlt]
    exact lt_of_le_of_lt (hag i j).1 hij
  · intro i j hij
    rw [hlt] at hij
    exact lt_of_le_of_lt (hag i j).2 (mul_lt_mul_of_pos_left hij hg)
  · obtain ⟨l, v, h, _⟩ := dbTrain_spec dbD_comm_fl m X hw fuel hf
    exact ⟨_, h⟩
  · intro fuel r hr
    obtain ⟨l, v, h, h'⟩ := dbTrain_finished dbD_comm_fl hw hr
    exact ⟨_, h, by simp only; rw [IsDensityClustering.unique h' h2]⟩

/-- C86: when no exact distance is `eps` up to rounding errors, the clusters are those of exact arithmetic. -/
theorem C86_dbscan_exact (h : Precise R u) (m : Dbscan (Fl R)) (X : Mat (Fl R)) (hw : X.WF)
    (hsep : ∀ i j, growth u (X.cols + 4) * sampleDist X i j < m.eps.1 ∨ growth u (X.cols + 4) * m.eps.1 ≤ sampleDist X i j)
    (fuel : ℕ) (r : Outcome (Dbscan (Fl R))) (ht : dbTrain fuel m X = some r) :
    ∃ m' labels, r = ok m' ∧ m'.clusters = some labels ∧
      IsDensityClustering X.rows.length m.minPoints (fun i j => sampleDist X i j < m.eps.1) labels := by
  obtain ⟨near, labels, h1, h2, h3, _, h5⟩ := C86_dbscan h m X hw
  obtain ⟨m', e, hm'⟩ := h5 fuel r ht
  refine ⟨m', labels, e, hm', ?_⟩
  have hg := one_le_growth h (X.cols + 4)
  have hn : near = fun i j => sampleDist X i j < m.eps.1 := by
    funext i j
    have hs : 0 ≤ sampleDist X i j := Real.sqrt_nonneg _
    apply propext
    constructor
    · intro hij
      rcases hsep i j with hc | hc
      · nlinarith
      · exact absurd (h2 i j hij) (not_lt.2 hc)
    · intro hij
      rcases hsep i j with hc | hc
      · exact h1 i j hc
      · exfalso; nlinarith
  rw [hn] at h3
  exact h3

/-! ### Scores, means and transformers -/

theorem ofNat_agree (h : Precise R u) (n : ℕ) : AgreeUpTo (growth u 1) (Scalar.ofNat n : Fl R).1 n := agree_fl h (Nat.cast_nonneg n)

theorem flatten_zipWith {α β γ : Type} (f : α → β → γ) : ∀ (a : List (List α)) (b : List (List β)),
    (List.zipWith (List.zipWith f) a b).flatten = (List.zipWith List.zip a b).flatten.map fun p => f p.1 p.2
  | [], _ => by simp
  | _ :: _, [] => by simp
  | r :: a, s :: b => by
    simp only [List.zipWith_cons_cons, List.flatten_cons, List.map_append, flatten_zipWith f a b]
    rw [List.zip, List.map_zipWith]

/-- C86: the computed mean squared error agrees with the exact one up to `rows * columns + 9` roundings. -/
theorem C86_mse (h : Precise R u) (o t : Mat (Fl R)) (ho : o.WF) (hn : 0 < o.nrows) (hr : o.nrows = t.nrows) (hc : o.cols = t.cols) :
    ∃ s, negMeanSquaredError o t = ok s ∧
      AgreeUpTo (growth u (o.nrows * o.cols + 9)) (-s.1) ((List.zipWith sqDist (realRows o) (realRows t)).sum / o.nrows) := by
  unfold Mat.nrows at *
  set L := (List.zipWith List.zip o.rows t.rows).flatten with hL
  set S : Fl R := fsum (L.map fun p => (p.1 -. p.2) *. (p.1 -. p.2)) with hS
  obtain ⟨hS0, hS1⟩ := agree_fsum h (m := 3) (fun p : Fl R × Fl R => (p.1 -. p.2) *. (p.1 -. p.2)) (fun p => (p.1.1 - p.2.1) ^ 2) L
    (fun p _ => sq_agree h p.1 p.2)
  have hLlen : L.length ≤ o.rows.length * o.cols := by
    rw [hL, List.length_flatten]
    have : ∀ x ∈ (List.zipWith List.zip o.rows t.rows).map List.length, x ≤ o.cols := by
      intro x hx
      obtain ⟨y, hy, rfl⟩ := List.mem_map.1 hx
      rw [← List.map_uncurry_zip_eq_zipWith] at hy
      obtain ⟨p, hp, rfl⟩ := List.mem_map.1 hy
      have := ho p.1 (List.of_mem_zip hp).1
      simp only [Function.uncurry, List.length_zip]
      omega
    have := List.sum_le_card_nsmul _ _ this
    simpa [hr] using this
  have hsum : (L.map fun p => (p.1.1 - p.2.1) ^ 2).sum = (List.zipWith sqDist (realRows o) (realRows t)).sum := by
    rw [hL, List.map_flatten, List.sum_flatten, List.map_map, realRows, realRows, List.zipWith_map, List.map_zipWith]
    congr 2
    funext a b
    simp only [Function.comp_apply, sqDist, reals, List.zipWith_map, List.zip, List.map_zipWith]
  set E := (L.map fun p => (p.1.1 - p.2.1) ^ 2).sum with hE
  have hE0 : 0 ≤ E := by
    apply List.sum_nonneg
    intro x hx
    obtain ⟨p, _, rfl⟩ := List.mem_map.1 hx
    positivity
  have hn' : (0 : ℝ) < o.rows.length := by exact_mod_cast hn
  have hden := agree_mul (ofNat_agree h 2) (ofNat_agree h o.rows.length) (fl_nonneg R (Nat.cast_nonneg 2)) (Nat.cast_nonneg 2)
    (fl_nonneg R hn'.le) hn'.le
  rw [← growth_add] at hden
  have p2 : 0 < (Scalar.ofNat 2 : Fl R).1 := fl_pos h (by norm_num)
  have pn : 0 < (Scalar.ofNat o.rows.length : Fl R).1 := fl_pos h hn'
  have hden := agree_fl_trans h (mul_pos p2 pn).le hden
  have pden : 0 < ((Scalar.ofNat 2 : Fl R) *. Scalar.ofNat o.rows.length).1 := fl_pos h (mul_pos p2 pn)
  have hq := agree_div hS1 hden hS0 hE0 pden (by positivity)
  rw [← growth_add] at hq
  have pq : 0 ≤ S.1 / ((Scalar.ofNat 2 : Fl R) *. Scalar.ofNat o.rows.length).1 := div_nonneg hS0 pden.le
  have hq := agree_fl_trans h pq hq
  have pq' : 0 ≤ (S /. ((Scalar.ofNat 2 : Fl R) *. Scalar.ofNat o.rows.length)).1 := fl_nonneg R pq
  have hq := agree_mul (ofNat_agree h 2) hq p2.le (Nat.cast_nonneg 2) pq' (by positivity)
  rw [← growth_add] at hq
  have hq := agree_fl_trans h (mul_nonneg p2.le pq') hq
  refine ⟨Scalar.neg (Scalar.ofNat 2) *. (S /. ((Scalar.ofNat 2 : Fl R) *. Scalar.ofNat o.rows.length)), ?_, ?_⟩
  · unfold negMeanSquaredError mseCost Mat.zip
    rw [if_pos ⟨hr, hc⟩]
    simp only [ok_bind, and_self, if_true]
    have e1 : (List.zipWith (List.zipWith (Scalar.sub (F := Fl R))) o.rows t.rows).length = o.rows.length := by simp [hr]
    have e2 : (⟨o.cols, List.zipWith (List.zipWith Scalar.mul) (List.zipWith (List.zipWith Scalar.sub) o.rows t.rows)
        (List.zipWith (List.zipWith Scalar.sub) o.rows t.rows)⟩ : Mat (Fl R)).sum = S := by
      unfold Mat.sum Mat.data
      simp only
      rw [List.zipWith_self, List.map_zipWith]
      have : (fun (a b : List (Fl R)) => List.zipWith Scalar.mul (List.zipWith Scalar.sub a b) (List.zipWith Scalar.sub a b)) =
          List.zipWith fun x y : Fl R => (x -. y) *. (x -. y) := by
        funext a b
        rw [List.zipWith_self, List.map_zipWith]
      rw [this, flatten_zipWith]
    rw [e1, e2]
  · have e3 : -(Scalar.neg (Scalar.ofNat 2) *. (S /. ((Scalar.ofNat 2 : Fl R) *. Scalar.ofNat o.rows.length))).1 =
        R.fl ((Scalar.ofNat 2 : Fl R).1 * (S /. ((Scalar.ofNat 2 : Fl R) *. Scalar.ofNat o.rows.length)).1) := by
      change -R.fl (-(Scalar.ofNat 2 : Fl R).1 * _) = _
      rw [neg_mul, R.odd, neg_neg]
    have e4 : ((2 : ℕ) : ℝ) * (E / (((2 : ℕ) : ℝ) * o.rows.length)) = E / o.rows.length := by
      push_cast
      field_simp
    rw [e3, ← hsum, ← e4]
    refine agree_mono hq (fl_nonneg R (mul_nonneg p2.le pq')) (by positivity) (growth_mono h ?_)
    omega

/-- C86: computed column means. -/
theorem C86_mean (h : Precise R u) (X : Mat (Fl R)) (hX : X.WF) (hn : 0 < X.rows.length) (j : ℕ) (hj : j < X.cols) :
    |(X.meanRow.getD j Scalar.zero).1 - ((realRows X).map fun r => r.getD j 0).sum / X.rows.length| ≤
      (growth u (X.rows.length + 2) - 1) * (((realRows X).map fun r => |r.getD j 0|).sum / X.rows.length) := by
  have hcol : colOf X.rows j = X.rows.map fun r => r.getD j Scalar.zero := by
    unfold colOf
    have hw : ∀ r ∈ X.rows, j < r.length := fun r hr => by rw [hX r hr]; exact hj
    generalize X.rows = rows at hw
    induction rows with
    | nil => rfl
    | cons r rows ih =>
      have hr := hw r (by simp)
      rw [List.filterMap_cons_some (by rw [List.getElem?_eq_getElem hr]), ih (fun s hs => hw s (by simp [hs])), List.map_cons,
        getD_lt _ hr]
  have hm : X.meanRow.getD j Scalar.zero = fsum (X.rows.map fun r => r.getD j Scalar.zero) /. Scalar.ofNat X.rows.length := by
    unfold Mat.meanRow Mat.sumRows
    rw [getD_lt _ (by simpa using hj)]
    simp [hcol]
  have hz : ∀ r : List (Fl R), (r.getD j Scalar.zero).1 = (reals r).getD j 0 := by
    intro r
    by_cases hr : j < r.length
    · rw [getD_lt _ hr, getD_lt _ (by simpa [reals] using hr)]; simp [reals]
    · rw [getD_ge _ (by omega), getD_ge _ (by simpa [reals] using hr)]; rfl
  have hn' : (0 : ℝ) < X.rows.length := by exact_mod_cast hn
  have h1 := err_fsum_map h X.rows (fun r => r.getD j Scalar.zero) (fun r => (r.getD j Scalar.zero).1) (fun r => |(r.getD j Scalar.zero).1|)
    (fun r _ => err_exact u _)
  have h2 := err_div' h h1 hn' (fl_pos h hn') (ofNat_agree h X.rows.length)
  have h3 := (err_fl h h2).2
  rw [hm]
  simp only [hz, zero_add] at h3
  simp only [realRows, List.map_map, Function.comp_def]
  exact h3

/-- The entry of a matrix as a real number. -/
noncomputable def entryR (X : Mat (Fl R)) (i j : ℕ) : ℝ := ((X.rows.getD i []).getD j Scalar.zero).1

theorem zipWith_getD₂ {α β γ : Type} (f : α → β → γ) (l : List α) (l' : List β) (j : ℕ) (a : α) (b : β) (c : γ) (h : j < l.length)
    (h' : j < l'.length) : (List.zipWith f l l').getD j c = f (l.getD j a) (l'.getD j b) := by
  rw [getD_lt _ (by simp; omega), getD_lt _ h, getD_lt _ h', List.getElem_zipWith]

/-- C86: the min-max scaler. Every entry is off by at most what two roundings make of the sizes of its two terms. -/
theorem C86_minmax (h : Precise R u) (t : MinMaxScaler (Fl R)) (X : Mat (Fl R)) (hX : X.WF) (hs : t.scale.length = X.cols)
    (hc : t.const.length = X.cols) :
    ∃ Y, minmaxTransform t X = ok Y ∧ Y.cols = X.cols ∧ Y.rows.length = X.rows.length ∧ ∀ i j, i < X.rows.length → j < X.cols →
      |entryR Y i j - (entryR X i j * (reals t.scale).getD j 0 + (reals t.const).getD j 0)| ≤
        (growth u 2 - 1) * (|entryR X i j * (reals t.scale).getD j 0| + |(reals t.const).getD j 0|) := by
  refine ⟨_, if_neg (by simpa using hs), rfl, by simp, ?_⟩
  intro i j hi hj
  have hr : (X.rows[i]).length = X.cols := hX _ (List.getElem_mem hi)
  have hz : ∀ r : List (Fl R), (reals r).getD j 0 = (r.getD j Scalar.zero).1 := by
    intro r
    by_cases hr : j < r.length
    · rw [getD_lt _ hr, getD_lt _ (by simpa [reals] using hr)]; simp [reals]
    · rw [getD_ge (l := r) _ (by omega), getD_ge _ (by simpa [reals] using hr)]; rfl
  unfold entryR
  simp only [hz]
  have hrow : ∀ f : List (Fl R) → List (Fl R), (X.rows.map f).getD i [] = f X.rows[i] := fun f => by simp [hi]
  rw [hrow, getD_lt _ hi,
    zipWith_getD₂ _ _ _ j Scalar.zero Scalar.zero Scalar.zero (by simp; omega) (by omega),
    zipWith_getD₂ _ _ _ j Scalar.zero Scalar.zero Scalar.zero (by omega) (by omega)]
  have h1 := err_fl h (err_exact u ((X.rows[i].getD j Scalar.zero).1 * (t.scale.getD j Scalar.zero).1))
  exact (err_fl h (err_add' h1 (err_mono h (Nat.zero_le 1) (err_exact u (t.const.getD j Scalar.zero).1)))).2

/-- C86: the standardizer. Every entry of a column with positive stored variance is off by at most what five roundings make
of the sizes of its two terms. -/
theorem C86_standardizer (h : Precise R u) (t : Standardizer (Fl R)) (X : Mat (Fl R)) (hX : X.WF) (hm : t.means.length = X.cols)
    (hv : t.variances.length = X.cols) :
    ∃ Y, standardizerTransform t X = ok Y ∧ Y.cols = X.cols ∧ Y.rows.length = X.rows.length ∧ ∀ i j, i < X.rows.length → j < X.cols →
      0 < (reals t.variances).getD j 0 →
      |entryR Y i j - ((entryR X i j - (reals t.means).getD j 0) * t.scaledStdev.1 / Real.sqrt ((reals t.variances).getD j 0) + t.scaledMean.1)| ≤
        (growth u 5 - 1) *
          (|entryR X i j - (reals t.means).getD j 0| * |t.scaledStdev.1| / Real.sqrt ((reals t.variances).getD j 0) + |t.scaledMean.1|) := by
  refine ⟨_, if_neg (by simpa using hm), rfl, by simp, ?_⟩
  intro i j hi hj
  have hr : (X.rows[i]).length = X.cols := hX _ (List.getElem_mem hi)
  have hz : ∀ r : List (Fl R), (reals r).getD j 0 = (r.getD j Scalar.zero).1 := by
    intro r
    by_cases hr : j < r.length
    · rw [getD_lt _ hr, getD_lt _ (by simpa [reals] using hr)]; simp [reals]
    · rw [getD_ge (l := r) _ (by omega), getD_ge _ (by simpa [reals] using hr)]; rfl
  unfold entryR
  simp only [hz]
  intro hpos
  have hrow : ∀ f : List (Fl R) → List (Fl R), (X.rows.map f).getD i [] = f X.rows[i] := fun f => by simp [hi]
  rw [hrow, getD_lt _ hi,
    zipWith_getD₂ _ _ _ j Scalar.zero Scalar.zero Scalar.zero (by simp; omega) (by omega),
    zipWith_getD₂ _ _ _ j Scalar.zero Scalar.zero Scalar.zero (by omega) (by omega)]
  have hsq : 0 < Real.sqrt (t.variances.getD j Scalar.zero).1 := Real.sqrt_pos.2 hpos
  have h1 := err_fl h (err_exact u ((X.rows[i].getD j Scalar.zero).1 - (t.means.getD j Scalar.zero).1))
  have h2 := err_fl h (err_mul' h h1 (err_exact u t.scaledStdev.1))
  have h3 := err_fl h (err_div' h h2 hsq (fl_pos h hsq) (agree_fl h hsq.le))
  exact (err_fl h (err_add' h3 (err_mono h (Nat.zero_le 4) (err_exact u t.scaledMean.1)))).2

/-! ### The hypotheses are met -/

/-- Truncation to 53 significant bits has relative error at most `2⁻⁵²`; it is not exact. -/
theorem C86_witness : Precise (truncBits 52) (1 / 2 ^ 52) ∧ ∃ x, (truncBits 52).fl x ≠ x := by
  refine ⟨truncBits_precise 52 (by norm_num), 1 / 3, ?_⟩
  intro hc
  change (if (0 : ℝ) ≤ 1 / 3 then bitsTrunc 52 (1 / 3) else -bitsTrunc 52 (-(1 / 3))) = 1 / 3 at hc
  rw [if_pos (by norm_num)] at hc
  unfold bitsTrunc at hc
  have hl : Int.log 2 (1 / 3 : ℝ) = -2 := by
    have h1 : (-2 : ℤ) ≤ Int.log 2 (1 / 3 : ℝ) := by
      rw [← Int.zpow_le_iff_le_log (by norm_num) (by norm_num)]; norm_num
    have h2 : Int.log 2 (1 / 3 : ℝ) < -1 := by
      rw [← Int.lt_zpow_iff_log_lt (by norm_num) (by norm_num)]; norm_num
    omega
  rw [hl] at hc
  set k := ⌊(1 / 3 : ℝ) / 2 ^ ((-2 : ℤ) - ((52 : ℕ) : ℤ))⌋
  have e : (2 : ℝ) ^ ((-2 : ℤ) - ((52 : ℕ) : ℤ)) = 1 / 2 ^ 54 := by
    have : ((-2 : ℤ) - ((52 : ℕ) : ℤ)) = -((54 : ℕ) : ℤ) := by norm_num
    rw [this, zpow_neg, zpow_natCast, one_div]
  rw [e] at hc
  have h3 : (3 * k : ℝ) = 2 ^ 54 := by linarith
  have h4 : 3 * k = 2 ^ 54 := by exact_mod_cast h3
  omega

/-- A prediction with two columns: five roundings, an error of at most `2⁻⁴⁹` of the sizes of the terms. -/
example (b v w x y : Fl (truncBits 52)) : ∃ p, LinReg.predict ⟨some [b, v, w]⟩ (⟨2, [[x, y]]⟩ : Mat (Fl (truncBits 52))) = ok [p] ∧
    |p.1 - (b.1 + (v.1 * x.1 + w.1 * y.1))| ≤ 1 / 2 ^ 49 * (|b.1| + (|v.1 * x.1| + |w.1 * y.1|)) := by
  obtain ⟨p, h1, h2⟩ := C86_linear_predict C86_witness.1 b [v, w] ⟨2, [[x, y]]⟩ (by unfold Mat.WF; simp) rfl
  cases h2 with
  | cons h3 h4 =>
    cases h4
    refine ⟨_, h1, ?_⟩
    have hg := (C86_growth C86_witness.1 5 (by norm_num)).2.2
    refine (by simpa [reals] using h3 : _ ≤ (growth (2 ^ 52)⁻¹ 5 - 1) * _).trans (mul_le_mul_of_nonneg_right ?_ (by positivity))
    rw [one_div] at hg
    refine hg.trans ?_
    norm_num

/-- Numbers 0, 1 and 16 as stored with 53 bits. -/
noncomputable def fl0 : Fl (truncBits 52) := Scalar.zero
noncomputable def fl1 : Fl (truncBits 52) := Scalar.one
noncomputable def fl16 : Fl (truncBits 52) := Scalar.ofNat 16

theorem growth_small (m : ℕ) (hm : m ≤ 20) : growth (1 / 2 ^ 52) m ≤ 2 := by
  have hm' : (m : ℝ) ≤ 20 := by exact_mod_cast hm
  have h1 : (m : ℝ) * (1 / 2 ^ 52) ≤ 1 / 2 := by
    refine (mul_le_mul_of_nonneg_right hm' (by positivity)).trans ?_
    norm_num
  refine (C86_growth C86_witness.1 m (by linarith)).2.1.trans ?_
  rw [div_le_iff₀ (by linarith)]
  linarith

theorem fl_sizes : fl0.1 = 0 ∧ 1 / 2 ≤ fl1.1 ∧ fl1.1 ≤ 2 ∧ 8 ≤ fl16.1 := by
  have hg := growth_small 1 (by norm_num)
  have h1 : AgreeUpTo (growth (1 / 2 ^ 52) 1) fl1.1 1 := agree_fl C86_witness.1 zero_le_one
  have h2 : AgreeUpTo (growth (1 / 2 ^ 52) 1) fl16.1 (16 : ℕ) := ofNat_agree C86_witness.1 16
  have p1 : 0 < fl1.1 := fl_pos C86_witness.1 one_pos
  have p2 : 0 < fl16.1 := fl_pos C86_witness.1 (by norm_num : (0 : ℝ) < (16 : ℕ))
  refine ⟨rfl, ?_, ?_, ?_⟩
  · have := h1.2; nlinarith
  · have := h1.1; linarith
  · have := h2.2; push_cast at this; nlinarith

/-- The nearest of two rows is found although distances are rounded. -/
example : ∃ r, bruteSearch (some (⟨1, [[fl16], [fl1]]⟩ : Mat (Fl (truncBits 52)))) [fl0] 1 = ok r ∧ r.1.Nodup ∧ ∀ i, i ∈ r.1 ↔ i ∈ ({1} : Finset ℕ) := by
  obtain ⟨h0, h1, h2, h3⟩ := fl_sizes
  refine C86_knn_exact C86_witness.1 _ _ 1 le_rfl (by decide) {1} rfl (by simp) ?_
  intro j hj i hi hni
  simp only [Finset.mem_singleton] at hj hni
  subst hj
  have : i = 0 := by simp at hi; omega
  subst this
  have e1 : trueDist (⟨1, [[fl16], [fl1]]⟩ : Mat (Fl (truncBits 52))) [fl0] 1 = fl1.1 := by
    rw [trueDist_eq]
    simp [reals, eucl_one, h0, abs_of_nonneg (by linarith : 0 ≤ fl1.1)]
  have e2 : trueDist (⟨1, [[fl16], [fl1]]⟩ : Mat (Fl (truncBits 52))) [fl0] 0 = fl16.1 := by
    rw [trueDist_eq]
    simp [reals, eucl_one, h0, abs_of_nonneg (by linarith : 0 ≤ fl16.1)]
  rw [e1, e2]
  have hg := growth_small (2 * ([fl0].length + 4)) (by simp)
  nlinarith

/-- Two far samples and a radius of 1: the clusters are the exact ones. -/
example (fuel : ℕ) (r : Outcome (Dbscan (Fl (truncBits 52))))
    (ht : dbTrain fuel ⟨fl1, 1, none, false, [], none⟩ (⟨1, [[fl0], [fl16]]⟩ : Mat (Fl (truncBits 52))) = some r) :
    ∃ m' labels, r = ok m' ∧ m'.clusters = some labels ∧
      IsDensityClustering 2 1 (fun i j => sampleDist (⟨1, [[fl0], [fl16]]⟩ : Mat (Fl (truncBits 52))) i j < fl1.1) labels := by
  obtain ⟨h0, h1, h2, h3⟩ := fl_sizes
  refine C86_dbscan_exact C86_witness.1 _ _ (by unfold Mat.WF; simp) ?_ fuel r ht
  have hg := growth_small (1 + 4) (by norm_num)
  have hnil : ∀ a : List ℝ, eucl [] a = 0 ∧ eucl a [] = 0 := by intro a; simp [eucl]
  have key : ∀ i j, sampleDist (⟨1, [[fl0], [fl16]]⟩ : Mat (Fl (truncBits 52))) i j = 0 ∨
      sampleDist (⟨1, [[fl0], [fl16]]⟩ : Mat (Fl (truncBits 52))) i j = fl16.1 := by
    intro i j
    have habs : |fl16.1| = fl16.1 := abs_of_nonneg (by linarith)
    unfold sampleDist
    rcases i with _ | _ | i <;> rcases j with _ | _ | j <;>
      simp [reals, eucl_one, h0, hnil, habs]
  intro i j
  rcases key i j with e | e
  · left; rw [e, mul_zero]; change 0 < fl1.1; linarith
  · right; rw [e]; change growth _ (1 + 4) * fl1.1 ≤ _; nlinarith

end RM
