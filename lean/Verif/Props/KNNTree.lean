import Verif.Proofs.TreeTermination
import Verif.Props.KNN

/-! C20–C23: structure, search and termination of kd-trees and ball trees. -/

namespace RM
open Outcome Spec Scalar

variable {F : Type} [Scalar F]

/-! ### C20 -/

section ord
variable [LinearOrder F] [OrdScalar F]

/-- C20, kd-tree: a build that ends succeeds; every row is in exactly one leaf (the leaves together are a permutation of all
row numbers), leaves are non-empty and smaller than `leafsize`, and the box stored in a branch contains every row below it. -/
theorem C20_kd_structure (t0 : BinaryTree F (List F × List F)) (data : Mat F) (hw : data.WF) (hc : 0 < data.cols)
    (hn : data.rows ≠ []) (fuel : ℕ) (o : Outcome (BinaryTree F (List F × List F)))
    (h : treeBuild kdKind fuel t0 data = some o) :
    ∃ root, o = ok ⟨t0.leafsize, some data, some root⟩ ∧
      root.leaves.flatten.Perm (List.range data.rows.length) ∧
      (∀ c ∈ root.leaves, c ≠ [] ∧ c.length < t0.leafsize) ∧
      root.Bounded (InBox data) := by
  obtain ⟨root, h1, h2⟩ := treeBuild_spec kdKind (KdIn data) hw hc hn t0
    (fun rem a b _ _ h3 h4 h5 => kd_mkBound rem a b h3 h4 h5) fuel o h
  refine ⟨root, h1, ?_, fun c hc => ⟨h2.leafNe c hc, h2.leafLt c hc⟩, h2.bounded.mono ?_⟩
  · rw [leaves_flatten]; exact h2.perm
  · intro b i hi hin
    exact hin.inBox hw (by have := h2.perm.mem_iff.1 hi; simpa using this)

/-- C20, ball tree: as for the kd-tree; the ball stored in a branch contains every row below it. -/
theorem C20_ball_structure (t0 : BinaryTree F (List F × F)) (data : Mat F) (hw : data.WF) (hc : 0 < data.cols)
    (hn : data.rows ≠ []) (fuel : ℕ) (o : Outcome (BinaryTree F (List F × F)))
    (h : treeBuild ballKind fuel t0 data = some o) :
    ∃ root, o = ok ⟨t0.leafsize, some data, some root⟩ ∧
      root.leaves.flatten.Perm (List.range data.rows.length) ∧
      (∀ c ∈ root.leaves, c ≠ [] ∧ c.length < t0.leafsize) ∧
      root.Bounded (fun ball i => ∃ row, data.rows[i]? = some row ∧ knnDist ball.1 row ≤ ball.2) := by
  obtain ⟨root, h1, h2⟩ := treeBuild_spec ballKind (BallIn data) hw hc hn t0
    (fun rem a b _ h3 _ _ _ => ball_mkBound hw rem a b h3) fuel o h
  refine ⟨root, h1, ?_, fun c hc => ⟨h2.leafNe c hc, h2.leafLt c hc⟩, h2.bounded.mono ?_⟩
  · rw [leaves_flatten]; exact h2.perm
  · intro b i hi hin
    have hi' : i < data.rows.length := by have := h2.perm.mem_iff.1 hi; simpa using this
    refine ⟨data.rows[i], List.getElem?_eq_getElem hi', ?_⟩
    have := hin.2
    rwa [getD_of_lt' _ hi'] at this

/-- C20: splits separate: every row left of a branch is below the split value, every row right of it is not. -/
theorem C20_splits_separate {B : Type} (K : SplitKind F B) (hK : ∀ (data : Mat F) (rem : List ℕ) (a b : List F), data.WF →
      (∀ i ∈ rem, i < data.rows.length) → ∃ bd, K.mkBound data rem a b = ok bd)
    (t0 : BinaryTree F B) (data : Mat F) (hw : data.WF) (hc : 0 < data.cols)
    (hn : data.rows ≠ []) (fuel : ℕ) (t : BinaryTree F B) (root : Node F B)
    (h : treeBuild K fuel t0 data = some (ok t)) (hr : t.root = some root) : root.Ordered data := by
  obtain ⟨root', h1, h2⟩ := treeBuild_spec K (fun _ _ => True) hw hc hn t0
    (fun rem a b _ h3 _ _ _ => by obtain ⟨bd, hb⟩ := hK data rem a b hw h3; exact ⟨bd, hb, fun _ _ => trivial⟩) fuel _ h
  cases h1
  cases hr
  exact h2.ordered

end ord

/-! ### C21: kd-tree search -/

section mono
variable [LinearOrder F] [MonoScalar F]

/-- C21, what holds of every query (exact arithmetic or monotone rounding): the search succeeds, and if the leaf on the
query's side holds `m ≥ 1` rows, the first `min k (m+1)` results are nearest rows; at most `k` results, sorted, distinct.
Missing for the full claim: the results beyond position `m + 1`, see `C21_kd_violation`. -/
theorem C21_kd_search_prefix_partial (t0 : BinaryTree F (List F × List F)) (data : Mat F) (hw : data.WF) (hc : 0 < data.cols)
    (fuel : ℕ) (t : BinaryTree F (List F × List F)) (h : treeBuild kdKind fuel t0 data = some (ok t))
    (point : List F) (hp : data.cols ≤ point.length) (k : ℕ) (hk : 1 ≤ k) (hkn : k ≤ data.rows.length)
    (hmax : ∀ i, i < data.rows.length → knnDist point (data.rows.getD i []) < Scalar.maxVal) :
    ∃ root r, t.root = some root ∧ 1 ≤ (root.homeLeaf point).length ∧ treeSearch kdKind t point k = ok r ∧
      PrefixNearestOf data.rows.length (fun i => knnDist point (data.rows.getD i []))
        (min k ((root.homeLeaf point).length + 1)) k r := by
  have hn : data.rows ≠ [] := by intro hc; rw [hc] at hkn; simp at hkn; omega
  obtain ⟨root, h1, h2⟩ := treeBuild_spec kdKind (KdIn data) hw hc hn t0
    (fun rem a b _ _ h3 h4 h5 => kd_mkBound rem a b h3 h4 h5) fuel _ h
  cases h1
  have hrow : ∀ i ∈ root.rows, i < data.rows.length := fun i hi => by have := h2.perm.mem_iff.1 hi; simpa using this
  obtain ⟨h3, r, h4, h5⟩ := treeSearch_good kdKind data point k hk hkn hmax root t0.leafsize
    ⟨h2.bounded.mono (fun b i hi hin => kd_dist_le hw point (hrow i hi) hin), h2.leafNe, h2.dims.mono hp, hrow⟩ h2.perm
  exact ⟨root, r, rfl, List.length_pos_iff.2 h3, h4, h5⟩

/-- C21: exact whenever the query's leaf holds at least `k - 1` rows. -/
theorem C21_kd_search_exact_partial (t0 : BinaryTree F (List F × List F)) (data : Mat F) (hw : data.WF) (hc : 0 < data.cols)
    (fuel : ℕ) (t : BinaryTree F (List F × List F)) (h : treeBuild kdKind fuel t0 data = some (ok t))
    (point : List F) (hp : data.cols ≤ point.length) (k : ℕ) (hk : 1 ≤ k) (hkn : k ≤ data.rows.length)
    (hmax : ∀ i, i < data.rows.length → knnDist point (data.rows.getD i []) < Scalar.maxVal)
    (root : Node F (List F × List F)) (hr : t.root = some root) (hm : k ≤ (root.homeLeaf point).length + 1) :
    ∃ r, treeSearch kdKind t point k = ok r ∧
      KNearestOf data.rows.length (fun i => knnDist point (data.rows.getD i [])) k r := by
  obtain ⟨root', r, h1, _, h3, h4⟩ := C21_kd_search_prefix_partial t0 data hw hc fuel t h point hp k hk hkn hmax
  rw [hr] at h1; cases h1
  rw [min_eq_left hm] at h4
  exact ⟨r, h3, PrefixNearestOf.full h4⟩

/-- C21: unconditionally exact for one or two neighbours. -/
theorem C21_kd_search_two_partial (t0 : BinaryTree F (List F × List F)) (data : Mat F) (hw : data.WF) (hc : 0 < data.cols)
    (fuel : ℕ) (t : BinaryTree F (List F × List F)) (h : treeBuild kdKind fuel t0 data = some (ok t))
    (point : List F) (hp : data.cols ≤ point.length) (k : ℕ) (hk : 1 ≤ k) (hk2 : k ≤ 2) (hkn : k ≤ data.rows.length)
    (hmax : ∀ i, i < data.rows.length → knnDist point (data.rows.getD i []) < Scalar.maxVal) :
    ∃ r, treeSearch kdKind t point k = ok r ∧
      KNearestOf data.rows.length (fun i => knnDist point (data.rows.getD i [])) k r := by
  obtain ⟨root', r, h1, h2, h3, h4⟩ := C21_kd_search_prefix_partial t0 data hw hc fuel t h point hp k hk hkn hmax
  rw [min_eq_left (by omega)] at h4
  exact ⟨r, h3, PrefixNearestOf.full h4⟩

end mono

/-! ### C22: ball-tree search (exact arithmetic) -/

/-- C22, what holds of every query; same shape as `C21_kd_search_prefix_partial`, distances are Euclidean. -/
theorem C22_ball_search_prefix_partial (t0 : BinaryTree ℝ (List ℝ × ℝ)) (data : Mat ℝ) (hw : data.WF) (hc : 0 < data.cols)
    (fuel : ℕ) (t : BinaryTree ℝ (List ℝ × ℝ)) (h : treeBuild ballKind fuel t0 data = some (ok t))
    (point : List ℝ) (hp : data.cols ≤ point.length) (k : ℕ) (hk : 1 ≤ k) (hkn : k ≤ data.rows.length)
    (hmax : ∀ i, i < data.rows.length → eucl point (data.rows.getD i []) < 2 ^ 1024 - 2 ^ 971) :
    ∃ root r, t.root = some root ∧ 1 ≤ (root.homeLeaf point).length ∧ treeSearch ballKind t point k = ok r ∧
      PrefixNearestOf data.rows.length (fun i => eucl point (data.rows.getD i []))
        (min k ((root.homeLeaf point).length + 1)) k r := by
  have hn : data.rows ≠ [] := by intro hc; rw [hc] at hkn; simp at hkn; omega
  obtain ⟨root, h1, h2⟩ := treeBuild_spec ballKind (BallIn data) hw hc hn t0
    (fun rem a b _ h3 _ _ _ => ball_mkBound hw rem a b h3) fuel _ h
  cases h1
  have hrow : ∀ i ∈ root.rows, i < data.rows.length := fun i hi => by have := h2.perm.mem_iff.1 hi; simpa using this
  simp only [← C19_C21_C22_distance_is_euclidean] at hmax ⊢
  obtain ⟨h3, r, h4, h5⟩ := treeSearch_good ballKind data point k hk hkn hmax root t0.leafsize
    ⟨h2.bounded.mono (fun b i hi hin => ball_dist_le hw point (hrow i hi) hin), h2.leafNe, h2.dims.mono hp, hrow⟩ h2.perm
  exact ⟨root, r, rfl, List.length_pos_iff.2 h3, h4, h5⟩

/-- C22: exact whenever the query's leaf holds at least `k - 1` rows. -/
theorem C22_ball_search_exact_partial (t0 : BinaryTree ℝ (List ℝ × ℝ)) (data : Mat ℝ) (hw : data.WF) (hc : 0 < data.cols)
    (fuel : ℕ) (t : BinaryTree ℝ (List ℝ × ℝ)) (h : treeBuild ballKind fuel t0 data = some (ok t))
    (point : List ℝ) (hp : data.cols ≤ point.length) (k : ℕ) (hk : 1 ≤ k) (hkn : k ≤ data.rows.length)
    (hmax : ∀ i, i < data.rows.length → eucl point (data.rows.getD i []) < 2 ^ 1024 - 2 ^ 971)
    (root : Node ℝ (List ℝ × ℝ)) (hr : t.root = some root) (hm : k ≤ (root.homeLeaf point).length + 1) :
    ∃ r, treeSearch ballKind t point k = ok r ∧
      KNearestOf data.rows.length (fun i => eucl point (data.rows.getD i [])) k r := by
  obtain ⟨root', r, h1, _, h3, h4⟩ := C22_ball_search_prefix_partial t0 data hw hc fuel t h point hp k hk hkn hmax
  rw [hr] at h1; cases h1
  rw [min_eq_left hm] at h4
  exact ⟨r, h3, PrefixNearestOf.full h4⟩

/-- C22: unconditionally exact for one or two neighbours. -/
theorem C22_ball_search_two_partial (t0 : BinaryTree ℝ (List ℝ × ℝ)) (data : Mat ℝ) (hw : data.WF) (hc : 0 < data.cols)
    (fuel : ℕ) (t : BinaryTree ℝ (List ℝ × ℝ)) (h : treeBuild ballKind fuel t0 data = some (ok t))
    (point : List ℝ) (hp : data.cols ≤ point.length) (k : ℕ) (hk : 1 ≤ k) (hk2 : k ≤ 2) (hkn : k ≤ data.rows.length)
    (hmax : ∀ i, i < data.rows.length → eucl point (data.rows.getD i []) < 2 ^ 1024 - 2 ^ 971) :
    ∃ r, treeSearch ballKind t point k = ok r ∧
      KNearestOf data.rows.length (fun i => eucl point (data.rows.getD i [])) k r := by
  obtain ⟨root', r, h1, h2, h3, h4⟩ := C22_ball_search_prefix_partial t0 data hw hc fuel t h point hp k hk hkn hmax
  rw [min_eq_left (by omega)] at h4
  exact ⟨r, h3, PrefixNearestOf.full h4⟩

/-! ### The violation: a search for three neighbours that finds two -/

/-- Three points on a line. -/
def lineData : Mat ℝ := ⟨1, [[0], [10], [11]]⟩

theorem knnDist_line (p r : ℝ) : knnDist [p] [r] = |p - r| := by
  rw [knnDist_real]
  simp [Real.sqrt_mul_self_eq_abs]

theorem lt_maxVal {x : ℝ} (h : x ≤ 1000) : x < Scalar.maxVal := by
  rw [real_maxVal]
  have e : (2 : ℝ) ^ 1024 = 2 ^ 971 * 2 ^ 53 := by rw [← pow_add]
  have h1 : (1 : ℝ) ≤ 2 ^ 971 := one_le_pow₀ (by norm_num)
  have h2 : (1001 : ℝ) ≤ 2 ^ 53 - 1 := by norm_num
  rw [e]
  generalize (2 : ℝ) ^ 971 = a at *
  generalize (2 : ℝ) ^ 53 = b at *
  nlinarith

/-- The tree built for `lineData` with `leafsize` 3. -/
theorem lineTree {B : Type} (K : SplitKind ℝ B) (b : B) (hK : K.mkBound lineData [0, 1, 2] [0] [11] = ok b) :
    treeBuild K 2 ⟨3, none, none⟩ lineData =
      some (ok ⟨3, some lineData, some (.branch 0 (11 / 2) b (.leaf [0]) (.leaf [1, 2]))⟩) := by
  have hsel : selectSplit lineData 1 [0, 1, 2] [0] [11] = some (ok ⟨0, 11 / 2, [0], [1, 2], [11 / 2], [11 / 2]⟩) := by
    simp [selectSplit, argmaxBy, argAux, partitionRows, lineData]
    norm_num
    simp
  have hmin : minRows lineData = ok [0] := by
    simp [minRows, extremeRows, lineData]
    norm_num
  have hmax : maxRows lineData = ok [11] := by
    simp [maxRows, extremeRows, lineData]
    norm_num
  unfold treeBuild
  rw [hmin, hmax]
  have hr : List.range lineData.rows.length = [0, 1, 2] := by decide
  rw [hr]
  have hs : splitNode K lineData 3 2 [0, 1, 2] [0] [11] = some (ok (.branch 0 (11 / 2) b (.leaf [0]) (.leaf [1, 2]))) := by
    rw [splitNode]
    simp only [List.length_cons, List.length_nil, hsel]
    simp [splitNode, hK]
  simp only [hs]

theorem lineSearcher {B : Type} (K : SplitKind ℝ B) (b : B) :
    treeSearch K ⟨3, some lineData, some (.branch 0 (11 / 2) b (.leaf [0]) (.leaf [1, 2]))⟩ [0] 3 = ok ([0, 1], [0, 10]) := by
  have h1 : searchLeaf lineData [0] 3 (.branch 0 (11 / 2) b (.leaf [0]) (.leaf [1, 2]) : Node ℝ B) [] =
      ok ([(0, 0)], [.leaf [1, 2]]) := by
    simp [searchLeaf, getDistances, lineData, getAt, knnDist_line, knearestNew]
  have h2 : searchQueue K lineData [0] 3 [.leaf [1, 2]] [(0, 0)] = ok [(0, 0), (1, 10)] := by
    have hg : getDistances lineData [0] [1, 2] = ok [10, 11] := by
      simp [getDistances, lineData, getAt, knnDist_line]
    rw [searchQueue, hg]
    have hm' : (10 : ℝ) < Scalar.maxVal := lt_maxVal (by norm_num)
    simp [knearestDist, offerAll, knearestAdd, hm', searchQueue]
    rw [if_neg (by norm_num)]
    rfl
  unfold treeSearch
  simp only [h1, ok_bind, h2]
  rfl

/-- C21 is violated: a kd-tree on three rows, queried for three neighbours, returns only two (so less than `k` rows vote in a
prediction). `KNearest::add` returns the distance of the farthest row held even when fewer than `k` are held, and the leaf
loop then drops every later row of that leaf that is farther away. -/
theorem C21_kd_violation : ∃ (t : BinaryTree ℝ (List ℝ × List ℝ)) (r : List ℕ × List ℝ),
    treeBuild kdKind 2 ⟨3, none, none⟩ lineData = some (ok t) ∧ treeSearch kdKind t [0] 3 = ok r ∧ r.1 = [0, 1] ∧
    ¬ KNearestOf 3 (fun i => eucl [0] (lineData.rows.getD i [])) 3 r :=
  ⟨_, _, lineTree kdKind _ rfl, lineSearcher _ _, rfl, fun h => by have := h.count; simp at this⟩

theorem lineBall : ∃ b, (ballKind (F := ℝ)).mkBound lineData [0, 1, 2] [0] [11] = ok b := by
  obtain ⟨b, hb, _⟩ := ball_mkBound (data := lineData) (by unfold Mat.WF lineData; simp) [0, 1, 2] [0] [11] (by simp [lineData])
  exact ⟨b, hb⟩

/-- C22 is violated in the same way by the ball tree. -/
theorem C22_ball_violation : ∃ (t : BinaryTree ℝ (List ℝ × ℝ)) (r : List ℕ × List ℝ),
    treeBuild ballKind 2 ⟨3, none, none⟩ lineData = some (ok t) ∧ treeSearch ballKind t [0] 3 = ok r ∧ r.1 = [0, 1] ∧
    ¬ KNearestOf 3 (fun i => eucl [0] (lineData.rows.getD i [])) 3 r := by
  obtain ⟨b, hb⟩ := lineBall
  exact ⟨_, _, lineTree ballKind b hb, lineSearcher _ _, rfl, fun h => by have := h.count; simp at this⟩

/-- The positive theorems apply to the same tree (two neighbours): hypotheses are satisfiable. -/
example : ∃ t r, treeBuild (kdKind (F := ℝ)) 2 ⟨3, none, none⟩ lineData = some (ok t) ∧ treeSearch kdKind t [0] 2 = ok r ∧
    KNearestOf 3 (fun i => knnDist [0] (lineData.rows.getD i [])) 2 r := by
  obtain ⟨r, h1, h2⟩ := C21_kd_search_two_partial ⟨3, none, none⟩ lineData (by unfold Mat.WF lineData; simp) (by simp [lineData]) 2 _
    (lineTree kdKind _ rfl) [0] (by simp [lineData]) 2 (by decide) (by decide) (by simp [lineData]) (by
      intro i hi
      apply lt_maxVal
      match i, hi with
      | 0, _ => simp [lineData, knnDist_line]
      | 1, _ => simp [lineData, knnDist_line]; norm_num
      | 2, _ => simp [lineData, knnDist_line]; norm_num)
  exact ⟨_, r, lineTree kdKind _ rfl, h1, h2⟩

/-- Search before `build` is an error. -/
theorem C21_C22_untrained {B : Type} (K : SplitKind F B) (leafsize : ℕ) (point : List F) (k : ℕ) :
    treeSearch K ⟨leafsize, none, none⟩ point k = err .UntrainedModel := rfl

/-- Undefined behaviour: when the root splits on a dimension the query does not have, the search reads out of bounds
(`maybe_close` uses `get_unchecked`). -/
theorem C21_C22_short_query_ub {B : Type} (K : SplitKind F B) (leafsize : ℕ) (data : Mat F) (dim : ℕ) (split : F) (b : B)
    (l r : Node F B) (point : List F) (k : ℕ) (h : point.length ≤ dim) :
    treeSearch K ⟨leafsize, some data, some (.branch dim split b l r)⟩ point k = ub := by
  unfold treeSearch searchLeaf
  simp [List.getElem?_eq_none h]

/-! ### C23: termination -/

/-- C23: once a build has ended, more steps change nothing, so "ends with `o`" does not depend on the fuel. -/
theorem C23_fuel_irrelevant {B : Type} (K : SplitKind F B) (t0 : BinaryTree F B) (data : Mat F) (fuel fuel' : ℕ)
    (o o' : Outcome (BinaryTree F B)) (h : treeBuild K fuel t0 data = some o) (h' : treeBuild K fuel' t0 data = some o') :
    o = o' := by
  have h1 := treeBuild_mono K t0 data fuel (max fuel fuel') o h (by omega)
  have h2 := treeBuild_mono K t0 data fuel' (max fuel fuel') o' h' (by omega)
  rw [h1] at h2
  exact Option.some.inj h2

/-- C23, both trees in exact arithmetic: building ends, with success, exactly when no row value occurs `leafsize` or more
times. Otherwise it runs forever. The unrestricted claim "building always terminates" is false. -/
theorem C23_kd_terminates_iff (t0 : BinaryTree ℝ (List ℝ × List ℝ)) (data : Mat ℝ) (hw : data.WF) (hc : 0 < data.cols)
    (hn : data.rows ≠ []) :
    (∃ fuel t, treeBuild kdKind fuel t0 data = some (ok t)) ↔ ∀ v ∈ data.rows, data.rows.count v < t0.leafsize := by
  constructor
  · rintro ⟨fuel, t, ht⟩ v hv
    by_contra hcon
    rw [treeBuild_diverges kdKind hw hc t0 (fun _ _ _ _ => ⟨_, rfl⟩) v hv (by simpa using hcon) fuel] at ht
    simp at ht
  · intro h
    exact treeBuild_terminates kdKind hw hc hn t0 (fun _ _ _ _ => ⟨_, rfl⟩) h

/-- C23 for ball trees. -/
theorem C23_ball_terminates_iff (t0 : BinaryTree ℝ (List ℝ × ℝ)) (data : Mat ℝ) (hw : data.WF) (hc : 0 < data.cols)
    (hn : data.rows ≠ []) :
    (∃ fuel t, treeBuild ballKind fuel t0 data = some (ok t)) ↔ ∀ v ∈ data.rows, data.rows.count v < t0.leafsize := by
  have hK : ∀ (remains : List ℕ) (dmin dmax : List ℝ), (∀ i ∈ remains, i < data.rows.length) →
      ∃ b, (ballKind (F := ℝ)).mkBound data remains dmin dmax = ok b := fun rem a b h => by
    obtain ⟨bd, h1, _⟩ := ball_mkBound hw rem a b h
    exact ⟨bd, h1⟩
  constructor
  · rintro ⟨fuel, t, ht⟩ v hv
    by_contra hcon
    rw [treeBuild_diverges ballKind hw hc t0 hK v hv (by simpa using hcon) fuel] at ht
    simp at ht
  · intro h
    exact treeBuild_terminates ballKind hw hc hn t0 hK h

/-- C23, negative part, also with rounding: a row value that occurs `leafsize` or more times makes the build run forever. -/
theorem C23_diverges_on_repeated_rows [LinearOrder F] [OrdScalar F] (t0 : BinaryTree F (List F × List F)) (data : Mat F) (hw : data.WF)
    (hc : 0 < data.cols) (v : List F) (hv : v ∈ data.rows) (hcnt : t0.leafsize ≤ data.rows.count v) :
    ∀ fuel, treeBuild kdKind fuel t0 data = none :=
  fun fuel => treeBuild_diverges kdKind hw hc t0 (fun _ _ _ _ => ⟨_, rfl⟩) v hv hcnt fuel

/-- C23: with rounding, distinct rows do not save the build: if the midpoint of two adjacent numbers rounds to the smaller
one, two rows with these values and `leafsize` 2 loop forever. -/
theorem C23_diverges_with_rounding [LinearOrder F] [OrdScalar F] (lo hi : F) (hlt : lo < hi)
    (hmid : lo +. (hi -. lo) /. Scalar.ofNat 2 = lo) (fuel : ℕ) :
    treeBuild (kdKind (F := F)) fuel ⟨2, none, none⟩ ⟨1, [[lo], [hi]]⟩ = none := by
  have hsel : ∀ fuel, selectSplit (⟨1, [[lo], [hi]]⟩ : Mat F) fuel [0, 1] [lo] [hi] = none := by
    intro fuel
    induction fuel with
    | zero => rfl
    | succ n ih =>
      have f1 : (lo <. lo) = false := slt_false.2 (le_refl _)
      have f2 : (hi <. lo) = false := slt_false.2 hlt.le
      simp only [selectSplit, List.zipWith_cons_cons, List.zipWith_nil_right, argmaxBy, argAux, List.getElem?_cons_zero, hmid,
        partitionRows, List.getElem?_cons_succ, Option.bind_some, f1, f2, ok_bind]
      simpa using ih
  have f1 : (lo <. lo) = false := slt_false.2 (le_refl _)
  have f2 : (hi <. lo) = false := slt_false.2 hlt.le
  have f3 : (lo <. hi) = true := slt_true.2 hlt
  have hmin : minRows (⟨1, [[lo], [hi]]⟩ : Mat F) = ok [lo] := by
    simp [minRows, extremeRows, f2]
  have hmax : maxRows (⟨1, [[lo], [hi]]⟩ : Mat F) = ok [hi] := by
    simp [maxRows, extremeRows, f3]
  unfold treeBuild
  rw [hmin, hmax]
  cases fuel with
  | zero => rfl
  | succ n =>
    have hr : List.range ([[lo], [hi]] : List (List F)).length = [0, 1] := by simp [List.range_succ]
    simp only [hr]
    rw [splitNode, hsel n]
    simp

/-- Rounding towards zero to an integer: monotone, odd, idempotent. -/
noncomputable def truncRounding : Rounding where
  fl := fun x => if 0 ≤ x then (⌊x⌋ : ℝ) else (⌈x⌉ : ℝ)
  mono := by
    intro x y hxy
    simp only
    split
    · rename_i hx
      rw [if_pos (le_trans hx hxy)]
      exact_mod_cast Int.floor_mono hxy
    · rename_i hx
      push Not at hx
      split
      · rename_i hy
        have h1 : (⌈x⌉ : ℝ) ≤ 0 := by exact_mod_cast Int.ceil_le.2 (by simpa using hx.le)
        have h2 : (0 : ℝ) ≤ ⌊y⌋ := by exact_mod_cast Int.floor_nonneg.2 hy
        linarith
      · exact_mod_cast Int.ceil_mono hxy
  odd := by
    intro x
    rcases lt_trichotomy x 0 with h | h | h
    · rw [if_pos (by linarith), if_neg (by linarith), Int.floor_neg]; push_cast; ring
    · subst h; simp
    · rw [if_neg (by linarith), if_pos h.le, Int.ceil_neg]; push_cast; ring
  idem := by
    intro x
    by_cases h : 0 ≤ x
    · have h2 : (0 : ℝ) ≤ ⌊x⌋ := by exact_mod_cast Int.floor_nonneg.2 h
      simp [h, h2]
    · rw [if_neg h]
      push Not at h
      by_cases h3 : (0 : ℝ) ≤ ⌈x⌉
      · rw [if_pos h3]; simp
      · rw [if_neg h3]; simp

/-- A rounding function and two different rows on which the build does not end. -/
theorem C23_rounding_witness : ∃ (R : Rounding) (lo hi : Fl R), lo < hi ∧
    ∀ fuel, treeBuild (kdKind (F := Fl R)) fuel ⟨2, none, none⟩ ⟨1, [[lo], [hi]]⟩ = none := by
  have f1 : truncRounding.fl 1 = 1 := by simp [truncRounding]
  have f2 : truncRounding.fl 2 = 2 := by
    have : truncRounding.fl ((2 : ℤ) : ℝ) = ((2 : ℤ) : ℝ) := by
      simp only [truncRounding]; rw [if_pos (by norm_num), Int.floor_intCast]
    exact_mod_cast this
  have fh : truncRounding.fl (1 / 2) = 0 := by
    simp only [truncRounding]
    rw [if_pos (by norm_num)]
    have : ⌊(1 / 2 : ℝ)⌋ = 0 := by rw [Int.floor_eq_iff]; norm_num
    rw [this]; simp
  refine ⟨truncRounding, ⟨0, truncRounding.zero⟩, ⟨1, f1⟩, ?_, ?_⟩
  · change (0 : ℝ) < 1; norm_num
  · intro fuel
    refine C23_diverges_with_rounding _ _ (by change (0 : ℝ) < 1; norm_num) ?_ fuel
    apply Subtype.ext
    change truncRounding.fl (0 + truncRounding.fl (truncRounding.fl (1 - 0) / truncRounding.fl ((2 : ℕ) : ℝ))) = 0
    rw [sub_zero, f1]
    have : truncRounding.fl ((2 : ℕ) : ℝ) = 2 := by exact_mod_cast f2
    rw [this, fh, add_zero, truncRounding.zero]

/-- Satisfiable: three different rows with `leafsize` 3 terminate; two equal rows with `leafsize` 2 do not. -/
example : ∃ fuel t, treeBuild (kdKind (F := ℝ)) fuel ⟨3, none, none⟩ lineData = some (ok t) := ⟨2, _, lineTree kdKind _ rfl⟩
example : ∀ fuel, treeBuild (kdKind (F := ℝ)) fuel ⟨2, none, none⟩ ⟨1, [[4], [4], [5]]⟩ = none :=
  C23_diverges_on_repeated_rows _ _ (by unfold Mat.WF; simp) (by simp) [4] (by simp) (by simp)

end RM
