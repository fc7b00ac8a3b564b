import Verif.Model.Datasets
import Verif.Props.KNNTree
import Verif.Props.KMeansInit
import Verif.Props.Regression
import Verif.Props.Transforms
import Verif.Props.NaiveBayes

/-! C131: what the data sets of the crate are, and what learners make of them. -/

namespace RM
open Outcome Scalar Spec

theorem tenths_real (n : ℕ) : (tenths n : ℝ) = n / 10 := by
  unfold tenths
  rw [real_ofRat]
  push_cast
  rfl

theorem tenths_injective : Function.Injective (tenths : ℕ → ℝ) := by
  intro a b h
  rw [tenths_real, tenths_real] at h
  have : (a : ℝ) = b := by linarith
  exact_mod_cast this

theorem tenthsRow_injective : Function.Injective (List.map (tenths : ℕ → ℝ)) := tenths_injective.list_map

/-- C131, shapes: the iris data are 150 rows of 4 positive numbers, none above 7.9; the targets are 50 times each of the classes
0, 1, 2, in this order. -/
theorem C131_iris : (irisLoad (F := ℝ)).data.WF ∧ (irisLoad (F := ℝ)).data.cols = 4 ∧ (irisLoad (F := ℝ)).data.rows.length = 150 ∧
    (irisLoad (F := ℝ)).target = List.replicate 50 0 ++ List.replicate 50 1 ++ List.replicate 50 2 ∧
    ∀ r ∈ (irisLoad (F := ℝ)).data.rows, ∀ x ∈ r, 0 < x ∧ x ≤ 7.9 := by
  refine ⟨?_, rfl, by simp [irisLoad, irisTenths], rfl, ?_⟩
  · intro r hr
    obtain ⟨r0, h0, rfl⟩ := List.mem_map.1 hr
    rw [List.length_map]
    have : ∀ r ∈ irisTenths, r.length = 4 := by decide +kernel
    exact this r0 h0
  · intro r hr x hx
    obtain ⟨r0, h0, rfl⟩ := List.mem_map.1 hr
    obtain ⟨n, hn, rfl⟩ := List.mem_map.1 hx
    have : ∀ r ∈ irisTenths, ∀ n ∈ r, 0 < n ∧ n ≤ 79 := by decide +kernel
    obtain ⟨h1, h2⟩ := this r0 h0 n hn
    rw [tenths_real]
    have h1' : (0 : ℝ) < n := by exact_mod_cast h1
    have h2' : (n : ℝ) ≤ 79 := by exact_mod_cast h2
    constructor
    · positivity
    · linarith

/-- C131, shapes: the trees data are 31 rows of 2 positive numbers, none above 87, with 31 positive targets. -/
theorem C131_trees : (treesLoad (F := ℝ)).data.WF ∧ (treesLoad (F := ℝ)).data.cols = 2 ∧ (treesLoad (F := ℝ)).data.rows.length = 31 ∧
    (treesLoad (F := ℝ)).target.length = 31 ∧ (∀ y ∈ (treesLoad (F := ℝ)).target, 0 < y) ∧
    ∀ r ∈ (treesLoad (F := ℝ)).data.rows, ∀ x ∈ r, 0 < x ∧ x ≤ 87 := by
  refine ⟨?_, rfl, by simp [treesLoad, treesTenths], by simp [treesLoad, treesTargets], ?_, ?_⟩
  · intro r hr
    obtain ⟨r0, h0, rfl⟩ := List.mem_map.1 hr
    rw [List.length_map]
    have : ∀ r ∈ treesTenths, r.length = 2 := by decide +kernel
    exact this r0 h0
  · intro y hy
    obtain ⟨n, hn, rfl⟩ := List.mem_map.1 hy
    have : ∀ n ∈ treesTargets, 0 < n := by decide +kernel
    have h1 : (0 : ℝ) < n := by exact_mod_cast this n hn
    rw [tenths_real]
    positivity
  · intro r hr x hx
    obtain ⟨r0, h0, rfl⟩ := List.mem_map.1 hr
    obtain ⟨n, hn, rfl⟩ := List.mem_map.1 hx
    have : ∀ r ∈ treesTenths, ∀ n ∈ r, 0 < n ∧ n ≤ 870 := by decide +kernel
    obtain ⟨h1, h2⟩ := this r0 h0 n hn
    rw [tenths_real]
    have h1' : (0 : ℝ) < n := by exact_mod_cast h1
    have h2' : (n : ℝ) ≤ 870 := by exact_mod_cast h2
    constructor
    · positivity
    · linarith

/-! ### Summaries -/

theorem sum_col_tenths (rows : List (List ℕ)) (n j : ℕ) :
    (col (⟨n, rows.map (List.map (tenths : ℕ → ℝ))⟩ : Mat ℝ) j).sum = ((rows.map fun r => r.getD j 0).sum : ℕ) / 10 := by
  induction rows with
  | nil => simp [col]
  | cons r rows ih =>
    have e : (r.map (tenths : ℕ → ℝ)).getD j 0 = (r.getD j 0 : ℕ) / 10 := by
      rw [List.getD_eq_getElem?_getD, List.getD_eq_getElem?_getD, List.getElem?_map]
      cases r[j]? with
      | none => simp
      | some x => simp [tenths_real]
    have h : (col (⟨n, (r :: rows).map (List.map (tenths : ℕ → ℝ))⟩ : Mat ℝ) j).sum =
        (r.map (tenths : ℕ → ℝ)).getD j 0 + (col (⟨n, rows.map (List.map (tenths : ℕ → ℝ))⟩ : Mat ℝ) j).sum := rfl
    rw [h, ih, e, List.map_cons, List.sum_cons]
    push_cast
    ring

theorem mean_col_tenths (rows : List (List ℕ)) (n j : ℕ) :
    Spec.mean (col (⟨n, rows.map (List.map (tenths : ℕ → ℝ))⟩ : Mat ℝ) j) = ((rows.map fun r => r.getD j 0).sum : ℕ) / 10 / (rows.length : ℕ) := by
  unfold Spec.mean
  rw [sum_col_tenths]
  congr 2
  simp [col]

/-- C131: the means of the columns of both data sets. -/
theorem C131_means :
    (List.range 4).map (fun j => Spec.mean (col (irisLoad (F := ℝ)).data j)) = [876.5 / 150, 458.1 / 150, 563.8 / 150, 179.8 / 150] ∧
    (List.range 2).map (fun j => Spec.mean (col (treesLoad (F := ℝ)).data j)) = [410.7 / 31, 2356 / 31] ∧
    Spec.mean (treesLoad (F := ℝ)).target = 935.3 / 31 := by
  refine ⟨?_, ?_, ?_⟩
  · have h : ∀ j < 4, (irisTenths.map fun r => r.getD j 0).sum = [8765, 4581, 5638, 1798].getD j 0 := by decide +kernel
    have hl : irisTenths.length = 150 := by decide +kernel
    have e : ∀ j, Spec.mean (col (irisLoad (F := ℝ)).data j) = ((irisTenths.map fun r => r.getD j 0).sum : ℕ) / 10 / (irisTenths.length : ℕ) :=
      fun j => mean_col_tenths irisTenths 4 j
    simp only [List.range_succ, List.range_zero, List.nil_append, List.cons_append, List.map_cons, List.map_nil, e, hl, h 0 (by omega),
      h 1 (by omega), h 2 (by omega), h 3 (by omega)]
    norm_num
  · have h : ∀ j < 2, (treesTenths.map fun r => r.getD j 0).sum = [4107, 23560].getD j 0 := by decide +kernel
    have hl : treesTenths.length = 31 := by decide +kernel
    have e : ∀ j, Spec.mean (col (treesLoad (F := ℝ)).data j) = ((treesTenths.map fun r => r.getD j 0).sum : ℕ) / 10 / (treesTenths.length : ℕ) :=
      fun j => mean_col_tenths treesTenths 2 j
    simp only [List.range_succ, List.range_zero, List.nil_append, List.cons_append, List.map_cons, List.map_nil, e, hl, h 0 (by omega),
      h 1 (by omega)]
    norm_num
  · have hsum : ∀ l : List ℕ, (l.map (tenths : ℕ → ℝ)).sum = (l.sum : ℕ) / 10 := by
      intro l
      induction l with
      | nil => simp
      | cons a l ih => rw [List.map_cons, List.sum_cons, ih, tenths_real, List.sum_cons]; push_cast; ring
    have h : treesTargets.sum = 9353 := by decide +kernel
    have e : (treesLoad (F := ℝ)).target = treesTargets.map tenths := rfl
    have hl : treesTargets.length = 31 := by decide +kernel
    unfold Spec.mean
    rw [e, hsum, h, List.length_map, hl]
    norm_num

/-- C131: the first class of the iris data can be told from the others by the third feature alone: it is below 2 for the first class,
and at least 3 for the others. -/
theorem C131_iris_separable (i : ℕ) (r : List ℝ) (c : ℕ) (hr : (irisLoad (F := ℝ)).data.rows[i]? = some r)
    (hc : (irisLoad (F := ℝ)).target[i]? = some c) : (c = 0 → r.getD 2 0 < 2) ∧ (c ≠ 0 → 3 ≤ r.getD 2 0) := by
  have hr' : (irisTenths.map (List.map (tenths : ℕ → ℝ)))[i]? = some r := hr
  have hc' : irisTargets[i]? = some c := hc
  rw [List.getElem?_map, Option.map_eq_some_iff] at hr'
  obtain ⟨r0, h0, rfl⟩ := hr'
  have key : ∀ p ∈ irisTenths.zip irisTargets, (p.2 = 0 → p.1.getD 2 0 < 20) ∧ (p.2 ≠ 0 → 30 ≤ p.1.getD 2 0) := by decide +kernel
  have hz : (irisTenths.zip irisTargets)[i]? = some (r0, c) := by
    rw [List.getElem?_zip_eq_some]; exact ⟨h0, hc'⟩
  obtain ⟨k1, k2⟩ := key _ (List.mem_of_getElem? hz)
  have e : (r0.map (tenths : ℕ → ℝ)).getD 2 0 = (r0.getD 2 0 : ℕ) / 10 := by
    rw [List.getD_eq_getElem?_getD, List.getD_eq_getElem?_getD, List.getElem?_map]
    cases r0[2]? with
    | none => simp
    | some x => simp [tenths_real]
  rw [e]
  constructor
  · intro h
    have : ((r0.getD 2 0 : ℕ) : ℝ) < 20 := by exact_mod_cast k1 h
    linarith
  · intro h
    have : (30 : ℝ) ≤ ((r0.getD 2 0 : ℕ) : ℝ) := by exact_mod_cast k2 h
    linarith

/-! ### Repeated rows -/

theorem count_tenths (rows : List (List ℕ)) (r : List ℕ) : (rows.map (List.map (tenths : ℕ → ℝ))).count (r.map tenths) = rows.count r := by
  exact List.count_map_of_injective rows _ tenthsRow_injective r

theorem leafsize_iff (rows : List (List ℕ)) (m leafsize : ℕ) (h1 : ∀ r ∈ rows, rows.count r ≤ m) (h2 : ∃ r ∈ rows, rows.count r = m) :
    (∀ v ∈ rows.map (List.map (tenths : ℕ → ℝ)), (rows.map (List.map (tenths : ℕ → ℝ))).count v < leafsize) ↔ m < leafsize := by
  constructor
  · intro h
    obtain ⟨r, hr, hm⟩ := h2
    have := h _ (List.mem_map_of_mem hr)
    rwa [count_tenths, hm] at this
  · intro h v hv
    obtain ⟨r, hr, rfl⟩ := List.mem_map.1 hv
    rw [count_tenths]
    exact (h1 r hr).trans_lt h

/-- C131: the iris data contain one row three times; building a search tree on them ends exactly when the leaf size is at least 4. -/
theorem C131_iris_search_trees (t0 : BinaryTree ℝ (List ℝ × List ℝ)) (t1 : BinaryTree ℝ (List ℝ × ℝ)) :
    ((∃ fuel t, treeBuild kdKind fuel t0 (irisLoad (F := ℝ)).data = some (ok t)) ↔ 4 ≤ t0.leafsize) ∧
    ((∃ fuel t, treeBuild ballKind fuel t1 (irisLoad (F := ℝ)).data = some (ok t)) ↔ 4 ≤ t1.leafsize) := by
  have h1 : ∀ r ∈ irisTenths, irisTenths.count r ≤ 3 := by decide +kernel
  have h2 : ∃ r ∈ irisTenths, irisTenths.count r = 3 := ⟨[49, 31, 15, 1], by decide +kernel, by decide +kernel⟩
  obtain ⟨hw, hc, hl, -⟩ := C131_iris
  have hn : (irisLoad (F := ℝ)).data.rows ≠ [] := by intro h; rw [h] at hl; simp at hl
  constructor
  · rw [C23_kd_terminates_iff t0 _ hw (by rw [hc]; omega) hn]
    exact leafsize_iff irisTenths 3 t0.leafsize h1 h2
  · rw [C23_ball_terminates_iff t1 _ hw (by rw [hc]; omega) hn]
    exact leafsize_iff irisTenths 3 t1.leafsize h1 h2

/-- C131: the trees data contain two rows twice; building a search tree on them ends exactly when the leaf size is at least 3. -/
theorem C131_trees_search_trees (t0 : BinaryTree ℝ (List ℝ × List ℝ)) (t1 : BinaryTree ℝ (List ℝ × ℝ)) :
    ((∃ fuel t, treeBuild kdKind fuel t0 (treesLoad (F := ℝ)).data = some (ok t)) ↔ 3 ≤ t0.leafsize) ∧
    ((∃ fuel t, treeBuild ballKind fuel t1 (treesLoad (F := ℝ)).data = some (ok t)) ↔ 3 ≤ t1.leafsize) := by
  have h1 : ∀ r ∈ treesTenths, treesTenths.count r ≤ 2 := by decide +kernel
  have h2 : ∃ r ∈ treesTenths, treesTenths.count r = 2 := ⟨[114, 760], by decide +kernel, by decide +kernel⟩
  obtain ⟨hw, hc, hl, -⟩ := C131_trees
  have hn : (treesLoad (F := ℝ)).data.rows ≠ [] := by intro h; rw [h] at hl; simp at hl
  constructor
  · rw [C23_kd_terminates_iff t0 _ hw (by rw [hc]; omega) hn]
    exact leafsize_iff treesTenths 2 t0.leafsize h1 h2
  · rw [C23_ball_terminates_iff t1 _ hw (by rw [hc]; omega) hn]
    exact leafsize_iff treesTenths 2 t1.leafsize h1 h2

theorem dedup_tenths (rows : List (List ℕ)) : (rows.map (List.map (tenths : ℕ → ℝ))).dedup.length = rows.dedup.length := by
  rw [List.dedup_map_of_injective tenthsRow_injective, List.length_map]

/-- C131: k-means++ on the iris data picks `k` different rows for up to 147 clusters; for 148, 149 and 150 clusters, which `train`
lets through, it panics whatever the draws. -/
theorem C131_iris_kplusplus (raw : ℕ) (us : List ℝ) (k : ℕ) (hk : 2 ≤ k) (hu : ∀ u ∈ us, 0 ≤ u ∧ u < 1) (hl : k - 1 ≤ us.length) :
    (k ≤ 147 → ∃ cs : List (List ℝ), kppInit raw (us.map XR.fin) k (finMat (irisLoad (F := ℝ)).data) = ok (finMat ⟨4, cs⟩) ∧ cs.length = k ∧
      cs.Nodup ∧ ∀ c ∈ cs, c ∈ (irisLoad (F := ℝ)).data.rows) ∧
    (147 < k → kppInit raw (us.map XR.fin) k (finMat (irisLoad (F := ℝ)).data) = panic) := by
  have hd : (irisLoad (F := ℝ)).data.rows.dedup.length = 147 := by
    have : irisTenths.dedup.length = 147 := by decide +kernel
    rw [← this]
    exact dedup_tenths irisTenths
  obtain ⟨hw, hc, -⟩ := C131_iris
  constructor
  · intro h
    have := C32_C33_kplusplus raw us k _ hw (by omega) (by rw [hd]; exact h) hu hl
    exact this
  · intro h
    exact C33_kplusplus_too_few_points raw us k _ hw hk (by rw [hd]; exact h) hu hl

/-! ### Regression -/

theorem iris_independent : AffinelyIndependent (irisLoad (F := ℝ)).data := by
  intro β hb hz
  match β, hb with
  | [a, b, c, d, e], _ =>
    have key : ∀ r ∈ irisTenths, affine [a, b, c, d, e] (r.map (tenths : ℕ → ℝ)) = 0 := fun r hr => hz _ (List.mem_map_of_mem hr)
    have h1 := key [51, 35, 14, 2] (by decide +kernel)
    have h2 := key [49, 30, 14, 2] (by decide +kernel)
    have h3 := key [47, 32, 13, 2] (by decide +kernel)
    have h4 := key [46, 31, 15, 2] (by decide +kernel)
    have h5 := key [54, 39, 17, 4] (by decide +kernel)
    simp [affine, inner, tenths_real] at h1 h2 h3 h4 h5
    have hb0 : b = 0 := by linarith
    have hc0 : c = 0 := by linarith
    have hd0 : d = 0 := by linarith
    have he0 : e = 0 := by linarith
    have ha0 : a = 0 := by linarith
    rw [ha0, hb0, hc0, hd0, he0]
    rfl

theorem trees_independent : AffinelyIndependent (treesLoad (F := ℝ)).data := by
  intro β hb hz
  match β, hb with
  | [a, b, c], _ =>
    have key : ∀ r ∈ treesTenths, affine [a, b, c] (r.map (tenths : ℕ → ℝ)) = 0 := fun r hr => hz _ (List.mem_map_of_mem hr)
    have h1 := key [83, 700] (by decide +kernel)
    have h2 := key [86, 650] (by decide +kernel)
    have h3 := key [88, 630] (by decide +kernel)
    simp [affine, inner, tenths_real] at h1 h2 h3
    have hb0 : b = 0 := by linarith
    have hc0 : c = 0 := by linarith
    have ha0 : a = 0 := by linarith
    rw [ha0, hb0, hc0]
    rfl

/-- C131: linear regression succeeds on the features of both data sets, whatever the targets. -/
theorem C131_linear_regression {solve : Mat ℝ → List ℝ → Outcome (List ℝ)} (hs : SolvesExactly solve) (hr : SolvesRegular solve) (y : List ℝ) :
    (y.length = 150 → ∃ m, LinReg.train solve (irisLoad (F := ℝ)).data y = ok m) ∧
    (y.length = 31 → ∃ m, LinReg.train solve (treesLoad (F := ℝ)).data y = ok m) := by
  obtain ⟨hw, -, hl, -⟩ := C131_iris
  obtain ⟨hw', -, hl', -⟩ := C131_trees
  exact ⟨fun hy => (C48_succeeds_iff hs hr _ hw y (by rw [hl, hy])).2 iris_independent,
    fun hy => (C48_succeeds_iff hs hr _ hw' y (by rw [hl', hy])).2 trees_independent⟩

/-! ### Scaling -/

theorem nonConstant_col (X : Mat ℝ) (r r' : List ℝ) (h : r ∈ X.rows) (h' : r' ∈ X.rows) (j : ℕ) (hne : r.getD j 0 ≠ r'.getD j 0) :
    NonConstant (col X j) :=
  ⟨_, List.mem_map_of_mem h, _, List.mem_map_of_mem h', hne⟩

theorem iris_nonConstant : ∀ j, j < (irisLoad (F := ℝ)).data.cols → NonConstant (col (irisLoad (F := ℝ)).data j) := by
  intro j hj
  have hj : j < 4 := hj
  have m1 : [51, 35, 14, 2].map (tenths : ℕ → ℝ) ∈ (irisLoad (F := ℝ)).data.rows := List.mem_map_of_mem (by decide +kernel)
  have m2 : [54, 39, 17, 4].map (tenths : ℕ → ℝ) ∈ (irisLoad (F := ℝ)).data.rows := List.mem_map_of_mem (by decide +kernel)
  refine nonConstant_col _ _ _ m1 m2 j ?_
  interval_cases j <;> simp [tenths_real]

theorem trees_nonConstant : ∀ j, j < (treesLoad (F := ℝ)).data.cols → NonConstant (col (treesLoad (F := ℝ)).data j) := by
  intro j hj
  have hj : j < 2 := hj
  have m1 : [83, 700].map (tenths : ℕ → ℝ) ∈ (treesLoad (F := ℝ)).data.rows := List.mem_map_of_mem (by decide +kernel)
  have m2 : [86, 650].map (tenths : ℕ → ℝ) ∈ (treesLoad (F := ℝ)).data.rows := List.mem_map_of_mem (by decide +kernel)
  refine nonConstant_col _ _ _ m1 m2 j ?_
  interval_cases j <;> simp [tenths_real]

/-- What both scalers do with the matrix `X`: the min-max scaler maps every column onto the target range, both ends reached; the
standardizer gives every column the target mean and standard deviation; both can be undone. -/
structure Scales (X : Mat ℝ) : Prop where
  /-- Every column is moved into the target range and reaches its two ends. -/
  range : ∀ f : MinMaxFitter ℝ, f.scaledMin < f.scaledMax → ∃ t Y, minmaxFit f X = ok t ∧ minmaxTransform t X = ok Y ∧ SameShape X Y ∧
    ∀ j, j < X.cols → (∀ y ∈ col Y j, f.scaledMin ≤ y ∧ y ≤ f.scaledMax) ∧ f.scaledMin ∈ col Y j ∧ f.scaledMax ∈ col Y j
  /-- The min-max scaler can be undone. -/
  rangeBack : ∀ f : MinMaxFitter ℝ, f.scaledMin ≠ f.scaledMax → ∃ t Y, minmaxFit f X = ok t ∧ minmaxTransform t X = ok Y ∧ minmaxInv t Y = ok X
  /-- Every column gets the target mean and deviation. -/
  moments : ∀ f : StandardizerFitter ℝ, ∃ t Y, standardizerFit f X = ok t ∧ standardizerTransform t X = ok Y ∧ SameShape X Y ∧
    ∀ j, j < X.cols → Spec.mean (col Y j) = f.scaledMean ∧ Real.sqrt (sampleVar (col Y j)) = |f.scaledStdev|
  /-- The standardizer can be undone. -/
  momentsBack : ∀ f : StandardizerFitter ℝ, f.scaledStdev ≠ 0 →
    ∃ t Y, standardizerFit f X = ok t ∧ standardizerTransform t X = ok Y ∧ standardizerInv t Y = ok X

theorem scales_of {X : Mat ℝ} (hw : X.WF) (h2 : 2 ≤ X.rows.length) (hb : ∀ r ∈ X.rows, ∀ x ∈ r, 0 < x ∧ x ≤ 87)
    (hnc : ∀ j, j < X.cols → NonConstant (col X j)) : Scales X := by
  have hm : ∀ r ∈ X.rows, ∀ x ∈ r, |x| ≤ Scalar.maxVal := by
    intro r hr x hx
    obtain ⟨h1, h2⟩ := hb r hr x hx
    rw [abs_of_pos h1]
    exact (lt_maxVal (by linarith)).le
  refine ⟨fun f hf => ?_, fun f hf => ?_, fun f => C16_standardizer_moments f X hw h2 hnc, fun f hf => ?_⟩
  · obtain ⟨t, Y, h1, h2, h3, h4⟩ := C13_minmax_range f X hw hf hm hnc
    exact ⟨t, Y, h1, h2, h3, fun j hj => ⟨(h4 j hj).1, (h4 j hj).2.1, (h4 j hj).2.2.1⟩⟩
  · obtain ⟨t, h1, h2⟩ := C14_minmax_roundtrip f X hw hf hm hnc
    obtain ⟨⟨Y, h3, h4⟩, -⟩ := h2 X hw rfl
    exact ⟨t, Y, h1, h3, h4⟩
  · obtain ⟨t, h1, h2⟩ := C17_standardizer_roundtrip f X hw h2 hnc hf
    obtain ⟨⟨Y, h3, h4⟩, -⟩ := h2 X hw rfl
    exact ⟨t, Y, h1, h3, h4⟩

/-- C131: both scalers work on both data sets. -/
theorem C131_scalers : Scales (irisLoad (F := ℝ)).data ∧ Scales (treesLoad (F := ℝ)).data := by
  obtain ⟨hw, -, hl, -, hb⟩ := C131_iris
  obtain ⟨hw', -, hl', -, -, hb'⟩ := C131_trees
  refine ⟨scales_of hw (by rw [hl]; omega) (fun r hr x hx => ⟨(hb r hr x hx).1, ?_⟩) iris_nonConstant,
    scales_of hw' (by rw [hl']; omega) hb' trees_nonConstant⟩
  have := (hb r hr x hx).2
  norm_num at this ⊢
  linarith

/-! ### Naive Bayes -/

/-- The class `c` of three, one-hot. -/
def oneHot3 (c : ℕ) : List ℝ := (List.range 3).map fun j => if j = c then 1 else 0

theorem classOf_oneHot3 {c : ℕ} (hc : c < 3) : classOf (oneHot3 c) = some c := by
  interval_cases c <;> simp [classOf, oneHot3, List.range_succ, List.findIdx?_cons]

/-- C131: Gaussian naive Bayes trains on the iris data with the targets one-hot, and its class priors are a third each. -/
theorem C131_iris_naive_bayes (m : NaiveBayes (GaussD ℝ) ℝ) :
    ∃ m', nbTrain gaussDistr m (irisLoad (F := ℝ)).data ⟨3, (irisLoad (F := ℝ)).target.map oneHot3⟩ = (m', ok ()) ∧
      m'.classPrior = some [1 / 3, 1 / 3, 1 / 3] := by
  obtain ⟨hw, -, hl, ht, -⟩ := C131_iris
  have hl' : (irisLoad (F := ℝ)).target.length = 150 := by rw [ht]; simp
  have hc : ∀ c < 3, (irisLoad (F := ℝ)).target.count c = 50 := by
    have : ∀ c < 3, irisTargets.count c = 50 := by decide +kernel
    exact this
  have h3 : ∀ c ∈ (irisLoad (F := ℝ)).target, c < 3 := by
    have : ∀ c ∈ irisTargets, c < 3 := by decide +kernel
    exact this
  have hT : Mat.WF (⟨3, (irisLoad (F := ℝ)).target.map oneHot3⟩ : Mat ℝ) := by
    intro r hr
    obtain ⟨c, -, rfl⟩ := List.mem_map.1 hr
    simp [oneHot3]
  have hsize : ∀ c < 3, classSize ((irisLoad (F := ℝ)).target.map oneHot3) c = 50 := by
    intro c hc3
    rw [← hc c hc3]
    unfold classSize
    rw [List.countP_map, List.count]
    refine List.countP_congr ?_
    intro a ha
    simp [classOf_oneHot3 (h3 a ha)]
  obtain ⟨m', hm⟩ := (C35_trains_iff m _ ⟨3, (irisLoad (F := ℝ)).target.map oneHot3⟩ hw hT (by simp [hl, hl'])).2 ⟨by
    intro t ht
    obtain ⟨c, hcm, rfl⟩ := List.mem_map.1 ht
    exact ⟨1, List.mem_map.2 ⟨c, List.mem_range.2 (h3 c hcm), by simp⟩, rfl⟩, by
    intro c hc3
    rw [hsize c hc3]
    omega⟩
  refine ⟨m', hm, ?_⟩
  rw [(C34_priors _ m m' _ _ hT hm).2, hl]
  simp only [List.range_succ, List.range_zero, List.nil_append, List.cons_append, List.map_cons, List.map_nil]
  rw [hsize 0 (by omega), hsize 1 (by omega), hsize 2 (by omega)]
  norm_num

/-- A leaf size of 4 exists, so does one of 3: the default of 30 is above both. -/
example : (4 : ℕ) ≤ 30 ∧ ¬ (4 : ℕ) ≤ 3 := by decide

/-- 148 clusters are more than the 147 different rows, and not more than the 150 rows. -/
example : (147 : ℕ) < 148 ∧ (148 : ℕ) ≤ (irisLoad (F := ℝ)).data.rows.length := ⟨by omega, by rw [C131_iris.2.2.1]; omega⟩

end RM
