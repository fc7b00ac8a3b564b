import Verif.Props.Units

/-!
C98: scalers forget earlier scaling. Fitting a standardizer or a min-max scaler to data that were already scaled gives what fitting it
to the original data gives, and a scaler fitted to its own output changes nothing.
-/

namespace RM
open Outcome Scalar Spec

/-- What the min-max scaler does is a change of units. -/
theorem minmax_units (f : MinMaxFitter ℝ) (X : Mat ℝ) (hX : X.WF) (hlt : f.scaledMin < f.scaledMax)
    (hrep : ∀ r ∈ X.rows, ∀ x ∈ r, |x| ≤ Scalar.maxVal) (hnc : ∀ j, j < X.cols → NonConstant (col X j)) :
    ∃ (t : MinMaxScaler ℝ) (u : List (ℝ × ℝ)), minmaxFit f X = ok t ∧ u.length = X.cols ∧ (∀ c ∈ u, 0 < c.1) ∧
      ∀ Y : Mat ℝ, Y.WF → Y.cols = X.cols → minmaxTransform t Y = ok (inUnits u Y) := by
  obtain ⟨t, ht, hl1, hl2, hfac⟩ := minmaxFit_real f X hX
  refine ⟨t, t.scale.zip t.const, ht, by simp [hl1, hl2], ?_, ?_⟩
  · intro c hc
    have hc1 := (List.of_mem_zip (a := c.1) (b := c.2) hc).1
    obtain ⟨j, hj, hcj⟩ := List.mem_iff_getElem.1 hc1
    have hj' : j < X.cols := by omega
    rw [← hcj, ← getD_lt 0 hj, (hfac j hj').1]
    have hne : col X j ≠ [] := by
      have := NonConstant.length (hnc j hj')
      intro h; rw [h] at this; simp at this
    obtain ⟨_, _, hle⟩ := foldl_minmax_spec (col X j) hne (by
      intro x hx
      obtain ⟨r, hr, rfl⟩ := List.mem_map.1 hx
      have : j < r.length := by rw [hX r hr]; exact hj'
      rw [getD_lt _ this]
      exact hrep r hr _ (List.getElem_mem _))
    obtain ⟨x, hx, y, hy, hxy⟩ := hnc j hj'
    apply div_pos (by linarith)
    rcases lt_or_gt_of_ne hxy with h | h
    · linarith [(hle x hx).1, (hle y hy).2]
    · linarith [(hle y hy).1, (hle x hx).2]
  · intro Y hY hc
    unfold minmaxTransform inUnits
    rw [if_neg (by rw [hl1, hc]; simp)]
    congr 2
    apply List.map_congr_left
    intro r hr
    apply List.ext_getElem (by simp)
    intro i h1 h2
    simp
    ring

/-- What the standardizer does is a change of units. -/
theorem standardizer_units (f : StandardizerFitter ℝ) (X : Mat ℝ) (hX : X.WF) (h2 : 2 ≤ X.rows.length) (hs : 0 < f.scaledStdev)
    (hnc : ∀ j, j < X.cols → NonConstant (col X j)) :
    ∃ (t : Standardizer ℝ) (u : List (ℝ × ℝ)), standardizerFit f X = ok t ∧ u.length = X.cols ∧ (∀ c ∈ u, 0 < c.1) ∧
      ∀ Y : Mat ℝ, Y.WF → Y.cols = X.cols → standardizerTransform t Y = ok (inUnits u Y) := by
  refine ⟨_, (List.range X.cols).map fun j => (f.scaledStdev / Real.sqrt (sampleVar (col X j)),
    f.scaledMean - mean (col X j) * (f.scaledStdev / Real.sqrt (sampleVar (col X j)))), standardizerFit_real f X hX h2, by simp, ?_, ?_⟩
  · intro c hc
    obtain ⟨j, hj, rfl⟩ := List.mem_map.1 hc
    exact div_pos hs (Real.sqrt_pos.2 (sampleVar_pos (hnc j (List.mem_range.1 hj))))
  · intro Y hY hc
    unfold standardizerTransform inUnits
    rw [if_neg (by simp [hc])]
    congr 2
    apply List.map_congr_left
    intro r hr
    apply List.ext_getElem (by simp)
    intro i h1 h3
    simp
    ring

/-- Changes of units can be undone. -/
theorem inUnits_undo {u : List (ℝ × ℝ)} (hpos : ∀ c ∈ u, 0 < c.1) (Z : Mat ℝ) (hZ : Z.WF) (hu : u.length = Z.cols) :
    ∃ W : Mat ℝ, W.WF ∧ W.cols = Z.cols ∧ inUnits u W = Z := by
  refine ⟨⟨Z.cols, Z.rows.map fun r => List.zipWith (fun (x : ℝ) (c : ℝ × ℝ) => (x - c.2) / c.1) r u⟩, ?_, rfl, ?_⟩
  · intro r hr
    obtain ⟨q, hq, rfl⟩ := List.mem_map.1 hr
    simp [hZ q hq, hu]
  · unfold inUnits
    obtain ⟨zc, zr⟩ := Z
    congr 1
    simp only [List.map_map]
    conv_rhs => rw [← List.map_id zr]
    apply List.map_congr_left
    intro r hr
    have hr' := hZ r hr
    apply List.ext_getElem
    · simp only [Function.comp, List.length_zipWith, id]
      simp at hu hr'
      omega
    intro i h1 h2
    simp only [Function.comp, List.getElem_zipWith, id]
    have := hpos _ (List.getElem_mem (l := u) (n := i) (by simp at h1; omega))
    field_simp
    ring

/-- A matrix without constant columns has none in other units. -/
theorem inUnits_nonConstant {u : List (ℝ × ℝ)} {X : Mat ℝ} (hX : X.WF) (hu : u.length = X.cols) (hpos : ∀ c ∈ u, 0 < c.1)
    (hnc : ∀ j, j < X.cols → NonConstant (col X j)) : ∀ j, j < (inUnits u X).cols → NonConstant (col (inUnits u X) j) := by
  intro j hj
  obtain ⟨x, hx, y, hy, hne⟩ := hnc j hj
  rw [inUnits_col hX hu hj]
  refine ⟨_, List.mem_map.2 ⟨x, hx, rfl⟩, _, List.mem_map.2 ⟨y, hy, rfl⟩, ?_⟩
  intro h
  have hp := getD_pos hpos j
  have : (u.getD j (1, 0)).1 * (x - y) = 0 := by linarith
  rcases mul_eq_zero.1 this with h | h
  · linarith
  · exact hne (by linarith)

/-- The two kinds of scalers, as what they make of the data they were fitted to and then of further data. -/
inductive Spec.IsScaler : (Mat ℝ → Outcome (Mat ℝ → Outcome (Mat ℝ))) → Prop
  | standardizer (f : StandardizerFitter ℝ) (h : 0 < f.scaledStdev) : IsScaler fun X => standardizerTransform <$> standardizerFit f X
  | minmax (f : MinMaxFitter ℝ) (h : f.scaledMin < f.scaledMax) : IsScaler fun X => minmaxTransform <$> minmaxFit f X

/-- **C98 (pipelines).** Whatever scaler came first, the second one makes of its output what it makes of the original data: with the same
training rows and with all further rows. -/
theorem C98_second_scaler {first second : Mat ℝ → Outcome (Mat ℝ → Outcome (Mat ℝ))} (h₁ : IsScaler first) (h₂ : IsScaler second)
    (X : Mat ℝ) (hX : X.WF) (h2 : 2 ≤ X.rows.length) (hnc : ∀ j, j < X.cols → NonConstant (col X j))
    (hrep : ∀ r ∈ X.rows, ∀ x ∈ r, |x| ≤ Scalar.maxVal)
    (hrep' : ∀ t Y, first X = ok t → t X = ok Y → ∀ r ∈ Y.rows, ∀ x ∈ r, |x| ≤ Scalar.maxVal) :
    ∃ t Y s s', first X = ok t ∧ t X = ok Y ∧ second X = ok s ∧ second Y = ok s' ∧
      ∀ Z : Mat ℝ, Z.WF → Z.cols = X.cols → ∃ W, t Z = ok W ∧ s' W = s Z := by
  have key : ∃ (t : Mat ℝ → Outcome (Mat ℝ)) (u : List (ℝ × ℝ)), first X = ok t ∧ u.length = X.cols ∧ (∀ c ∈ u, 0 < c.1) ∧
      ∀ Y : Mat ℝ, Y.WF → Y.cols = X.cols → t Y = ok (inUnits u Y) := by
    cases h₁ with
    | standardizer f hf =>
      obtain ⟨t, u, a, b, c, d⟩ := standardizer_units f X hX h2 hf hnc
      exact ⟨standardizerTransform t, u, by beta_reduce; rw [a]; rfl, b, c, d⟩
    | minmax f hf =>
      obtain ⟨t, u, a, b, c, d⟩ := minmax_units f X hX hf hrep hnc
      exact ⟨minmaxTransform t, u, by beta_reduce; rw [a]; rfl, b, c, d⟩
  obtain ⟨t, u, ht, hu, hpos, htr⟩ := key
  have hrep2 := hrep' t _ ht (htr X hX rfl)
  cases h₂ with
  | standardizer g hg =>
    obtain ⟨s, s', a, b, c⟩ := C84_standardizer g X hX h2 u hu hpos
    refine ⟨t, _, standardizerTransform s, standardizerTransform s', ht, htr X hX rfl, by beta_reduce; rw [a]; rfl, by beta_reduce; rw [b]; rfl, ?_⟩
    intro Z hZ hc
    exact ⟨_, htr Z hZ hc, c Z hZ hc⟩
  | minmax g hg =>
    obtain ⟨s, s', a, b, c⟩ := C84_minmax g X hX (by omega) u hu hpos hrep hrep2 hnc
    refine ⟨t, _, minmaxTransform s, minmaxTransform s', ht, htr X hX rfl, by beta_reduce; rw [a]; rfl, by beta_reduce; rw [b]; rfl, ?_⟩
    intro Z hZ hc
    exact ⟨_, htr Z hZ hc, c Z hZ hc⟩

/-- **C98 (refitting).** A scaler fitted to its own output changes nothing: neither that output nor any other data. -/
theorem C98_refit {scaler : Mat ℝ → Outcome (Mat ℝ → Outcome (Mat ℝ))} (h : IsScaler scaler)
    (X : Mat ℝ) (hX : X.WF) (h2 : 2 ≤ X.rows.length) (hnc : ∀ j, j < X.cols → NonConstant (col X j))
    (hrep : ∀ r ∈ X.rows, ∀ x ∈ r, |x| ≤ Scalar.maxVal)
    (hrep' : ∀ t Y, scaler X = ok t → t X = ok Y → ∀ r ∈ Y.rows, ∀ x ∈ r, |x| ≤ Scalar.maxVal) :
    ∃ t Y t', scaler X = ok t ∧ t X = ok Y ∧ scaler Y = ok t' ∧ ∀ Z : Mat ℝ, Z.WF → Z.cols = X.cols → t' Z = ok Z := by
  obtain ⟨t, Y, s, s', a, b, c, d, e⟩ := C98_second_scaler h h X hX h2 hnc hrep hrep'
  rw [a] at c
  cases c
  refine ⟨t, Y, s', a, b, d, ?_⟩
  intro Z hZ hc
  have key : ∃ W : Mat ℝ, W.WF ∧ W.cols = Z.cols ∧ t W = ok Z := by
    cases h with
    | standardizer f hf =>
      obtain ⟨t0, u, q1, q2, q3, q4⟩ := standardizer_units f X hX h2 hf hnc
      beta_reduce at a
      rw [q1] at a
      cases a
      obtain ⟨W, w1, w2, w3⟩ := inUnits_undo q3 Z hZ (by rw [q2, hc])
      exact ⟨W, w1, w2, by rw [q4 W w1 (w2.trans hc), w3]⟩
    | minmax f hf =>
      obtain ⟨t0, u, q1, q2, q3, q4⟩ := minmax_units f X hX hf hrep hnc
      beta_reduce at a
      rw [q1] at a
      cases a
      obtain ⟨W, w1, w2, w3⟩ := inUnits_undo q3 Z hZ (by rw [q2, hc])
      exact ⟨W, w1, w2, by rw [q4 W w1 (w2.trans hc), w3]⟩
  obtain ⟨W, w1, w2, w3⟩ := key
  obtain ⟨V, v1, v2⟩ := e W w1 (w2.trans hc)
  rw [w3] at v1
  cases v1
  rw [v2, w3]

/-- For the min-max scaler the numbers stay representable by themselves when the ends of the range are. -/
theorem C98_minmax_range (f : MinMaxFitter ℝ) (hlt : f.scaledMin < f.scaledMax) (h1 : |f.scaledMin| ≤ Scalar.maxVal) (h2 : |f.scaledMax| ≤ Scalar.maxVal)
    (X : Mat ℝ) (hX : X.WF) (hnc : ∀ j, j < X.cols → NonConstant (col X j)) (hrep : ∀ r ∈ X.rows, ∀ x ∈ r, |x| ≤ Scalar.maxVal) :
    ∀ t Y, minmaxTransform <$> minmaxFit f X = ok t → t X = ok Y → ∀ r ∈ Y.rows, ∀ x ∈ r, |x| ≤ Scalar.maxVal := by
  intro t Y ht hY r hr x hx
  obtain ⟨t0, Y0, e1, e2, e3, e4⟩ := C13_minmax_range f X hX hlt hrep hnc
  rw [e1] at ht
  cases ht
  rw [e2] at hY
  cases hY
  obtain ⟨j, hj, rfl⟩ := List.mem_iff_getElem.1 hx
  have hj' : j < X.cols := by
    have := e3.2.2 r hr
    have := e3.1
    omega
  obtain ⟨q, -⟩ := e4 j hj'
  have := q r[j] (List.mem_map.2 ⟨r, hr, by rw [getD_lt _ hj]⟩)
  rw [abs_le] at h1 h2 ⊢
  exact ⟨by linarith [h1.1], by linarith [h2.2]⟩

/-- Three rows of two columns: everything above applies, with the default range. -/
example : ∃ t Y t', minmaxTransform <$> minmaxFit ⟨0, 1⟩ ⟨2, [[-3/2, 1], [2, 3], [-1, 5/2]]⟩ = ok t ∧ t ⟨2, [[-3/2, 1], [2, 3], [-1, 5/2]]⟩ = ok Y ∧
    minmaxTransform <$> minmaxFit (⟨0, 1⟩ : MinMaxFitter ℝ) Y = ok t' ∧ ∀ Z : Mat ℝ, Z.WF → Z.cols = 2 → t' Z = ok Z := by
  have hM : (3 : ℝ) ≤ Scalar.maxVal := maxVal_ge_three
  have hX : (⟨2, [[-3/2, 1], [2, 3], [-1, 5/2]]⟩ : Mat ℝ).WF := by intro r hr; fin_cases hr <;> rfl
  have hrep : ∀ r ∈ (⟨2, [[-3/2, 1], [2, 3], [-1, 5/2]]⟩ : Mat ℝ).rows, ∀ x ∈ r, |x| ≤ Scalar.maxVal := by
    intro r hr x hx
    refine le_trans ?_ hM
    fin_cases hr <;> fin_cases hx <;> (rw [abs_le]; constructor <;> norm_num)
  have hnc : ∀ j, j < (⟨2, [[-3/2, 1], [2, 3], [-1, 5/2]]⟩ : Mat ℝ).cols → NonConstant (col (⟨2, [[-3/2, 1], [2, 3], [-1, 5/2]]⟩ : Mat ℝ) j) := by
    intro j hj
    match j, hj with
    | 0, _ => exact ⟨-3/2, by simp [col], 2, by simp [col], by norm_num⟩
    | 1, _ => exact ⟨1, by simp [col], 3, by simp [col], by norm_num⟩
  exact C98_refit (.minmax ⟨0, 1⟩ one_pos) _ hX (by simp) hnc hrep (C98_minmax_range ⟨0, 1⟩ one_pos (by simp; linarith) (by simp; linarith) _ hX hnc hrep)

end RM
