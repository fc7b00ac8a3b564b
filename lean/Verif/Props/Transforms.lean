import Verif.Proofs.Transforms

/-!
# C13-C18: data transformers

`Mat ℝ` theorems are over exact reals; `Mat XR` theorems cover NaN and infinities. The hypothesis `|x| ≤ Scalar.maxVal`
says that an entry is representable as a finite `f64`.
-/

namespace RM
open Outcome Scalar Spec

/-- Some entry of the matrix is NaN or infinite. -/
def HasNonFinite (X : Mat XR) : Prop := ∃ r ∈ X.rows, ∃ x ∈ r, x = .nan ∨ x = .pinf ∨ x = .ninf

theorem not_finite_iff (x : XR) : Scalar.isFinite x = false ↔ x = .nan ∨ x = .pinf ∨ x = .ninf := by
  cases x <;> simp

theorem hasNonFinite_iff (X : Mat XR) : HasNonFinite X ↔ ∃ r ∈ X.rows, ∃ x ∈ r, Scalar.isFinite x = false := by
  unfold HasNonFinite
  simp only [not_finite_iff]

theorem finite_or (X : Mat XR) : HasNonFinite X ∨ ∃ Y : Mat ℝ, X = finMat Y := by
  rw [hasNonFinite_iff]
  by_cases h : ∃ r ∈ X.rows, ∃ x ∈ r, Scalar.isFinite x = false
  · left; exact h
  · right
    push Not at h
    exact exists_finMat X (fun r hr x hx => by simpa using h r hr x hx)

theorem finMat_finite (X : Mat ℝ) : ¬ HasNonFinite (finMat X) := by
  rintro ⟨r, hr, x, hx, h⟩
  obtain ⟨r', _, rfl⟩ := List.mem_map.1 hr
  obtain ⟨y, _, rfl⟩ := List.mem_map.1 hx
  simp at h

/-! ### C13 -/

/-- Fitting on data without constant columns and transforming the same data: every entry lands in the requested range,
both ends are attained in every column, and every column is mapped by an increasing affine function. -/
theorem C13_minmax_range (f : MinMaxFitter ℝ) (X : Mat ℝ) (hw : X.WF) (hlt : f.scaledMin < f.scaledMax)
    (hrep : ∀ r ∈ X.rows, ∀ x ∈ r, |x| ≤ Scalar.maxVal) (hnc : ∀ j, j < X.cols → NonConstant (col X j)) :
    ∃ t Y, minmaxFit f X = ok t ∧ minmaxTransform t X = ok Y ∧ SameShape X Y ∧ ∀ j, j < X.cols →
      (∀ y ∈ col Y j, f.scaledMin ≤ y ∧ y ≤ f.scaledMax) ∧ f.scaledMin ∈ col Y j ∧ f.scaledMax ∈ col Y j ∧
      ∃ a b : ℝ, 0 < a ∧ col Y j = (col X j).map fun x => a * x + b := by
  obtain ⟨t, ht, hl1, hl2, hfac⟩ := minmaxFit_real f X hw
  obtain ⟨Y, hY, hsh, hcol⟩ := minmaxTransform_col t X hw hl1 hl2
  refine ⟨t, Y, ht, hY, hsh, ?_⟩
  intro j hj
  obtain ⟨hs, hc⟩ := hfac j hj
  have hnc' := hnc j hj
  have hne : col X j ≠ [] := by
    have := NonConstant.length hnc'
    intro h; rw [h] at this; simp at this
  have hM : ∀ x ∈ col X j, |x| ≤ (Scalar.maxVal : ℝ) := by
    intro x hx
    obtain ⟨r, hr, rfl⟩ := List.mem_map.1 hx
    have : j < r.length := by rw [hw r hr]; exact hj
    rw [getD_lt _ this]
    exact hrep r hr _ (List.getElem_mem _)
  obtain ⟨hmn, hmx, hle⟩ := foldl_minmax_spec (col X j) hne hM
  rw [hcol j hj]
  generalize (col X j).foldl minmaxUpd ((Scalar.maxVal : ℝ), -Scalar.maxVal) = e at *
  obtain ⟨x, hx, y, hy, hxy⟩ := hnc'
  have hd : 0 < e.2 - e.1 := by
    rcases lt_or_gt_of_ne hxy with h | h
    · linarith [(hle x hx).1, (hle y hy).2]
    · linarith [(hle y hy).1, (hle x hx).2]
  have hspos : 0 < t.scale.getD j 0 := by rw [hs]; exact div_pos (by linarith) hd
  have hmul : t.scale.getD j 0 * (e.2 - e.1) = f.scaledMax - f.scaledMin := by rw [hs]; field_simp
  generalize t.scale.getD j 0 = s at *
  generalize t.const.getD j 0 = k at *
  refine ⟨?_, ?_, ?_, s, k, hspos, ?_⟩
  · intro z hz
    obtain ⟨w, hw', rfl⟩ := List.mem_map.1 hz
    have h := hle w hw'
    constructor
    · nlinarith [mul_nonneg hspos.le (sub_nonneg.2 h.1)]
    · nlinarith [mul_nonneg hspos.le (sub_nonneg.2 h.2)]
  · exact List.mem_map.2 ⟨e.1, hmn, by nlinarith⟩
  · exact List.mem_map.2 ⟨e.2, hmx, by nlinarith⟩
  · apply List.map_congr_left
    intro w _
    ring

/-- A 3x2 matrix with non-constant, representable columns (the one of the module documentation). -/
example : let X : Mat ℝ := ⟨2, [[-3/2, 1], [2, 3], [-1, 5/2]]⟩
    X.WF ∧ (∀ r ∈ X.rows, ∀ x ∈ r, |x| ≤ Scalar.maxVal) ∧ ∀ j, j < X.cols → NonConstant (col X j) := by
  refine ⟨by intro r hr; fin_cases hr <;> rfl, ?_, ?_⟩
  · have hM : (3 : ℝ) ≤ Scalar.maxVal := maxVal_ge_three
    intro r hr x hx
    refine le_trans ?_ hM
    fin_cases hr <;> fin_cases hx <;> (rw [abs_le]; constructor <;> norm_num)
  · intro j hj
    match j, hj with
    | 0, _ => exact ⟨-3/2, by simp [col], 2, by simp [col], by norm_num⟩
    | 1, _ => exact ⟨1, by simp [col], 3, by simp [col], by norm_num⟩

/-! ### C14 -/

/-- A scaler fitted on data without constant columns, for a range with distinct ends, and its inverse undo each other on
every matrix of the fitted width. -/
theorem C14_minmax_roundtrip (f : MinMaxFitter ℝ) (X0 : Mat ℝ) (hw0 : X0.WF) (hne : f.scaledMin ≠ f.scaledMax)
    (hrep : ∀ r ∈ X0.rows, ∀ x ∈ r, |x| ≤ Scalar.maxVal) (hnc : ∀ j, j < X0.cols → NonConstant (col X0 j)) :
    ∃ t, minmaxFit f X0 = ok t ∧ ∀ X : Mat ℝ, X.WF → X.cols = X0.cols →
      (∃ Y, minmaxTransform t X = ok Y ∧ minmaxInv t Y = ok X) ∧ (∃ Y, minmaxInv t X = ok Y ∧ minmaxTransform t Y = ok X) := by
  obtain ⟨t, ht, hl1, hl2, hfac⟩ := minmaxFit_real f X0 hw0
  refine ⟨t, ht, ?_⟩
  intro X hw hcols
  have hs : ∀ s ∈ t.scale, s ≠ 0 := by
    intro s hs'
    obtain ⟨j, hj, rfl⟩ := List.mem_iff_getElem.1 hs'
    have hj' : j < X0.cols := by omega
    have hnc' := hnc j hj'
    have hne' : col X0 j ≠ [] := by
      have := NonConstant.length hnc'
      intro h; rw [h] at this; simp at this
    have hM : ∀ x ∈ col X0 j, |x| ≤ (Scalar.maxVal : ℝ) := by
      intro x hx
      obtain ⟨r, hr, rfl⟩ := List.mem_map.1 hx
      have : j < r.length := by rw [hw0 r hr]; exact hj'
      rw [getD_lt _ this]
      exact hrep r hr _ (List.getElem_mem _)
    obtain ⟨hmn, hmx, hle⟩ := foldl_minmax_spec (col X0 j) hne' hM
    have := (hfac j hj').1
    rw [getD_lt _ hj] at this
    rw [this]
    obtain ⟨x, hx, y, hy, hxy⟩ := hnc'
    refine div_ne_zero (sub_ne_zero.2 (Ne.symm hne)) (sub_ne_zero.2 ?_)
    intro h
    apply hxy
    linarith [(hle x hx).1, (hle y hy).2, (hle y hy).1, (hle x hx).2]
  have hc : ∀ r ∈ X.rows, r.length = t.scale.length := by intro r hr; rw [hw r hr, hcols, hl1]
  constructor
  · refine ⟨_, by unfold minmaxTransform; rw [if_neg (by rw [hl1, hcols]; simp)], ?_⟩
    unfold minmaxInv
    rw [if_neg (by simp only; rw [hl1, hcols]; simp)]
    simp only [List.map_map]
    congr 1
    cases X with
    | mk c rows =>
      congr 1
      simp only at hc ⊢
      conv_rhs => rw [← List.map_id rows]
      apply List.map_congr_left
      intro r hr
      exact (zipWith_add_mul_cancel r t.scale t.const (hc r hr) (by omega) hs).1
  · refine ⟨_, by unfold minmaxInv; rw [if_neg (by rw [hl1, hcols]; simp)], ?_⟩
    unfold minmaxTransform
    rw [if_neg (by simp only; rw [hl1, hcols]; simp)]
    simp only [List.map_map]
    congr 1
    cases X with
    | mk c rows =>
      congr 1
      simp only at hc ⊢
      conv_rhs => rw [← List.map_id rows]
      apply List.map_congr_left
      intro r hr
      exact (zipWith_add_mul_cancel r t.scale t.const (hc r hr) (by omega) hs).2

/-- With `scaled_min = scaled_max` fitting succeeds on every data set without constant columns, the transform sends every
entry to that value, and the inverse of the transformed data is NaN in every entry. -/
theorem C14_equal_ends_not_invertible (a : ℝ) (X : Mat ℝ) (hw : X.WF)
    (hrep : ∀ r ∈ X.rows, ∀ x ∈ r, |x| ≤ Scalar.maxVal) (hnc : ∀ j, j < X.cols → NonConstant (col X j)) :
    ∃ t Y Z, minmaxFit (F := XR) ⟨.fin a, .fin a⟩ (finMat X) = ok t ∧ minmaxTransform t (finMat X) = ok Y ∧ minmaxInv t Y = ok Z ∧
      (∀ r ∈ Y.rows, ∀ y ∈ r, y = .fin a) ∧ (∀ r ∈ Z.rows, r.length = X.cols ∧ ∀ z ∈ r, z = .nan) ∧ Z.rows.length = X.rows.length := by
  have hfit := xr_minmaxFit a a X hw
  simp only at hfit
  rw [if_neg] at hfit
  swap
  · rintro ⟨j, hj, h⟩
    have hnc' := hnc j hj
    have hne' : col X j ≠ [] := by
      have := NonConstant.length hnc'
      intro h; rw [h] at this; simp at this
    have hM : ∀ x ∈ col X j, |x| ≤ (Scalar.maxVal : ℝ) := by
      intro x hx
      obtain ⟨r, hr, rfl⟩ := List.mem_map.1 hx
      have : j < r.length := by rw [hw r hr]; exact hj
      rw [getD_lt _ this]
      exact hrep r hr _ (List.getElem_mem _)
    obtain ⟨hmn, hmx, hle⟩ := foldl_minmax_spec (col X j) hne' hM
    obtain ⟨x, hx, y, hy, hxy⟩ := hnc'
    apply hxy
    linarith [(hle x hx).1, (hle y hy).2, (hle y hy).1, (hle x hx).2]
  simp only [sub_self, zero_div, mul_zero, sub_zero] at hfit
  have e1 : ∀ c : ℝ, ((List.range X.cols).map fun _ => XR.fin c) = List.replicate X.cols (XR.fin c) := by
    intro c
    rw [List.map_const']; simp
  rw [e1, e1] at hfit
  have hrow : ∀ r ∈ X.rows, List.zipWith Scalar.add (List.zipWith Scalar.mul (r.map XR.fin) (List.replicate X.cols (XR.fin 0)))
      (List.replicate X.cols (XR.fin a)) = List.replicate X.cols (XR.fin a) := by
    intro r hr
    have := hw r hr
    apply List.ext_getElem
    · simp [this]
    · intro i h1 h2
      simp
  have hinv : List.zipWith Scalar.div (List.zipWith Scalar.sub (List.replicate X.cols (XR.fin a)) (List.replicate X.cols (XR.fin a)))
      (List.replicate X.cols (XR.fin 0)) = List.replicate X.cols XR.nan := by
    apply List.ext_getElem
    · simp
    · intro i h1 h2
      simp [xr_div_zero, XR.infOf]
  refine ⟨_, ⟨X.cols, X.rows.map fun _ => List.replicate X.cols (XR.fin a)⟩, ⟨X.cols, X.rows.map fun _ => List.replicate X.cols XR.nan⟩,
    hfit, ?_, ?_, ?_, ?_, ?_⟩
  · unfold minmaxTransform
    rw [if_neg (by simp [finMat])]
    simp only [finMat, List.map_map]
    congr 2
    apply List.map_congr_left
    intro r hr
    exact hrow r hr
  · unfold minmaxInv
    rw [if_neg (by simp)]
    simp only [List.map_map]
    congr 2
    apply List.map_congr_left
    intro r _
    exact hinv
  · intro r hr y hy
    obtain ⟨_, _, rfl⟩ := List.mem_map.1 hr
    exact (List.mem_replicate.1 hy).2
  · intro r hr
    obtain ⟨_, _, rfl⟩ := List.mem_map.1 hr
    exact ⟨by simp, fun z hz => (List.mem_replicate.1 hz).2⟩
  · simp

/-! ### C15 -/

/-- Fitting never panics; it fails, with `InvalidData`, exactly when some entry is NaN or infinite, or the data has rows
and some column is constant. -/
theorem C15_minmax_fit_rejects (a b : ℝ) (X : Mat XR) (hw : X.WF) (hrep : ∀ r ∈ X.rows, ∀ x : ℝ, XR.fin x ∈ r → |x| ≤ Scalar.maxVal) :
    let bad := HasNonFinite X ∨ (X.rows ≠ [] ∧ ∃ j, j < X.cols ∧ ∃ c, ∀ r ∈ X.rows, r[j]? = some c)
    (bad → minmaxFit ⟨.fin a, .fin b⟩ X = err .InvalidData) ∧ (¬ bad → ∃ t, minmaxFit ⟨.fin a, .fin b⟩ X = ok t) := by
  intro bad
  rcases finite_or X with hnf | ⟨Y, rfl⟩
  · have hbad : bad := Or.inl hnf
    refine ⟨fun _ => ?_, fun h => absurd hbad h⟩
    unfold minmaxFit
    rw [minmaxRows_err X.rows _ (by intro r hr; rw [List.length_replicate]; exact hw r hr) ((hasNonFinite_iff X).1 hnf)]
    rfl
  · have hwY := finMat_WF.1 hw
    have hfit := xr_minmaxFit a b Y hwY
    simp only at hfit
    have hiff : bad ↔ ∃ j, j < Y.cols ∧ ((col Y j).foldl minmaxUpd ((Scalar.maxVal : ℝ), -Scalar.maxVal)).2 =
        ((col Y j).foldl minmaxUpd ((Scalar.maxVal : ℝ), -Scalar.maxVal)).1 := by
      have hM : ∀ j, j < Y.cols → ∀ x ∈ col Y j, |x| ≤ (Scalar.maxVal : ℝ) := by
        intro j hj x hx
        obtain ⟨r, hr, rfl⟩ := List.mem_map.1 hx
        have : j < r.length := by rw [hwY r hr]; exact hj
        rw [getD_lt _ this]
        exact hrep (r.map XR.fin) (List.mem_map.2 ⟨r, hr, rfl⟩) _ (List.mem_map.2 ⟨_, List.getElem_mem _, rfl⟩)
      have hget : ∀ j, j < Y.cols → ∀ r ∈ Y.rows, (r.map XR.fin)[j]? = some (XR.fin (r.getD j 0)) := by
        intro j hj r hr
        have : j < r.length := by rw [hwY r hr]; exact hj
        rw [getD_lt _ this]
        simp [this]
      constructor
      · rintro (h | ⟨hne, j, hj, c, hc⟩)
        · exact absurd h (finMat_finite Y)
        · refine ⟨j, hj, ?_⟩
          have hne' : Y.rows ≠ [] := by intro h; apply hne; simp [finMat, h]
          have hcne : col Y j ≠ [] := by simpa [col] using hne'
          obtain ⟨hmn, hmx, _⟩ := foldl_minmax_spec (col Y j) hcne (hM j hj)
          have hconst : ∀ x ∈ col Y j, c = XR.fin x := by
            intro x hx
            obtain ⟨r, hr, rfl⟩ := List.mem_map.1 hx
            have h1 := hc (r.map XR.fin) (List.mem_map.2 ⟨r, hr, rfl⟩)
            rw [hget j hj r hr] at h1
            exact (Option.some.inj h1).symm
          have := (hconst _ hmn).symm.trans (hconst _ hmx)
          exact (XR.fin.inj this).symm
      · rintro ⟨j, hj, he⟩
        right
        by_cases hrows : Y.rows = []
        · have hc0 : col Y j = [] := by simp [col, hrows]
          rw [hc0] at he
          simp only [List.foldl_nil] at he
          have := maxVal_ge_three
          linarith
        · refine ⟨by simpa [finMat] using hrows, j, hj, XR.fin ((col Y j).foldl minmaxUpd ((Scalar.maxVal : ℝ), -Scalar.maxVal)).1, ?_⟩
          have hcne : col Y j ≠ [] := by simpa [col] using hrows
          obtain ⟨_, _, hle⟩ := foldl_minmax_spec (col Y j) hcne (hM j hj)
          intro r hr
          obtain ⟨r', hr', rfl⟩ := List.mem_map.1 hr
          rw [hget j hj r' hr']
          congr 2
          have := hle (r'.getD j 0) (List.mem_map.2 ⟨r', hr', rfl⟩)
          linarith
    constructor
    · intro h; rw [hfit, if_pos (hiff.1 h)]
    · intro h; rw [hfit, if_neg (fun h' => h (hiff.2 h'))]; exact ⟨_, rfl⟩

/-- Fitting yields exactly one factor per column, and `transform` and `inv_transform` fail, with `InvalidData`, exactly
when the number of columns differs from the fitted one. -/
theorem C15_minmax_width (f : MinMaxFitter XR) (X0 : Mat XR) (hw : X0.WF) (t : MinMaxScaler XR) (hfit : minmaxFit f X0 = ok t) (X : Mat XR) :
    (X.cols ≠ X0.cols → minmaxTransform t X = err .InvalidData ∧ minmaxInv t X = err .InvalidData) ∧
    (X.cols = X0.cols → (∃ Y, minmaxTransform t X = ok Y) ∧ ∃ Y, minmaxInv t X = ok Y) := by
  have hlen : t.scale.length = X0.cols := by
    unfold minmaxFit at hfit
    by_cases hall : ∃ r ∈ X0.rows, ∃ x ∈ r, Scalar.isFinite x = false
    · rw [minmaxRows_err X0.rows _ (by intro r hr; rw [List.length_replicate]; exact hw r hr) hall] at hfit
      simp at hfit
    · push Not at hall
      obtain ⟨mms, h1, h2, _⟩ := minmaxRows_ok X0.rows (List.replicate X0.cols ((Scalar.maxVal, Scalar.neg Scalar.maxVal) : XR × XR))
        (XR.nan, XR.nan) XR.nan (by intro r hr; rw [List.length_replicate]; exact hw r hr)
        (fun r hr x hx => by simpa using hall r hr x hx)
      rw [h1, ok_bind] at hfit
      cases hs : mms.mapM (minmaxScale f) with
      | ok sc =>
        rw [hs] at hfit
        simp only [ok_bind, Outcome.ok.injEq] at hfit
        rw [← hfit]
        have := (mapM_length hs)
        rw [List.length_replicate] at h2
        simp only; omega
      | err k => rw [hs] at hfit; simp at hfit
      | panic => rw [hs] at hfit; simp at hfit
      | ub => rw [hs] at hfit; simp at hfit
  unfold minmaxTransform minmaxInv
  rw [hlen]
  constructor
  · intro h; rw [if_pos (Ne.symm h), if_pos h]; exact ⟨rfl, rfl⟩
  · intro h; rw [if_neg (by simp [h]), if_neg (by simp [h])]; exact ⟨⟨_, rfl⟩, ⟨_, rfl⟩⟩

/-- Good data: fits. Data with a constant column, with NaN: rejected. -/
example : HasNonFinite ⟨2, [[.fin 1, .nan], [.fin 0, .fin 1]]⟩ := ⟨_, by simp; left; rfl, .nan, by simp, by simp⟩
example : let X : Mat XR := ⟨2, [[.fin 1, .fin 2], [.fin 0, .fin 2]]⟩
    X.rows ≠ [] ∧ ∃ j, j < X.cols ∧ ∃ c, ∀ r ∈ X.rows, r[j]? = some c :=
  ⟨by simp, 1, by decide, .fin 2, by simp⟩

/-! ### C16 -/

/-- Fitting on data without constant columns and transforming the same data gives every column the requested mean and
(up to sign) the requested sample standard deviation. -/
theorem C16_standardizer_moments (f : StandardizerFitter ℝ) (X : Mat ℝ) (hw : X.WF) (h2 : 2 ≤ X.rows.length)
    (hnc : ∀ j, j < X.cols → NonConstant (col X j)) :
    ∃ t Y, standardizerFit f X = ok t ∧ standardizerTransform t X = ok Y ∧ SameShape X Y ∧
      ∀ j, j < X.cols → mean (col Y j) = f.scaledMean ∧ Real.sqrt (sampleVar (col Y j)) = |f.scaledStdev| := by
  have hfit := standardizerFit_real f X hw h2
  obtain ⟨Y, hY, hsh, hcol⟩ := standardizerTransform_col ⟨(List.range X.cols).map fun j => mean (col X j),
    (List.range X.cols).map fun j => sampleVar (col X j), f.scaledMean, f.scaledStdev⟩ X hw (by simp) (by simp)
  refine ⟨_, Y, hfit, hY, hsh, ?_⟩
  intro j hj
  have hv := sampleVar_pos (hnc j hj)
  have hne : col X j ≠ [] := by
    have := NonConstant.length (hnc j hj)
    intro h; rw [h] at this; simp at this
  have hc := hcol j hj
  rw [getD_lt _ (by simpa using hj), getD_lt _ (by simpa using hj)] at hc
  simp only [List.getElem_map, List.getElem_range] at hc
  have hsq : Real.sqrt (sampleVar (col X j)) ≠ 0 := (Real.sqrt_pos.2 hv).ne'
  have hc' : col Y j = (col X j).map fun x => (f.scaledStdev / Real.sqrt (sampleVar (col X j))) * x +
      (f.scaledMean - (f.scaledStdev / Real.sqrt (sampleVar (col X j))) * mean (col X j)) := by
    rw [hc]
    apply List.map_congr_left
    intro x _
    field_simp
    ring
  rw [hc', mean_affine _ hne, sampleVar_affine _ hne]
  refine ⟨by ring, ?_⟩
  rw [Real.sqrt_mul (sq_nonneg _), Real.sqrt_sq_eq_abs, abs_div, abs_of_pos (Real.sqrt_pos.2 hv)]
  field_simp

/-- A 2x2 example (the module documentation's). -/
example : let X : Mat ℝ := ⟨2, [[-1, 2], [3/2, 3]]⟩
    X.WF ∧ 2 ≤ X.rows.length ∧ ∀ j, j < X.cols → NonConstant (col X j) := by
  refine ⟨by intro r hr; fin_cases hr <;> rfl, by simp, ?_⟩
  intro j hj
  match j, hj with
  | 0, _ => exact ⟨-1, by simp [col], 3/2, by simp [col], by norm_num⟩
  | 1, _ => exact ⟨2, by simp [col], 3, by simp [col], by norm_num⟩

/-! ### C17 -/

/-- A standardizer fitted on data without constant columns, with a non-zero requested deviation, and its inverse undo each
other on every matrix of the fitted width. -/
theorem C17_standardizer_roundtrip (f : StandardizerFitter ℝ) (X0 : Mat ℝ) (hw0 : X0.WF) (h2 : 2 ≤ X0.rows.length)
    (hnc : ∀ j, j < X0.cols → NonConstant (col X0 j)) (hs : f.scaledStdev ≠ 0) :
    ∃ t, standardizerFit f X0 = ok t ∧ ∀ X : Mat ℝ, X.WF → X.cols = X0.cols →
      (∃ Y, standardizerTransform t X = ok Y ∧ standardizerInv t Y = ok X) ∧
      (∃ Y, standardizerInv t X = ok Y ∧ standardizerTransform t Y = ok X) := by
  refine ⟨_, standardizerFit_real f X0 hw0 h2, ?_⟩
  intro X hw hcols
  have hc : ∀ r ∈ X.rows, r.length = ((List.range X0.cols).map fun j => sampleVar (col X0 j)).length := by
    intro r hr; rw [hw r hr, hcols]; simp
  have hv : ∀ x ∈ ((List.range X0.cols).map fun j => sampleVar (col X0 j)), 0 < x := by
    intro x hx
    obtain ⟨j, hj, rfl⟩ := List.mem_map.1 hx
    exact sampleVar_pos (hnc j (by simpa using hj))
  constructor
  · refine ⟨_, by unfold standardizerTransform; rw [if_neg (by simp [hcols])], ?_⟩
    unfold standardizerInv
    rw [if_neg (by simp [hcols])]
    simp only [List.map_map]
    congr 1
    cases X with
    | mk c rows =>
      congr 1
      simp only at hc ⊢
      conv_rhs => rw [← List.map_id rows]
      apply List.map_congr_left
      intro r hr
      exact (standardize_cancel f.scaledStdev f.scaledMean hs r _ _ (hc r hr) (by simp) hv).1
  · refine ⟨_, by unfold standardizerInv; rw [if_neg (by simp [hcols])], ?_⟩
    unfold standardizerTransform
    rw [if_neg (by simp [hcols])]
    simp only [List.map_map]
    congr 1
    cases X with
    | mk c rows =>
      congr 1
      simp only at hc ⊢
      conv_rhs => rw [← List.map_id rows]
      apply List.map_congr_left
      intro r hr
      exact (standardize_cancel f.scaledStdev f.scaledMean hs r _ _ (hc r hr) (by simp) hv).2

/-- `fit` fails, with `InvalidData`, exactly on data with fewer than two rows or with a NaN or infinite entry. -/
theorem C17_standardizer_fit_rejects (f : StandardizerFitter XR) (X : Mat XR) (hw : X.WF) :
    (X.rows.length < 2 ∨ HasNonFinite X → standardizerFit f X = err .InvalidData) ∧
    (¬ (X.rows.length < 2 ∨ HasNonFinite X) → ∃ t, standardizerFit f X = ok t) := by
  constructor
  · rintro (h | h)
    · unfold standardizerFit; rw [if_pos (by omega)]
    · exact standardizerFit_not_finite f X hw ((hasNonFinite_iff X).1 h)
  · intro h
    push Not at h
    rcases finite_or X with hn | ⟨Y, rfl⟩
    · exact absurd hn h.2
    · exact ⟨_, xr_standardizerFit f Y (finMat_WF.1 hw) (by simpa [finMat] using h.1)⟩

/-- `transform` and `inv_transform` fail exactly when the number of columns differs from the fitted one. -/
theorem C17_standardizer_width (f : StandardizerFitter XR) (X0 : Mat XR) (t : Standardizer XR) (hfit : standardizerFit f X0 = ok t) (X : Mat XR) :
    (X.cols ≠ X0.cols → standardizerTransform t X = err .InvalidData ∧ standardizerInv t X = err .InvalidData) ∧
    (X.cols = X0.cols → (∃ Y, standardizerTransform t X = ok Y) ∧ ∃ Y, standardizerInv t X = ok Y) := by
  have hlen : t.means.length = X0.cols := by
    unfold standardizerFit at hfit
    split at hfit
    · simp at hfit
    · simp only at hfit
      split at hfit
      · split at hfit
        · simp at hfit
        · simp only [Outcome.ok.injEq] at hfit
          rw [← hfit]
          simp [Mat.meanRow, Mat.sumRows]
      all_goals simp at hfit
  unfold standardizerTransform standardizerInv
  rw [hlen]
  constructor
  · intro h; rw [if_pos (Ne.symm h), if_pos h]; exact ⟨rfl, rfl⟩
  · intro h; rw [if_neg (by simp [h]), if_neg (by simp [h])]; exact ⟨⟨_, rfl⟩, ⟨_, rfl⟩⟩

/-- The degenerate case: a constant column is accepted by `fit`, and transforming the training data turns every entry of
that column into NaN, whatever mean and deviation are requested. -/
theorem C17_constant_column_violation (s m : ℝ) (X : Mat ℝ) (hw : X.WF) (h2 : 2 ≤ X.rows.length) (j : ℕ) (hj : j < X.cols) (c : ℝ)
    (hc : ∀ x ∈ col X j, x = c) :
    ∃ t Y, standardizerFit (F := XR) ⟨.fin m, .fin s⟩ (finMat X) = ok t ∧ standardizerTransform t (finMat X) = ok Y ∧
      Y.rows.length = X.rows.length ∧ ∀ r ∈ Y.rows, r[j]? = some .nan := by
  have hfit := xr_standardizerFit ⟨.fin m, .fin s⟩ X hw h2
  have hne : col X j ≠ [] := by
    intro h
    have : (col X j).length = 0 := by rw [h]; rfl
    simp [col] at this
    rw [this] at h2; simp at h2
  refine ⟨_, _, hfit, by unfold standardizerTransform; rw [if_neg (by simp [finMat])], by simp [finMat], ?_⟩
  intro r hr
  simp only [finMat, List.map_map] at hr
  obtain ⟨r', hr', rfl⟩ := List.mem_map.1 hr
  have hlen := hw r' hr'
  have hxc : r'[j]'(by omega) = c := by
    apply hc
    refine List.mem_map.2 ⟨r', hr', ?_⟩
    rw [getD_lt _ (by omega)]
  simp only [Function.comp]
  rw [List.getElem?_eq_getElem (by simp; omega)]
  simp only [List.getElem_zipWith, List.getElem_map, List.getElem_range, hxc, mean_const hne hc, sampleVar_const hne hc]
  rw [xr_sub, sub_self, xr_mul, zero_mul, xr_sqrt _ (le_refl _), Real.sqrt_zero, xr_div_zero]
  have : XR.infOf 0 = .nan := by unfold XR.infOf; simp
  rw [this]
  rfl

example : ∃ X : Mat ℝ, X.WF ∧ 2 ≤ X.rows.length ∧ 1 < X.cols ∧ ∀ x ∈ col X 1, x = 5 :=
  ⟨⟨2, [[1, 5], [2, 5]]⟩, by intro r hr; fin_cases hr <;> rfl, by simp, by simp, by simp [col]⟩

/-! ### C18 -/

/-- Absolutely homogeneous, non-negative functions of a row: every norm is one. -/
structure IsNormLike (N : List ℝ → ℝ) : Prop where
  nonneg : ∀ r, 0 ≤ N r
  smul : ∀ (c : ℝ) r, N (r.map fun x => c * x) = |c| * N r

theorem eucNorm_isNormLike : IsNormLike (eucNorm : List ℝ → ℝ) :=
  ⟨fun r => by rw [eucNorm_real]; exact Real.sqrt_nonneg _, eucNorm_smul⟩

/-- Each row of norm 0 is kept, each other row becomes the positive multiple of itself that has norm 1, and normalising
again changes nothing. -/
theorem C18_normalizer (N : List ℝ → ℝ) (hN : IsNormLike N) (X : Mat ℝ) :
    ∃ Y, normalizerTransform N X = ok Y ∧ Y.cols = X.cols ∧
      List.Forall₂ (fun r r' => r'.length = r.length ∧ (N r = 0 → r' = r) ∧
        (N r ≠ 0 → N r' = 1 ∧ ∃ c : ℝ, 0 < c ∧ r' = r.map fun x => c * x)) X.rows Y.rows ∧
      normalizerTransform N Y = ok Y := by
  have hloop := fun rows : List (List ℝ) => normalizeLoop_ok N rows (by simp)
  refine ⟨⟨X.cols, X.rows.map fun r => if N r ==. Scalar.zero then r else r.map fun x => x /. N r⟩, ?_, rfl, ?_, ?_⟩
  · unfold normalizerTransform
    simp only [hloop, ok_bind]
  · simp only
    rw [List.forall₂_map_right_iff, List.forall₂_same]
    intro r _
    simp only [real_eq, real_zero, decide_eq_true_eq]
    refine ⟨by split <;> simp, fun h => by rw [if_pos h], fun h => ?_⟩
    rw [if_neg h]
    have hpos : 0 < N r := lt_of_le_of_ne (hN.nonneg r) (Ne.symm h)
    have e : (r.map fun x => x /. N r) = r.map fun x => (N r)⁻¹ * x := by
      apply List.map_congr_left; intro x _; simp only [real_div]; field_simp
    rw [e]
    refine ⟨?_, (N r)⁻¹, inv_pos.2 hpos, rfl⟩
    rw [hN.smul, abs_of_pos (inv_pos.2 hpos)]
    field_simp
  · unfold normalizerTransform
    simp only [hloop, ok_bind]
    rw [List.map_map]
    congr 2
    apply List.map_congr_left
    intro r _
    simp only [Function.comp, real_eq, real_zero, decide_eq_true_eq]
    by_cases h : N r = 0
    · rw [if_pos h, if_pos h]
    · rw [if_neg h]
      have hpos : 0 < N r := lt_of_le_of_ne (hN.nonneg r) (Ne.symm h)
      have e : (r.map fun x => x /. N r) = r.map fun x => (N r)⁻¹ * x := by
        apply List.map_congr_left; intro x _; simp only [real_div]; field_simp
      have h1 : N (r.map fun x => x /. N r) = 1 := by
        rw [e, hN.smul, abs_of_pos (inv_pos.2 hpos)]; field_simp
      rw [h1, if_neg one_ne_zero, List.map_map]
      apply List.map_congr_left
      intro x _
      simp

/-- The default normaliser: rows other than the zero row get Euclidean length 1, zero rows are unchanged. -/
theorem C18_euclidean (X : Mat ℝ) :
    ∃ Y, normalizerTransform eucNorm X = ok Y ∧ Y.cols = X.cols ∧
      List.Forall₂ (fun r r' => r'.length = r.length ∧ ((∀ x ∈ r, x = 0) → r' = r) ∧
        ((∃ x ∈ r, x ≠ 0) → (r'.map fun x => x ^ 2).sum = 1 ∧ ∃ c : ℝ, 0 < c ∧ r' = r.map fun x => c * x)) X.rows Y.rows ∧
      normalizerTransform eucNorm Y = ok Y := by
  obtain ⟨Y, h1, h2, h3, h4⟩ := C18_normalizer eucNorm eucNorm_isNormLike X
  refine ⟨Y, h1, h2, ?_, h4⟩
  refine h3.imp ?_
  rintro r r' ⟨hl, hz, hn⟩
  refine ⟨hl, fun h => hz ((eucNorm_eq_zero r).2 h), fun h => ?_⟩
  have : eucNorm r ≠ 0 := by
    rw [Ne, eucNorm_eq_zero]
    obtain ⟨x, hx, hne⟩ := h
    intro hall
    exact hne (hall x hx)
  obtain ⟨ha, hb⟩ := hn this
  refine ⟨?_, hb⟩
  rw [eucNorm_real, Real.sqrt_eq_one] at ha
  exact ha

/-- For every norm, over floats: the transform fails, with `InvalidData`, exactly when some row's norm is not finite. -/
theorem C18_rejects (N : List XR → XR) (X : Mat XR) :
    ((∃ r ∈ X.rows, N r = .nan ∨ N r = .pinf ∨ N r = .ninf) → normalizerTransform N X = err .InvalidData) ∧
    (¬ (∃ r ∈ X.rows, N r = .nan ∨ N r = .pinf ∨ N r = .ninf) → ∃ Y, normalizerTransform N X = ok Y) := by
  simp only [← not_finite_iff]
  unfold normalizerTransform
  constructor
  · intro h
    simp only [normalizeLoop_err N X.rows h]
    rfl
  · intro h
    push Not at h
    simp only [normalizeLoop_ok N X.rows (fun r hr => by simpa using h r hr)]
    exact ⟨_, rfl⟩

/-- For the Euclidean norm: the transform fails exactly when some entry is NaN or infinite. -/
theorem C18_euclidean_rejects (X : Mat XR) :
    (HasNonFinite X → normalizerTransform eucNorm X = err .InvalidData) ∧
    (¬ HasNonFinite X → ∃ Y, normalizerTransform eucNorm X = ok Y) := by
  have h := C18_rejects eucNorm X
  have e : HasNonFinite X ↔ ∃ r ∈ X.rows, eucNorm r = .nan ∨ eucNorm r = .pinf ∨ eucNorm r = .ninf := by
    simp only [← not_finite_iff]
    unfold HasNonFinite
    simp only [← not_finite_iff]
    apply exists_congr
    intro r
    apply and_congr_right
    intro _
    rw [← Bool.not_eq_true, xr_eucNorm_finite]
    push Not
    simp
  rw [e]
  exact h

example : (∃ x ∈ [(3 : ℝ), 4], x ≠ 0) ∧ HasNonFinite ⟨1, [[.fin 1], [.pinf]]⟩ :=
  ⟨⟨3, by simp, by norm_num⟩, _, by simp; right; rfl, .pinf, by simp, by simp⟩

end RM
