import Verif.Model.Transforms
import Verif.Spec.Matrix
import Verif.Proofs.Linalg

namespace RM
open Outcome Scalar Spec

variable {F : Type} [Scalar F]

theorem getD_lt {α : Type} {l : List α} {i : ℕ} (d : α) (h : i < l.length) : l.getD i d = l[i] := by simp [h]

theorem getD_ge {α : Type} {l : List α} {i : ℕ} (d : α) (h : l.length ≤ i) : l.getD i d = d := by
  simp [List.getElem?_eq_none h]

/-! ### The min/max loops -/

theorem minmaxRow_ok : ∀ (row : List F) (mms : List (F × F)), row.length = mms.length →
    (∀ x ∈ row, Scalar.isFinite x = true) → minmaxRow row mms = ok (List.zipWith minmaxUpd mms row)
  | [], [], _, _ => rfl
  | [], _ :: _, h, _ => by simp at h
  | _ :: _, [], h, _ => by simp at h
  | x :: row, mm :: mms, h, hf => by
    rw [minmaxRow, minmaxRow_ok row mms (by simpa using h) (fun y hy => hf y (by simp [hy])), hf x (by simp)]
    simp

theorem minmaxRow_err : ∀ (row : List F) (mms : List (F × F)), row.length = mms.length →
    (∃ x ∈ row, Scalar.isFinite x = false) → minmaxRow row mms = err .InvalidData
  | [], _, _, h => by obtain ⟨x, hx, _⟩ := h; simp at hx
  | _ :: _, [], h, _ => by simp at h
  | x :: row, mm :: mms, h, hf => by
    rw [minmaxRow]
    by_cases hx : Scalar.isFinite x = true
    · have : ∃ y ∈ row, Scalar.isFinite y = false := by
        obtain ⟨y, hy, hyf⟩ := hf
        rcases List.mem_cons.1 hy with rfl | hy
        · rw [hx] at hyf; simp at hyf
        · exact ⟨y, hy, hyf⟩
      rw [minmaxRow_err row mms (by simpa using h) this]
      simp [hx]
    · simp [hx]

theorem minmaxRows_ok : ∀ (rows : List (List F)) (mms : List (F × F)) (d : F × F) (z : F), (∀ r ∈ rows, r.length = mms.length) →
    (∀ r ∈ rows, ∀ x ∈ r, Scalar.isFinite x = true) →
    ∃ mms', minmaxRows rows mms = ok mms' ∧ mms'.length = mms.length ∧
      ∀ j, j < mms.length → mms'.getD j d = (rows.map fun r => r.getD j z).foldl minmaxUpd (mms.getD j d)
  | [], mms, d, z, _, _ => ⟨mms, rfl, rfl, fun j _ => rfl⟩
  | r :: rows, mms, d, z, h, hf => by
    have hr : r.length = mms.length := h r (by simp)
    have hl : (List.zipWith minmaxUpd mms r).length = mms.length := by simp [hr]
    obtain ⟨mms', h1, h2, h3⟩ := minmaxRows_ok rows (List.zipWith minmaxUpd mms r) d z
      (fun x hx => by rw [hl]; exact h x (by simp [hx])) (fun x hx => hf x (by simp [hx]))
    refine ⟨mms', ?_, by rw [h2, hl], ?_⟩
    · rw [minmaxRows, minmaxRow_ok r mms hr (hf r (by simp))]
      simpa using h1
    · intro j hj
      rw [h3 j (by omega)]
      simp only [List.map_cons, List.foldl_cons]
      rw [getD_lt d (by omega : j < (List.zipWith minmaxUpd mms r).length), List.getElem_zipWith, getD_lt d hj,
        getD_lt z (by omega : j < r.length)]

theorem minmaxRows_err : ∀ (rows : List (List F)) (mms : List (F × F)), (∀ r ∈ rows, r.length = mms.length) →
    (∃ r ∈ rows, ∃ x ∈ r, Scalar.isFinite x = false) → minmaxRows rows mms = err .InvalidData
  | [], _, _, h => by obtain ⟨r, hr, _⟩ := h; simp at hr
  | r :: rows, mms, h, hf => by
    have hr : r.length = mms.length := h r (by simp)
    rw [minmaxRows]
    by_cases hall : ∀ x ∈ r, Scalar.isFinite x = true
    · rw [minmaxRow_ok r mms hr hall]
      have hl : (List.zipWith minmaxUpd mms r).length = mms.length := by simp [hr]
      have : ∃ r ∈ rows, ∃ x ∈ r, Scalar.isFinite x = false := by
        obtain ⟨r', hr', x, hx, hxf⟩ := hf
        rcases List.mem_cons.1 hr' with rfl | hr'
        · rw [hall x hx] at hxf; simp at hxf
        · exact ⟨r', hr', x, hx, hxf⟩
      simpa using minmaxRows_err rows _ (fun x hx => by rw [hl]; exact h x (by simp [hx])) this
    · push Not at hall
      obtain ⟨x, hx, hxf⟩ := hall
      rw [minmaxRow_err r mms hr ⟨x, hx, by simpa using hxf⟩]
      rfl

/-! ### One column over the reals -/

theorem foldl_minmax_le : ∀ (l : List ℝ) (mm : ℝ × ℝ), (l.foldl minmaxUpd mm).1 ≤ mm.1 ∧ mm.2 ≤ (l.foldl minmaxUpd mm).2 ∧
    ∀ x ∈ l, (l.foldl minmaxUpd mm).1 ≤ x ∧ x ≤ (l.foldl minmaxUpd mm).2
  | [], mm => ⟨le_refl _, le_refl _, by simp⟩
  | a :: l, mm => by
    have ih := foldl_minmax_le l (minmaxUpd mm a)
    have e1 : (minmaxUpd mm a).1 ≤ mm.1 ∧ (minmaxUpd mm a).1 ≤ a := by
      unfold minmaxUpd; simp only [real_lt, decide_eq_true_eq]; split <;> constructor <;> linarith
    have e2 : mm.2 ≤ (minmaxUpd mm a).2 ∧ a ≤ (minmaxUpd mm a).2 := by
      unfold minmaxUpd; simp only [real_lt, decide_eq_true_eq]; split <;> constructor <;> linarith
    rw [List.foldl_cons]
    refine ⟨le_trans ih.1 e1.1, le_trans e2.1 ih.2.1, ?_⟩
    intro x hx
    rcases List.mem_cons.1 hx with rfl | hx
    · exact ⟨le_trans ih.1 e1.2, le_trans e2.2 ih.2.1⟩
    · exact ih.2.2 x hx

theorem foldl_minmax_mem : ∀ (l : List ℝ) (mm : ℝ × ℝ),
    ((l.foldl minmaxUpd mm).1 = mm.1 ∨ (l.foldl minmaxUpd mm).1 ∈ l) ∧
    ((l.foldl minmaxUpd mm).2 = mm.2 ∨ (l.foldl minmaxUpd mm).2 ∈ l)
  | [], mm => ⟨Or.inl rfl, Or.inl rfl⟩
  | a :: l, mm => by
    have ih := foldl_minmax_mem l (minmaxUpd mm a)
    rw [List.foldl_cons]
    have e1 : (minmaxUpd mm a).1 = mm.1 ∨ (minmaxUpd mm a).1 = a := by
      unfold minmaxUpd; simp only [real_lt, decide_eq_true_eq]; split
      · right; rfl
      · left; rfl
    have e2 : (minmaxUpd mm a).2 = mm.2 ∨ (minmaxUpd mm a).2 = a := by
      unfold minmaxUpd; simp only [real_lt, decide_eq_true_eq]; split
      · right; rfl
      · left; rfl
    constructor
    · rcases ih.1 with h | h
      · rcases e1 with e | e
        · left; rw [h, e]
        · right; rw [h, e]; simp
      · right; simp [h]
    · rcases ih.2 with h | h
      · rcases e2 with e | e
        · left; rw [h, e]
        · right; rw [h, e]; simp
      · right; simp [h]

/-- On a non-empty column of representable numbers the loop finds the minimum and maximum. -/
theorem foldl_minmax_spec (l : List ℝ) (hne : l ≠ []) {M : ℝ} (hM : ∀ x ∈ l, |x| ≤ M) :
    (l.foldl minmaxUpd (M, -M)).1 ∈ l ∧ (l.foldl minmaxUpd (M, -M)).2 ∈ l ∧
    ∀ x ∈ l, (l.foldl minmaxUpd (M, -M)).1 ≤ x ∧ x ≤ (l.foldl minmaxUpd (M, -M)).2 := by
  obtain ⟨x0, hx0⟩ := List.exists_mem_of_ne_nil _ hne
  have hle := (foldl_minmax_le l (M, -M)).2.2
  have hb := abs_le.1 (hM x0 hx0)
  refine ⟨?_, ?_, hle⟩
  · rcases (foldl_minmax_mem l (M, -M)).1 with h | h
    · have := (hle x0 hx0).1
      have : (l.foldl minmaxUpd (M, -M)).1 = x0 := by rw [h] at this ⊢; simp only at this ⊢; linarith
      rw [this]; exact hx0
    · exact h
  · rcases (foldl_minmax_mem l (M, -M)).2 with h | h
    · have := (hle x0 hx0).2
      have : (l.foldl minmaxUpd (M, -M)).2 = x0 := by rw [h] at this ⊢; simp only at this ⊢; linarith
      rw [this]; exact hx0
    · exact h

theorem mapM_ok_map {α β : Type} (f : α → Outcome β) (g : α → β) : ∀ (l : List α), (∀ a ∈ l, f a = ok (g a)) →
    l.mapM f = ok (l.map g)
  | [], _ => rfl
  | a :: l, h => by
    rw [List.mapM_cons, h a (by simp), mapM_ok_map f g l (fun x hx => h x (by simp [hx]))]
    rfl

theorem mapM_err {α β : Type} (f : α → Outcome β) (k : ErrorKind) : ∀ (l : List α), (∀ a ∈ l, (∃ b, f a = ok b) ∨ f a = err k) →
    (∃ a ∈ l, f a = err k) → l.mapM f = err k
  | [], _, h => by obtain ⟨a, ha, _⟩ := h; simp at ha
  | a :: l, h, he => by
    rw [List.mapM_cons]
    rcases h a (by simp) with ⟨b, hb⟩ | hb
    · have : ∃ a ∈ l, f a = err k := by
        obtain ⟨a', ha', he'⟩ := he
        rcases List.mem_cons.1 ha' with rfl | ha'
        · rw [hb] at he'; simp at he'
        · exact ⟨a', ha', he'⟩
      rw [hb, mapM_err f k l (fun x hx => h x (by simp [hx])) this]
      rfl
    · rw [hb]; rfl

theorem mapM_length {α β : Type} {f : α → Outcome β} : ∀ {l : List α} {r : List β}, l.mapM f = ok r → r.length = l.length
  | [], r, h => by rw [List.mapM_nil] at h; cases h; rfl
  | a :: l, r, h => by
    rw [List.mapM_cons] at h
    obtain ⟨b, _, h⟩ := bind_eq_ok.1 h
    obtain ⟨bs, hbs, h⟩ := bind_eq_ok.1 h
    cases h
    simp [mapM_length hbs]

theorem maxVal_ge : (2 : ℝ) ^ 971 ≤ Scalar.maxVal := by
  rw [real_maxVal]
  have e : (2 : ℝ) ^ 1024 = 2 ^ 53 * 2 ^ 971 := by rw [← pow_add]
  rw [e]
  have h1 : (0 : ℝ) < 2 ^ 971 := by positivity
  clear e
  generalize (2 : ℝ) ^ 971 = b at *
  norm_num
  linarith

theorem maxVal_ge_three : (3 : ℝ) ≤ Scalar.maxVal := by
  refine le_trans ?_ maxVal_ge
  have e : (2 : ℝ) ^ 971 = 2 ^ 969 * 4 := by rw [show (971 : ℕ) = 969 + 2 from rfl, pow_add]; norm_num
  rw [e]
  have : (1 : ℝ) ≤ 2 ^ 969 := one_le_pow₀ (by norm_num)
  clear e
  generalize (2 : ℝ) ^ 969 = b at *
  linarith

/-- `X` after `minmaxFit`: factors in terms of the column extremes. -/
theorem minmaxFit_real (f : MinMaxFitter ℝ) (X : Mat ℝ) (hw : X.WF) :
    ∃ t, minmaxFit f X = ok t ∧ t.scale.length = X.cols ∧ t.const.length = X.cols ∧
      ∀ j, j < X.cols →
        t.scale.getD j 0 = (f.scaledMax - f.scaledMin) /
          (((col X j).foldl minmaxUpd (Scalar.maxVal, -Scalar.maxVal)).2 - ((col X j).foldl minmaxUpd (Scalar.maxVal, -Scalar.maxVal)).1) ∧
        t.const.getD j 0 = f.scaledMax - ((col X j).foldl minmaxUpd (Scalar.maxVal, -Scalar.maxVal)).2 * t.scale.getD j 0 := by
  obtain ⟨mms, h1, h2, h3⟩ := minmaxRows_ok X.rows (List.replicate X.cols ((Scalar.maxVal, Scalar.neg Scalar.maxVal) : ℝ × ℝ))
    (Scalar.maxVal, Scalar.neg Scalar.maxVal) 0 (by intro r hr; rw [List.length_replicate]; exact hw r hr) (by simp)
  rw [List.length_replicate] at h2 h3
  have hsc := mapM_ok_map (minmaxScale f) (fun mm => (f.scaledMax - f.scaledMin) / (mm.2 - mm.1)) mms
    (fun mm _ => by simp [minmaxScale])
  refine ⟨⟨mms.map fun mm => (f.scaledMax - f.scaledMin) / (mm.2 - mm.1),
    List.zipWith (fun mm s => f.scaledMax -. mm.2 *. s) mms (mms.map fun mm => (f.scaledMax - f.scaledMin) / (mm.2 - mm.1))⟩, ?_, ?_, ?_, ?_⟩
  · unfold minmaxFit
    rw [h1]
    simp only [ok_bind, hsc]
  · simp [h2]
  · simp [h2]
  · intro j hj
    have hj' : j < mms.length := by omega
    have he : mms[j] = (col X j).foldl minmaxUpd (Scalar.maxVal, -Scalar.maxVal) := by
      have := h3 j hj
      rw [getD_lt _ hj'] at this
      rw [this]
      congr 1
      simp [hj]
    constructor
    · rw [getD_lt _ (by simp; omega)]
      simp [he]
    · rw [getD_lt _ (by simp; omega), getD_lt _ (by simp; omega)]
      simp [he]

theorem getD_zipWith2 {f : ℝ → ℝ → ℝ} {a b : List ℝ} {j : ℕ} (h1 : j < a.length) (h2 : j < b.length) :
    (List.zipWith f a b).getD j 0 = f (a.getD j 0) (b.getD j 0) := by
  rw [getD_lt _ (by simp; omega), getD_lt _ h1, getD_lt _ h2, List.getElem_zipWith]

/-- Transform, entry by entry. -/
theorem minmaxTransform_col (t : MinMaxScaler ℝ) (X : Mat ℝ) (hw : X.WF) (h1 : t.scale.length = X.cols) (h2 : t.const.length = X.cols) :
    ∃ Y, minmaxTransform t X = ok Y ∧ SameShape X Y ∧
      ∀ j, j < X.cols → col Y j = (col X j).map fun x => x * t.scale.getD j 0 + t.const.getD j 0 := by
  refine ⟨⟨X.cols, X.rows.map fun row => List.zipWith Scalar.add (List.zipWith Scalar.mul row t.scale) t.const⟩, ?_, ?_, ?_⟩
  · unfold minmaxTransform; rw [if_neg (by simpa using h1)]
  · refine ⟨rfl, by simp, ?_⟩
    intro r hr
    obtain ⟨r', hr', rfl⟩ := List.mem_map.1 hr
    have := hw r' hr'
    simp [this, h1, h2]
  · intro j hj
    unfold col
    rw [List.map_map, List.map_map]
    apply List.map_congr_left
    intro r hr
    have hr' := hw r hr
    simp only [Function.comp]
    rw [getD_zipWith2 (by simp; omega) (by omega), getD_zipWith2 (by omega) (by omega)]
    rfl

theorem zipWith_add_mul_cancel : ∀ (row s c : List ℝ), row.length = s.length → c.length = s.length → (∀ x ∈ s, x ≠ 0) →
    List.zipWith Scalar.div (List.zipWith Scalar.sub (List.zipWith Scalar.add (List.zipWith Scalar.mul row s) c) c) s = row ∧
    List.zipWith Scalar.add (List.zipWith Scalar.mul (List.zipWith Scalar.div (List.zipWith Scalar.sub row c) s) s) c = row
  | [], _, _, _, _, _ => by simp
  | x :: row, [], _, h, _, _ => by simp at h
  | x :: row, s :: ss, [], _, h, _ => by simp at h
  | x :: row, s :: ss, c :: cs, h1, h2, h3 => by
    have hs : s ≠ 0 := h3 s (by simp)
    have ih := zipWith_add_mul_cancel row ss cs (by simpa using h1) (by simpa using h2) (fun y hy => h3 y (by simp [hy]))
    simp only [List.zipWith_cons_cons, ih.1, ih.2, real_add, real_sub, real_mul, real_div, List.cons.injEq, and_true]
    constructor <;> field_simp <;> ring

/-! ### Floats with special values -/

theorem xr_foldl_minmax : ∀ (l : List ℝ) (mm : ℝ × ℝ), (l.map XR.fin).foldl minmaxUpd (XR.fin mm.1, XR.fin mm.2) =
    (XR.fin (l.foldl minmaxUpd mm).1, XR.fin (l.foldl minmaxUpd mm).2)
  | [], mm => rfl
  | a :: l, mm => by
    rw [List.map_cons, List.foldl_cons, List.foldl_cons]
    have : minmaxUpd (XR.fin mm.1, XR.fin mm.2) (XR.fin a) = (XR.fin (minmaxUpd mm a).1, XR.fin (minmaxUpd mm a).2) := by
      unfold minmaxUpd
      simp only [xr_lt, real_lt]
      by_cases h1 : a < mm.1 <;> by_cases h2 : mm.2 < a <;> simp [h1, h2]
    rw [this, xr_foldl_minmax l]

theorem exists_finMat (X : Mat XR) (h : ∀ r ∈ X.rows, ∀ x ∈ r, Scalar.isFinite x = true) : ∃ Y : Mat ℝ, X = finMat Y := by
  have hrow : ∀ r : List XR, (∀ x ∈ r, Scalar.isFinite x = true) → ∃ s : List ℝ, r = s.map XR.fin := by
    intro r
    induction r with
    | nil => intro _; exact ⟨[], rfl⟩
    | cons a r ih =>
      intro hr
      obtain ⟨s, hs⟩ := ih (fun x hx => hr x (by simp [hx]))
      obtain ⟨x, hx⟩ := (xr_isFinite_iff a).1 (hr a (by simp))
      exact ⟨x :: s, by rw [hs, hx]; rfl⟩
  have hrows : ∀ rows : List (List XR), (∀ r ∈ rows, ∀ x ∈ r, Scalar.isFinite x = true) → ∃ s : List (List ℝ), rows = s.map (List.map XR.fin) := by
    intro rows
    induction rows with
    | nil => intro _; exact ⟨[], rfl⟩
    | cons a r ih =>
      intro hr
      obtain ⟨s, hs⟩ := ih (fun x hx => hr x (by simp [hx]))
      obtain ⟨x, hx⟩ := hrow a (hr a (by simp))
      exact ⟨x :: s, by rw [hs, hx]; rfl⟩
  obtain ⟨s, hs⟩ := hrows X.rows h
  exact ⟨⟨X.cols, s⟩, by unfold finMat; rw [← hs]⟩

theorem finMat_WF {X : Mat ℝ} : (finMat X).WF ↔ X.WF := by
  unfold Mat.WF finMat
  constructor
  · intro h r hr
    have := h (r.map XR.fin) (List.mem_map.2 ⟨r, hr, rfl⟩)
    simpa using this
  · intro h r hr
    obtain ⟨r', hr', rfl⟩ := List.mem_map.1 hr
    simpa using h r' hr'

theorem getD_map_fin (r : List ℝ) (j : ℕ) : (r.map XR.fin).getD j (XR.fin 0) = XR.fin (r.getD j 0) := by
  simp only [List.getD_eq_getElem?_getD, List.getElem?_map]
  cases r[j]? <;> rfl

/-- The scale of a column over floats. -/
theorem xr_minmaxScale (a b mn mx : ℝ) :
    minmaxScale (F := XR) ⟨.fin a, .fin b⟩ (.fin mn, .fin mx) =
      if mx = mn then err .InvalidData else ok (.fin ((b - a) / (mx - mn))) := by
  unfold minmaxScale
  simp only [xr_sub]
  by_cases h : mx = mn
  · subst h
    rw [sub_self, xr_div_zero, if_pos rfl]
    simp
  · rw [xr_div _ _ (sub_ne_zero.2 h), if_neg h]
    simp

/-- Fitting finite data over floats. -/
theorem xr_minmaxFit (a b : ℝ) (X : Mat ℝ) (hw : X.WF) :
    let ext : ℕ → ℝ × ℝ := fun j => (col X j).foldl minmaxUpd (Scalar.maxVal, -Scalar.maxVal)
    minmaxFit (F := XR) ⟨.fin a, .fin b⟩ (finMat X) =
      if (∃ j, j < X.cols ∧ (ext j).2 = (ext j).1) then err .InvalidData
      else ok ⟨(List.range X.cols).map fun j => .fin ((b - a) / ((ext j).2 - (ext j).1)),
        (List.range X.cols).map fun j => .fin (b - (ext j).2 * ((b - a) / ((ext j).2 - (ext j).1)))⟩ := by
  intro ext
  obtain ⟨mms, h1, h2, h3⟩ := minmaxRows_ok (finMat X).rows (List.replicate X.cols ((Scalar.maxVal, Scalar.neg Scalar.maxVal) : XR × XR))
    (Scalar.maxVal, Scalar.neg Scalar.maxVal) (XR.fin 0) (by intro r hr; rw [List.length_replicate]; exact finMat_WF.2 hw r hr) (by
      intro r hr x hx
      obtain ⟨r', _, rfl⟩ := List.mem_map.1 hr
      obtain ⟨y, _, rfl⟩ := List.mem_map.1 hx
      simp)
  rw [List.length_replicate] at h2 h3
  have hmms : mms = (List.range X.cols).map fun j => (XR.fin (ext j).1, XR.fin (ext j).2) := by
    apply List.ext_getElem
    · simp [h2]
    · intro j hj1 hj2
      have hj : j < X.cols := by omega
      have := h3 j hj
      rw [getD_lt _ hj1] at this
      rw [this]
      simp only [List.getElem_map, List.getElem_range]
      have e : ((finMat X).rows.map fun r => r.getD j (XR.fin 0)) = (col X j).map XR.fin := by
        unfold finMat col
        rw [List.map_map, List.map_map]
        apply List.map_congr_left
        intro r _
        exact getD_map_fin r j
      rw [e]
      have e2 : (List.replicate X.cols ((Scalar.maxVal, Scalar.neg Scalar.maxVal) : XR × XR)).getD j (Scalar.maxVal, Scalar.neg Scalar.maxVal) =
          (XR.fin (Scalar.maxVal : ℝ), XR.fin (-(Scalar.maxVal : ℝ))) := by
        rw [getD_lt _ (by simpa using hj)]; simp; constructor <;> rfl
      rw [e2]
      exact xr_foldl_minmax (col X j) (Scalar.maxVal, -Scalar.maxVal)
  unfold minmaxFit
  have hc : (finMat X).cols = X.cols := rfl
  rw [hc, h1]
  simp only [ok_bind]
  by_cases hex : ∃ j, j < X.cols ∧ (ext j).2 = (ext j).1
  · rw [if_pos hex]
    obtain ⟨j, hj, he⟩ := hex
    rw [mapM_err (minmaxScale ⟨.fin a, .fin b⟩) .InvalidData mms]
    · rfl
    · intro mm hmm
      rw [hmms] at hmm
      obtain ⟨i, _, rfl⟩ := List.mem_map.1 hmm
      rw [xr_minmaxScale]
      split
      · right; rfl
      · left; exact ⟨_, rfl⟩
    · refine ⟨_, by rw [hmms]; exact List.mem_map.2 ⟨j, by simpa using hj, rfl⟩, ?_⟩
      rw [xr_minmaxScale, if_pos he]
  · rw [if_neg hex]
    have hsc : mms.mapM (minmaxScale (F := XR) ⟨.fin a, .fin b⟩) =
        ok ((List.range X.cols).map fun j => XR.fin ((b - a) / ((ext j).2 - (ext j).1))) := by
      rw [hmms]
      have : ∀ l : List ℕ, (∀ j ∈ l, j < X.cols) →
          (l.map fun j => (XR.fin (ext j).1, XR.fin (ext j).2)).mapM (minmaxScale (F := XR) ⟨.fin a, .fin b⟩) =
            ok (l.map fun j => XR.fin ((b - a) / ((ext j).2 - (ext j).1))) := by
        intro l
        induction l with
        | nil => intro _; rfl
        | cons j l ih =>
          intro hl
          have hne : ¬ (ext j).2 = (ext j).1 := fun h => hex ⟨j, hl j (by simp), h⟩
          rw [List.map_cons, List.mapM_cons, xr_minmaxScale, if_neg hne, ih (fun i hi => hl i (by simp [hi]))]
          rfl
      exact this _ (by simp)
    rw [hsc]
    simp only [ok_bind]
    congr 2
    rw [hmms]
    apply List.ext_getElem
    · simp
    · intro j _ _
      simp

/-! ### Columns, means and variances -/

theorem colOf_eq {F : Type} (X : Mat F) (z : F) (hw : X.WF) (j : ℕ) (hj : j < X.cols) :
    colOf X.rows j = X.rows.map fun r => r.getD j z := by
  unfold colOf
  have : ∀ rows : List (List F), (∀ r ∈ rows, r.length = X.cols) → rows.filterMap (fun r => r[j]?) = rows.map fun r => r.getD j z := by
    intro rows
    induction rows with
    | nil => intro _; rfl
    | cons r rows ih =>
      intro h
      have hr : j < r.length := by rw [h r (by simp)]; exact hj
      rw [List.map_cons, List.filterMap_cons, ih (fun x hx => h x (by simp [hx])), List.getElem?_eq_getElem hr, getD_lt z hr]
  exact this X.rows hw

theorem mean_affine (l : List ℝ) (hne : l ≠ []) (a b : ℝ) : mean (l.map fun x => a * x + b) = a * mean l + b := by
  have hs : ∀ l : List ℝ, (l.map fun x => a * x + b).sum = a * l.sum + l.length * b := by
    intro l
    induction l with
    | nil => simp
    | cons x l ih => simp only [List.map_cons, List.sum_cons, ih, List.length_cons]; push_cast; ring
  have hn : (l.length : ℝ) ≠ 0 := by
    have := List.length_pos_iff.2 hne
    positivity
  unfold mean
  rw [hs, List.length_map]
  field_simp

theorem sampleVar_affine (l : List ℝ) (hne : l ≠ []) (a b : ℝ) : sampleVar (l.map fun x => a * x + b) = a ^ 2 * sampleVar l := by
  unfold sampleVar
  rw [mean_affine l hne, List.map_map, List.length_map, ← mul_div_assoc]
  congr 1
  generalize mean l = m
  clear hne
  induction l with
  | nil => simp
  | cons x l ih => simp only [List.map_cons, List.sum_cons, ih, Function.comp]; ring

theorem sum_sq_nonneg (l : List ℝ) (m : ℝ) : 0 ≤ (l.map fun x => (x - m) ^ 2).sum :=
  List.sum_nonneg (by intro x hx; obtain ⟨y, _, rfl⟩ := List.mem_map.1 hx; positivity)

theorem sum_sq_pos {l : List ℝ} {m : ℝ} : (∃ x ∈ l, x ≠ m) → 0 < (l.map fun x => (x - m) ^ 2).sum := by
  induction l with
  | nil => rintro ⟨x, hx, _⟩; simp at hx
  | cons a l ih =>
    rintro ⟨x, hx, hne⟩
    rw [List.map_cons, List.sum_cons]
    rcases List.mem_cons.1 hx with rfl | hx
    · have : 0 < (x - m) ^ 2 := by have := sub_ne_zero.2 hne; positivity
      linarith [sum_sq_nonneg l m]
    · linarith [ih ⟨x, hx, hne⟩, sq_nonneg (a - m)]

theorem NonConstant.length {l : List ℝ} (h : NonConstant l) : 2 ≤ l.length := by
  obtain ⟨x, hx, y, hy, hne⟩ := h
  match l, hx, hy with
  | [a], hx, hy => simp at hx hy; exact absurd (hx.trans hy.symm) hne
  | _ :: _ :: _, _, _ => simp

theorem sampleVar_pos {l : List ℝ} (h : NonConstant l) : 0 < sampleVar l := by
  have hlen := NonConstant.length h
  have h2 : (2 : ℝ) ≤ l.length := by exact_mod_cast hlen
  unfold sampleVar
  apply div_pos _ (by linarith)
  apply sum_sq_pos
  obtain ⟨x, hx, y, hy, hne⟩ := h
  by_cases hxm : x = mean l
  · exact ⟨y, hy, fun h => hne (hxm.trans h.symm)⟩
  · exact ⟨x, hx, hxm⟩

/-! ### Standardizer over the reals -/

theorem standardizerFit_real (f : StandardizerFitter ℝ) (X : Mat ℝ) (hw : X.WF) (h2 : 2 ≤ X.rows.length) :
    standardizerFit f X = ok ⟨(List.range X.cols).map fun j => mean (col X j), (List.range X.cols).map fun j => sampleVar (col X j),
      f.scaledMean, f.scaledStdev⟩ := by
  have e1 : X.meanRow = (List.range X.cols).map fun j => mean (col X j) := by
    unfold Mat.meanRow Mat.sumRows
    rw [List.map_map]
    apply List.map_congr_left
    intro j hj
    simp only [Function.comp]
    rw [colOf_eq X 0 hw j (by simpa using hj), fsum_real]
    simp [mean, col]
  have e2 : X.varianceRow = ok ((List.range X.cols).map fun j => sampleVar (col X j)) := by
    unfold Mat.varianceRow
    rw [if_neg (by omega)]
    congr 1
    apply List.map_congr_left
    intro j hj
    simp only
    rw [colOf_eq X 0 hw j (by simpa using hj), fsum_real, fsum_real]
    have hlen : (col X j).length = X.rows.length := by simp [col]
    unfold sampleVar mean
    rw [hlen]
    simp only [real_div, real_ofNat, real_sub, real_mul, ← sq]
    rw [Nat.cast_sub (by omega)]
    simp [col]
  unfold standardizerFit
  rw [if_neg (by omega), e1, e2]
  simp

theorem standardizerTransform_col (t : Standardizer ℝ) (X : Mat ℝ) (hw : X.WF) (h1 : t.means.length = X.cols) (h2 : t.variances.length = X.cols) :
    ∃ Y, standardizerTransform t X = ok Y ∧ SameShape X Y ∧
      ∀ j, j < X.cols → col Y j = (col X j).map fun x => (x - t.means.getD j 0) * t.scaledStdev / Real.sqrt (t.variances.getD j 0) + t.scaledMean := by
  refine ⟨_, by unfold standardizerTransform; rw [if_neg (by simpa using h1)], ?_, ?_⟩
  · refine ⟨rfl, by simp, ?_⟩
    intro r hr
    obtain ⟨r', hr', rfl⟩ := List.mem_map.1 hr
    have := hw r' hr'
    simp [this, h1, h2]
  · intro j hj
    unfold col
    rw [List.map_map, List.map_map]
    apply List.map_congr_left
    intro r hr
    have hr' := hw r hr
    simp only [Function.comp]
    rw [getD_zipWith2 (by simp; omega) (by omega), getD_zipWith2 (by omega) (by omega)]
    simp

theorem standardize_cancel (s m : ℝ) (hs : s ≠ 0) : ∀ (row means vars : List ℝ), row.length = vars.length → means.length = vars.length →
    (∀ x ∈ vars, 0 < x) →
    List.zipWith Scalar.add (List.zipWith (fun x y => (x -. m) *. Scalar.sqrt y /. s)
        (List.zipWith (fun x y => x *. s /. Scalar.sqrt y +. m) (List.zipWith Scalar.sub row means) vars) vars) means = row ∧
    List.zipWith (fun x y => x *. s /. Scalar.sqrt y +. m) (List.zipWith Scalar.sub
        (List.zipWith Scalar.add (List.zipWith (fun x y => (x -. m) *. Scalar.sqrt y /. s) row vars) means) means) vars = row
  | [], _, _, _, _, _ => by simp
  | x :: row, _, [], h, _, _ => by simp at h
  | x :: row, [], _ :: _, _, h, _ => by simp at h
  | x :: row, mu :: mus, v :: vs, h1, h2, h3 => by
    have hv : Real.sqrt v ≠ 0 := (Real.sqrt_pos.2 (h3 v (by simp))).ne'
    have ih := standardize_cancel s m hs row mus vs (by simpa using h1) (by simpa using h2) (fun y hy => h3 y (by simp [hy]))
    simp only [List.zipWith_cons_cons]
    rw [ih.1, ih.2]
    simp only [real_add, real_sub, real_mul, real_div, real_sqrt, List.cons.injEq, and_true]
    constructor <;> field_simp <;> ring

/-! ### Standardizer over floats -/

theorem xr_foldl_fin (l : List ℝ) : ∀ s : ℝ, (l.map XR.fin).foldl Scalar.add (XR.fin s) = XR.fin (l.foldl (· + ·) s) := by
  induction l with
  | nil => intro s; rfl
  | cons a l ih => intro s; rw [List.map_cons, List.foldl_cons, List.foldl_cons, xr_add, ih]

theorem xr_add_not_finite (a b : XR) (h : Scalar.isFinite a = false ∨ Scalar.isFinite b = false) : Scalar.isFinite (a +. b) = false := by
  cases a <;> cases b <;> simp_all <;> rfl

theorem xr_foldl_not_finite (l : List XR) : ∀ s : XR, (Scalar.isFinite s = false ∨ ∃ x ∈ l, Scalar.isFinite x = false) →
    Scalar.isFinite (l.foldl Scalar.add s) = false := by
  induction l with
  | nil => intro s h; simpa using h
  | cons a l ih =>
    intro s h
    rw [List.foldl_cons]
    apply ih
    rcases h with h | ⟨x, hx, hxf⟩
    · left; exact xr_add_not_finite _ _ (Or.inl h)
    · rcases List.mem_cons.1 hx with rfl | hx
      · left; exact xr_add_not_finite _ _ (Or.inr hxf)
      · right; exact ⟨x, hx, hxf⟩

theorem xr_div_not_finite (a : XR) (n : ℝ) (h : Scalar.isFinite a = false) : Scalar.isFinite (a /. XR.fin n) = false := by
  cases a with
  | nan => rfl
  | pinf =>
    change Scalar.isFinite (if n < 0 then XR.ninf else XR.pinf) = false
    split <;> rfl
  | ninf =>
    change Scalar.isFinite (if n < 0 then XR.pinf else XR.ninf) = false
    split <;> rfl
  | fin x => simp at h

theorem xr_fsum_fin (l : List ℝ) : fsum (l.map XR.fin) = XR.fin l.sum := by
  unfold fsum
  rw [xr_zero, xr_foldl_fin, ← fsum_real]
  rfl

theorem xr_fsum_not_finite (l : List XR) (h : ∃ x ∈ l, Scalar.isFinite x = false) : Scalar.isFinite (fsum l) = false :=
  xr_foldl_not_finite l _ (Or.inr h)

theorem col_finMat (X : Mat ℝ) (hw : X.WF) (j : ℕ) (hj : j < X.cols) : colOf (finMat X).rows j = (col X j).map XR.fin := by
  rw [colOf_eq (finMat X) (XR.fin 0) (finMat_WF.2 hw) j hj]
  unfold finMat col
  rw [List.map_map, List.map_map]
  apply List.map_congr_left
  intro r _
  exact getD_map_fin r j

/-- Fitting finite data over floats gives the real fit. -/
theorem xr_standardizerFit (f : StandardizerFitter XR) (X : Mat ℝ) (hw : X.WF) (h2 : 2 ≤ X.rows.length) :
    standardizerFit f (finMat X) = ok ⟨(List.range X.cols).map fun j => XR.fin (mean (col X j)),
      (List.range X.cols).map fun j => XR.fin (sampleVar (col X j)), f.scaledMean, f.scaledStdev⟩ := by
  have hn : (X.rows.length : ℝ) ≠ 0 := by
    have : (2 : ℝ) ≤ X.rows.length := by exact_mod_cast h2
    linarith
  have hn1 : ((X.rows.length - 1 : ℕ) : ℝ) ≠ 0 := by
    have : 1 ≤ X.rows.length - 1 := by omega
    have : (1 : ℝ) ≤ ((X.rows.length - 1 : ℕ) : ℝ) := by exact_mod_cast this
    linarith
  have hlen : (finMat X).rows.length = X.rows.length := by simp [finMat]
  have e0 : ∀ j, j < X.cols → fsum (colOf (finMat X).rows j) /. Scalar.ofNat (finMat X).rows.length = XR.fin (mean (col X j)) := by
    intro j hj
    rw [col_finMat X hw j hj, xr_fsum_fin, hlen, xr_ofNat, xr_div _ _ hn]
    simp [mean, col]
  have e1 : (finMat X).meanRow = (List.range X.cols).map fun j => XR.fin (mean (col X j)) := by
    unfold Mat.meanRow Mat.sumRows
    rw [List.map_map]
    apply List.map_congr_left
    intro j hj
    exact e0 j (List.mem_range.1 hj)
  have e2 : (finMat X).varianceRow = ok ((List.range X.cols).map fun j => XR.fin (sampleVar (col X j))) := by
    unfold Mat.varianceRow
    rw [if_neg (by omega)]
    congr 1
    apply List.map_congr_left
    intro j hj
    have hj' : j < X.cols := List.mem_range.1 hj
    simp only
    rw [e0 j hj', col_finMat X hw j hj', List.map_map]
    have : ((col X j).map ((fun x => (x -. XR.fin (mean (col X j))) *. (x -. XR.fin (mean (col X j)))) ∘ XR.fin)) =
        ((col X j).map fun x => (x - mean (col X j)) ^ 2).map XR.fin := by
      rw [List.map_map]
      apply List.map_congr_left
      intro x _
      simp [sq]
    rw [this, xr_fsum_fin, hlen, xr_ofNat, xr_div _ _ hn1]
    have hl : (col X j).length = X.rows.length := by simp [col]
    unfold sampleVar
    rw [hl, Nat.cast_sub (by omega)]
    simp
  unfold standardizerFit
  rw [if_neg (by omega), e1, e2]
  simp

theorem standardizerFit_not_finite (f : StandardizerFitter XR) (X : Mat XR) (hw : X.WF)
    (h : ∃ r ∈ X.rows, ∃ x ∈ r, Scalar.isFinite x = false) : standardizerFit f X = err .InvalidData := by
  unfold standardizerFit
  split
  · rfl
  · rename_i hlen
    unfold Mat.varianceRow
    rw [if_neg (by omega)]
    simp only
    rw [if_pos]
    obtain ⟨r, hr, x, hx, hxf⟩ := h
    obtain ⟨j, hj, rfl⟩ := List.mem_iff_getElem.1 hx
    have hj' : j < X.cols := by rw [← hw r hr]; exact hj
    unfold Mat.meanRow Mat.sumRows
    rw [List.any_eq_true]
    refine ⟨_, List.mem_map.2 ⟨_, List.mem_map.2 ⟨j, by simpa using hj', rfl⟩, rfl⟩, ?_⟩
    rw [xr_ofNat, xr_div_not_finite]
    · rfl
    · apply xr_fsum_not_finite
      refine ⟨r[j], ?_, hxf⟩
      unfold colOf
      rw [List.mem_filterMap]
      exact ⟨r, hr, by simp [hj]⟩

theorem mean_const {l : List ℝ} (hne : l ≠ []) {c : ℝ} (h : ∀ x ∈ l, x = c) : mean l = c := by
  have : l = List.replicate l.length c := List.eq_replicate_iff.2 ⟨rfl, h⟩
  have hn : (l.length : ℝ) ≠ 0 := by
    have := List.length_pos_iff.2 hne
    positivity
  unfold mean
  rw [this]
  simp only [List.sum_replicate, List.length_replicate, nsmul_eq_mul]
  field_simp

theorem sampleVar_const {l : List ℝ} (hne : l ≠ []) {c : ℝ} (h : ∀ x ∈ l, x = c) : sampleVar l = 0 := by
  unfold sampleVar
  rw [mean_const hne h]
  have : (l.map fun x => (x - c) ^ 2).sum = 0 := by
    apply List.sum_eq_zero
    intro x hx
    obtain ⟨y, hy, rfl⟩ := List.mem_map.1 hx
    rw [h y hy]; ring
  rw [this, zero_div]

/-! ### Normalizer -/

theorem normalizeLoop_ok (N : List F → F) : ∀ (rows : List (List F)), (∀ r ∈ rows, Scalar.isFinite (N r) = true) →
    normalizeLoop (rows.zip (rows.map N)) =
      ok (rows.map fun r => if N r ==. Scalar.zero then r else r.map fun x => x /. N r)
  | [], _ => rfl
  | r :: rows, h => by
    rw [List.map_cons, List.zip_cons_cons, normalizeLoop, normalizeLoop_ok N rows (fun x hx => h x (by simp [hx])), h r (by simp)]
    simp

theorem normalizeLoop_err (N : List F → F) : ∀ (rows : List (List F)), (∃ r ∈ rows, Scalar.isFinite (N r) = false) →
    normalizeLoop (rows.zip (rows.map N)) = err .InvalidData
  | [], h => by obtain ⟨r, hr, _⟩ := h; simp at hr
  | r :: rows, h => by
    rw [List.map_cons, List.zip_cons_cons, normalizeLoop]
    by_cases hr : Scalar.isFinite (N r) = true
    · have : ∃ r ∈ rows, Scalar.isFinite (N r) = false := by
        obtain ⟨r', hr', hf⟩ := h
        rcases List.mem_cons.1 hr' with rfl | hr'
        · rw [hr] at hf; simp at hf
        · exact ⟨r', hr', hf⟩
      rw [normalizeLoop_err N rows this, hr]
      simp
    · simp [hr]

theorem eucNorm_real (r : List ℝ) : eucNorm r = Real.sqrt ((r.map fun x => x ^ 2).sum) := by
  unfold eucNorm
  rw [dot_real]
  simp only [real_sqrt, real_add, real_zero, zero_add]
  congr 2
  induction r with
  | nil => rfl
  | cons a r ih => simp only [List.zipWith_cons_cons, List.map_cons, ih, sq]

theorem eucNorm_smul (c : ℝ) (r : List ℝ) : eucNorm (r.map fun x => c * x) = |c| * eucNorm r := by
  rw [eucNorm_real, eucNorm_real, List.map_map]
  have : (r.map ((fun x => x ^ 2) ∘ fun x => c * x)).sum = c ^ 2 * (r.map fun x => x ^ 2).sum := by
    induction r with
    | nil => simp
    | cons a r ih => simp only [List.map_cons, List.sum_cons, ih, Function.comp]; ring
  rw [this, Real.sqrt_mul (sq_nonneg c), Real.sqrt_sq_eq_abs]

theorem eucNorm_eq_zero (r : List ℝ) : eucNorm r = 0 ↔ ∀ x ∈ r, x = 0 := by
  rw [eucNorm_real]
  have hn : 0 ≤ (r.map fun x => x ^ 2).sum := by simpa using sum_sq_nonneg r 0
  constructor
  · intro h x hx
    by_contra hne
    have := sum_sq_pos (l := r) (m := 0) ⟨x, hx, hne⟩
    simp only [sub_zero] at this
    exact absurd h (Real.sqrt_pos.2 this).ne'
  · intro h
    have : (r.map fun x => x ^ 2).sum = 0 := by
      apply List.sum_eq_zero
      intro y hy
      obtain ⟨x, hx, rfl⟩ := List.mem_map.1 hy
      rw [h x hx]; ring
    rw [this, Real.sqrt_zero]

theorem xr_mul_self_not_finite (a : XR) (h : Scalar.isFinite a = false) : Scalar.isFinite (a *. a) = false := by
  cases a <;> first | rfl | simp at h

theorem xr_sqrt_not_finite (a : XR) (h : Scalar.isFinite a = false) : Scalar.isFinite (Scalar.sqrt a) = false := by
  cases a <;> first | rfl | simp at h

/-- The Euclidean norm of a row of floats is finite exactly when all its entries are. -/
theorem xr_eucNorm_finite (r : List XR) : Scalar.isFinite (eucNorm r) = true ↔ ∀ x ∈ r, Scalar.isFinite x = true := by
  constructor
  · intro h
    by_contra hc
    push Not at hc
    obtain ⟨x, hx, hxf⟩ := hc
    have hxf' : Scalar.isFinite x = false := by simpa using hxf
    have : Scalar.isFinite (eucNorm r) = false := by
      unfold eucNorm
      apply xr_sqrt_not_finite
      apply xr_add_not_finite
      right
      unfold dot
      apply xr_fsum_not_finite
      obtain ⟨j, hj, rfl⟩ := List.mem_iff_getElem.1 hx
      refine ⟨r[j] *. r[j], ?_, xr_mul_self_not_finite _ hxf'⟩
      rw [List.mem_iff_getElem]
      exact ⟨j, by simpa using hj, by simp⟩
    rw [this] at h; simp at h
  · intro h
    have : ∃ s : List ℝ, r = s.map XR.fin := by
      induction r with
      | nil => exact ⟨[], rfl⟩
      | cons a r ih =>
        obtain ⟨s, hs⟩ := ih (fun x hx => h x (by simp [hx]))
        obtain ⟨x, hx⟩ := (xr_isFinite_iff a).1 (h a (by simp))
        exact ⟨x :: s, by rw [hs, hx]; rfl⟩
    obtain ⟨s, rfl⟩ := this
    unfold eucNorm dot
    have : List.zipWith Scalar.mul (s.map XR.fin) (s.map XR.fin) = (s.map fun x => x ^ 2).map XR.fin := by
      clear *-
      induction s with
      | nil => rfl
      | cons a s ih => simp only [List.map_cons, List.zipWith_cons_cons, ih, xr_mul, sq]
    rw [this, xr_fsum_fin, xr_zero, xr_add, xr_sqrt]
    · rfl
    · have := sum_sq_nonneg s 0
      simpa using this

end RM
