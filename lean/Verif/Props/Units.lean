import Verif.Props.Regression
import Verif.Props.NaiveBayes
import Verif.Props.Transforms
import Verif.Spec.Units

/-! C84: the units in which the columns are measured do not matter. -/

set_option linter.unusedSectionVars false

namespace RM
open Outcome Scalar Spec

theorem inUnits_WF {u : List (ℝ × ℝ)} {X : Mat ℝ} (hX : X.WF) (hu : u.length = X.cols) : (inUnits u X).WF := by
  intro r hr
  obtain ⟨r', hr', rfl⟩ := List.mem_map.1 hr
  have := hX r' hr'
  simp [inUnits, this, hu]

theorem units_getD {u : List (ℝ × ℝ)} {r : List ℝ} {j : ℕ} (h1 : j < r.length) (h2 : j < u.length) :
    (List.zipWith (fun (x : ℝ) (c : ℝ × ℝ) => c.1 * x + c.2) r u).getD j 0 = (u.getD j (1, 0)).1 * r.getD j 0 + (u.getD j (1, 0)).2 := by
  rw [getD_lt _ (by first | omega | (simp; omega)), getD_lt _ h1, getD_lt _ h2, List.getElem_zipWith]

theorem inUnits_col {u : List (ℝ × ℝ)} {X : Mat ℝ} (hX : X.WF) (hu : u.length = X.cols) {j : ℕ} (hj : j < X.cols) :
    col (inUnits u X) j = (col X j).map fun x => (u.getD j (1, 0)).1 * x + (u.getD j (1, 0)).2 := by
  unfold col inUnits
  rw [List.map_map, List.map_map]
  apply List.map_congr_left
  intro r hr
  have := hX r hr
  exact units_getD (by omega) (by omega)

theorem getD_pos {u : List (ℝ × ℝ)} (hpos : ∀ c ∈ u, 0 < c.1) (j : ℕ) : 0 < (u.getD j (1, 0)).1 := by
  by_cases h : j < u.length
  · rw [getD_lt _ h]; exact hpos _ (List.getElem_mem h)
  · rw [getD_ge _ (by omega)]; norm_num

/-- Rows agree when their entries do. -/
theorem row_ext {a b : List ℝ} {n : ℕ} (ha : a.length = n) (hb : b.length = n) (h : ∀ j < n, a.getD j 0 = b.getD j 0) : a = b := by
  apply List.ext_getElem (by omega)
  intro j h1 h2
  have := h j (by omega)
  rwa [getD_lt _ h1, getD_lt _ h2] at this

/-- **C84 (Standardizer).** Fitted to the data in other units, the standardizer gives the same result on data in these units. -/
theorem C84_standardizer (f : StandardizerFitter ℝ) (X : Mat ℝ) (hX : X.WF) (h2 : 2 ≤ X.rows.length) (u : List (ℝ × ℝ)) (hu : u.length = X.cols)
    (hpos : ∀ c ∈ u, 0 < c.1) :
    ∃ t t', standardizerFit f X = ok t ∧ standardizerFit f (inUnits u X) = ok t' ∧
      ∀ Y : Mat ℝ, Y.WF → Y.cols = X.cols → standardizerTransform t' (inUnits u Y) = standardizerTransform t Y := by
  have hX' := inUnits_WF hX hu
  refine ⟨_, _, standardizerFit_real f X hX h2, standardizerFit_real f _ hX' (by simpa [inUnits] using h2), ?_⟩
  intro Y hY hc
  unfold standardizerTransform
  have e : (inUnits u Y).cols = Y.cols := rfl
  have e' : (inUnits u X).cols = X.cols := rfl
  simp only [List.length_map, List.length_range, e, e', hc]
  rw [if_neg (by simp), if_neg (by simp)]
  congr 2
  simp only [inUnits, List.map_map]
  apply List.map_congr_left
  intro r hr
  have hrl := hY r hr
  simp only [Function.comp]
  refine row_ext (n := X.cols) (by first | omega | (simp; omega)) (by first | omega | (simp; omega)) fun j hj => ?_
  rw [getD_zipWith2 (by first | omega | (simp; omega)) (by first | omega | (simp; omega)), getD_zipWith2 (by first | omega | (simp; omega)) (by first | omega | (simp; omega)),
    getD_zipWith2 (by first | omega | (simp; omega)) (by first | omega | (simp; omega)), getD_zipWith2 (by first | omega | (simp; omega)) (by first | omega | (simp; omega)), units_getD (by omega) (by omega),
    getD_map_range _ _ _ hj, getD_map_range _ _ _ hj, getD_map_range _ _ _ hj, getD_map_range _ _ _ hj]
  have hne : col X j ≠ [] := by
    intro h
    have : (col X j).length = 0 := by rw [h]; rfl
    simp [col] at this
    rw [this] at h2
    simp at h2
  have hcol := inUnits_col hX hu hj
  unfold inUnits at hcol
  rw [hcol, mean_affine _ hne, sampleVar_affine _ hne]
  have ha := getD_pos hpos j
  set a := (u.getD j (1, 0)).1
  set b := (u.getD j (1, 0)).2
  simp only [real_sub, real_mul, real_div, real_add, real_sqrt]
  rw [Real.sqrt_mul (by positivity), Real.sqrt_sq ha.le]
  congr 1
  rw [show a * r.getD j 0 + b - (a * mean (col X j) + b) = a * (r.getD j 0 - mean (col X j)) by ring, mul_assoc, mul_div_mul_left _ _ ha.ne']

theorem foldl_minmax_units {l : List ℝ} (hne : l ≠ []) {M a b : ℝ} (ha : 0 < a) (hM : ∀ x ∈ l, |x| ≤ M) (hM' : ∀ x ∈ l, |a * x + b| ≤ M) :
    ((l.map fun x => a * x + b).foldl minmaxUpd (M, -M)).1 = a * (l.foldl minmaxUpd (M, -M)).1 + b ∧
    ((l.map fun x => a * x + b).foldl minmaxUpd (M, -M)).2 = a * (l.foldl minmaxUpd (M, -M)).2 + b := by
  obtain ⟨h1, h2, h3⟩ := foldl_minmax_spec l hne hM
  obtain ⟨k1, k2, k3⟩ := foldl_minmax_spec (l.map fun x => a * x + b) (by simpa using hne) (M := M) (by
    intro x hx
    obtain ⟨y, hy, rfl⟩ := List.mem_map.1 hx
    exact hM' y hy)
  obtain ⟨y1, hy1, e1⟩ := List.mem_map.1 k1
  obtain ⟨y2, hy2, e2⟩ := List.mem_map.1 k2
  constructor
  · apply le_antisymm
    · exact (k3 _ (List.mem_map.2 ⟨_, h1, rfl⟩)).1
    · rw [← e1]
      have := mul_le_mul_of_nonneg_left (h3 y1 hy1).1 ha.le
      linarith
  · apply le_antisymm
    · rw [← e2]
      have := mul_le_mul_of_nonneg_left (h3 y2 hy2).2 ha.le
      linarith
    · exact (k3 _ (List.mem_map.2 ⟨_, h2, rfl⟩)).2

/-- **C84 (MinMaxScaler).** Fitted to the data in other units, the scaler gives the same result on data in these units. -/
theorem C84_minmax (f : MinMaxFitter ℝ) (X : Mat ℝ) (hX : X.WF) (hn : 0 < X.rows.length) (u : List (ℝ × ℝ)) (hu : u.length = X.cols)
    (hpos : ∀ c ∈ u, 0 < c.1) (hrep : ∀ r ∈ X.rows, ∀ x ∈ r, |x| ≤ Scalar.maxVal) (hrep' : ∀ r ∈ (inUnits u X).rows, ∀ x ∈ r, |x| ≤ Scalar.maxVal)
    (hnc : ∀ j, j < X.cols → NonConstant (col X j)) :
    ∃ t t', minmaxFit f X = ok t ∧ minmaxFit f (inUnits u X) = ok t' ∧
      ∀ Y : Mat ℝ, Y.WF → Y.cols = X.cols → minmaxTransform t' (inUnits u Y) = minmaxTransform t Y := by
  have hX' := inUnits_WF hX hu
  obtain ⟨t, h1, h2, h3, h4⟩ := minmaxFit_real f X hX
  obtain ⟨t', k1, k2, k3, k4⟩ := minmaxFit_real f _ hX'
  have e' : (inUnits u X).cols = X.cols := rfl
  rw [e'] at k2 k3 k4
  refine ⟨t, t', h1, k1, ?_⟩
  intro Y hY hc
  unfold minmaxTransform
  have e : (inUnits u Y).cols = Y.cols := rfl
  rw [if_neg (by rw [e, k2, hc]; simp), if_neg (by rw [h2, hc]; simp)]
  congr 2
  simp only [inUnits, List.map_map]
  apply List.map_congr_left
  intro r hr
  have hrl := hY r hr
  simp only [Function.comp]
  refine row_ext (n := X.cols) (by first | omega | (simp; omega)) (by first | omega | (simp; omega)) fun j hj => ?_
  rw [getD_zipWith2 (by first | omega | (simp; omega)) (by first | omega | (simp; omega)), getD_zipWith2 (by first | omega | (simp; omega)) (by first | omega | (simp; omega)),
    getD_zipWith2 (by first | omega | (simp; omega)) (by first | omega | (simp; omega)), getD_zipWith2 (by first | omega | (simp; omega)) (by first | omega | (simp; omega)), units_getD (by omega) (by omega)]
  have hne : col X j ≠ [] := by
    intro h
    have : (col X j).length = 0 := by rw [h]; rfl
    simp [col] at this
    rw [this] at hn
    simp at hn
  have hmem : ∀ x ∈ col X j, ∃ r ∈ X.rows, x = r.getD j 0 ∧ x ∈ r := by
    intro x hx
    obtain ⟨r, hr, rfl⟩ := List.mem_map.1 hx
    have : j < r.length := by rw [hX r hr]; exact hj
    exact ⟨r, hr, rfl, by rw [getD_lt _ this]; exact List.getElem_mem _⟩
  have ha := getD_pos hpos j
  obtain ⟨f1, f2⟩ := foldl_minmax_units (l := col X j) hne (M := Scalar.maxVal) (b := (u.getD j (1, 0)).2) ha (by
      intro x hx
      obtain ⟨r, hr, -, hxr⟩ := hmem x hx
      exact hrep r hr x hxr) (by
      intro x hx
      obtain ⟨r, hr, rfl, -⟩ := hmem x hx
      have hjr : j < r.length := by rw [hX r hr]; exact hj
      rw [← units_getD hjr (by omega), getD_lt _ (by first | omega | (simp; omega))]
      exact hrep' _ (List.mem_map.2 ⟨r, hr, rfl⟩) _ (List.getElem_mem _))
  obtain ⟨a1, a2⟩ := h4 j hj
  obtain ⟨b1, b2⟩ := k4 j hj
  rw [inUnits_col hX hu hj, f1, f2] at b1
  rw [inUnits_col hX hu hj, f2] at b2
  rw [a2, b2, a1, b1]
  obtain ⟨x, hx, y, hy, hxy⟩ := hnc j hj
  obtain ⟨s1, s2, s3⟩ := foldl_minmax_spec (col X j) hne (M := Scalar.maxVal) (by
      intro x hx
      obtain ⟨r, hr, -, hxr⟩ := hmem x hx
      exact hrep r hr x hxr)
  set mn := ((col X j).foldl minmaxUpd (Scalar.maxVal, -Scalar.maxVal)).1
  set mx := ((col X j).foldl minmaxUpd (Scalar.maxVal, -Scalar.maxVal)).2
  set a := (u.getD j (1, 0)).1
  set b := (u.getD j (1, 0)).2
  have hlt : mx - mn ≠ 0 := by
    intro h
    have e1 := s3 x hx
    have e2 := s3 y hy
    exact hxy (by linarith)
  simp only [real_mul, real_add]
  rw [show a * mx + b - (a * mn + b) = a * (mx - mn) by ring]
  field_simp
  ring

/-! ### Linear regression -/

/-- The parameters on the old units that say the same as `β` on the new ones. -/
def pullUnits (u : List (ℝ × ℝ)) (β : List ℝ) : List ℝ :=
  (β.headD 0 + inner (u.map Prod.snd) β.tail) :: List.zipWith (fun (c : ℝ × ℝ) t => c.1 * t) u β.tail

theorem inner_units : ∀ (x t : List ℝ) (u : List (ℝ × ℝ)), x.length = u.length → t.length = u.length →
    inner (List.zipWith (fun (x : ℝ) (c : ℝ × ℝ) => c.1 * x + c.2) x u) t =
      inner (u.map Prod.snd) t + inner x (List.zipWith (fun (c : ℝ × ℝ) t => c.1 * t) u t)
  | [], _, [], _, _ => by simp [inner]
  | x :: xs, [], c :: u, _, h => by simp at h
  | x :: xs, t :: ts, c :: u, h1, h2 => by
    have := inner_units xs ts u (by simpa using h1) (by simpa using h2)
    simp only [inner] at this
    simp only [inner, List.zipWith_cons_cons, List.map_cons, List.sum_cons, this]
    ring

theorem affine_pull {u : List (ℝ × ℝ)} {β x : List ℝ} (hx : x.length = u.length) (hb : β.length = u.length + 1) :
    affine β (List.zipWith (fun (x : ℝ) (c : ℝ × ℝ) => c.1 * x + c.2) x u) = affine (pullUnits u β) x := by
  unfold affine pullUnits
  rw [inner_units x β.tail u hx (by simp [hb])]
  simp only [List.headD_cons, List.tail_cons]
  ring

theorem pull_surjective {u : List (ℝ × ℝ)} (hu : ∀ c ∈ u, c.1 ≠ 0) {β : List ℝ} (hb : β.length = u.length + 1) :
    ∃ γ, γ.length = u.length + 1 ∧ pullUnits u γ = β := by
  obtain ⟨b0, t, rfl⟩ : ∃ b0 t, β = b0 :: t := by
    cases β with
    | nil => simp at hb
    | cons b t => exact ⟨b, t, rfl⟩
  have ht : t.length = u.length := by simpa using hb
  set s := List.zipWith (fun (c : ℝ × ℝ) t => t / c.1) u t with hs
  have hsl : s.length = u.length := by simp [hs, ht]
  refine ⟨(b0 - inner (u.map Prod.snd) s) :: s, by simp [hsl], ?_⟩
  unfold pullUnits
  simp only [List.headD_cons, List.tail_cons, sub_add_cancel]
  congr 1
  apply List.ext_getElem (by simp [hsl, ht])
  intro i h1 h2
  have hne := hu _ (List.getElem_mem (by omega : i < u.length))
  simp only [List.getElem_zipWith, hs]
  field_simp

theorem pull_length {u : List (ℝ × ℝ)} {β : List ℝ} (hb : β.length = u.length + 1) : (pullUnits u β).length = u.length + 1 := by
  simp [pullUnits, hb]

theorem rss_units {u : List (ℝ × ℝ)} {X : Mat ℝ} (hX : X.WF) (hu : u.length = X.cols) (y : List ℝ) {β : List ℝ} (hb : β.length = X.cols + 1) :
    rss (inUnits u X) y β = rss X y (pullUnits u β) := by
  unfold rss inUnits
  simp only
  rw [List.zipWith_map_left]
  congr 1
  apply List.ext_getElem (by simp)
  intro i h1 h2
  simp only [List.getElem_zipWith]
  rw [affine_pull (by rw [hu]; exact hX _ (List.getElem_mem _)) (by omega)]

theorem affinelyIndependent_units {u : List (ℝ × ℝ)} {X : Mat ℝ} (hX : X.WF) (hu : u.length = X.cols) (hnz : ∀ c ∈ u, c.1 ≠ 0) :
    AffinelyIndependent (inUnits u X) ↔ AffinelyIndependent X := by
  have hrow : ∀ β : List ℝ, β.length = X.cols + 1 → ((∀ x ∈ (inUnits u X).rows, affine β x = 0) ↔ ∀ x ∈ X.rows, affine (pullUnits u β) x = 0) := by
    intro β hb
    simp only [inUnits, List.forall_mem_map]
    refine forall₂_congr fun x hx => ?_
    rw [affine_pull (by rw [hu]; exact hX x hx) (by omega)]
  have hz : pullUnits u (zeroVec (X.cols + 1)) = zeroVec (X.cols + 1) := by
    have e : ∀ (w : List (ℝ × ℝ)), inner (w.map Prod.snd) (List.replicate w.length 0) = 0 ∧
        List.zipWith (fun (c : ℝ × ℝ) t => c.1 * t) w (List.replicate w.length 0) = List.replicate w.length 0 := by
      intro w
      induction w with
      | nil => simp [inner]
      | cons c w ih =>
        simp only [inner] at ih
        simp [inner, List.replicate_succ, ih.1, ih.2]
    unfold pullUnits zeroVec
    rw [List.replicate_succ]
    simp only [List.headD_cons, List.tail_cons]
    rw [← hu, (e u).1, (e u).2, add_zero]
  have hinj : ∀ β : List ℝ, β.length = X.cols + 1 → pullUnits u β = zeroVec (X.cols + 1) → β = zeroVec (X.cols + 1) := by
    intro β hb h
    cases β with
    | nil => simp at hb
    | cons b t =>
      have ht : t.length = u.length := by simp at hb; omega
      unfold pullUnits zeroVec at h
      rw [List.replicate_succ] at h
      simp only [List.headD_cons, List.tail_cons, List.cons.injEq] at h
      have ht0 : t = List.replicate X.cols 0 := by
        apply List.ext_getElem (by first | omega | (simp; omega))
        intro i h1 h2
        have h3 : (List.zipWith (fun (c : ℝ × ℝ) t => c.1 * t) u t)[i]'(by first | omega | (simp; omega)) = (List.replicate X.cols (0 : ℝ))[i] := by
          simp only [h.2]
        simp only [List.getElem_zipWith, List.getElem_replicate] at h3 ⊢
        rcases mul_eq_zero.1 h3 with h4 | h4
        · exact absurd h4 (hnz _ (List.getElem_mem _))
        · exact h4
      have hin : inner (u.map Prod.snd) t = 0 := by
        rw [ht0]
        have e : ∀ (w : List ℝ) (n : ℕ), inner w (List.replicate n 0) = 0 := by
          intro w
          induction w with
          | nil => intro n; simp [inner]
          | cons c w ih =>
            intro n
            cases n with
            | zero => simp [inner]
            | succ n =>
              have := ih n
              simp only [inner] at this
              simp [inner, List.replicate_succ, this]
        exact e _ _
      rw [hin, add_zero] at h
      unfold zeroVec
      rw [List.replicate_succ, h.1, ht0]
  constructor
  · intro h β hb hx
    obtain ⟨γ, hγ, rfl⟩ := pull_surjective (u := u) hnz (by omega : β.length = u.length + 1)
    have := h γ (by rw [hγ, hu]; rfl) ((hrow γ (by omega)).2 hx)
    have e : (inUnits u X).cols = X.cols := rfl
    rw [this, e, hz]
  · intro h β hb hx
    have hb' : β.length = X.cols + 1 := hb
    exact hinj β hb' (h _ (by rw [pull_length (by omega), hu]) ((hrow β hb').1 hx))

/-- **C84 (linear regression, features).** Trained on the data in other units, linear regression succeeds for the same data sets and makes the
same predictions. -/
theorem C84_linear {solve : Mat ℝ → List ℝ → Outcome (List ℝ)} (hs : SolvesExactly solve) (hr : SolvesRegular solve) (X : Mat ℝ) (hX : X.WF)
    (y : List ℝ) (hy : y.length = X.rows.length) (u : List (ℝ × ℝ)) (hu : u.length = X.cols) (hnz : ∀ c ∈ u, c.1 ≠ 0) :
    ((∃ m, LinReg.train solve X y = ok m) ↔ ∃ m', LinReg.train solve (inUnits u X) y = ok m') ∧
    ∀ m m', LinReg.train solve X y = ok m → LinReg.train solve (inUnits u X) y = ok m' →
      ∀ Y : Mat ℝ, Y.WF → Y.cols = X.cols → ∃ p, m.predict Y = ok p ∧ m'.predict (inUnits u Y) = ok p := by
  have hX' := inUnits_WF hX hu
  have hy' : y.length = (inUnits u X).rows.length := by simpa [inUnits] using hy
  have e' : (inUnits u X).cols = X.cols := rfl
  constructor
  · rw [C48_succeeds_iff hs hr X hX y hy, C48_succeeds_iff hs hr _ hX' y hy', affinelyIndependent_units hX hu hnz]
  · intro m m' hm hm' Y hY hc
    obtain ⟨β, b1, b2, b3⟩ := C48_least_squares hs X hX y m hm
    obtain ⟨γ, g1, g2, g3⟩ := C48_least_squares hs _ hX' y m' hm'
    rw [e'] at g2 g3
    have hpl : (pullUnits u γ).length = X.cols + 1 := by rw [pull_length (by omega), hu]
    have hpull : pullUnits u γ = β := by
      by_contra hne
      have h1 := b3 _ hpl hne
      obtain ⟨δ, d1, d2⟩ := pull_surjective (u := u) hnz (by omega : β.length = u.length + 1)
      have hδ : δ ≠ γ := by rintro rfl; exact hne d2
      have h2 := g3 δ (by omega) hδ
      rw [rss_units hX hu y g2, rss_units hX hu y (by omega), d2] at h2
      exact absurd h1 (not_lt.2 h2.le)
    obtain ⟨m0⟩ := m
    obtain ⟨m0'⟩ := m'
    simp only at b1 g1
    subst b1 g1
    refine ⟨_, C48_predict β Y (by rw [b2, hc]), ?_⟩
    rw [C48_predict γ (inUnits u Y) (by rw [g2]; simp [inUnits, hc])]
    congr 1
    simp only [inUnits, List.map_map]
    apply List.map_congr_left
    intro r hr
    simp only [Function.comp]
    rw [affine_pull (by rw [hu, hY r hr, hc]) (by omega), hpull]

/-! ### The unit of the targets -/

theorem affine_targets {β x : List ℝ} (hb : β ≠ []) (c d : ℝ) :
    affine ((c * β.headD 0 + d) :: β.tail.map (c * ·)) x = c * affine β x + d := by
  unfold affine
  have e : ∀ (x t : List ℝ), inner x (t.map (c * ·)) = c * inner x t := by
    intro x
    induction x with
    | nil => intro t; simp [inner]
    | cons a x ih =>
      intro t
      cases t with
      | nil => simp [inner]
      | cons b t =>
        have := ih t
        simp only [inner] at this
        simp only [inner, List.map_cons, List.zipWith_cons_cons, List.sum_cons, this]
        ring
  simp only [List.headD_cons, List.tail_cons, e]
  ring

theorem rss_targets (X : Mat ℝ) (y : List ℝ) {β : List ℝ} (hb : β ≠ []) (c d : ℝ) :
    rss X (y.map fun t => c * t + d) ((c * β.headD 0 + d) :: β.tail.map (c * ·)) = c ^ 2 * rss X y β := by
  unfold rss
  simp only [affine_targets hb]
  have e : ∀ (xs : List (List ℝ)) (y : List ℝ), (List.zipWith (fun x t => (t - (c * affine β x + d)) ^ 2) xs (y.map fun t => c * t + d)).sum =
      c ^ 2 * (List.zipWith (fun x t => (t - affine β x) ^ 2) xs y).sum := by
    intro xs
    induction xs with
    | nil => intro y; simp
    | cons x xs ih =>
      intro y
      cases y with
      | nil => simp
      | cons t y =>
        simp only [List.map_cons, List.zipWith_cons_cons, List.sum_cons, ih y]
        ring
  exact e _ _

/-- **C84 (linear regression, targets).** With the targets in another unit the predictions come out in that unit. -/
theorem C84_linear_targets {solve : Mat ℝ → List ℝ → Outcome (List ℝ)} (hs : SolvesExactly solve) (X : Mat ℝ) (hX : X.WF)
    (y : List ℝ) (c d : ℝ) (hc : c ≠ 0) (m m' : LinReg ℝ) (hm : LinReg.train solve X y = ok m)
    (hm' : LinReg.train solve X (y.map fun t => c * t + d) = ok m') (Y : Mat ℝ) (hY : Y.cols = X.cols) :
    ∃ p, m.predict Y = ok p ∧ m'.predict Y = ok (p.map fun t => c * t + d) := by
  obtain ⟨β, b1, b2, b3⟩ := C48_least_squares hs X hX y m hm
  obtain ⟨γ, g1, g2, g3⟩ := C48_least_squares hs X hX _ m' hm'
  have hβ : β ≠ [] := by intro h; rw [h] at b2; simp at b2
  have hγ : γ = (c * β.headD 0 + d) :: β.tail.map (c * ·) := by
    by_contra hne
    have h1 := g3 ((c * β.headD 0 + d) :: β.tail.map (c * ·)) (by simp [b2]) (Ne.symm hne)
    -- the parameters that `γ` corresponds to
    have hγne : γ ≠ [] := by intro h; rw [h] at g2; simp at g2
    set δ : List ℝ := ((γ.headD 0 - d) / c) :: γ.tail.map (· / c) with hδ
    have hδγ : γ = (c * δ.headD 0 + d) :: δ.tail.map (c * ·) := by
      obtain ⟨g, t, rfl⟩ := List.exists_cons_of_ne_nil hγne
      simp only [hδ, List.headD_cons, List.tail_cons, List.map_map]
      congr 1
      · field_simp; ring
      · conv_lhs => rw [← List.map_id t]
        apply List.map_congr_left
        intro a _
        simp only [id, Function.comp]
        field_simp
    have hδne : δ ≠ [] := by simp [hδ]
    have hδβ : δ ≠ β := by
      rintro h
      exact hne (by rw [← h]; exact hδγ)
    have h2 := b3 δ (by simp [hδ, g2]) hδβ
    rw [rss_targets X y hβ, hδγ, rss_targets X y hδne] at h1
    have hc2 : 0 < c ^ 2 := by positivity
    exact absurd (lt_of_mul_lt_mul_left h1 hc2.le) (not_lt.2 h2.le)
  obtain ⟨m0⟩ := m
  obtain ⟨m0'⟩ := m'
  simp only at b1 g1
  subst b1 g1
  refine ⟨_, C48_predict β Y (by rw [b2, hY]), ?_⟩
  rw [C48_predict γ Y (by rw [g2, hY]), hγ, List.map_map]
  congr 1
  apply List.map_congr_left
  intro r _
  exact affine_targets hβ c d

/-! ### Gaussian naive Bayes -/

theorem argAux_mono {f : ℝ → ℝ} (hf : StrictMono f) : ∀ (l : List ℝ) (best : ℝ) (bi i : ℕ),
    argAux (fun best x => best <. x) (f best) bi i (l.map f) = ((argAux (fun best x => best <. x) best bi i l).1, f (argAux (fun best x => best <. x) best bi i l).2)
  | [], _, _, _ => rfl
  | v :: vs, best, bi, i => by
    simp only [List.map_cons, argAux, real_lt, hf.lt_iff_lt]
    split
    · exact argAux_mono hf vs _ _ _
    · exact argAux_mono hf vs _ _ _

theorem argmax_shift (l : List ℝ) (s : ℝ) :
    (do let r ← argmaxBy Scalar.lt (l.map fun x => x + s); ok r.1 : Outcome ℕ) = (do let r ← argmaxBy Scalar.lt l; ok r.1) := by
  cases l with
  | nil => rfl
  | cons v vs =>
    simp only [List.map_cons, argmaxBy, ok_bind]
    rw [argAux_mono (f := fun x => x + s) (fun a b h => by simpa using h)]

theorem zipWith_sum_range {f : ℝ → ℝ → ℝ} {a b : List ℝ} {n : ℕ} (ha : a.length = n) (hb : b.length = n) :
    (List.zipWith f a b).sum = ∑ j ∈ Finset.range n, f (a.getD j 0) (b.getD j 0) := by
  rw [zipWith_eq_range _ ha hb, lsum_range]

theorem classSamples_units (u : List (ℝ × ℝ)) (X : Mat ℝ) (T : List (List ℝ)) (c : ℕ) :
    classSamples (inUnits u X).rows T c = (classSamples X.rows T c).map fun r => List.zipWith (fun (x : ℝ) (c : ℝ × ℝ) => c.1 * x + c.2) r u := by
  unfold classSamples inUnits
  simp only
  rw [List.zip_map_left, List.filter_map, List.map_map, List.map_map]
  rfl

theorem gaussLik_units {n : ℕ} {u : List (ℝ × ℝ)} (hu : u.length = n) (hpos : ∀ c ∈ u, 0 < c.1) {x th sg th' sg' : List ℝ} (hx : x.length = n)
    (h1 : th.length = n) (h2 : sg.length = n) (h1' : th'.length = n) (h2' : sg'.length = n)
    (hth : ∀ j < n, th'.getD j 0 = (u.getD j (1, 0)).1 * th.getD j 0 + (u.getD j (1, 0)).2)
    (hsg : ∀ j < n, sg'.getD j 0 = (u.getD j (1, 0)).1 ^ 2 * sg.getD j 0) (hsp : ∀ j < n, 0 < sg.getD j 0) (p : ℝ) :
    gaussLik th' sg' p (List.zipWith (fun (x : ℝ) (c : ℝ × ℝ) => c.1 * x + c.2) x u) =
      gaussLik th sg p x + -∑ j ∈ Finset.range n, Real.log (u.getD j (1, 0)).1 := by
  have hq : ∀ (x th sg : List ℝ), x.length = n → th.length = n → sg.length = n →
      (List.zipWith (fun d s => d / s) ((List.zipWith (fun a b => a - b) x th).map fun d => d * d) sg).sum =
      ∑ j ∈ Finset.range n, (x.getD j 0 - th.getD j 0) * (x.getD j 0 - th.getD j 0) / sg.getD j 0 := by
    intro x th sg hx h1 h2
    rw [zipWith_sum_range (n := n) (by simp [hx, h1]) h2]
    refine Finset.sum_congr rfl fun j hj => ?_
    have hj := Finset.mem_range.1 hj
    congr 1
    rw [getD_lt _ (by simp [hx, h1]; exact hj), List.getElem_map, List.getElem_zipWith, getD_lt _ (by omega), getD_lt _ (by omega)]
  have hl : ∀ sg : List ℝ, sg.length = n → (sg.map fun s => Real.log (s * 2 * Real.pi)).sum =
      ∑ j ∈ Finset.range n, Real.log (sg.getD j 0 * 2 * Real.pi) := by
    intro sg h
    conv_lhs => rw [list_eq_range h, List.map_map]
    exact lsum_range n _
  unfold gaussLik
  rw [hq _ _ _ (by simp [hx, hu]) h1' h2', hq _ _ _ hx h1 h2, hl _ h2', hl _ h2]
  have e1 : ∑ j ∈ Finset.range n, ((List.zipWith (fun (x : ℝ) (c : ℝ × ℝ) => c.1 * x + c.2) x u).getD j 0 - th'.getD j 0) *
      ((List.zipWith (fun (x : ℝ) (c : ℝ × ℝ) => c.1 * x + c.2) x u).getD j 0 - th'.getD j 0) / sg'.getD j 0 =
      ∑ j ∈ Finset.range n, (x.getD j 0 - th.getD j 0) * (x.getD j 0 - th.getD j 0) / sg.getD j 0 := by
    refine Finset.sum_congr rfl fun j hj => ?_
    have hj := Finset.mem_range.1 hj
    have ha := getD_pos hpos j
    have hs := hsp j hj
    rw [units_getD (by omega) (by omega), hth j hj, hsg j hj]
    field_simp
    ring
  have e2 : ∑ j ∈ Finset.range n, Real.log (sg'.getD j 0 * 2 * Real.pi) =
      ∑ j ∈ Finset.range n, Real.log (sg.getD j 0 * 2 * Real.pi) + 2 * ∑ j ∈ Finset.range n, Real.log (u.getD j (1, 0)).1 := by
    rw [Finset.mul_sum, ← Finset.sum_add_distrib]
    refine Finset.sum_congr rfl fun j hj => ?_
    have hj := Finset.mem_range.1 hj
    have ha := getD_pos hpos j
    have hs := hsp j hj
    rw [hsg j hj, show (u.getD j (1, 0)).1 ^ 2 * sg.getD j 0 * 2 * Real.pi = (sg.getD j 0 * 2 * Real.pi) * (u.getD j (1, 0)).1 ^ 2 by ring,
      Real.log_mul (by positivity) (by positivity), Real.log_pow]
    norm_num
  rw [e1, e2]
  ring

theorem gaussian_bayes_units (m m' m0 m0' : NaiveBayes (GaussD ℝ) ℝ) (X T : Mat ℝ) (hX : X.WF) (hT : T.WF) (hn : X.rows.length = T.rows.length)
    (u : List (ℝ × ℝ)) (hu : u.length = X.cols) (hpos : ∀ c ∈ u, 0 < c.1)
    (hnc : ∀ c < T.cols, ∀ j < X.cols, NonConstant ((classSamples X.rows T.rows c).map fun x => coord x j)) (hsz : ∀ c < T.cols, 0 < classSize T.rows c)
    (h : nbTrain gaussDistr m0 X T = (m, ok ())) (h' : nbTrain gaussDistr m0' (inUnits u X) T = (m', ok ()))
    (Y : Mat ℝ) (hY : Y.WF) (hc : Y.cols = X.cols) : nbPredict gaussDistr m' (inUnits u Y) = nbPredict gaussDistr m Y := by
  have hX' := inUnits_WF hX hu
  have hn' : (inUnits u X).rows.length = T.rows.length := by simpa [inUnits] using hn
  obtain ⟨k, d, hd, rfl⟩ := (nbTrain_ok_iff _ m0 m X T hT).1 h
  obtain ⟨k', d', hd', rfl⟩ := (nbTrain_ok_iff _ m0' m' (inUnits u X) T hT).1 h'
  obtain ⟨t1, t2⟩ := gauss_tables hd
  obtain ⟨t1', t2'⟩ := gauss_tables hd'
  have e' : (inUnits u X).cols = X.cols := rfl
  have eY : (inUnits u Y).cols = Y.cols := rfl
  rw [e'] at t1' t2'
  have e'' : (inUnits u X).rows.length = X.rows.length := by simp [inUnits]
  unfold nbPredict nbLogProbs
  simp only
  rw [gaussJoint_real d Y (by rw [hc]; exact t1) (by rw [hc]; exact t2) _ (by simp),
    gaussJoint_real d' (inUnits u Y) (by rw [eY, hc]; exact t1') (by rw [eY, hc]; exact t2') _ (by simp), ok_bind, ok_bind]
  have hrows : ((inUnits u Y).rows.map fun x => (List.range T.cols).map fun c => gaussLik (rowOf d'.theta c) (rowOf d'.sigma c)
      (((List.range T.cols).map fun c => (classSize T.rows c : ℝ) / (inUnits u X).rows.length).getD c 0) x) =
      (Y.rows.map fun x => (List.range T.cols).map fun c => gaussLik (rowOf d.theta c) (rowOf d.sigma c)
      (((List.range T.cols).map fun c => (classSize T.rows c : ℝ) / X.rows.length).getD c 0) x).map
        fun l => l.map fun v => v + -∑ j ∈ Finset.range X.cols, Real.log (u.getD j (1, 0)).1 := by
    rw [e'']
    simp only [inUnits, List.map_map]
    apply List.map_congr_left
    intro x hx
    simp only [Function.comp, List.map_map]
    apply List.map_congr_left
    intro c hcl
    have hcl := List.mem_range.1 hcl
    obtain ⟨-, p2, p3⟩ := gauss_params hX k hn hd hcl (hsz c hcl)
    obtain ⟨-, q2, q3⟩ := gauss_params hX' k' hn' hd' hcl (hsz c hcl)
    have hcol : ∀ j < X.cols, ((classSamples (inUnits u X).rows T.rows c).map fun x => coord x j) =
        ((classSamples X.rows T.rows c).map fun x => coord x j).map fun t => (u.getD j (1, 0)).1 * t + (u.getD j (1, 0)).2 := by
      intro j hj
      rw [classSamples_units, List.map_map, List.map_map]
      apply List.map_congr_left
      intro r hr
      have := hX r (classSamples_mem hr)
      exact units_getD (by omega) (by omega)
    have hne : ∀ j < X.cols, ((classSamples X.rows T.rows c).map fun x => coord x j) ≠ [] := by
      intro j hj he
      obtain ⟨a, ha, -⟩ := hnc c hcl j hj
      rw [he] at ha
      simp at ha
    refine gaussLik_units hu hpos (by rw [hY x hx, hc]) (t1.row_length hcl) (t2.row_length hcl) (t1'.row_length hcl) (t2'.row_length hcl) ?_ ?_ ?_ _
    · intro j hj
      rw [p2, q2, e', getD_map_range _ _ _ hj, getD_map_range _ _ _ hj, hcol j hj, mean_affine _ (hne j hj)]
    · intro j hj
      rw [p3, q3, e', getD_map_range _ _ _ hj, getD_map_range _ _ _ hj, hcol j hj, sampleVar_affine _ (hne j hj)]
    · intro j hj
      rw [p3, getD_map_range _ _ _ hj]
      exact sampleVar_pos (hnc c hcl j hj)
  rw [hrows, List.mapM_map]
  have hlen : (inUnits u Y).rows.length = Y.rows.length := by simp [inUnits]
  rw [hlen]
  congr 1
  congr 1
  funext row
  exact argmax_shift row _

/-- **C84 (Gaussian naive Bayes).** Trained on the data in other units the classifier makes the same predictions. -/
theorem C84_gaussian_bayes (m m0 m0' : NaiveBayes (GaussD ℝ) ℝ) (X T : Mat ℝ) (hX : X.WF) (hT : T.WF) (hn : X.rows.length = T.rows.length)
    (u : List (ℝ × ℝ)) (hu : u.length = X.cols) (hpos : ∀ c ∈ u, 0 < c.1)
    (hnc : ∀ c < T.cols, ∀ j < X.cols, NonConstant ((classSamples X.rows T.rows c).map fun x => coord x j)) (hsz : ∀ c < T.cols, 0 < classSize T.rows c)
    (h : nbTrain gaussDistr m0 X T = (m, ok ())) :
    ∃ m', nbTrain gaussDistr m0' (inUnits u X) T = (m', ok ()) ∧
      ∀ Y : Mat ℝ, Y.WF → Y.cols = X.cols → nbPredict gaussDistr m' (inUnits u Y) = nbPredict gaussDistr m Y := by
  have hn' : (inUnits u X).rows.length = T.rows.length := by simpa [inUnits] using hn
  obtain ⟨m', h'⟩ := (C35_trains_iff m0' (inUnits u X) T (inUnits_WF hX hu) hT hn').2 ((C35_trains_iff m0 X T hX hT hn).1 ⟨m, h⟩)
  exact ⟨m', h', fun Y hY hc => gaussian_bayes_units m m' m0 m0' X T hX hT hn u hu hpos hnc hsz h h' Y hY hc⟩

/-- Temperatures in °C and in °F: the data sets of the theorems above. -/
example : inUnits [(9 / 5, 32)] ⟨1, [[0], [10], [20]]⟩ = ⟨1, [[32], [50], [68]]⟩ := by
  norm_num [inUnits]

example (f : StandardizerFitter ℝ) : ∃ t t', standardizerFit f ⟨1, [[0], [10], [20]]⟩ = ok t ∧ standardizerFit f ⟨1, [[32], [50], [68]]⟩ = ok t' ∧
    standardizerTransform t' ⟨1, [[86]]⟩ = standardizerTransform t ⟨1, [[30]]⟩ := by
  have e : inUnits [(9 / 5, 32)] ⟨1, [[0], [10], [20]]⟩ = ⟨1, [[32], [50], [68]]⟩ := by norm_num [inUnits]
  have e' : inUnits [(9 / 5, 32)] ⟨1, [[30]]⟩ = ⟨1, [[86]]⟩ := by norm_num [inUnits]
  obtain ⟨t, t', h1, h2, h3⟩ := C84_standardizer f ⟨1, [[0], [10], [20]]⟩ (by simp [Mat.WF]) (by simp) [(9 / 5, 32)] rfl (by norm_num)
  rw [e] at h2
  have := h3 ⟨1, [[30]]⟩ (by simp [Mat.WF]) rfl
  rw [e'] at this
  exact ⟨t, t', h1, h2, this⟩

example (f : MinMaxFitter ℝ) : ∃ t t', minmaxFit f ⟨1, [[0], [1], [2]]⟩ = ok t ∧ minmaxFit f ⟨1, [[1], [2], [3]]⟩ = ok t' ∧
    minmaxTransform t' ⟨1, [[7]]⟩ = minmaxTransform t ⟨1, [[6]]⟩ := by
  have e : inUnits [(1, 1)] ⟨1, [[0], [1], [2]]⟩ = ⟨1, [[1], [2], [3]]⟩ := by norm_num [inUnits]
  have e' : inUnits [(1, 1)] ⟨1, [[6]]⟩ = ⟨1, [[7]]⟩ := by norm_num [inUnits]
  have hM := maxVal_ge_three
  obtain ⟨t, t', h1, h2, h3⟩ := C84_minmax f ⟨1, [[0], [1], [2]]⟩ (by simp [Mat.WF]) (by simp) [(1, 1)] rfl (by norm_num)
    (by intro r hr x hx; fin_cases hr <;> fin_cases hx <;> norm_num <;> linarith)
    (by rw [e]; intro r hr x hx; fin_cases hr <;> fin_cases hx <;> norm_num <;> linarith) (by
      intro j hj
      obtain rfl : j = 0 := by simpa using hj
      exact ⟨0, by simp [col], 1, by simp [col], by norm_num⟩)
  rw [e] at h2
  have := h3 ⟨1, [[6]]⟩ (by simp [Mat.WF]) rfl
  rw [e'] at this
  exact ⟨t, t', h1, h2, this⟩

end RM
