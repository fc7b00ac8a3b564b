import Verif.Props.MoreSamples
import Verif.Props.KNN
import Verif.Props.Pca
import Verif.Props.Units

/-! C115, continued: nearest neighbours, min-max scaling and principal components of more and more samples. Exact arithmetic. -/

namespace RM
open Outcome Scalar Spec MeasureTheory ProbabilityTheory Filter Topology Matrix

section
variable {Ω S : Type} [MeasurableSpace Ω] [MeasurableSpace S] {P : Measure Ω} [IsProbabilityMeasure P] {s : ℕ → Ω → S} (hs : IsSample P s) {d : ℕ}
  {row : S → List ℝ} (hlen : ∀ x, (row x).length = d) (hrm : ∀ j < d, Measurable fun x => coord (row x) j)

include hs in
/-- The number of samples in a set of positive probability grows without bound. -/
theorem hits_grow {A : S → Prop} [DecidablePred A] (hA : MeasurableSet {x | A x}) (hp : 0 < P.real {ω | A (s 0 ω)}) :
    ∀ᵐ ω ∂P, ∀ k : ℕ, ∀ᶠ n in atTop, k ≤ ((Finset.range n).filter fun i => A (s i ω)).card := by
  have hSω : MeasurableSet {ω | A (s 0 ω)} := (hs.1 0) hA
  have i1 : Integrable ({ω | A (s 0 ω)}.indicator fun _ => (1 : ℝ)) P := (integrable_const (1 : ℝ)).indicator hSω
  have l1 := sample_limit hs (e := fun x => if A x then (1 : ℝ) else 0) (Measurable.ite hA measurable_const measurable_const)
    (i1.congr (Eventually.of_forall fun ω => by simp [Set.indicator_apply]))
  have e1 : ∫ ω, (if A (s 0 ω) then (1 : ℝ) else 0) ∂P = P.real {ω | A (s 0 ω)} := by
    rw [← integral_indicator_one hSω]
    exact integral_congr_ae (Eventually.of_forall fun ω => by simp [Set.indicator_apply])
  rw [e1] at l1
  filter_upwards [l1] with ω w k
  have h1 := w.pos_mul_atTop hp tendsto_natCast_atTop_atTop
  filter_upwards [h1.eventually_ge_atTop (k : ℝ), eventually_gt_atTop 0] with n hn hpos
  have hn0 : (n : ℝ) ≠ 0 := by exact_mod_cast hpos.ne'
  rw [div_mul_cancel₀ _ hn0, Finset.sum_ite, Finset.sum_const_zero, add_zero, Finset.sum_const, nsmul_eq_mul, mul_one] at hn
  exact_mod_cast hn

/-! ### Nearest neighbours -/

include hlen hrm in
theorem eucl_measurable {x : List ℝ} (hx : x.length = d) : Measurable fun z => eucl x (row z) := by
  have e : (fun z => eucl x (row z)) = fun z => Real.sqrt (∑ j ∈ Finset.range d, (coord x j - coord (row z) j) ^ 2) := by
    funext z
    rw [eucl, zipWith_sum_range hx (hlen z)]
    rfl
  rw [e]
  exact (Finset.measurable_sum _ fun j hj => ((measurable_const.sub (hrm j (Finset.mem_range.1 hj))).pow_const 2)).sqrt

theorem nearest_close {n k : ℕ} {dst : ℕ → ℝ} {r : List ℕ × List ℝ} (h : KNearestOf n dst k r) {b : ℝ}
    (hcard : k ≤ ((Finset.range n).filter fun i => dst i < b).card) : ∀ i ∈ r.1, dst i < b := by
  intro i hi
  by_contra hlt
  rw [not_lt] at hlt
  have hsub : ((Finset.range n).filter fun i => dst i < b) ⊆ r.1.toFinset.erase i := by
    intro j hj
    obtain ⟨h1, h2⟩ := Finset.mem_filter.1 hj
    rw [Finset.mem_erase, List.mem_toFinset]
    refine ⟨fun hji => absurd h2 (by rw [hji]; exact not_lt.2 hlt), ?_⟩
    by_contra hj'
    have := h.nearest j (Finset.mem_range.1 h1) hj' (dst i) (by rw [h.distances]; exact List.mem_map_of_mem hi)
    linarith
  have h2 := Finset.card_le_card hsub
  rw [Finset.card_erase_of_mem (List.mem_toFinset.2 hi), List.toFinset_card_of_nodup h.distinct, h.count] at h2
  have h3 : 0 < k := by rw [← h.count]; exact List.length_pos_of_mem hi
  omega

include hs hlen hrm in
/-- **C115 (neighbours).** If samples closer to `x` than `b` have positive probability, then almost surely, among sufficiently many samples, the `k` nearest neighbours of `x` are all
closer than `b`. -/
theorem C115_neighbours {x : List ℝ} (hx : x.length = d) {k : ℕ} (hk : 1 ≤ k) {b : ℝ} (hp : 0 < P.real {ω | eucl x (row (s 0 ω)) < b}) :
    ∀ᵐ ω ∂P, ∀ᶠ n in atTop, ∃ idx ds, bruteSearch (some ⟨d, onFirst row s n ω⟩) x k = ok (idx, ds) ∧ ds.length = k ∧ ∀ t ∈ ds, t < b := by
  classical
  filter_upwards [hits_grow hs (A := fun z => eucl x (row z) < b) (measurableSet_lt (eucl_measurable hlen hrm hx) measurable_const) hp] with ω hω
  filter_upwards [hω k, eventually_ge_atTop k] with n h1 h2
  obtain ⟨⟨idx, ds⟩, h3, h4⟩ := C19_brute_force_exact ⟨d, onFirst row s n ω⟩ x k hk (by simpa [onFirst] using h2)
  refine ⟨idx, ds, h3, (congrArg List.length h4.distances).trans (by rw [List.length_map]; exact h4.count), ?_⟩
  have hcl := nearest_close h4 (b := b) (by
    refine h1.trans (Finset.card_le_card fun i hi => ?_)
    obtain ⟨h5, h6⟩ := Finset.mem_filter.1 hi
    refine Finset.mem_filter.2 ⟨by simpa [onFirst] using h5, ?_⟩
    rw [List.getD_eq_getElem?_getD, onFirst_getElem? row s ω (Finset.mem_range.1 h5)]
    exact h6)
  intro t ht
  have hdd : ds = idx.map _ := h4.distances
  rw [hdd] at ht
  obtain ⟨i, hi, rfl⟩ := List.mem_map.1 ht
  exact hcl i hi

include hs hlen hrm in
/-- **C115 (nearest neighbour classification).** If samples closer to `x` than `b` have positive probability and are almost surely of class `c`, then almost surely, after training on
sufficiently many samples, `x` is classified as `c`. -/
theorem C115_knn {cls : S → ℕ} (hcm : Measurable cls) {x : List ℝ} (hx : x.length = d) {k : ℕ} (hk : 1 ≤ k) {b : ℝ} {c : ℕ} (hp : 0 < P.real {ω | eucl x (row (s 0 ω)) < b})
    (hc : ∀ᵐ ω ∂P, eucl x (row (s 0 ω)) < b → cls (s 0 ω) = c) :
    ∀ᵐ ω ∂P, ∀ᶠ n in atTop, ∃ m, knnTrain bruteSearcher ⟨k, none, none⟩ ⟨d, onFirst row s n ω⟩ (onFirst cls s n ω) = (m, ok ()) ∧ knnPredict bruteSearcher m ⟨d, [x]⟩ = ok [c] := by
  classical
  have hme : MeasurableSet {z | eucl x (row z) < b} := measurableSet_lt (eucl_measurable hlen hrm hx) measurable_const
  have hall : ∀ᵐ ω ∂P, ∀ i, eucl x (row (s i ω)) < b → cls (s i ω) = c := by
    rw [ae_all_iff]
    intro i
    have hQ : MeasurableSet {z | eucl x (row z) < b → cls z = c} := by
      have e : {z | eucl x (row z) < b → cls z = c} = {z | eucl x (row z) < b}ᶜ ∪ cls ⁻¹' {c} := by
        ext z
        simp only [Set.mem_union, Set.mem_compl_iff, Set.mem_preimage, Set.mem_singleton_iff, Set.mem_ofPred_eq]
        tauto
      rw [e]
      exact hme.compl.union (hcm (measurableSet_singleton c))
    exact (hs.2.2 i).symm.ae_snd hQ hc
  filter_upwards [hits_grow hs (A := fun z => eucl x (row z) < b) hme hp, hall] with ω hω hcl
  filter_upwards [hω k, eventually_ge_atTop k] with n h1 h2
  have hlr : (onFirst row s n ω).length = n := onFirst_length _ _ _ _
  have hlc : (onFirst cls s n ω).length = n := onFirst_length _ _ _ _
  have htr : knnTrain bruteSearcher ⟨k, none, none⟩ ⟨d, onFirst row s n ω⟩ (onFirst cls s n ω) = (⟨k, some ⟨d, onFirst row s n ω⟩, some (onFirst cls s n ω)⟩, ok ()) := by
    unfold knnTrain
    rw [if_neg (by simp [hlr, hlc]), if_neg (by simp [hlr]; omega)]
    rfl
  refine ⟨_, htr, ?_⟩
  have hla : lastAccepted k [KnnCall.train ⟨d, onFirst row s n ω⟩ (onFirst cls s n ω)] = some (⟨d, onFirst row s n ω⟩, onFirst cls s n ω) := by
    simp [lastAccepted, hlr, hlc, h2]
  obtain ⟨out, ho, hf⟩ := C25_brute_history _ k hk _ _ hla ⟨d, [x]⟩
  simp only [knnRun, htr] at ho
  rw [ho]
  cases hf with
  | cons h3 h4 =>
    cases h4
    rename_i l
    obtain ⟨r, hr, hm⟩ := h3
    have hcl' := nearest_close hr (b := b) (by
      refine h1.trans (Finset.card_le_card fun i hi => ?_)
      obtain ⟨h5, h6⟩ := Finset.mem_filter.1 hi
      refine Finset.mem_filter.2 ⟨by simpa [onFirst] using h5, ?_⟩
      rw [C19_C21_C22_distance_is_euclidean, List.getD_eq_getElem?_getD, onFirst_getElem? row s ω (Finset.mem_range.1 h5)]
      exact h6)
    obtain ⟨i, hi, hil⟩ := List.mem_filterMap.1 hm.occurs
    have hin : i < n := by simpa [onFirst] using hr.rows i hi
    have h7 := hcl' i hi
    rw [C19_C21_C22_distance_is_euclidean, List.getD_eq_getElem?_getD, onFirst_getElem? row s ω hin] at h7
    rw [onFirst_getElem? cls s ω hin] at hil
    injection hil with hil
    rw [← hil, hcl i h7]

/-! ### Min-max scaling -/

include hs hlen hrm in
/-- **C115 (min-max scaler).** Let the features lie between `lo` and `hi` and come arbitrarily close to both with positive probability. Then almost surely the transformed values of any
row converge to its position between `lo` and `hi`, in terms of the requested range. -/
theorem C115_minmax (f : MinMaxFitter ℝ) {lo hi : ℕ → ℝ} (hbig : ∀ j < d, -Scalar.maxVal ≤ lo j ∧ lo j < hi j ∧ hi j ≤ Scalar.maxVal)
    (hin : ∀ x, ∀ j < d, lo j ≤ coord (row x) j ∧ coord (row x) j ≤ hi j)
    (hlo : ∀ j < d, ∀ ε > 0, 0 < P.real {ω | coord (row (s 0 ω)) j < lo j + ε}) (hhi : ∀ j < d, ∀ ε > 0, 0 < P.real {ω | hi j - ε < coord (row (s 0 ω)) j}) :
    ∀ᵐ ω ∂P, ∃ t : ℕ → MinMaxScaler ℝ, (∀ n, minmaxFit f ⟨d, onFirst row s n ω⟩ = ok (t n)) ∧
      ∀ x : List ℝ, x.length = d → ∃ y : ℕ → List ℝ, (∀ n, minmaxTransform (t n) ⟨d, [x]⟩ = ok ⟨d, [y n]⟩) ∧
        ∀ j < d, Tendsto (fun n => coord (y n) j) atTop (𝓝 (f.scaledMin + (coord x j - lo j) / (hi j - lo j) * (f.scaledMax - f.scaledMin))) := by
  classical
  have h1 : ∀ᵐ ω ∂P, ∀ m j : ℕ, j < d → ∀ᶠ n in atTop, 1 ≤ ((Finset.range n).filter fun i => coord (row (s i ω)) j < lo j + 1 / ((m : ℝ) + 1)).card := by
    rw [ae_all_iff]; intro m
    rw [ae_all_iff]; intro j
    by_cases hj : j < d
    · filter_upwards [hits_grow hs (A := fun z => coord (row z) j < lo j + 1 / ((m : ℝ) + 1)) (measurableSet_lt (hrm j hj) measurable_const) (hlo j hj _ (by positivity))] with ω hω _
      exact hω 1
    · exact Eventually.of_forall fun ω h => absurd h hj
  have h2 : ∀ᵐ ω ∂P, ∀ m j : ℕ, j < d → ∀ᶠ n in atTop, 1 ≤ ((Finset.range n).filter fun i => hi j - 1 / ((m : ℝ) + 1) < coord (row (s i ω)) j).card := by
    rw [ae_all_iff]; intro m
    rw [ae_all_iff]; intro j
    by_cases hj : j < d
    · filter_upwards [hits_grow hs (A := fun z => hi j - 1 / ((m : ℝ) + 1) < coord (row z) j) (measurableSet_lt measurable_const (hrm j hj)) (hhi j hj _ (by positivity))] with ω hω _
      exact hω 1
    · exact Eventually.of_forall fun ω h => absurd h hj
  filter_upwards [h1, h2] with ω w1 w2
  have hXW : ∀ n, (⟨d, onFirst row s n ω⟩ : Mat ℝ).WF := by
    intro n r hr
    obtain ⟨i, -, rfl⟩ := List.mem_map.1 hr
    exact hlen _
  have hfit := fun n => minmaxFit_real f ⟨d, onFirst row s n ω⟩ (hXW n)
  choose t ht hl1 hl2 hfac using hfit
  set mm : ℕ → ℕ → ℝ × ℝ := fun j n => (Spec.col ⟨d, onFirst row s n ω⟩ j).foldl minmaxUpd (Scalar.maxVal, -Scalar.maxVal) with hmm
  have hmem : ∀ j < d, ∀ n, (∀ i < n, (mm j n).1 ≤ coord (row (s i ω)) j ∧ coord (row (s i ω)) j ≤ (mm j n).2) ∧ lo j ≤ (mm j n).1 ∧ (mm j n).2 ≤ hi j := by
    intro j hj n
    have hcol := col_onFirst (d := d) (row := row) (s := s) n ω j
    obtain ⟨b1, b2, b3⟩ := hbig j hj
    refine ⟨fun i hi' => ?_, ?_, ?_⟩
    · exact (foldl_minmax_le _ _).2.2 _ (by rw [hcol]; exact List.mem_map.2 ⟨i, List.mem_range.2 hi', rfl⟩)
    · rcases (foldl_minmax_mem (Spec.col ⟨d, onFirst row s n ω⟩ j) (Scalar.maxVal, -Scalar.maxVal)).1 with h | h
      · change lo j ≤ ((Spec.col ⟨d, onFirst row s n ω⟩ j).foldl minmaxUpd (Scalar.maxVal, -Scalar.maxVal)).1
        rw [h]; simp only; linarith
      · rw [hcol] at h
        obtain ⟨i, -, hi'⟩ := List.mem_map.1 h
        have := (hin (s i ω) j hj).1
        rw [← hcol] at hi'
        exact hi' ▸ this
    · rcases (foldl_minmax_mem (Spec.col ⟨d, onFirst row s n ω⟩ j) (Scalar.maxVal, -Scalar.maxVal)).2 with h | h
      · change ((Spec.col ⟨d, onFirst row s n ω⟩ j).foldl minmaxUpd (Scalar.maxVal, -Scalar.maxVal)).2 ≤ hi j
        rw [h]; simp only; linarith
      · rw [hcol] at h
        obtain ⟨i, -, hi'⟩ := List.mem_map.1 h
        have := (hin (s i ω) j hj).2
        rw [← hcol] at hi'
        exact hi' ▸ this
  have hmin : ∀ j < d, Tendsto (fun n => (mm j n).1) atTop (𝓝 (lo j)) := by
    intro j hj
    rw [Metric.tendsto_atTop']
    intro ε hε
    obtain ⟨m, hm⟩ := exists_nat_one_div_lt hε
    obtain ⟨N, hN⟩ := eventually_atTop.1 (w1 m j hj)
    refine ⟨N, fun n hn => ?_⟩
    obtain ⟨i, hi'⟩ := Finset.card_pos.1 (hN n hn.le)
    obtain ⟨h3, h4⟩ := Finset.mem_filter.1 hi'
    obtain ⟨h5, h6, -⟩ := hmem j hj n
    have h7 := (h5 i (Finset.mem_range.1 h3)).1
    rw [Real.dist_eq, abs_lt]
    constructor <;> linarith
  have hmax : ∀ j < d, Tendsto (fun n => (mm j n).2) atTop (𝓝 (hi j)) := by
    intro j hj
    rw [Metric.tendsto_atTop']
    intro ε hε
    obtain ⟨m, hm⟩ := exists_nat_one_div_lt hε
    obtain ⟨N, hN⟩ := eventually_atTop.1 (w2 m j hj)
    refine ⟨N, fun n hn => ?_⟩
    obtain ⟨i, hi'⟩ := Finset.card_pos.1 (hN n hn.le)
    obtain ⟨h3, h4⟩ := Finset.mem_filter.1 hi'
    obtain ⟨h5, -, h6⟩ := hmem j hj n
    have h7 := (h5 i (Finset.mem_range.1 h3)).2
    rw [Real.dist_eq, abs_lt]
    constructor <;> linarith
  refine ⟨t, ht, fun x hx => ?_⟩
  have hxw : (⟨d, [x]⟩ : Mat ℝ).WF := by intro r h; simp only [List.mem_singleton] at h; rw [h, hx]
  have h3 := fun n => minmaxTransform_col (t n) ⟨d, [x]⟩ hxw (hl1 n) (hl2 n)
  choose Y hY hsh hcol using h3
  have hone : ∀ n, ∃ y, Y n = ⟨d, [y]⟩ := by
    intro n
    obtain ⟨a1, a2, -⟩ := hsh n
    obtain ⟨y, hy⟩ := List.length_eq_one_iff.1 (a2.symm.trans rfl : (Y n).rows.length = 1)
    refine ⟨y, ?_⟩
    cases hYn : Y n with
    | mk c rs =>
      rw [hYn] at a1 hy
      simp only at a1 hy
      rw [← a1, hy]
  choose y hy using hone
  refine ⟨y, fun n => by rw [hY n, hy n], fun j hj => ?_⟩
  have hd := sub_pos.2 (hbig j hj).2.1
  have hsc : Tendsto (fun n => (t n).scale.getD j 0) atTop (𝓝 ((f.scaledMax - f.scaledMin) / (hi j - lo j))) := by
    refine (tendsto_const_nhds.div ((hmax j hj).sub (hmin j hj)) hd.ne').congr fun n => ?_
    exact ((hfac n j hj).1).symm
  have hco : Tendsto (fun n => (t n).const.getD j 0) atTop (𝓝 (f.scaledMax - hi j * ((f.scaledMax - f.scaledMin) / (hi j - lo j)))) := by
    refine (tendsto_const_nhds.sub ((hmax j hj).mul hsc)).congr fun n => ?_
    exact ((hfac n j hj).2).symm
  have h5 := (hsc.const_mul (coord x j)).add hco
  have e : f.scaledMin + (coord x j - lo j) / (hi j - lo j) * (f.scaledMax - f.scaledMin) =
      coord x j * ((f.scaledMax - f.scaledMin) / (hi j - lo j)) + (f.scaledMax - hi j * ((f.scaledMax - f.scaledMin) / (hi j - lo j))) := by
    field_simp
    ring
  rw [e]
  refine h5.congr fun n => ?_
  have h6 := hcol n j hj
  rw [hy n] at h6
  simp only [Spec.col, List.map_cons, List.map_nil, List.cons.injEq, and_true] at h6
  have h7 : coord (y n) j = _ := h6
  rw [h7]
  rfl

/-! ### Principal components -/

/-- The mean of the squared length of the projection of a sample, centred on request, on the columns of `Q`. -/
noncomputable def Spec.captured {Ω S : Type} [MeasurableSpace Ω] (P : Measure Ω) (s : ℕ → Ω → S) (row : S → List ℝ) (center : Bool) {d k : ℕ} (Q : Matrix (Fin d) (Fin k) ℝ) : ℝ :=
  ∫ ω, ∑ l, (∑ j : Fin d, (coord (row (s 0 ω)) j - if center then featureMean P s row j else 0) * Q j l) ^ 2 ∂P

/-- The sum of a quadratic form over the columns of `Q`. -/
def quadSum {d k : ℕ} (T : Matrix (Fin d) (Fin d) ℝ) (Q : Matrix (Fin d) (Fin k) ℝ) : ℝ := ∑ l, ∑ a, ∑ b, Q a l * T a b * Q b l

theorem quadSum_close {d k : ℕ} (T T' : Matrix (Fin d) (Fin d) ℝ) {Q : Matrix (Fin d) (Fin k) ℝ} (hQ : Qᵀ * Q = 1) :
    |quadSum T Q - quadSum T' Q| ≤ k * ∑ a, ∑ b, |T a b - T' a b| := by
  have hq : ∀ a l, |Q a l| ≤ 1 := by
    intro a l
    have h := congrFun (congrFun hQ l) l
    rw [Matrix.mul_apply, Matrix.one_apply_eq] at h
    simp only [Matrix.transpose_apply] at h
    have h2 : Q a l * Q a l ≤ 1 := by
      rw [← h]
      exact Finset.single_le_sum (f := fun x => Q x l * Q x l) (fun x _ => mul_self_nonneg _) (Finset.mem_univ a)
    exact abs_le_one_iff_mul_self_le_one.2 h2
  have e : quadSum T Q - quadSum T' Q = ∑ l, ∑ a, ∑ b, Q a l * (T a b - T' a b) * Q b l := by
    unfold quadSum
    simp only [← Finset.sum_sub_distrib]
    refine Finset.sum_congr rfl fun l _ => Finset.sum_congr rfl fun a _ => Finset.sum_congr rfl fun b _ => by ring
  rw [e]
  calc |∑ l, ∑ a, ∑ b, Q a l * (T a b - T' a b) * Q b l| ≤ ∑ _l : Fin k, ∑ a, ∑ b, |T a b - T' a b| := by
        refine (Finset.abs_sum_le_sum_abs _ _).trans (Finset.sum_le_sum fun l _ => ?_)
        refine (Finset.abs_sum_le_sum_abs _ _).trans (Finset.sum_le_sum fun a _ => ?_)
        refine (Finset.abs_sum_le_sum_abs _ _).trans (Finset.sum_le_sum fun b _ => ?_)
        rw [abs_mul, abs_mul]
        have h1 := mul_le_mul (hq a l) (le_refl |T a b - T' a b|) (abs_nonneg _) zero_le_one
        have h2 := mul_le_mul h1 (hq b l) (abs_nonneg _) (by positivity)
        linarith
    _ = _ := by rw [Finset.sum_const, Finset.card_univ, Fintype.card_fin, nsmul_eq_mul]

theorem frobSq_quadSum {n d k : ℕ} (A : Matrix (Fin n) (Fin d) ℝ) (Q : Matrix (Fin d) (Fin k) ℝ) : frobSq (A * Q) = quadSum (Aᵀ * A) Q := by
  unfold frobSq quadSum
  rw [Finset.sum_comm]
  refine Finset.sum_congr rfl fun l _ => ?_
  simp only [Matrix.mul_apply, Matrix.transpose_apply, sq, Finset.sum_mul, Finset.mul_sum]
  rw [Finset.sum_comm]
  refine Finset.sum_congr rfl fun a _ => ?_
  rw [Finset.sum_comm]
  refine Finset.sum_congr rfl fun b _ => Finset.sum_congr rfl fun i _ => by ring

/-- The components of a model of `k` components trained on enough samples capture the most. -/
theorem pca_best {svd : Mat ℝ → Outcome (Mat ℝ × Mat ℝ × Mat ℝ)} (hse : SvdExact svd) (hst : SvdTotal svd) {k : ℕ} (center : Bool) {X : Mat ℝ} (hX : X.WF) (hk : k ≤ X.cols)
    (hn : X.cols ≤ X.rows.length) :
    ∃ m' K, (Pca.new k center).train svd X = ok m' ∧ m'.getComponents = ok K ∧ HasShape K X.cols k ∧ (toM X.cols k K)ᵀ * toM X.cols k K = 1 ∧
      ∀ Q : Matrix (Fin X.cols) (Fin k) ℝ, Qᵀ * Q = 1 → frobSq (centred center X X * Q) ≤ frobSq (centred center X X * toM X.cols k K) := by
  have t := C56_train hse hst (Pca.new k center) hX
  rw [if_neg (by simp [Pca.new]; omega)] at t
  obtain ⟨m', t⟩ := t
  obtain ⟨B, U, V, hsvd, ⟨K, hK, hKV⟩, -⟩ := pca_core hse hX (Or.inl hn) (Or.inl rfl) t
  rw [if_neg (by omega)] at hKV
  have hkk : keptComponents (Pca.new k center : Pca ℝ).n X = k := by
    simp only [keptComponents, Pca.new, Option.getD_some]; omega
  have hle := kept_le (Pca.new k center : Pca ℝ).n X
  have hKV' : HasShape K X.cols (keptComponents (Pca.new k center : Pca ℝ).n X) ∧
      toM X.cols (keptComponents (Pca.new k center : Pca ℝ).n X) K = V.submatrix id (Fin.castLE hle) := hKV
  clear hKV
  have hcap := fun Q hQ => svd_captures hsvd hle Q hQ
  have hort := submatrix_orthonormal hsvd.right _ (Fin.castLE_injective hle)
  generalize keptComponents (Pca.new k center : Pca ℝ).n X = p at *
  subst hkk
  refine ⟨m', K, t, hK, hKV'.1, ?_, ?_⟩
  · rw [hKV'.2]; exact hort
  · rw [hKV'.2]; exact hcap

include hs hlen hrm in
/-- **C115 (principal components).** If the features have second moments then almost surely training for `k` components succeeds on all sufficiently long initial parts of the samples,
with `k` orthonormal components, and the components capture of a new sample, on average, as much as the best `k` orthonormal directions, up to an error that tends to zero. -/
theorem C115_pca (hr2 : ∀ j < d, MemLp (fun ω => coord (row (s 0 ω)) j) 2 P) {svd : Mat ℝ → Outcome (Mat ℝ × Mat ℝ × Mat ℝ)} (hse : SvdExact svd) (hst : SvdTotal svd) {k : ℕ}
    (hk : k ≤ d) (center : Bool) :
    ∀ᵐ ω ∂P, ∃ K : ℕ → Mat ℝ,
      (∀ᶠ n in atTop, (∃ m, (Pca.new k center).train svd ⟨d, onFirst row s n ω⟩ = ok m ∧ m.getComponents = ok (K n)) ∧ HasShape (K n) d k ∧ (toM d k (K n))ᵀ * toM d k (K n) = 1) ∧
      ∀ ε > 0, ∀ᶠ n in atTop, ∀ Q : Matrix (Fin d) (Fin k) ℝ, Qᵀ * Q = 1 → captured P s row center Q ≤ captured P s row center (toM d k (K n)) + ε := by
  set c : ℕ → ℝ := fun j => if center then featureMean P s row j else 0 with hc
  set T : Matrix (Fin d) (Fin d) ℝ := fun a b => ∫ ω, (coord (row (s 0 ω)) a - c a) * (coord (row (s 0 ω)) b - c b) ∂P with hT
  have hz2 : ∀ j : Fin d, MemLp (fun ω => coord (row (s 0 ω)) j - c j) 2 P := fun j => (hr2 j j.2).sub (memLp_const (c j))
  have hcap : ∀ Q : Matrix (Fin d) (Fin k) ℝ, captured P s row center Q = quadSum T Q := by
    intro Q
    unfold captured
    have hint : ∀ l, Integrable (fun ω => (∑ j : Fin d, (coord (row (s 0 ω)) j - c j) * Q j l) ^ 2) P := by
      intro l
      have h := (memLp_combo hz2 fun j => Q j l).integrable_sq
      refine h.congr (Eventually.of_forall fun ω => ?_)
      simp only [mul_comm]
    rw [integral_finsetSum _ fun l _ => hint l]
    refine Finset.sum_congr rfl fun l _ => ?_
    have h := quad_moment hz2 (C := T) (fun i j => rfl) (fun j => Q j l) (fun j => Q j l)
    have e : ∀ ω, (∑ j : Fin d, (coord (row (s 0 ω)) j - c j) * Q j l) ^ 2 =
        (∑ j : Fin d, Q j l * (coord (row (s 0 ω)) j - c j)) * ∑ j : Fin d, Q j l * (coord (row (s 0 ω)) j - c j) := fun ω => by
      simp only [mul_comm (Q _ l), sq]
    change ∫ ω, (∑ j : Fin d, (coord (row (s 0 ω)) j - c j) * Q j l) ^ 2 ∂P = _
    simp only [e]
    rw [h]
    simp only [dotProduct, Matrix.mulVec, Finset.mul_sum, mul_assoc]
  have h1 : ∀ᵐ ω ∂P, ∀ j, j < d → Tendsto (fun n : ℕ => (∑ i ∈ Finset.range n, coord (row (s i ω)) j) / n) atTop (𝓝 (featureMean P s row j)) := by
    rw [ae_all_iff]; intro j
    by_cases hj : j < d
    · filter_upwards [sample_limit hs (hrm j hj) ((hr2 j hj).integrable (by norm_num))] with ω hω _ using hω
    · exact Eventually.of_forall fun ω h => absurd h hj
  have h2 : ∀ᵐ ω ∂P, ∀ a b : Fin d, Tendsto (fun n : ℕ => (∑ i ∈ Finset.range n, coord (row (s i ω)) a * coord (row (s i ω)) b) / n) atTop
      (𝓝 (∫ ω, coord (row (s 0 ω)) a * coord (row (s 0 ω)) b ∂P)) := by
    rw [ae_all_iff]; intro a
    rw [ae_all_iff]; intro b
    exact sample_limit hs (e := fun x => coord (row x) a * coord (row x) b) ((hrm a a.2).mul (hrm b b.2)) (integrable_prod (hr2 a a.2) (hr2 b b.2))
  have hTv : ∀ a b : Fin d, T a b = ∫ ω, coord (row (s 0 ω)) a * coord (row (s 0 ω)) b ∂P - c a * featureMean P s row b - c b * featureMean P s row a + c a * c b := by
    intro a b
    have i1 : Integrable (fun ω => coord (row (s 0 ω)) a * coord (row (s 0 ω)) b) P := integrable_prod (hr2 a a.2) (hr2 b b.2)
    have i2 : Integrable (fun ω => c a * coord (row (s 0 ω)) b) P := ((hr2 b b.2).integrable (by norm_num)).const_mul _
    have i3 : Integrable (fun ω => c b * coord (row (s 0 ω)) a) P := ((hr2 a a.2).integrable (by norm_num)).const_mul _
    have i4 : Integrable (fun ω => coord (row (s 0 ω)) a * coord (row (s 0 ω)) b - c a * coord (row (s 0 ω)) b) P := i1.sub i2
    have i5 : Integrable (fun ω => coord (row (s 0 ω)) a * coord (row (s 0 ω)) b - c a * coord (row (s 0 ω)) b - c b * coord (row (s 0 ω)) a) P := i4.sub i3
    have e : ∀ ω, (coord (row (s 0 ω)) a - c a) * (coord (row (s 0 ω)) b - c b) =
        coord (row (s 0 ω)) a * coord (row (s 0 ω)) b - c a * coord (row (s 0 ω)) b - c b * coord (row (s 0 ω)) a + c a * c b := fun ω => by ring
    simp only [hT, e]
    rw [integral_add i5 (integrable_const _), integral_sub i4 i3, integral_sub i1 i2, integral_const_mul, integral_const_mul, integral_const, probReal_univ, one_smul]
    rfl
  filter_upwards [h1, h2] with ω w1 w2
  set X : ℕ → Mat ℝ := fun n => ⟨d, onFirst row s n ω⟩ with hXdef
  have hXW : ∀ n, (X n).WF := by
    intro n r hr
    obtain ⟨i, -, rfl⟩ := List.mem_map.1 hr
    exact hlen _
  have hXl : ∀ n, (X n).rows.length = n := fun n => onFirst_length _ _ _ _
  have hbest := fun n (hn : d ≤ n) => pca_best hse hst center (hXW n) hk (by rw [hXl]; exact hn)
  have hK : ∀ n, ∃ K : Mat ℝ, d ≤ n → (∃ m, (Pca.new k center).train svd (X n) = ok m ∧ m.getComponents = ok K) ∧ HasShape K d k ∧ (toM d k K)ᵀ * toM d k K = 1 ∧
      ∀ Q : Matrix (Fin d) (Fin k) ℝ, Qᵀ * Q = 1 → frobSq (centred center (X n) (X n) * Q) ≤ frobSq (centred center (X n) (X n) * toM d k K) := by
    intro n
    by_cases hn : d ≤ n
    · obtain ⟨m', K, a1, a2, a3, a4, a5⟩ := hbest n hn
      exact ⟨K, fun _ => ⟨⟨m', a1, a2⟩, a3, a4, a5⟩⟩
    · exact ⟨⟨0, []⟩, fun h => absurd h hn⟩
  choose K hK using hK
  refine ⟨K, ?_, ?_⟩
  · filter_upwards [eventually_ge_atTop d] with n hn
    obtain ⟨a1, a2, a3, -⟩ := hK n hn
    exact ⟨a1, a2, a3⟩
  set M : ℕ → ℕ → ℝ := fun n j => if center then Spec.mean (Spec.col (X n) j) else 0 with hM
  have hMlim : ∀ j < d, Tendsto (fun n => M n j) atTop (𝓝 (c j)) := by
    intro j hj
    cases center with
    | false => exact tendsto_const_nhds
    | true =>
      refine (w1 j hj).congr fun n => ?_
      change _ = Spec.mean (Spec.col (X n) j)
      rw [Spec.mean, hXdef, col_onFirst, onFirst_sum, onFirst_length]
  set Tn : ℕ → Matrix (Fin d) (Fin d) ℝ := fun n a b => ((centred center (X n) (X n))ᵀ * centred center (X n) (X n)) a b / n with hTn
  have hTlim : ∀ a b, Tendsto (fun n => Tn n a b) atTop (𝓝 (T a b)) := by
    intro a b
    rw [hTv a b]
    have h5 := (((w2 a b).sub ((hMlim a a.2).mul (w1 b b.2))).sub ((hMlim b b.2).mul (w1 a a.2))).add ((hMlim a a.2).mul (hMlim b b.2))
    refine h5.congr' ?_
    filter_upwards [eventually_gt_atTop 0] with n hn
    have hn0 : (n : ℝ) ≠ 0 := by exact_mod_cast hn.ne'
    have e1 : ((centred center (X n) (X n))ᵀ * centred center (X n) (X n)) a b = ∑ i ∈ Finset.range n, (coord (row (s i ω)) a - M n a) * (coord (row (s i ω)) b - M n b) := by
      rw [Matrix.mul_apply]
      have e2 : ∀ i : Fin (X n).rows.length, (centred center (X n) (X n))ᵀ a i * centred center (X n) (X n) i b =
          (fun i : ℕ => (coord (row (s i ω)) a - M n a) * (coord (row (s i ω)) b - M n b)) i := by
        intro i
        have hi : (i : ℕ) < n := lt_of_lt_of_eq i.2 (hXl n)
        have e3 : (X n).rows.getD i [] = row (s i ω) := by
          rw [List.getD_eq_getElem?_getD]
          change ((onFirst row s n ω)[(i : ℕ)]?).getD [] = _
          rw [onFirst_getElem? row s ω hi]
          rfl
        simp only [Matrix.transpose_apply, centred, Matrix.of_apply, e3]
        rfl
      rw [Finset.sum_congr rfl fun i _ => e2 i, Fin.sum_univ_eq_sum_range (fun i : ℕ => (coord (row (s i ω)) a - M n a) * (coord (row (s i ω)) b - M n b)), hXl]
    simp only [hTn]
    rw [e1]
    have e4 : ∑ i ∈ Finset.range n, (coord (row (s i ω)) a - M n a) * (coord (row (s i ω)) b - M n b) =
        ∑ i ∈ Finset.range n, coord (row (s i ω)) a * coord (row (s i ω)) b - M n a * ∑ i ∈ Finset.range n, coord (row (s i ω)) b -
          M n b * ∑ i ∈ Finset.range n, coord (row (s i ω)) a + n * (M n a * M n b) := by
      have e5 : ∀ i, (coord (row (s i ω)) a - M n a) * (coord (row (s i ω)) b - M n b) =
          coord (row (s i ω)) a * coord (row (s i ω)) b - M n a * coord (row (s i ω)) b - M n b * coord (row (s i ω)) a + M n a * M n b := fun i => by ring
      simp only [e5, Finset.sum_add_distrib, Finset.sum_sub_distrib, Finset.mul_sum, Finset.sum_const, Finset.card_range, nsmul_eq_mul]
    rw [e4]
    field_simp
  have hdiff : Tendsto (fun n => (k : ℝ) * ∑ a, ∑ b, |T a b - Tn n a b|) atTop (𝓝 0) := by
    have h := (tendsto_finsetSum Finset.univ fun a _ => tendsto_finsetSum Finset.univ fun b _ => ((tendsto_const_nhds (x := T a b)).sub (hTlim a b)).abs).const_mul (k : ℝ)
    simpa using h
  intro ε hε
  filter_upwards [hdiff.eventually_lt_const (by positivity : (0 : ℝ) < ε / 2), eventually_ge_atTop d, eventually_gt_atTop 0] with n h3 hn hn0 Q hQ
  obtain ⟨-, -, a3, a4⟩ := hK n hn
  have hn0' : (0 : ℝ) < n := by exact_mod_cast hn0
  have h6 := a4 Q hQ
  rw [frobSq_quadSum, frobSq_quadSum] at h6
  have hsc : ∀ Q : Matrix (Fin d) (Fin k) ℝ, quadSum ((centred center (X n) (X n))ᵀ * centred center (X n) (X n)) Q = n * quadSum (Tn n) Q := by
    intro Q
    unfold quadSum
    simp only [Finset.mul_sum, hTn]
    refine Finset.sum_congr rfl fun l _ => Finset.sum_congr rfl fun a _ => Finset.sum_congr rfl fun b _ => ?_
    field_simp
  have h7 : quadSum (Tn n) Q ≤ quadSum (Tn n) (toM d k (K n)) := by
    have e1 := hsc Q
    have e2 := hsc (toM d k (K n))
    have h8 : (n : ℝ) * quadSum (Tn n) Q ≤ n * quadSum (Tn n) (toM d k (K n)) := by
      rw [← e1, ← e2]; exact h6
    exact le_of_mul_le_mul_left h8 hn0'
  have h8 := abs_le.1 (quadSum_close T (Tn n) hQ)
  have h9 := abs_le.1 (quadSum_close T (Tn n) a3)
  rw [hcap, hcap]
  linarith [h8.2, h9.1]

end

/-! ### Example -/

theorem exCoin_pos {Ω : Type} [MeasurableSpace Ω] {P : Measure Ω} [IsProbabilityMeasure P] {s : ℕ → Ω → Bool × Bool} (hs : IsSample P s)
    (hlaw : P.map (s 0) = (PMF.uniformOfFintype (Bool × Bool)).toMeasure) {A : Bool × Bool → Prop} {p : Bool × Bool} (hp : A p) : 0 < P.real {ω | A (s 0 ω)} := by
  classical
  have hS : MeasurableSet {ω | A (s 0 ω)} := (hs.1 0) (Set.toFinite {p | A p}).measurableSet
  have h := exCoin_int hs hlaw fun p => if A p then 1 else 0
  rw [← integral_indicator_one hS]
  have e : ∫ ω, {ω | A (s 0 ω)}.indicator 1 ω ∂P = ∫ ω, (if A (s 0 ω) then (1 : ℝ) else 0) ∂P :=
    integral_congr_ae (Eventually.of_forall fun ω => by simp [Set.indicator_apply])
  rw [e, h]
  have hnn : ∀ q, (0 : ℝ) ≤ if A q then 1 else 0 := fun q => by split <;> norm_num
  have h1 := hnn (false, false)
  have h2 := hnn (false, true)
  have h3 := hnn (true, false)
  have h4 := hnn (true, true)
  obtain ⟨a, b⟩ := p
  have h5 : (if A (a, b) then (1 : ℝ) else 0) = 1 := if_pos hp
  cases a <;> cases b <;> linarith

/-- Non-vacuity of C115: two coins are thrown again and again and count as one and as two. Every hypothesis of the theorems about nearest neighbours, min-max scaling and principal components
holds; the class is that of the first coin. -/
example : ∃ (Ω : Type) (_ : MeasurableSpace Ω) (P : Measure Ω) (_ : IsProbabilityMeasure P) (s : ℕ → Ω → Bool × Bool), IsSample P s ∧
    let row : Bool × Bool → List ℝ := fun p => [if p.1 then 1 else 0, if p.2 then 2 else 0]
    (∀ᵐ ω ∂P, ∀ᶠ n in atTop, ∃ m, knnTrain bruteSearcher ⟨3, none, none⟩ ⟨2, onFirst row s n ω⟩ (onFirst (fun p => p.1.toNat) s n ω) = (m, ok ()) ∧
      knnPredict bruteSearcher m ⟨2, [[1, 1]]⟩ = ok [1]) ∧
    (∀ᵐ ω ∂P, ∃ t : ℕ → MinMaxScaler ℝ, (∀ n, minmaxFit ⟨0, 10⟩ ⟨2, onFirst row s n ω⟩ = ok (t n)) ∧
      ∃ y : ℕ → List ℝ, (∀ n, minmaxTransform (t n) ⟨2, [[1, 1]]⟩ = ok ⟨2, [y n]⟩) ∧ Tendsto (fun n => coord (y n) 1) atTop (𝓝 5)) ∧
    ∀ᵐ ω ∂P, ∃ K : ℕ → Mat ℝ, ∀ ε > 0, ∀ᶠ n in atTop, ∀ Q : Matrix (Fin 2) (Fin 1) ℝ, Qᵀ * Q = 1 → captured P s row true Q ≤ captured P s row true (toM 2 1 (K n)) + ε := by
  obtain ⟨Ω, mΩ, P, hP, s, hs, hlaw⟩ := sample_exists (PMF.uniformOfFintype (Bool × Bool)).toMeasure
  refine ⟨Ω, mΩ, P, hP, s, hs, ?_⟩
  intro row
  have hlen : ∀ x, (row x).length = 2 := fun x => rfl
  have hrm : ∀ j < 2, Measurable fun x => coord (row x) j := fun j _ => Measurable.of_discrete
  have hd : ∀ p : Bool × Bool, eucl [1, 1] (row p) = Real.sqrt ((if p.1 then 0 else 1) + 1) := by
    rintro ⟨a, b⟩
    cases a <;> cases b <;> simp [eucl, row] <;> norm_num
  refine ⟨?_, ?_, ?_⟩
  · refine C115_knn hs hlen hrm (cls := fun p => p.1.toNat) Measurable.of_discrete rfl (by norm_num) (b := 6 / 5) ?_ (Eventually.of_forall fun ω h => ?_)
    · refine exCoin_pos hs hlaw (A := fun p => eucl [1, 1] (row p) < 6 / 5) (p := (true, true)) ?_
      rw [hd]
      simp
      norm_num
    · rw [hd] at h
      cases hb : (s 0 ω).1 with
      | true => rfl
      | false =>
        rw [hb, Real.sqrt_lt' (by norm_num)] at h
        norm_num at h
  · have hbig : (2 : ℝ) ≤ Scalar.maxVal := by
      rw [real_maxVal]
      have h1 : (1 : ℝ) ≤ 2 ^ 971 := one_le_pow₀ (by norm_num)
      have h2 : (2 : ℝ) ^ 1024 = 2 ^ 971 * 2 ^ 53 := by rw [← pow_add]
      have h3 : (4 : ℝ) ≤ 2 ^ 53 := by norm_num
      rw [h2]
      generalize (2 : ℝ) ^ 971 = u at *
      generalize (2 : ℝ) ^ 53 = v at *
      nlinarith
    have h := C115_minmax hs hlen hrm ⟨0, 10⟩ (lo := fun _ => 0) (hi := fun j => if j = 0 then 1 else 2) (fun j hj => ?_) (fun p j hj => ?_) (fun j hj ε hε => ?_) (fun j hj ε hε => ?_)
    · filter_upwards [h] with ω hω
      obtain ⟨t, h1, h2⟩ := hω
      obtain ⟨y, h3, h4⟩ := h2 [1, 1] rfl
      refine ⟨t, h1, y, h3, ?_⟩
      have h5 := h4 1 (by norm_num)
      have e : (0 : ℝ) + (coord [1, 1] 1 - 0) / ((if (1 : ℕ) = 0 then 1 else 2) - 0) * (10 - 0) = 5 := by
        simp [coord]
        norm_num
      rw [← e]
      exact h5
    · refine ⟨by linarith, by split <;> norm_num, ?_⟩
      split <;> linarith
    · obtain ⟨a, b⟩ := p
      interval_cases j <;> cases a <;> cases b <;> simp [row, coord]
    · refine exCoin_pos hs hlaw (A := fun p => coord (row p) j < 0 + ε) (p := (false, false)) ?_
      interval_cases j <;> simpa [row, coord] using hε
    · refine exCoin_pos hs hlaw (A := fun p => (if j = 0 then 1 else 2) - ε < coord (row p) j) (p := (true, true)) ?_
      interval_cases j <;> simpa [row, coord] using hε
  · filter_upwards [C115_pca hs hlen hrm (fun j _ => exCoin_memLp hs fun p => coord (row p) j) someSvd_exact someSvd_total (k := 1) (by norm_num) true] with ω hω
    obtain ⟨K, -, h⟩ := hω
    exact ⟨K, h⟩

end RM
