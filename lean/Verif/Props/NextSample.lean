import Verif.Props.MoreSamplesTwo
import Verif.Props.RandomFolds
import Verif.Props.HoldOut
import Verif.Props.FreshFolds

/-! C116: what is learnt from a fixed number of independent samples is right on average and holds for the next sample. Exact arithmetic. -/

namespace RM
open Outcome Scalar Spec MeasureTheory ProbabilityTheory Filter Topology

/-! ### Samples can be exchanged -/

section
variable {Ω S : Type} [MeasurableSpace Ω] [MeasurableSpace S] {P : Measure Ω} [IsProbabilityMeasure P] {s : ℕ → Ω → S} (hs : IsSample P s)
include hs

theorem sample_law {ι : Type} [Fintype ι] {π : ι → ℕ} (hπ : Function.Injective π) : P.map (fun ω i => s (π i) ω) = Measure.pi fun _ : ι => P.map (s 0) := by
  have h := (iIndepFun_iff_map_fun_eq_pi_map (μ := P) (f := fun i => s (π i)) fun i => (hs.1 _).aemeasurable).1 (hs.2.1.precomp hπ)
  rw [h]
  congr 1
  funext i
  exact (hs.2.2 (π i)).map_eq

theorem sample_exchange {ι : Type} [Fintype ι] {π π' : ι → ℕ} (hπ : Function.Injective π) (hπ' : Function.Injective π') {F : (ι → S) → ℝ} (hF : Measurable F) :
    ∫ ω, F (fun i => s (π i) ω) ∂P = ∫ ω, F (fun i => s (π' i) ω) ∂P := by
  have hm : ∀ π : ι → ℕ, Measurable fun ω (i : ι) => s (π i) ω := fun π => measurable_pi_iff.2 fun i => hs.1 _
  have h : ∀ π : ι → ℕ, Function.Injective π → ∫ ω, F (fun i => s (π i) ω) ∂P = ∫ z, F z ∂(Measure.pi fun _ : ι => P.map (s 0)) := by
    intro π hπ
    rw [← sample_law hs hπ, integral_map (hm π).aemeasurable hF.aestronglyMeasurable]
  rw [h π hπ, h π' hπ']

theorem sample_exchange_set {ι : Type} [Fintype ι] {π π' : ι → ℕ} (hπ : Function.Injective π) (hπ' : Function.Injective π') {A : Set (ι → S)} (hA : MeasurableSet A) :
    P.real {ω | (fun i => s (π i) ω) ∈ A} = P.real {ω | (fun i => s (π' i) ω) ∈ A} := by
  have hm : ∀ π : ι → ℕ, Measurable fun ω (i : ι) => s (π i) ω := fun π => measurable_pi_iff.2 fun i => hs.1 _
  have h : ∀ π : ι → ℕ, Function.Injective π → P.real {ω | (fun i => s (π i) ω) ∈ A} = (Measure.pi fun _ : ι => P.map (s 0)).real A := by
    intro π hπ
    rw [← sample_law hs hπ, map_measureReal_apply (hm π) hA]
    rfl
  rw [h π hπ, h π' hπ']

/-- A record: the chance that the next sample exceeds all `n` before it is at most `1 / (n + 1)`. -/
theorem sample_record {e : S → ℝ} (he : Measurable e) (n : ℕ) : P.real {ω | ∀ i < n, e (s i ω) < e (s n ω)} ≤ 1 / ((n : ℝ) + 1) := by
  classical
  let A : Fin (n + 1) → Set Ω := fun j => {ω | ∀ i : Fin (n + 1), i ≠ j → e (s i ω) < e (s j ω)}
  let B : Fin (n + 1) → Set (Fin (n + 1) → S) := fun j => {z | ∀ i : Fin (n + 1), i ≠ j → e (z i) < e (z j)}
  have hB : ∀ j, MeasurableSet (B j) := by
    intro j
    have : B j = ⋂ i : Fin (n + 1), {z | i ≠ j → e (z i) < e (z j)} := by ext z; simp [B]
    rw [this]
    refine MeasurableSet.iInter fun i => ?_
    by_cases hij : i = j
    · simp [hij]
    · have : {z : Fin (n + 1) → S | i ≠ j → e (z i) < e (z j)} = {z | e (z i) < e (z j)} := by ext z; simp [hij]
      rw [this]
      exact measurableSet_lt (he.comp (measurable_pi_apply i)) (he.comp (measurable_pi_apply j))
  have hAm : ∀ j, MeasurableSet (A j) := fun j =>
    (measurable_pi_iff.2 fun i : Fin (n + 1) => hs.1 i : Measurable fun ω (i : Fin (n + 1)) => s i ω) (hB j)
  have hsame : ∀ j, P.real (A j) = P.real (A (Fin.last n)) := by
    intro j
    have h := sample_exchange_set hs (π := fun i : Fin (n + 1) => (i : ℕ)) (π' := fun i : Fin (n + 1) => ((Equiv.swap j (Fin.last n) i : Fin (n + 1)) : ℕ))
      Fin.val_injective (Fin.val_injective.comp (Equiv.injective _)) (hB j)
    refine h.trans (congrArg P.real ?_)
    ext ω
    simp only [Set.mem_ofPred_eq, B, A, Equiv.swap_apply_left]
    constructor
    · intro h i hi
      have h1 := h (Equiv.swap j (Fin.last n) i) (by
        intro hc
        apply hi
        have := congrArg (Equiv.swap j (Fin.last n)) hc
        rwa [Equiv.swap_apply_self, Equiv.swap_apply_left] at this)
      rwa [Equiv.swap_apply_self] at h1
    · intro h i hi
      refine h _ ?_
      intro hc
      apply hi
      have := congrArg (Equiv.swap j (Fin.last n)) hc
      rwa [Equiv.swap_apply_self, Equiv.swap_apply_right] at this
  have hdis : Pairwise (Function.onFun Disjoint A) := by
    intro i j hij
    refine Set.disjoint_left.2 fun ω h1 h2 => ?_
    have a := h1 j (Ne.symm hij)
    have b := h2 i hij
    linarith
  have hsum : ∑ j, P.real (A j) ≤ 1 := by
    rw [← measureReal_iUnion_fintype hdis hAm]
    exact measureReal_le_one
  rw [Finset.sum_congr rfl fun j _ => hsame j, Finset.sum_const, Finset.card_univ, Fintype.card_fin, nsmul_eq_mul] at hsum
  have heq : {ω | ∀ i < n, e (s i ω) < e (s n ω)} = A (Fin.last n) := by
    ext ω
    simp only [Set.mem_ofPred_eq, A, Fin.val_last]
    constructor
    · intro h i hi
      exact h i (lt_of_le_of_ne (Nat.lt_succ_iff.1 i.2) fun hc => hi (Fin.ext hc))
    · intro h i hi
      exact h ⟨i, by omega⟩ fun hc => by
        have := congrArg Fin.val hc
        simp at this
        omega
  rw [heq, le_div_iff₀ (by positivity), mul_comm]
  push_cast at hsum
  exact hsum

end

/-! ### Scalers -/

section
variable {Ω S : Type} [MeasurableSpace Ω] [MeasurableSpace S] {P : Measure Ω} [IsProbabilityMeasure P] {s : ℕ → Ω → S} (hs : IsSample P s) {d : ℕ}
  {row : S → List ℝ} (hlen : ∀ x, (row x).length = d) (hrm : ∀ j < d, Measurable fun x => coord (row x) j)

include hs hlen hrm in
/-- **C116 (standardizer).** Fitted to `n ≥ 2` independent samples the standardizer's means and variances are, on average, the means and variances of the features; the mean squared
error of the means is the variance divided by `n`. -/
theorem C116_standardizer (hr2 : ∀ j < d, MemLp (fun ω => coord (row (s 0 ω)) j) 2 P) (f : StandardizerFitter ℝ) {n : ℕ} (hn : 2 ≤ n) :
    ∃ t : Ω → Standardizer ℝ, (∀ ω, standardizerFit f ⟨d, onFirst row s n ω⟩ = ok (t ω)) ∧
      ∀ j < d, Integrable (fun ω => (t ω).means.getD j 0) P ∧ ∫ ω, (t ω).means.getD j 0 ∂P = featureMean P s row j ∧
        ∫ ω, ((t ω).means.getD j 0 - featureMean P s row j) ^ 2 ∂P = featureVar P s row j / n ∧
        Integrable (fun ω => (t ω).variances.getD j 0) P ∧ ∫ ω, (t ω).variances.getD j 0 ∂P = featureVar P s row j := by
  refine ⟨fun ω => ⟨(List.range d).map fun j => Spec.mean (Spec.col ⟨d, onFirst row s n ω⟩ j), (List.range d).map fun j => sampleVar (Spec.col ⟨d, onFirst row s n ω⟩ j),
    f.scaledMean, f.scaledStdev⟩, fun ω => ?_, fun j hj => ?_⟩
  · refine standardizerFit_real f ⟨d, onFirst row s n ω⟩ ?_ (by simpa [onFirst] using hn)
    intro r hr
    obtain ⟨i, -, rfl⟩ := List.mem_map.1 hr
    exact hlen _
  · have hn0 : (n : ℝ) ≠ 0 := by exact_mod_cast (by omega : n ≠ 0)
    have hn1 : (n : ℝ) - 1 ≠ 0 := by
      have : (2 : ℝ) ≤ n := by exact_mod_cast hn
      intro h
      linarith
    have hmean : ∀ ω, ((List.range d).map fun j => Spec.mean (Spec.col ⟨d, onFirst row s n ω⟩ j)).getD j 0 = (∑ i ∈ Finset.range n, coord (row (s i ω)) j) / n := by
      intro ω
      rw [getD_map_range _ _ _ hj, col_onFirst, Spec.mean, onFirst_sum, onFirst_length]
    set m := featureMean P s row j with hmdef
    have hvar : ∀ ω, ((List.range d).map fun j => sampleVar (Spec.col ⟨d, onFirst row s n ω⟩ j)).getD j 0 =
        n / (n - 1) * ((∑ i ∈ Finset.range n, (coord (row (s i ω)) j - m) ^ 2) / n - ((∑ i ∈ Finset.range n, coord (row (s i ω)) j) / n - m) ^ 2) := by
      intro ω
      rw [getD_map_range _ _ _ hj, col_onFirst, sampleVar, lmean_sq_dev, Spec.mean, onFirst_sum, onFirst_length]
      have e1 : ((onFirst (fun x => coord (row x) j) s n ω).map fun x => x ^ 2).sum = ∑ i ∈ Finset.range n, coord (row (s i ω)) j ^ 2 := by
        unfold onFirst
        rw [List.map_map, lsum_range]
        rfl
      have e2 : ∑ i ∈ Finset.range n, (coord (row (s i ω)) j - m) ^ 2 =
          ∑ i ∈ Finset.range n, coord (row (s i ω)) j ^ 2 - 2 * m * ∑ i ∈ Finset.range n, coord (row (s i ω)) j + n * m ^ 2 := by
        rw [Finset.mul_sum, ← Finset.sum_sub_distrib]
        have : (n : ℝ) * m ^ 2 = ∑ i ∈ Finset.range n, m ^ 2 := by rw [Finset.sum_const, Finset.card_range, nsmul_eq_mul]
        rw [this, ← Finset.sum_add_distrib]
        exact Finset.sum_congr rfl fun i _ => by ring
      rw [e1, e2]
      field_simp
      ring
    have h2 := hr2 j hj
    have h1 := h2.integrable (by norm_num : (1 : ENNReal) ≤ 2)
    have hdev : MemLp (fun ω => coord (row (s 0 ω)) j - m) 2 P := h2.sub (memLp_const m)
    obtain ⟨a1, a2⟩ := sample_mean hs (hrm j hj) h1 (by omega : 0 < n)
    have a3 := sample_var hs (hrm j hj) h2 (by omega : 0 < n)
    obtain ⟨b1, b2⟩ := sample_mean hs (e := fun x => (coord (row x) j - m) ^ 2) (((hrm j hj).sub_const m).pow_const 2) hdev.integrable_sq (by omega : 0 < n)
    have hi : ∀ i, MemLp (fun ω => coord (row (s i ω)) j) 2 P := fun i => (sample_ident hs (hrm j hj) i).memLp_iff.2 h2
    have c1 : MemLp (fun ω => (∑ i ∈ Finset.range n, coord (row (s i ω)) j) / n - m) 2 P := by
      have h3 : MemLp (fun ω => ∑ i ∈ Finset.range n, coord (row (s i ω)) j) 2 P := memLp_finsetSum _ fun i _ => hi i
      have h4 : MemLp (fun ω => (∑ i ∈ Finset.range n, coord (row (s i ω)) j) / n) 2 P := by
        simpa only [div_eq_mul_inv] using h3.mul_const ((n : ℝ)⁻¹)
      exact h4.sub (memLp_const m)
    have c2 : Integrable (fun ω => ((∑ i ∈ Finset.range n, coord (row (s i ω)) j) / n - m) ^ 2) P := c1.integrable_sq
    refine ⟨?_, ?_, ?_, ?_, ?_⟩
    · simp only [hmean]
      exact a1
    · simp only [hmean]
      exact a2
    · simp only [hmean]
      exact a3
    · simp only [hvar]
      exact (b1.sub c2).const_mul _
    · simp only [hvar]
      rw [integral_const_mul, integral_sub b1 c2, b2]
      have a3' : ∫ ω, ((∑ i ∈ Finset.range n, coord (row (s i ω)) j) / n - m) ^ 2 ∂P = featureVar P s row j / n := a3
      have b3 : ∫ ω, (coord (row (s 0 ω)) j - m) ^ 2 ∂P = featureVar P s row j := rfl
      rw [a3', b3]
      field_simp

include hs hlen hrm in
/-- **C116 (min-max scaler).** Fitted to `n` independent samples the min-max scaler takes feature `j` of the next sample out of the requested range with probability at most
`2 / (n + 1)`, whatever the distribution, and any feature with probability at most `2 d / (n + 1)`. (Where the fitted feature is constant there is no scale.) -/
theorem C116_minmax (f : MinMaxFitter ℝ) (hf : f.scaledMin ≤ f.scaledMax) (n : ℕ) :
    ∃ y : Ω → List ℝ, (∀ ω, ∃ t, minmaxFit f ⟨d, onFirst row s n ω⟩ = ok t ∧ minmaxTransform t ⟨d, [row (s n ω)]⟩ = ok ⟨d, [y ω]⟩) ∧
      let outside : ℕ → Set Ω := fun j => {ω | NonConstant (onFirst (fun x => coord (row x) j) s n ω) ∧ ¬ (f.scaledMin ≤ coord (y ω) j ∧ coord (y ω) j ≤ f.scaledMax)}
      (∀ j < d, P.real (outside j) ≤ 2 / (n + 1)) ∧ P.real {ω | ∃ j < d, ω ∈ outside j} ≤ 2 * d / (n + 1) := by
  have hXW : ∀ ω, (⟨d, onFirst row s n ω⟩ : Mat ℝ).WF := by
    intro ω r hr
    obtain ⟨i, -, rfl⟩ := List.mem_map.1 hr
    exact hlen _
  have hfit := fun ω => minmaxFit_real f ⟨d, onFirst row s n ω⟩ (hXW ω)
  choose t ht hl1 hl2 hfac using hfit
  have hxw : ∀ ω, (⟨d, [row (s n ω)]⟩ : Mat ℝ).WF := by intro ω r h; simp only [List.mem_singleton] at h; rw [h, hlen]
  have h3 := fun ω => minmaxTransform_col (t ω) ⟨d, [row (s n ω)]⟩ (hxw ω) (hl1 ω) (hl2 ω)
  choose Y hY hsh hcol using h3
  have hone : ∀ ω, ∃ y, Y ω = ⟨d, [y]⟩ := by
    intro ω
    obtain ⟨a1, a2, -⟩ := hsh ω
    obtain ⟨y, hy⟩ := List.length_eq_one_iff.1 (a2.symm.trans rfl : (Y ω).rows.length = 1)
    refine ⟨y, ?_⟩
    cases hYn : Y ω with
    | mk c rs =>
      rw [hYn] at a1 hy
      simp only at a1 hy
      rw [← a1, hy]
  choose y hy using hone
  refine ⟨y, fun ω => ⟨t ω, ht ω, by rw [hY ω, hy ω]⟩, ?_⟩
  intro outside
  have hval : ∀ ω, ∀ j < d, coord (y ω) j = coord (row (s n ω)) j * (t ω).scale.getD j 0 + (t ω).const.getD j 0 := by
    intro ω j hj
    have h6 := hcol ω j hj
    rw [hy ω] at h6
    simp only [Spec.col, List.map_cons, List.map_nil, List.cons.injEq, and_true] at h6
    exact h6
  have hone : ∀ j < d, P.real (outside j) ≤ 2 / (n + 1) := by
    intro j hj
    have hsub : outside j ⊆ {ω | ∀ i < n, coord (row (s i ω)) j < coord (row (s n ω)) j} ∪ {ω | ∀ i < n, -coord (row (s i ω)) j < -coord (row (s n ω)) j} := by
      rintro ω ⟨hnc, hout⟩
      by_contra hcon
      simp only [Set.mem_union, Set.mem_ofPred_eq, not_or, not_forall, not_lt] at hcon
      obtain ⟨⟨a, ha, hxa⟩, b, hb, hxb⟩ := hcon
      apply hout
      have hc := col_onFirst (d := d) (row := row) (s := s) n ω j
      set mm := (Spec.col ⟨d, onFirst row s n ω⟩ j).foldl minmaxUpd (Scalar.maxVal, -Scalar.maxVal) with hmm
      have hle := (foldl_minmax_le (Spec.col ⟨d, onFirst row s n ω⟩ j) (Scalar.maxVal, -Scalar.maxVal)).2.2
      rw [← hmm] at hle
      have hmem : ∀ i < n, coord (row (s i ω)) j ∈ Spec.col ⟨d, onFirst row s n ω⟩ j := fun i hi => by
        rw [hc]; exact List.mem_map.2 ⟨i, List.mem_range.2 hi, rfl⟩
      have hlt : mm.1 < mm.2 := by
        rw [← hc] at hnc
        obtain ⟨u, hu, v, hv, huv⟩ := hnc
        rcases lt_or_gt_of_ne huv with h | h
        · exact lt_of_le_of_lt (hle u hu).1 (lt_of_lt_of_le h (hle v hv).2)
        · exact lt_of_le_of_lt (hle v hv).1 (lt_of_lt_of_le h (hle u hu).2)
      have h1 : coord (row (s n ω)) j ≤ mm.2 := hxa.trans (hle _ (hmem a ha)).2
      have h2 : mm.1 ≤ coord (row (s n ω)) j := (hle _ (hmem b hb)).1.trans (by linarith)
      obtain ⟨f1, f2⟩ := hfac ω j hj
      rw [hval ω j hj, f2]
      have f1' : (t ω).scale.getD j 0 = (f.scaledMax - f.scaledMin) / (mm.2 - mm.1) := f1
      set x := coord (row (s n ω)) j
      set k := (t ω).scale.getD j 0
      have hk : 0 ≤ k := by rw [f1']; exact div_nonneg (by linarith) (by linarith)
      have hk2 : k * (mm.2 - mm.1) = f.scaledMax - f.scaledMin := by rw [f1']; exact div_mul_cancel₀ _ (by linarith)
      change f.scaledMin ≤ x * k + (f.scaledMax - mm.2 * k) ∧ x * k + (f.scaledMax - mm.2 * k) ≤ f.scaledMax
      constructor <;> nlinarith
    refine (measureReal_mono hsub).trans ((measureReal_union_le _ _).trans ?_)
    have r1 := sample_record hs (hrm j hj) n
    have r2 := sample_record hs (e := fun x => -coord (row x) j) (hrm j hj).neg n
    have : (2 : ℝ) / (n + 1) = 1 / (n + 1) + 1 / (n + 1) := by ring
    rw [this]
    exact add_le_add r1 r2
  refine ⟨hone, ?_⟩
  have hU : {ω | ∃ j < d, ω ∈ outside j} = ⋃ j ∈ Finset.range d, outside j := by
    ext ω
    simp
  rw [hU]
  refine (measureReal_biUnion_finset_le _ _).trans ((Finset.sum_le_sum fun j hj => hone j (Finset.mem_range.1 hj)).trans ?_)
  rw [Finset.sum_const, Finset.card_range, nsmul_eq_mul]
  exact le_of_eq (by ring)

end

/-! ### The error on the training data is too small on average -/

section
variable {Ω S : Type} [MeasurableSpace Ω] [MeasurableSpace S] {P : Measure Ω} [IsProbabilityMeasure P] {s : ℕ → Ω → S} (hs : IsSample P s) {d : ℕ}
  {row : S → List ℝ} (hlen : ∀ x, (row x).length = d) {target : S → ℝ}

/-- `e` is the mean squared error of linear regression on the data it was trained on, 0 where training fails. -/
def Spec.TrainingError (solve : Mat ℝ → List ℝ → Outcome (List ℝ)) (X : Mat ℝ) (y : List ℝ) (e : ℝ) : Prop :=
  (∃ m p, LinReg.train solve X y = ok m ∧ m.predict X = ok p ∧ e = squaredErrors y p / X.rows.length) ∨ (∀ m, LinReg.train solve X y ≠ ok m) ∧ e = 0

include hs hlen in
/-- **C116 (training error).** The mean squared error of linear regression on its `n` training samples is on average at most the mean squared error, on a new sample, of any affine
function, the trained ones included. -/
theorem C116_training_error {solve : Mat ℝ → List ℝ → Outcome (List ℝ)} (hse : SolvesExactly solve) {n : ℕ} (hn : 0 < n) :
    ∃ e : Ω → ℝ, (∀ ω, TrainingError solve ⟨d, onFirst row s n ω⟩ (onFirst target s n ω) (e ω)) ∧
      ∀ β : List ℝ, β.length = d + 1 → Measurable (fun x => target x - affine β (row x)) → MemLp (fun ω => target (s 0 ω) - affine β (row (s 0 ω))) 2 P →
        ∫ ω, e ω ∂P ≤ affineRisk P s row target β := by
  classical
  have hXW : ∀ ω, (⟨d, onFirst row s n ω⟩ : Mat ℝ).WF := by
    intro ω r hr
    obtain ⟨i, -, rfl⟩ := List.mem_map.1 hr
    exact hlen _
  have hex : ∀ ω, ∃ e, TrainingError solve ⟨d, onFirst row s n ω⟩ (onFirst target s n ω) e := by
    intro ω
    by_cases h : ∃ m, LinReg.train solve ⟨d, onFirst row s n ω⟩ (onFirst target s n ω) = ok m
    · obtain ⟨m, hm⟩ := h
      obtain ⟨p, hp, -⟩ := C48_residuals hse _ (hXW ω) _ m hm
      exact ⟨_, Or.inl ⟨m, p, hm, hp, rfl⟩⟩
    · exact ⟨0, Or.inr ⟨fun m hm => h ⟨m, hm⟩, rfl⟩⟩
  choose e he using hex
  refine ⟨e, he, fun β hβ hbm hb2 => ?_⟩
  obtain ⟨a1, a2⟩ := sample_mean hs (e := fun x => (target x - affine β (row x)) ^ 2) (hbm.pow_const 2) hb2.integrable_sq hn
  have hrisk : affineRisk P s row target β = ∫ ω, (target (s 0 ω) - affine β (row (s 0 ω))) ^ 2 ∂P := by
    unfold affineRisk
    rfl
  rw [hrisk, ← a2]
  have hsq : ∀ ω (γ : List ℝ), squaredErrors (onFirst target s n ω) ((onFirst row s n ω).map (affine γ)) = ∑ i ∈ Finset.range n, (target (s i ω) - affine γ (row (s i ω))) ^ 2 := by
    intro ω γ
    unfold squaredErrors onFirst
    rw [List.map_map, List.zipWith_map, List.zipWith_self, lsum_range]
    rfl
  have hcase : ∀ ω, e ω = 0 ∨ ∃ γ : List ℝ, e ω = (∑ i ∈ Finset.range n, (target (s i ω) - affine γ (row (s i ω))) ^ 2) / n ∧
      ∑ i ∈ Finset.range n, (target (s i ω) - affine γ (row (s i ω))) ^ 2 ≤ ∑ i ∈ Finset.range n, (target (s i ω) - affine β (row (s i ω))) ^ 2 := by
    intro ω
    rcases he ω with ⟨m, p, hm, hp, h⟩ | ⟨-, h⟩
    · obtain ⟨γ, hγ, hγl, hbest⟩ := C48_least_squares hse _ (hXW ω) _ m hm
      have hmγ : m = ⟨some γ⟩ := by cases m; simp only at hγ; rw [hγ]
      rw [hmγ, C48_predict γ _ hγl] at hp
      cases hp
      have hlenr : ((onFirst row s n ω).length : ℝ) = n := by rw [onFirst_length]
      refine Or.inr ⟨γ, by rw [h, hlenr]; exact congrArg (· / (n : ℝ)) (hsq ω γ), ?_⟩
      have hr : ∀ δ : List ℝ, rss ⟨d, onFirst row s n ω⟩ (onFirst target s n ω) δ = ∑ i ∈ Finset.range n, (target (s i ω) - affine δ (row (s i ω))) ^ 2 := by
        intro δ
        unfold rss onFirst
        rw [List.zipWith_map, List.zipWith_self, lsum_range]
      by_cases hc : β = γ
      · rw [hc]
      · rw [← hr, ← hr]
        exact (hbest β hβ hc).le
    · exact Or.inl h
  refine integral_mono_of_nonneg (Eventually.of_forall fun ω => ?_) a1 (Eventually.of_forall fun ω => ?_)
  · rcases hcase ω with h | ⟨γ, h, -⟩
    · rw [h]; rfl
    · rw [h]
      simp only [Pi.zero_apply]
      positivity
  · rcases hcase ω with h | ⟨γ, h, h'⟩
    · simp only [h]
      positivity
    · simp only [h]
      gcongr

end

/-! ### Cross validation -/

/-- Whatever state the model is in, training it on the samples `train` and testing it on `test` succeeds and gives the score `loss train test`. -/
def Spec.ScoresAs {σ X Y S : Type} (M : SupModel σ X Y) (x : S → X) (y : S → Y) (score : List Y → List Y → Outcome ℝ) (loss : List S → List S → ℝ) : Prop :=
  ∀ (st : σ) (train test : List S), train ≠ [] → test ≠ [] →
    ∃ st' out, M.train st (train.map x) (train.map y) = (st', ok ()) ∧ M.predict st' (test.map x) = ok out ∧ score out (test.map y) = ok (loss train test)

theorem runs_scores {σ X Y S : Type} {M : SupModel σ X Y} {x : S → X} {y : S → Y} {score : List Y → List Y → Outcome ℝ} {loss : List S → List S → ℝ}
    (h : ScoresAs M x y score loss) (z : ℕ → S) (n : ℕ) {folds : List Partition} {st st' : σ} {res : Outcome (List ℝ)}
    (hr : Runs M ((List.range n).map fun i => x (z i)) ((List.range n).map fun i => y (z i)) score folds st st' res) :
    (∀ p ∈ folds, (p.train ++ p.test).Perm (List.range n) ∧ p.train ≠ [] ∧ p.test ≠ []) → res = ok (folds.map fun p => loss (p.train.map z) (p.test.map z)) := by
  have hrows : ∀ {T : Type} (g : S → T) (idx : List ℕ) (rows : List T), (∀ i ∈ idx, i < n) → RowsAt ((List.range n).map fun i => g (z i)) idx rows → rows = (idx.map z).map g := by
    intro T g idx rows hidx hR
    induction hR with
    | nil => rfl
    | cons h1 h2 ih =>
      rename_i a b l1 l2
      have ha := hidx a (by simp)
      rw [List.getElem?_map, List.getElem?_range ha] at h1
      simp only [Option.map_some, Option.some.injEq] at h1
      rw [List.map_cons, List.map_cons, ← h1, ← ih fun i hi => hidx i (by simp [hi])]
  induction hr with
  | done s => intro _; rfl
  | @fold p ps s s' s'' xs ys tx ty out c res hx hy htx hty htrain hpred hscore rest ih =>
    intro hp
    obtain ⟨q1, q2, q3⟩ := hp p (by simp)
    have hl1 : ∀ i ∈ p.train, i < n := fun i hi => List.mem_range.1 (q1.mem_iff.1 (by simp [hi]))
    have hl2 : ∀ i ∈ p.test, i < n := fun i hi => List.mem_range.1 (q1.mem_iff.1 (by simp [hi]))
    obtain ⟨s1, out1, k1, k2, k3⟩ := h s (p.train.map z) (p.test.map z) (by simpa using q2) (by simpa using q3)
    rw [hrows x _ _ hl1 hx, hrows y _ _ hl1 hy, k1] at htrain
    obtain ⟨rfl, -⟩ := Prod.mk.inj htrain
    rw [hrows x _ _ hl2 htx, k2] at hpred
    cases hpred
    rw [hrows y _ _ hl2 hty, k3] at hscore
    cases hscore
    rw [ih fun q hq => hp q (by simp [hq])]
    rfl
  | @trainStops p ps s s' xs ys bad res hx hy htrain hbad hres =>
    intro hp
    exfalso
    obtain ⟨q1, q2, q3⟩ := hp p (by simp)
    have hl1 : ∀ i ∈ p.train, i < n := fun i hi => List.mem_range.1 (q1.mem_iff.1 (by simp [hi]))
    obtain ⟨s1, out1, k1, -, -⟩ := h s (p.train.map z) (p.test.map z) (by simpa using q2) (by simpa using q3)
    rw [hrows x _ _ hl1 hx, hrows y _ _ hl1 hy, k1] at htrain
    exact hbad (Prod.mk.inj htrain).2.symm
  | @testStops p ps s s' xs ys tx ty bad res hx hy htx hty htrain hbad hne hres =>
    intro hp
    exfalso
    obtain ⟨q1, q2, q3⟩ := hp p (by simp)
    have hl1 : ∀ i ∈ p.train, i < n := fun i hi => List.mem_range.1 (q1.mem_iff.1 (by simp [hi]))
    have hl2 : ∀ i ∈ p.test, i < n := fun i hi => List.mem_range.1 (q1.mem_iff.1 (by simp [hi]))
    obtain ⟨s1, out1, k1, k2, k3⟩ := h s (p.train.map z) (p.test.map z) (by simpa using q2) (by simpa using q3)
    rw [hrows x _ _ hl1 hx, hrows y _ _ hl1 hy, k1] at htrain
    obtain ⟨rfl, -⟩ := Prod.mk.inj htrain
    rw [hrows x _ _ hl2 htx, k2] at hbad
    simp only [ok_bind] at hbad
    rw [hrows y _ _ hl2 hty, k3] at hbad
    exact hne _ hbad.symm

section
variable {Ω S : Type} [MeasurableSpace Ω] [MeasurableSpace S] {P : Measure Ω} [IsProbabilityMeasure P] {s : ℕ → Ω → S} (hs : IsSample P s)
  {σ X Y : Type} {M : SupModel σ X Y} {x : S → X} {y : S → Y} {score : List Y → List Y → Outcome ℝ} {loss : List S → List S → ℝ} (hM : ScoresAs M x y score loss)
  (hloss : ∀ a b, Measurable fun z : (Fin a → S) × (Fin b → S) => loss (List.ofFn z.1) (List.ofFn z.2))

include hs hloss in
theorem loss_exchange {a b a' b' : List ℕ} (h : (a ++ b).Nodup) (h' : (a' ++ b').Nodup) (ha : a.length = a'.length) (hb : b.length = b'.length) :
    ∫ ω, loss (a.map (s · ω)) (b.map (s · ω)) ∂P = ∫ ω, loss (a'.map (s · ω)) (b'.map (s · ω)) ∂P := by
  have hinj : ∀ u v : List ℕ, (u ++ v).Nodup → Function.Injective (Sum.elim (fun i : Fin u.length => u[i]) fun i : Fin v.length => v[i]) := by
    intro u v huv
    obtain ⟨h1, h2, h3⟩ := List.nodup_append.1 huv
    refine Function.Injective.sumElim ?_ ?_ ?_
    · intro i j hij
      exact Fin.ext ((List.Nodup.getElem_inj_iff h1).1 hij)
    · intro i j hij
      exact Fin.ext ((List.Nodup.getElem_inj_iff h2).1 hij)
    · intro i j hij
      exact h3 _ (List.getElem_mem i.2) _ (List.getElem_mem j.2) hij
  have hF : ∀ p q, Measurable fun z : Fin p ⊕ Fin q → S => loss (List.ofFn fun i => z (Sum.inl i)) (List.ofFn fun i => z (Sum.inr i)) := by
    intro p q
    refine (hloss p q).comp (f := fun z : Fin p ⊕ Fin q → S => ((fun i => z (Sum.inl i)), fun i => z (Sum.inr i))) ?_
    exact Measurable.prodMk (measurable_pi_iff.2 fun i => measurable_pi_apply _) (measurable_pi_iff.2 fun i => measurable_pi_apply _)
  have hof : ∀ (u : List ℕ) (ω : Ω), u.map (s · ω) = List.ofFn fun i : Fin u.length => s u[i] ω := by
    intro u ω
    refine List.ext_getElem (by simp) fun i h1 h2 => ?_
    simp
  have hof' : ∀ (u v : List ℕ) (hl : u.length = v.length) (ω : Ω), v.map (s · ω) = List.ofFn fun i : Fin u.length => s (v[i.1]'(lt_of_lt_of_eq i.2 hl)) ω := by
    intro u v hl ω
    refine List.ext_getElem (by simp [hl]) fun i h1 h2 => ?_
    simp
  have hinj' : Function.Injective (Sum.elim (fun i : Fin a.length => a'[i.1]'(lt_of_lt_of_eq i.2 ha)) fun i : Fin b.length => b'[i.1]'(lt_of_lt_of_eq i.2 hb)) := by
    have h2 := hinj a' b' h'
    have h3 := h2.comp (Function.Injective.sumMap (Fin.cast_injective ha) (Fin.cast_injective hb))
    refine (congrArg Function.Injective ?_).mp h3
    funext i
    rcases i with i | i <;> rfl
  have h1 := sample_exchange hs (hinj a b h) hinj' (hF a.length b.length)
  simp only [Sum.elim_inl, Sum.elim_inr] at h1
  have e1 : ∫ ω, loss (a.map (s · ω)) (b.map (s · ω)) ∂P = ∫ ω, loss (List.ofFn fun i : Fin a.length => s a[i] ω) (List.ofFn fun i : Fin b.length => s b[i] ω) ∂P := by
    simp only [hof]
  rw [e1, h1]
  refine integral_congr_ae (Eventually.of_forall fun ω => ?_)
  beta_reduce
  rw [hof' a a' ha ω, hof' b b' hb ω]

include hs hM hloss in
/-- **C116 (cross validation).** For a model whose training does not depend on earlier training, the expected score of fold `i` of a k-fold cross validation of `n` independent samples is
the expected score of the model trained on as many independent samples as the other folds have and tested on as many further ones as fold `i` has, however the samples are shuffled. -/
theorem C116_cross_validation (r : ℕ → ℕ) (st : σ) {n k : ℕ} (hk : 1 < k) (hn : k ≤ n) :
    ∃ costs : Ω → List ℝ, (∀ ω, (kFoldValidate r M st (onFirst x s n ω) (onFirst y s n ω) k score).2 = ok (costs ω) ∧ (costs ω).length = k) ∧
      ∀ i < k, ∫ ω, (costs ω).getD i 0 ∂P =
        ∫ ω, loss ((List.range (n - testSize n k i)).map (s · ω)) ((List.range (testSize n k i)).map fun j => s (n - testSize n k i + j) ω) ∂P := by
  have hp : (fyRec r 0 (List.range n)).Perm (List.range n) := fyRec_perm _ n _ _ (by simp)
  have hidx : createShuffledIndices r n = ok (fyRec r 0 (List.range n)) := inPlaceFisherYates_eq r _
  set idx := fyRec r 0 (List.range n) with hidxdef
  have hK := isKFold_of_perm (k := k) (by omega) hp
  set folds := (List.range' 0 k).map (partAt idx k) with hfolds
  have hkl : folds.length = k := hK.length
  have hne : ∀ p ∈ folds, (p.train ++ p.test).Perm (List.range n) ∧ p.train ≠ [] ∧ p.test ≠ [] := by
    intro p hpm
    obtain ⟨i, hi, rfl⟩ := List.mem_iff_getElem.1 hpm
    have h1 := hK.complementary _ hpm
    have h2 := hK.sizes i hi
    have h3 : folds[i].train.length + folds[i].test.length = n := by simpa using h1.length_eq
    have h4 : 1 ≤ n / k := (Nat.one_le_div_iff (by omega)).2 hn
    have h5 : n / k * 2 ≤ n / k * k := Nat.mul_le_mul_left _ hk
    have h6 := Nat.div_add_mod n k
    rw [mul_comm] at h6
    refine ⟨h1, fun hc => ?_, fun hc => ?_⟩
    · rw [hc] at h3
      simp only [List.length_nil, zero_add] at h3
      rw [h3] at h2
      split_ifs at h2 with h7
      · omega
      · omega
    · rw [hc] at h2
      simp at h2
      omega
  have hrun : ∀ ω, (kFoldValidate r M st (onFirst x s n ω) (onFirst y s n ω) k score).2 = ok (folds.map fun p => loss (p.train.map (s · ω)) (p.test.map (s · ω))) := by
    intro ω
    have l1 : (onFirst x s n ω).length = n := onFirst_length _ _ _ _
    have l2 : (onFirst y s n ω).length = n := onFirst_length _ _ _ _
    have hlen : idx.length = n := by simpa using hp.length_eq
    have hlt : ∀ i ∈ idx, i < n := fun i h => List.mem_range.1 (hp.mem_iff.1 h)
    obtain ⟨s', res, hr1, hr2⟩ := kFoldLoop_runs M (onFirst x s n ω) (onFirst y s n ω) score idx (by rw [l1]; exact hlt) (by rw [l2]; exact hlt) k k 0 st [] (by omega)
    have hres := runs_scores hM (s · ω) n hr2 hne
    have : (do
      assert (decide ((onFirst x s n ω).length = (onFirst y s n ω).length))
      let shuffled ← createShuffledIndices r (onFirst x s n ω).length
      Folds.new shuffled k) = ok ⟨k, idx, 0⟩ := by
      simp only [l1, l2, decide_true, assert_true, ok_bind]
      rw [hidx, ok_bind]
      simp [Folds.new, hlen, hk, hn]
    rw [kFoldValidate, this]
    simp only [hr1, List.nil_append]
    rw [hres]
    rfl
  refine ⟨_, fun ω => ⟨hrun ω, by rw [List.length_map, hkl]⟩, fun i hi => ?_⟩
  have hif : i < folds.length := by rw [hkl]; exact hi
  have hcomp := hK.complementary _ (List.getElem_mem hif)
  have hsize : folds[i].test.length = testSize n k i := hK.sizes i hif
  have htot : folds[i].train.length + folds[i].test.length = n := by simpa using hcomp.length_eq
  have e1 : ∀ ω, (folds.map fun p => loss (p.train.map (s · ω)) (p.test.map (s · ω))).getD i 0 = loss (folds[i].train.map (s · ω)) (folds[i].test.map (s · ω)) := by
    intro ω
    rw [List.getD_eq_getElem?_getD, List.getElem?_map, List.getElem?_eq_getElem hif]
    rfl
  simp only [e1]
  rw [loss_exchange hs hloss (a' := List.range (n - testSize n k i)) (b' := List.range' (n - testSize n k i) (testSize n k i)) (hcomp.nodup_iff.2 List.nodup_range) ?_
    (by rw [List.length_range]; omega) (by rw [List.length_range', hsize])]
  · refine integral_congr_ae (Eventually.of_forall fun ω => ?_)
    simp only
    rw [List.range'_eq_map_range, List.map_map]
    rfl
  · refine List.nodup_append.2 ⟨List.nodup_range, List.nodup_range', ?_⟩
    intro u hu v hv
    rw [List.mem_range] at hu
    have := List.mem_range'_1.1 hv
    omega

end

/-! ### The hypotheses are met -/

/-- Bernoulli naive Bayes on rows with one-hot labels meets the hypothesis of the theorem on cross validation: training succeeds, whatever was trained before, and the accuracy is a function
of the training and the test samples. -/
theorem bernoulli_scores {S : Type} {d k : ℕ} (hk : 0 < k) {row label : S → List ℝ} (hrow : ∀ x, (row x).length = d) (cls : S → ℕ) (hlab : ∀ x, IsOneHot k (cls x) (label x)) :
    ∃ loss : List S → List S → ℝ, ScoresAs (nbSup (bernDistr : NBDistr (LogProbsD ℝ) ℝ) d k) row label (fun o t => rowAccuracy (F := ℝ) ⟨k, o⟩ ⟨k, t⟩) loss := by
  have hT : ∀ l : List S, (⟨k, l.map label⟩ : Mat ℝ).WF := by
    intro l r hr
    obtain ⟨x, -, rfl⟩ := List.mem_map.1 hr
    exact (hlab x).1
  have hX : ∀ l : List S, (⟨d, l.map row⟩ : Mat ℝ).WF := by
    intro l r hr
    obtain ⟨x, -, rfl⟩ := List.mem_map.1 hr
    exact hrow x
  have h1 : ∀ l : List S, ∀ t ∈ l.map label, ∃ v ∈ t, v = (1 : ℝ) := by
    intro l t ht
    obtain ⟨x, -, rfl⟩ := List.mem_map.1 ht
    obtain ⟨a, b, c⟩ := hlab x
    refine ⟨_, ?_, rfl⟩
    have h2 := c (cls x) b
    rw [if_pos rfl, coord, List.getD_eq_getElem?_getD, List.getElem?_eq_getElem (by omega)] at h2
    simp only [Option.getD_some] at h2
    rw [← h2]
    exact List.getElem_mem _
  have hone : ∀ train test : List S, ∃ (m' : NaiveBayes (LogProbsD ℝ) ℝ) (out : List (List ℝ)) (c : ℝ),
      (∀ st, nbTrain bernDistr st ⟨d, train.map row⟩ ⟨k, train.map label⟩ = (m', ok ())) ∧ (nbSup bernDistr d k).predict m' (test.map row) = ok out ∧
      rowAccuracy (F := ℝ) ⟨k, out⟩ ⟨k, test.map label⟩ = ok c := by
    intro train test
    obtain ⟨m', hm, L, Q, hL, hQ, hc, hl, hq, hF⟩ := C34_predict_bernoulli (nbNew _ ℝ) ⟨d, train.map row⟩ ⟨k, train.map label⟩ ⟨d, test.map row⟩ (hT _) (hX _) hk rfl (h1 train)
      (by simp)
    have hall : ∀ st, nbTrain bernDistr st ⟨d, train.map row⟩ ⟨k, train.map label⟩ = (m', ok ()) := by
      intro st
      obtain ⟨a, e, b, c⟩ := (nbTrain_ok_iff _ _ _ _ _ (hT train)).1 hm
      exact (nbTrain_ok_iff _ _ _ _ _ (hT train)).2 ⟨a, e, b, c⟩
    have hlq : Q.rows.length = test.length := by
      rw [← hF.length_eq, hl]
      simp
    have hacc := C10_row_accuracy ⟨k, Q.rows⟩ ⟨k, test.map label⟩ (by simp [Mat.nrows, hlq])
    refine ⟨m', Q.rows, _, hall, ?_, hacc⟩
    simp only [nbSup, hQ, ok_bind]
  choose m' out c hc using hone
  refine ⟨c, fun st train test _ _ => ⟨m' train test, out train test, (hc train test).1 st, (hc train test).2.1, (hc train test).2.2⟩⟩

/-- Non-vacuity of C116: two coins are thrown again and again, the feature is the first and the class or target the second. -/
example : ∃ (Ω : Type) (_ : MeasurableSpace Ω) (P : Measure Ω) (_ : IsProbabilityMeasure P) (s : ℕ → Ω → Bool × Bool), IsSample P s ∧
    let row : Bool × Bool → List ℝ := fun p => [if p.1 then 1 else 0]
    let label : Bool × Bool → List ℝ := fun p => if p.2 then [0, 1] else [1, 0]
    (∃ t : Ω → Standardizer ℝ, (∀ ω, standardizerFit ⟨0, 1⟩ ⟨1, onFirst row s 5 ω⟩ = ok (t ω)) ∧ ∫ ω, (t ω).means.getD 0 0 ∂P = 1 / 2 ∧ ∫ ω, (t ω).variances.getD 0 0 ∂P = 1 / 4) ∧
    (∃ y : Ω → List ℝ, (∀ ω, ∃ t, minmaxFit ⟨0, 10⟩ ⟨1, onFirst row s 9 ω⟩ = ok t ∧ minmaxTransform t ⟨1, [row (s 9 ω)]⟩ = ok ⟨1, [y ω]⟩) ∧
      P.real {ω | NonConstant (onFirst (fun x => coord (row x) 0) s 9 ω) ∧ ¬ (0 ≤ coord (y ω) 0 ∧ coord (y ω) 0 ≤ 10)} ≤ 1 / 5) ∧
    (∃ e : Ω → ℝ, (∀ ω, TrainingError (gaussSolve 0) ⟨1, onFirst row s 5 ω⟩ (onFirst (fun p => if p.2 then 1 else 0) s 5 ω) (e ω)) ∧ ∫ ω, e ω ∂P ≤ 1 / 4) ∧
    ∃ (loss : List (Bool × Bool) → List (Bool × Bool) → ℝ) (costs : Ω → List ℝ),
      (∀ ω, (kFoldValidate (fun _ => 0) (nbSup (bernDistr : NBDistr (LogProbsD ℝ) ℝ) 1 2) (nbNew _ ℝ) (onFirst row s 5 ω) (onFirst label s 5 ω) 5
        (fun o t => rowAccuracy (F := ℝ) ⟨2, o⟩ ⟨2, t⟩)).2 = ok (costs ω) ∧ (costs ω).length = 5) ∧
      ∀ i < 5, ∫ ω, (costs ω).getD i 0 ∂P = ∫ ω, loss [s 0 ω, s 1 ω, s 2 ω, s 3 ω] [s 4 ω] ∂P := by
  obtain ⟨Ω, mΩ, P, hP, s, hs, hlaw⟩ := sample_exists (PMF.uniformOfFintype (Bool × Bool)).toMeasure
  refine ⟨Ω, mΩ, P, hP, s, hs, ?_⟩
  intro row label
  have hlen : ∀ x, (row x).length = 1 := fun x => rfl
  have hrm : ∀ j < 1, Measurable fun x => coord (row x) j := fun j _ => Measurable.of_discrete
  have hlab : ∀ x, IsOneHot 2 (x.2.toNat) (label x) := by
    rintro ⟨a, b⟩
    cases b
    · refine ⟨rfl, by simp, fun j hj => ?_⟩
      interval_cases j <;> simp [label, coord]
    · refine ⟨rfl, by simp, fun j hj => ?_⟩
      interval_cases j <;> simp [label, coord]
  have hm : featureMean P s row 0 = 1 / 2 := by
    refine (exCoin_int hs hlaw fun p => coord (row p) 0).trans ?_
    simp [row, coord]
    norm_num
  have hv : featureVar P s row 0 = 1 / 4 := by
    unfold featureVar
    rw [hm]
    refine (exCoin_int hs hlaw fun p => (coord (row p) 0 - 1 / 2) ^ 2).trans ?_
    simp [row, coord]
    norm_num
  refine ⟨?_, ?_, ?_, ?_⟩
  · obtain ⟨t, h1, h2⟩ := C116_standardizer hs hlen hrm (fun j _ => exCoin_memLp hs fun p => coord (row p) j) ⟨0, 1⟩ (n := 5) (by norm_num)
    obtain ⟨-, h3, -, -, h4⟩ := h2 0 (by norm_num)
    exact ⟨t, h1, h3.trans hm, h4.trans hv⟩
  · obtain ⟨y, h1, h2, -⟩ := C116_minmax hs hlen hrm ⟨0, 10⟩ (by norm_num) 9
    refine ⟨y, h1, (h2 0 (by norm_num)).trans (by norm_num)⟩
  · obtain ⟨e, h1, h2⟩ := C116_training_error hs hlen (target := fun p => if p.2 then 1 else 0) (gaussSolve_exact 0 le_rfl) (n := 5) (by norm_num)
    refine ⟨e, h1, (h2 [1 / 2, 0] rfl Measurable.of_discrete (exCoin_memLp hs fun p => (if p.2 then 1 else 0) - affine [1 / 2, 0] (row p))).trans ?_⟩
    refine (exCoin_int hs hlaw fun p => ((if p.2 then 1 else 0) - affine [1 / 2, 0] (row p)) ^ 2).le.trans ?_
    simp [row, affine, Spec.inner]
    norm_num
  · obtain ⟨loss, hloss⟩ := bernoulli_scores (d := 1) (k := 2) (by norm_num) (row := row) (label := label) hlen _ hlab
    obtain ⟨costs, h1, h2⟩ := C116_cross_validation hs hloss (fun a b => Measurable.of_discrete) (fun _ => 0) (nbNew _ ℝ) (n := 5) (k := 5) (by norm_num) (by norm_num)
    refine ⟨loss, costs, h1, fun i hi => ?_⟩
    rw [h2 i hi]
    have : testSize 5 5 i = 1 := by simp [testSize]
    rw [this]
    rfl

end RM
