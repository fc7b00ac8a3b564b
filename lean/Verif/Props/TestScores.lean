import Verif.Props.Score
import Mathlib.Probability.StrongLaw
import Mathlib.Probability.HasLawExists
import Mathlib.Probability.Distributions.Uniform
import Mathlib.Probability.Moments.SubGaussian

/-! C114: scores on independent samples estimate how good a predictor is. Exact arithmetic. -/

namespace RM
open Outcome Scalar Spec MeasureTheory ProbabilityTheory Filter Topology

/-! ### Specification -/

/-- `s 0, s 1, …` are independent draws from one distribution. -/
def Spec.IsSample {Ω S : Type} [MeasurableSpace Ω] [MeasurableSpace S] (P : Measure Ω) (s : ℕ → Ω → S) : Prop :=
  (∀ i, Measurable (s i)) ∧ iIndepFun s P ∧ ∀ i, IdentDistrib (s i) (s 0) P P

/-- What `f` says about the first `n` samples. -/
def Spec.onFirst {Ω S T : Type} (f : S → T) (s : ℕ → Ω → S) (n : ℕ) (ω : Ω) : List T := (List.range n).map fun i => f (s i ω)

/-! ### Means of independent samples -/

section
variable {Ω S : Type} [MeasurableSpace Ω] [MeasurableSpace S] {P : Measure Ω} [IsProbabilityMeasure P] {s : ℕ → Ω → S} (hs : IsSample P s) {e : S → ℝ} (he : Measurable e)
include hs he

theorem sample_ident (i : ℕ) : IdentDistrib (fun ω => e (s i ω)) (fun ω => e (s 0 ω)) P P := (hs.2.2 i).comp he

theorem sample_indep : iIndepFun (fun i ω => e (s i ω)) P := hs.2.1.comp (fun _ => e) fun _ => he

theorem sample_mean (hint : Integrable (fun ω => e (s 0 ω)) P) {n : ℕ} (hn : 0 < n) :
    Integrable (fun ω => (∑ i ∈ Finset.range n, e (s i ω)) / n) P ∧ ∫ ω, (∑ i ∈ Finset.range n, e (s i ω)) / n ∂P = ∫ ω, e (s 0 ω) ∂P := by
  have hi : ∀ i, Integrable (fun ω => e (s i ω)) P := fun i => (sample_ident hs he i).integrable_iff.2 hint
  refine ⟨(integrable_finsetSum _ fun i _ => hi i).div_const _, ?_⟩
  rw [integral_div, integral_finsetSum _ fun i _ => hi i, Finset.sum_congr rfl fun i _ => (sample_ident hs he i).integral_eq, Finset.sum_const, Finset.card_range, nsmul_eq_mul]
  have : (n : ℝ) ≠ 0 := by exact_mod_cast hn.ne'
  field_simp

theorem sample_limit (hint : Integrable (fun ω => e (s 0 ω)) P) :
    ∀ᵐ ω ∂P, Tendsto (fun n : ℕ => (∑ i ∈ Finset.range n, e (s i ω)) / n) atTop (𝓝 (∫ ω, e (s 0 ω) ∂P)) :=
  strong_law_ae_real (fun i ω => e (s i ω)) hint (fun i j hij => (sample_indep hs he).indepFun hij) fun i => sample_ident hs he i

theorem sample_var (h2 : MemLp (fun ω => e (s 0 ω)) 2 P) {n : ℕ} (hn : 0 < n) :
    ∫ ω, ((∑ i ∈ Finset.range n, e (s i ω)) / n - ∫ ω, e (s 0 ω) ∂P) ^ 2 ∂P = (∫ ω, (e (s 0 ω) - ∫ ω, e (s 0 ω) ∂P) ^ 2 ∂P) / n := by
  have hi : ∀ i, MemLp (fun ω => e (s i ω)) 2 P := fun i => (sample_ident hs he i).memLp_iff.2 h2
  have hm : ∀ i, AEMeasurable (fun ω => e (s i ω)) P := fun i => (hi i).aestronglyMeasurable.aemeasurable
  have hv := IndepFun.variance_sum (μ := P) (s := Finset.range n) (X := fun i ω => e (s i ω)) (fun i _ => hi i)
    (fun i _ j _ hij => (sample_indep hs he).indepFun hij)
  rw [Finset.sum_congr rfl fun i _ => (sample_ident hs he i).variance_eq, Finset.sum_const, Finset.card_range, nsmul_eq_mul] at hv
  have hn0 : (n : ℝ) ≠ 0 := by exact_mod_cast hn.ne'
  have h1 := (sample_mean hs he (h2.integrable (by norm_num)) hn).2
  have hms : AEMeasurable (fun ω => (∑ i ∈ Finset.range n, e (s i ω)) / n) P := (Finset.aemeasurable_fun_sum _ fun i _ => hm i).div_const _
  have hA := variance_eq_integral hms
  rw [h1] at hA
  rw [← hA, ← variance_eq_integral (hm 0)]
  have hB : (fun ω => (∑ i ∈ Finset.range n, e (s i ω)) / n) = fun ω => (n : ℝ)⁻¹ * (∑ i ∈ Finset.range n, fun ω => e (s i ω)) ω := by
    funext ω
    rw [Finset.sum_apply, div_eq_inv_mul]
  rw [hB, variance_const_mul, hv]
  field_simp

theorem sample_hoeffding {B : ℝ} (hB : 0 < B) (hb : ∀ x, 0 ≤ e x ∧ e x ≤ B) {n : ℕ} (hn : 0 < n) {ε : ℝ} (hε : 0 ≤ ε) :
    P.real {ω | ε ≤ |(∑ i ∈ Finset.range n, e (s i ω)) / n - ∫ ω, e (s 0 ω) ∂P|} ≤ 2 * Real.exp (-2 * n * (ε / B) ^ 2) := by
  set m := ∫ ω, e (s 0 ω) ∂P with hmdef
  have hn0 : (0 : ℝ) < n := by exact_mod_cast hn
  have hsub : ∀ i, HasSubgaussianMGF (fun ω => e (s i ω) - m) ((‖B - 0‖₊ / 2) ^ 2) P := by
    intro i
    have := hasSubgaussianMGF_of_mem_Icc (μ := P) (X := fun ω => e (s i ω)) (a := 0) (b := B) (he.comp (hs.1 i)).aemeasurable (Eventually.of_forall fun ω => hb _)
    rw [(sample_ident hs he i).integral_eq] at this
    exact this
  have hind : iIndepFun (fun i ω => e (s i ω) - m) P := (sample_indep hs he).comp (fun _ x => x - m) fun _ => by fun_prop
  have hindn : iIndepFun (fun i ω => -(e (s i ω) - m)) P := hind.comp (fun _ x => -x) fun _ => by fun_prop
  have hc : (((‖B - 0‖₊ / 2) ^ 2 : NNReal) : ℝ) = B ^ 2 / 4 := by
    simp [div_pow, abs_of_pos hB]
    norm_num
  have h1 := HasSubgaussianMGF.measure_sum_range_ge_le_of_iIndepFun hind (n := n) (fun i _ => hsub i) (ε := n * ε) (by positivity)
  have h2 := HasSubgaussianMGF.measure_sum_range_ge_le_of_iIndepFun hindn (n := n) (fun i _ => (hsub i).neg) (ε := n * ε) (by positivity)
  have hexp : -(n * ε) ^ 2 / (2 * n * (((‖B - 0‖₊ / 2) ^ 2 : NNReal) : ℝ)) = -2 * n * (ε / B) ^ 2 := by
    rw [hc]
    field_simp
    ring
  rw [hexp] at h1 h2
  have hsumm : ∀ ω, ∑ i ∈ Finset.range n, (e (s i ω) - m) = n * ((∑ i ∈ Finset.range n, e (s i ω)) / n - m) := by
    intro ω
    rw [Finset.sum_sub_distrib, Finset.sum_const, Finset.card_range, nsmul_eq_mul]
    field_simp
  have hsubset : {ω | ε ≤ |(∑ i ∈ Finset.range n, e (s i ω)) / n - m|} ⊆
      {ω | n * ε ≤ ∑ i ∈ Finset.range n, (e (s i ω) - m)} ∪ {ω | n * ε ≤ ∑ i ∈ Finset.range n, -(e (s i ω) - m)} := by
    intro ω hω
    simp only [Set.mem_setOf_eq, Set.mem_union, Finset.sum_neg_distrib, hsumm] at hω ⊢
    rcases le_abs.1 hω with h | h
    · exact Or.inl (mul_le_mul_of_nonneg_left h hn0.le)
    · right
      rw [← mul_neg]
      exact mul_le_mul_of_nonneg_left h hn0.le
  calc _ ≤ P.real (_ ∪ _) := measureReal_mono hsubset
    _ ≤ _ := measureReal_union_le _ _
    _ ≤ 2 * Real.exp (-2 * n * (ε / B) ^ 2) := by linarith

end

/-! ### Accuracy -/

theorem countPos_cast (n : ℕ) (p : ℕ → Bool) : (countPos n p : ℝ) = ∑ i ∈ Finset.range n, if p i = true then (1 : ℝ) else 0 := by
  unfold countPos
  induction n with
  | zero => simp
  | succ n ih =>
    rw [List.range_succ, List.countP_append, Finset.sum_range_succ, Nat.cast_add, ih]
    by_cases h : p n = true <;> simp [h]

theorem countPos_congr {n : ℕ} {p q : ℕ → Bool} (h : ∀ i < n, p i = q i) : countPos n p = countPos n q := by
  unfold countPos
  exact List.countP_congr fun i hi => by rw [h i (List.mem_range.1 hi)]

theorem onFirst_length {Ω S T : Type} (f : S → T) (s : ℕ → Ω → S) (n : ℕ) (ω : Ω) : (onFirst f s n ω).length = n := by simp [onFirst]

theorem onFirst_getElem? {Ω S T : Type} (f : S → T) (s : ℕ → Ω → S) {n : ℕ} (ω : Ω) {i : ℕ} (hi : i < n) : (onFirst f s n ω)[i]? = some (f (s i ω)) := by
  simp [onFirst, hi]

/-- 1 on samples where the predictor is right. -/
noncomputable def hitVal {S T : Type} (eqb : T → T → Bool) (f y : S → T) (x : S) : ℝ := if eqb (f x) (y x) = true then 1 else 0

theorem accuracy_first {Ω S T : Type} (eqb : T → T → Bool) (f y : S → T) (s : ℕ → Ω → S) (n : ℕ) (ω : Ω) :
    accuracy eqb (onFirst f s n ω) (onFirst y s n ω) = ok ((∑ i ∈ Finset.range n, hitVal eqb f y (s i ω)) / (n : ℝ)) := by
  rw [(C10_accuracy_value eqb _ _).2 (by rw [onFirst_length, onFirst_length])]
  unfold testCount
  rw [onFirst_length, countPos_congr (q := fun i => eqb (f (s i ω)) (y (s i ω))) (fun i hi => by rw [onFirst_getElem? f s ω hi, onFirst_getElem? y s ω hi]), countPos_cast]
  rfl

section
variable {Ω S : Type} [MeasurableSpace Ω] [MeasurableSpace S] {P : Measure Ω} [IsProbabilityMeasure P] {s : ℕ → Ω → S} (hs : IsSample P s)
  {T : Type} {eqb : T → T → Bool} {f y : S → T} (hm : MeasurableSet {x | eqb (f x) (y x) = true})
include hs hm

theorem hitVal_measurable : Measurable (hitVal eqb f y) := Measurable.ite hm measurable_const measurable_const

theorem hitVal_integral : ∫ ω, hitVal eqb f y (s 0 ω) ∂P = P.real {ω | eqb (f (s 0 ω)) (y (s 0 ω)) = true} := by
  have hset : MeasurableSet {ω | eqb (f (s 0 ω)) (y (s 0 ω)) = true} := hs.1 0 hm
  rw [show (fun ω => hitVal eqb f y (s 0 ω)) = Set.indicator {ω | eqb (f (s 0 ω)) (y (s 0 ω)) = true} 1 from by
    funext ω
    simp [hitVal, Set.indicator_apply], integral_indicator_one hset]

theorem hitVal_memLp : MemLp (fun ω => hitVal eqb f y (s 0 ω)) 2 P := by
  refine MemLp.of_bound ((hitVal_measurable hs hm).comp (hs.1 0)).aestronglyMeasurable 1 (Eventually.of_forall fun ω => ?_)
  unfold hitVal
  split <;> simp

/-- **C114 (accuracy).** The accuracy on `n` independent samples is on average the probability `p` of a right prediction, with variance `p (1 - p) / n`, and deviates from it by `ε` or
more with probability at most `2 exp (-2 n ε²)`. -/
theorem C114_accuracy {n : ℕ} (hn : 0 < n) : ∃ score : Ω → ℝ, (∀ ω, accuracy eqb (onFirst f s n ω) (onFirst y s n ω) = ok (score ω)) ∧
    let p := P.real {ω | eqb (f (s 0 ω)) (y (s 0 ω)) = true}
    Integrable score P ∧ ∫ ω, score ω ∂P = p ∧ ∫ ω, (score ω - p) ^ 2 ∂P = p * (1 - p) / n ∧
      ∀ ε, 0 ≤ ε → P.real {ω | ε ≤ |score ω - p|} ≤ 2 * Real.exp (-2 * n * ε ^ 2) := by
  refine ⟨fun ω => (∑ i ∈ Finset.range n, hitVal eqb f y (s i ω)) / n, accuracy_first eqb f y s n, ?_⟩
  have hme := hitVal_measurable hs hm
  have h2 := hitVal_memLp hs hm
  have hI := h2.integrable (by norm_num : (1 : ENNReal) ≤ 2)
  have hE := hitVal_integral hs hm
  intro p
  obtain ⟨h3, h4⟩ := sample_mean hs hme hI hn
  refine ⟨h3, h4.trans hE, ?_, fun ε hε => ?_⟩
  · have := sample_var hs hme h2 hn
    rw [hE] at this
    rw [this]
    congr 1
    have hsq : ∀ ω, (hitVal eqb f y (s 0 ω) - p) ^ 2 = hitVal eqb f y (s 0 ω) * (1 - 2 * p) + p ^ 2 := by
      intro ω
      unfold hitVal
      split <;> ring
    rw [integral_congr_ae (Eventually.of_forall hsq), integral_add (hI.mul_const _) (integrable_const _), integral_mul_const, hE, integral_const, probReal_univ]
    simp only [one_smul]
    ring
  · have := sample_hoeffding hs hme one_pos (fun x => by unfold hitVal; split <;> norm_num) hn hε
    rw [hE, div_one] at this
    exact this

/-- **C114 (limit of the accuracy).** Almost surely the accuracy on the first `n` samples converges to the probability of a right prediction. -/
theorem C114_accuracy_limit : ∀ᵐ ω ∂P, ∃ score : ℕ → ℝ, (∀ n, accuracy eqb (onFirst f s n ω) (onFirst y s n ω) = ok (score n)) ∧
    Tendsto score atTop (𝓝 (P.real {ω | eqb (f (s 0 ω)) (y (s 0 ω)) = true})) := by
  have h2 := hitVal_memLp hs hm
  filter_upwards [sample_limit hs (hitVal_measurable hs hm) (h2.integrable (by norm_num : (1 : ENNReal) ≤ 2))] with ω hω
  rw [hitVal_integral hs hm] at hω
  exact ⟨_, fun n => accuracy_first eqb f y s n ω, hω⟩

end

/-- **C114 (choosing by accuracy).** Of `M` predictors one with the best accuracy on `n` independent samples is chosen. The probability that it is right falls short of that of some other
by more than `2 ε` only with probability `2 M exp (-2 n ε²)`. -/
theorem C114_choice {Ω S : Type} [MeasurableSpace Ω] [MeasurableSpace S] {P : Measure Ω} [IsProbabilityMeasure P] {s : ℕ → Ω → S} (hs : IsSample P s)
    {T : Type} {eqb : T → T → Bool} {M : ℕ} {f : Fin M → S → T} {y : S → T} (hm : ∀ c, MeasurableSet {x | eqb (f c x) (y x) = true}) {n : ℕ} (hn : 0 < n)
    (chosen : Ω → Fin M)
    (hbest : ∀ ω c a b, accuracy (F := ℝ) eqb (onFirst (f c) s n ω) (onFirst y s n ω) = ok a →
      accuracy eqb (onFirst (f (chosen ω)) s n ω) (onFirst y s n ω) = ok b → a ≤ b) {ε : ℝ} (hε : 0 ≤ ε) :
    let p := fun c => P.real {ω | eqb (f c (s 0 ω)) (y (s 0 ω)) = true}
    P.real {ω | ∃ c, p (chosen ω) < p c - 2 * ε} ≤ 2 * M * Real.exp (-2 * n * ε ^ 2) := by
  intro p
  have h := fun c => C114_accuracy hs (hm c) hn
  choose score h1 h2 using h
  have hsub : {ω | ∃ c, p (chosen ω) < p c - 2 * ε} ⊆ ⋃ c ∈ (Finset.univ : Finset (Fin M)), {ω | ε ≤ |score c ω - p c|} := by
    intro ω ⟨c, hc⟩
    have hb := hbest ω c _ _ (h1 c ω) (h1 (chosen ω) ω)
    simp only [Set.mem_iUnion, Set.mem_setOf_eq, Finset.mem_univ, exists_prop, true_and]
    by_contra hno
    push Not at hno
    have e1 := abs_lt.1 (hno c)
    have e2 := abs_lt.1 (hno (chosen ω))
    linarith [e1.1, e2.2]
  calc _ ≤ P.real (⋃ c ∈ (Finset.univ : Finset (Fin M)), {ω | ε ≤ |score c ω - p c|}) := measureReal_mono hsub (measure_ne_top _ _)
    _ ≤ ∑ c, P.real {ω | ε ≤ |score c ω - p c|} := measureReal_biUnion_finset_le _ _
    _ ≤ ∑ _c : Fin M, 2 * Real.exp (-2 * n * ε ^ 2) := Finset.sum_le_sum fun c _ => (h2 c).2.2.2 ε hε
    _ = 2 * M * Real.exp (-2 * n * ε ^ 2) := by
      rw [Finset.sum_const, Finset.card_univ, Fintype.card_fin, nsmul_eq_mul]
      ring

/-! ### Precision, recall and F1 -/

section
variable {Ω S : Type} [MeasurableSpace Ω] [MeasurableSpace S] {P : Measure Ω} [IsProbabilityMeasure P] {s : ℕ → Ω → S} (hs : IsSample P s)
  {T : Type} [DecidableEq T] [Zero T] [One T] [NeZero (1 : T)] {f y : S → T}

theorem pairCount_first (f y : S → T) (s : ℕ → Ω → S) (n : ℕ) (ω : Ω) (a b : T) :
    (pairCount (onFirst f s n ω) (onFirst y s n ω) a b : ℝ) = ∑ i ∈ Finset.range n, hitVal (fun u v => decide (u = a ∧ v = b)) f y (s i ω) := by
  unfold pairCount
  rw [onFirst_length, countPos_congr (q := fun i => decide (f (s i ω) = a ∧ y (s i ω) = b)) (fun i hi => by rw [onFirst_getElem? f s ω hi, onFirst_getElem? y s ω hi]; simp), countPos_cast]
  rfl

theorem onFirst_binary {g : S → T} (hg : ∀ x, g x = 0 ∨ g x = 1) (n : ℕ) (ω : Ω) : isBinary (onFirst g s n ω) := by
  intro x hx
  obtain ⟨i, -, rfl⟩ := List.mem_map.1 hx
  exact hg _

/-- The probability that the predictor says `a` where the truth is `b`. -/
noncomputable def Spec.rate (P : Measure Ω) (s : ℕ → Ω → S) (f y : S → T) (a b : T) : ℝ := P.real {ω | f (s 0 ω) = a ∧ y (s 0 ω) = b}

include hs in
/-- **C114 (limits of precision, recall and F1).** Almost surely precision, recall and F1 on the first `n` samples converge to the values computed from the probabilities of true
positives, false positives and false negatives. -/
theorem C114_two_class_limit (hf : ∀ x, f x = 0 ∨ f x = 1) (hy : ∀ x, y x = 0 ∨ y x = 1) (hm : ∀ a b, MeasurableSet {x | f x = a ∧ y x = b}) :
    let tp := rate P s f y 1 1
    let fp := rate P s f y 1 0
    let fn := rate P s f y 0 1
    ∀ᵐ ω ∂P, ∃ p r h : ℕ → ℝ, (∀ n, precision (fun x : T => decide (x = 0)) (fun x => decide (x = 1)) (onFirst f s n ω) (onFirst y s n ω) = ok (p n) ∧
        recall (fun x : T => decide (x = 0)) (fun x => decide (x = 1)) (onFirst f s n ω) (onFirst y s n ω) = ok (r n) ∧
        f1 (fun x : T => decide (x = 0)) (fun x => decide (x = 1)) (onFirst f s n ω) (onFirst y s n ω) = ok (h n)) ∧
      (0 < tp + fp → Tendsto p atTop (𝓝 (tp / (tp + fp)))) ∧ (0 < tp + fn → Tendsto r atTop (𝓝 (tp / (tp + fn)))) ∧
      (0 < 2 * tp + fp + fn → Tendsto h atTop (𝓝 (2 * tp / (2 * tp + fp + fn)))) := by
  intro tp fp fn
  have hmm : ∀ a b : T, MeasurableSet {x | (fun u v => decide (u = a ∧ v = b)) (f x) (y x) = true} := fun a b => by simpa using hm a b
  have hlim : ∀ a b : T, ∀ᵐ ω ∂P, Tendsto (fun n : ℕ => (pairCount (onFirst f s n ω) (onFirst y s n ω) a b : ℝ) / n) atTop (𝓝 (rate P s f y a b)) := by
    intro a b
    have hmem := hitVal_memLp (eqb := fun u v => decide (u = a ∧ v = b)) (f := f) (y := y) hs (hmm a b)
    filter_upwards [sample_limit hs (hitVal_measurable (eqb := fun u v => decide (u = a ∧ v = b)) (f := f) (y := y) hs (hmm a b))
      (hmem.integrable (by norm_num : (1 : ENNReal) ≤ 2))] with ω hω
    rw [hitVal_integral (eqb := fun u v => decide (u = a ∧ v = b)) (f := f) (y := y) hs (hmm a b)] at hω
    simp only [pairCount_first]
    unfold rate
    simpa using hω
  filter_upwards [hlim 1 1, hlim 1 0, hlim 0 1] with ω h1 h2 h3
  refine ⟨_, _, _, fun n => C11_score_values (onFirst f s n ω) (onFirst y s n ω) (by rw [onFirst_length, onFirst_length]) (onFirst_binary hf n ω) (onFirst_binary hy n ω), ?_, ?_, ?_⟩
  · intro hp
    refine (h1.div (h1.add h2) hp.ne').congr' ?_
    filter_upwards [eventually_gt_atTop 0] with n hn
    have : (n : ℝ) ≠ 0 := by exact_mod_cast hn.ne'
    rw [Pi.div_apply, ← add_div, div_div_div_cancel_right₀ this]
  · intro hp
    refine (h1.div (h1.add h3) hp.ne').congr' ?_
    filter_upwards [eventually_gt_atTop 0] with n hn
    have : (n : ℝ) ≠ 0 := by exact_mod_cast hn.ne'
    rw [Pi.div_apply, ← add_div, div_div_div_cancel_right₀ this]
  · intro hp
    refine ((h1.const_mul 2).div (((h1.const_mul 2).add h2).add h3) hp.ne').congr' ?_
    filter_upwards [eventually_gt_atTop 0] with n hn
    have : (n : ℝ) ≠ 0 := by exact_mod_cast hn.ne'
    rw [Pi.div_apply, ← mul_div_assoc, ← add_div, ← add_div, div_div_div_cancel_right₀ this]

end

/-! ### Squared error -/

theorem mse_first {Ω S : Type} {d : ℕ} (f y : S → List ℝ) (s : ℕ → Ω → S) (n : ℕ) (ω : Ω) :
    negMeanSquaredError ⟨d, onFirst f s n ω⟩ ⟨d, onFirst y s n ω⟩ = ok (-((∑ i ∈ Finset.range n, sqDist (f (s i ω)) (y (s i ω))) / n)) := by
  rw [(C12_value ⟨d, onFirst f s n ω⟩ ⟨d, onFirst y s n ω⟩).2 (by simp [Mat.nrows, onFirst]) rfl]
  unfold Mat.nrows
  rw [onFirst_length]
  congr 3
  simp only [onFirst]
  rw [List.zipWith_map, List.zipWith_self]
  induction n with
  | zero => simp
  | succ n ih => rw [List.range_succ, List.map_append, List.sum_append, ih, Finset.sum_range_succ]; simp

/-- **C114 (squared error).** The negative mean squared error on `n` independent samples is on average minus the mean squared error of the predictor. Almost surely it converges to this
value. If the squared error of a sample is at most `B`, it deviates by `ε` or more with probability at most `2 exp (-2 n ε² / B²)`. -/
theorem C114_squared_error {Ω S : Type} [MeasurableSpace Ω] [MeasurableSpace S] {P : Measure Ω} [IsProbabilityMeasure P] {s : ℕ → Ω → S} (hs : IsSample P s) {d : ℕ} {f y : S → List ℝ}
    (hm : Measurable fun x => sqDist (f x) (y x)) (hint : Integrable (fun ω => sqDist (f (s 0 ω)) (y (s 0 ω))) P) :
    ∃ score : ℕ → Ω → ℝ, (∀ n ω, negMeanSquaredError ⟨d, onFirst f s n ω⟩ ⟨d, onFirst y s n ω⟩ = ok (score n ω)) ∧
      let mse := ∫ ω, sqDist (f (s 0 ω)) (y (s 0 ω)) ∂P
      (∀ n, 0 < n → Integrable (score n) P ∧ ∫ ω, score n ω ∂P = -mse) ∧ (∀ᵐ ω ∂P, Tendsto (fun n => score n ω) atTop (𝓝 (-mse))) ∧
      ∀ B, 0 < B → (∀ x, sqDist (f x) (y x) ≤ B) → ∀ n, 0 < n → ∀ ε, 0 ≤ ε → P.real {ω | ε ≤ |score n ω + mse|} ≤ 2 * Real.exp (-2 * n * (ε / B) ^ 2) := by
  refine ⟨fun n ω => -((∑ i ∈ Finset.range n, sqDist (f (s i ω)) (y (s i ω))) / n), fun n ω => mse_first f y s n ω, fun n hn => ?_, ?_, ?_⟩
  · obtain ⟨h1, h2⟩ := sample_mean hs hm hint hn
    exact ⟨h1.neg, by rw [integral_neg, h2]⟩
  · filter_upwards [sample_limit hs hm hint] with ω hω
    exact hω.neg
  · intro B hB hb n hn ε hε
    have := sample_hoeffding hs hm hB (fun x => ⟨sqDist_nonneg _ _, hb x⟩) hn hε
    refine le_trans (le_of_eq ?_) this
    congr 1
    ext ω
    have hab : ∀ a b : ℝ, |-a + b| = |a - b| := fun a b => by rw [← abs_neg, neg_add, neg_neg, ← sub_eq_add_neg]
    exact iff_of_eq (congrArg (ε ≤ ·) (hab _ _))

/-! ### Examples -/

/-- Every distribution has independent samples. -/
theorem sample_exists {S : Type} [MeasurableSpace S] (μ : Measure S) [IsProbabilityMeasure μ] :
    ∃ (Ω : Type) (_ : MeasurableSpace Ω) (P : Measure Ω) (_ : IsProbabilityMeasure P) (s : ℕ → Ω → S), IsSample P s ∧ P.map (s 0) = μ := by
  obtain ⟨Ω, mΩ, P, X, h1, h2, h3, h4⟩ := exists_iid ℕ μ
  exact ⟨Ω, mΩ, P, h4, X, ⟨h1, h3, fun i => ⟨(h1 i).aemeasurable, (h1 0).aemeasurable, by rw [(h2 i).map_eq, (h2 0).map_eq]⟩⟩, (h2 0).map_eq⟩

/-- Non-vacuity of C114: guessing heads for a fair coin is right half of the time, and the accuracy on `n` throws has mean 1/2 and variance 1/(4 n). -/
example : ∃ (Ω : Type) (_ : MeasurableSpace Ω) (P : Measure Ω) (_ : IsProbabilityMeasure P) (s : ℕ → Ω → Bool), IsSample P s ∧
    ∀ n, 0 < n → ∃ score : Ω → ℝ, (∀ ω, accuracy (fun a b => a == b) (onFirst (fun _ => true) s n ω) (onFirst id s n ω) = ok (score ω)) ∧
      ∫ ω, score ω ∂P = 1 / 2 ∧ ∫ ω, (score ω - 1 / 2) ^ 2 ∂P = 1 / (4 * (n : ℝ)) := by
  obtain ⟨Ω, mΩ, P, hP, s, hs, hlaw⟩ := sample_exists (PMF.uniformOfFintype Bool).toMeasure
  refine ⟨Ω, mΩ, P, hP, s, hs, fun n hn => ?_⟩
  have hp : P.real {ω | ((fun _ => true : Bool → Bool) (s 0 ω) == id (s 0 ω)) = true} = 1 / 2 := by
    have h1 : {ω | ((fun _ => true : Bool → Bool) (s 0 ω) == id (s 0 ω)) = true} = s 0 ⁻¹' {true} := by
      ext ω
      change ((true == s 0 ω) = true) ↔ s 0 ω = true
      cases s 0 ω <;> decide
    rw [h1, ← map_measureReal_apply (hs.1 0) (measurableSet_singleton _), hlaw, Measure.real, PMF.toMeasure_apply_singleton _ _ (measurableSet_singleton _)]
    simp
  obtain ⟨score, h1, -, h2, h3, -⟩ := C114_accuracy (eqb := fun a b => a == b) (f := fun _ => true) (y := id) hs (Set.toFinite _).measurableSet hn
  simp only [hp] at h2 h3
  refine ⟨score, h1, h2, h3.trans ?_⟩
  have : (n : ℝ) ≠ 0 := by exact_mod_cast hn.ne'
  field_simp
  norm_num

end RM
