import Verif.Props.Svm
import Verif.Props.TestScores

/-! C68: what the support vector machine becomes when it is trained for long. -/

namespace RM
open Outcome Scalar Spec MeasureTheory ProbabilityTheory Filter Topology

/-- The classifier that weighs all training samples alike: the sign of the mean of `y_j k(z, x_j)`. -/
noncomputable def Spec.kernelMeanSign (k : List ℝ → List ℝ → ℝ) (X : Mat ℝ) (y z : List ℝ) : ℝ :=
  if 0 ≤ (∑ j ∈ Finset.range X.rows.length, y.getD j 0 * k (1 :: z) (lifted X j)) / X.rows.length then 1 else -1

/-- The predictions come with multipliers near the shares of the draws. -/
theorem svm_near_shares {m : Svm XR} {k : List ℝ → List ℝ → ℝ} (hk : FiniteKernel m.ker k) {lambda : ℝ} (hm : m.lambda = XR.fin lambda) (hl : 0 < lambda)
    {X : Mat ℝ} (hX : X.WF) {y : List ℝ} (hy : y.length = X.rows.length) (hn : X.rows ≠ []) (hT : 0 < m.optimIters) (draws : ℕ → ℕ) :
    ∃ (m' : Svm XR) (a : ℕ → ℝ), m.train draws (finMat X) (fins y) = ok m' ∧
      (∀ Z : Mat ℝ, Z.WF → Z.cols = X.cols → m'.predict (finMat Z) = ok (Z.rows.map fun z => XR.fin (if 0 ≤ decision k lambda X y a z then 1 else -1))) ∧
      ∀ i, a i ≤ (timesDrawn (fun t => draws t % X.rows.length) m.optimIters i : ℝ) / m.optimIters ∧
        (timesDrawn (fun t => draws t % X.rows.length) m.optimIters i : ℝ) / m.optimIters - a i ≤ (max 0 (y.getD i 0 * kernelMass k X i / lambda) + 1) / m.optimIters := by
  obtain ⟨m', a, h1, h2, h3⟩ := C68_long_run hk hm hl hX hy hn hT draws
  refine ⟨m', a, h1, fun Z hZ hc => ?_, h3⟩
  obtain ⟨m'', a', g1, g2, g3⟩ := C58_outputs hk hm hl hX hy hn hT draws hZ hc
  rw [h1] at g1
  injection g1 with g1
  subst g1
  rw [g3]
  have hsame : ∀ j ∈ Finset.range X.rows.length, a' j = a j := by
    intro j hj
    rw [h2] at g2
    injection g2 with g2
    have := List.map_inj_left.1 g2 j (by simpa using hj)
    injection this with this
    exact this.symm
  have : ∀ z, decision k lambda X y a' z = decision k lambda X y a z := by
    intro z
    unfold decision
    rw [Finset.sum_congr rfl fun j hj => by rw [hsame j hj]]
  simp only [this]

/-- **C68 (long training).** If the draws are independent and each sample is drawn with the same probability, then almost surely, for every new point at
which the mean of `y_j k(z, x_j)` over the training samples is not zero, all long enough trainings predict the sign of that mean: neither the
regularisation nor the margins have any influence. -/
theorem C68_kernel_mean {Ω : Type} [MeasurableSpace Ω] {P : Measure Ω} [IsProbabilityMeasure P] {draws : ℕ → Ω → ℕ} (hs : IsSample P draws)
    {m : Svm XR} {k : List ℝ → List ℝ → ℝ} (hk : FiniteKernel m.ker k) {lambda : ℝ} (hm : m.lambda = XR.fin lambda) (hl : 0 < lambda)
    {X : Mat ℝ} (hX : X.WF) {y : List ℝ} (hy : y.length = X.rows.length) (hn : X.rows ≠ [])
    (hu : ∀ i < X.rows.length, P.real {ω | draws 0 ω % X.rows.length = i} = 1 / X.rows.length) :
    ∀ᵐ ω ∂P, ∀ z : List ℝ, z.length = X.cols → ∑ j ∈ Finset.range X.rows.length, y.getD j 0 * k (1 :: z) (lifted X j) ≠ 0 →
      ∀ᶠ T in atTop, ∃ m', Svm.train (fun t => draws t ω) { m with optimIters := T } (finMat X) (fins y) = ok m' ∧
        m'.predict (finMat ⟨X.cols, [z]⟩) = ok [XR.fin (kernelMeanSign k X y z)] := by
  have hlen : 0 < X.rows.length := List.length_pos_iff.2 hn
  have hnpos : (0 : ℝ) < X.rows.length := by exact_mod_cast hlen
  -- the shares of the draws
  have hshare : ∀ᵐ ω ∂P, ∀ i ∈ Finset.range X.rows.length,
      Tendsto (fun T : ℕ => (timesDrawn (fun t => draws t ω % X.rows.length) T i : ℝ) / T) atTop (𝓝 (1 / X.rows.length)) := by
    rw [Filter.eventually_all_finset]
    intro i hi
    have hme : Measurable (fun d : ℕ => if d % X.rows.length = i then (1 : ℝ) else 0) := measurable_of_countable _
    have hset : MeasurableSet {ω | draws 0 ω % X.rows.length = i} := (hs.1 0) (Set.to_countable {d : ℕ | d % X.rows.length = i}).measurableSet
    have hind : (fun ω => if draws 0 ω % X.rows.length = i then (1 : ℝ) else 0) = {ω | draws 0 ω % X.rows.length = i}.indicator fun _ => 1 := by
      funext ω
      simp [Set.indicator_apply]
    have hint : Integrable (fun ω => (fun d : ℕ => if d % X.rows.length = i then (1 : ℝ) else 0) (draws 0 ω)) P := by
      change Integrable (fun ω => if draws 0 ω % X.rows.length = i then (1 : ℝ) else 0) P
      rw [hind]
      exact (integrable_const 1).indicator hset
    have hlim := sample_limit hs (e := fun d : ℕ => if d % X.rows.length = i then (1 : ℝ) else 0) hme hint
    have hval : ∫ ω, (fun d : ℕ => if d % X.rows.length = i then (1 : ℝ) else 0) (draws 0 ω) ∂P = 1 / X.rows.length := by
      change ∫ ω, (if draws 0 ω % X.rows.length = i then (1 : ℝ) else 0) ∂P = _
      rw [hind, integral_indicator hset, setIntegral_const, smul_eq_mul, mul_one, hu i (Finset.mem_range.1 hi)]
    rw [hval] at hlim
    filter_upwards [hlim] with ω h
    refine h.congr fun T => ?_
    congr 1
    unfold timesDrawn
    rw [Finset.sum_ite, Finset.sum_const_zero, add_zero, Finset.sum_const, nsmul_eq_mul, mul_one]
  filter_upwards [hshare] with ω hω z hz hne
  have hex : ∀ T : ℕ, ∃ (a : ℕ → ℝ), 0 < T → (∃ m', Svm.train (fun t => draws t ω) { m with optimIters := T } (finMat X) (fins y) = ok m' ∧
      m'.predict (finMat ⟨X.cols, [z]⟩) = ok [XR.fin (if 0 ≤ decision k lambda X y a z then 1 else -1)]) ∧
      ∀ i, a i ≤ (timesDrawn (fun t => draws t ω % X.rows.length) T i : ℝ) / T ∧
        (timesDrawn (fun t => draws t ω % X.rows.length) T i : ℝ) / T - a i ≤ (max 0 (y.getD i 0 * kernelMass k X i / lambda) + 1) / T := by
    intro T
    by_cases hT : 0 < T
    · obtain ⟨m', a, h1, h2, h3⟩ := svm_near_shares (m := { m with optimIters := T }) hk hm hl hX hy hn hT fun t => draws t ω
      exact ⟨a, fun _ => ⟨⟨m', h1, h2 ⟨X.cols, [z]⟩ (by intro r hr; simp at hr; rw [hr]; exact hz) rfl⟩, h3⟩⟩
    · exact ⟨fun _ => 0, fun h => absurd h hT⟩
  choose a ha using hex
  have hlim : ∀ i ∈ Finset.range X.rows.length, Tendsto (fun T => a T i) atTop (𝓝 (1 / X.rows.length)) := by
    intro i hi
    have h1 := hω i hi
    have h2 : Tendsto (fun T : ℕ => (max 0 (y.getD i 0 * kernelMass k X i / lambda) + 1) / (T : ℝ)) atTop (𝓝 0) := tendsto_const_div_atTop_nhds_zero_nat _
    have h3 := h1.sub h2
    rw [sub_zero] at h3
    refine tendsto_of_tendsto_of_tendsto_of_le_of_le' h3 h1 ?_ ?_
    · filter_upwards [eventually_gt_atTop 0] with T hT
      have := ((ha T hT).2 i).2
      linarith
    · filter_upwards [eventually_gt_atTop 0] with T hT
      exact ((ha T hT).2 i).1
  set S := ∑ j ∈ Finset.range X.rows.length, y.getD j 0 * k (1 :: z) (lifted X j) with hS
  have hdec : Tendsto (fun T => decision k lambda X y (a T) z) atTop (𝓝 (S / X.rows.length / lambda)) := by
    unfold decision
    apply Tendsto.div_const
    have e : S / X.rows.length = ∑ j ∈ Finset.range X.rows.length, 1 / (X.rows.length : ℝ) * y.getD j 0 * k (1 :: z) (lifted X j) := by
      rw [hS, Finset.sum_div]
      exact Finset.sum_congr rfl fun j _ => by ring
    rw [e]
    exact tendsto_finsetSum _ fun j hj => ((hlim j hj).mul_const _).mul_const _
  have hsign : ∀ᶠ T in atTop, (0 ≤ decision k lambda X y (a T) z ↔ 0 ≤ S / X.rows.length) := by
    rcases lt_or_gt_of_ne hne with h | h
    · have hneg : S / X.rows.length < 0 := div_neg_of_neg_of_pos h hnpos
      have hneg' : S / X.rows.length / lambda < 0 := div_neg_of_neg_of_pos hneg hl
      filter_upwards [hdec.eventually_lt_const hneg'] with T hT
      constructor
      · intro h0; linarith
      · intro h0; linarith
    · have hpos : 0 < S / X.rows.length := div_pos h hnpos
      have hpos' : 0 < S / X.rows.length / lambda := div_pos hpos hl
      filter_upwards [hdec.eventually_const_lt hpos'] with T hT
      exact ⟨fun _ => hpos.le, fun _ => hT.le⟩
  filter_upwards [hsign, eventually_gt_atTop 0] with T h1 hT
  obtain ⟨⟨m', g1, g2⟩, -⟩ := ha T hT
  refine ⟨m', g1, ?_⟩
  rw [g2]
  unfold kernelMeanSign
  simp only [h1, ← hS]

/-- Non-vacuity: fair draws of two samples at 1 and -3 with targets 1 and -1; the point 1 is classified as 1 by all long trainings, whatever `λ`. -/
example : ∃ (Ω : Type) (_ : MeasurableSpace Ω) (P : Measure Ω) (_ : IsProbabilityMeasure P) (draws : ℕ → Ω → ℕ), IsSample P draws ∧
    ∀ lambda : ℝ, 0 < lambda → ∀ᵐ ω ∂P, ∀ᶠ T in atTop, ∃ m',
      Svm.train (fun t => draws t ω) { ker := linearKernel (XR.fin 0), lambda := XR.fin lambda, optimIters := T } (finMat ⟨1, [[1], [-3]]⟩) (fins [1, -1]) = ok m' ∧
      m'.predict (finMat ⟨1, [[1]]⟩) = ok [XR.fin 1] := by
  obtain ⟨Ω, mΩ, P, hP, s, hs, hlaw⟩ := sample_exists (PMF.uniformOfFintype (Fin 2)).toMeasure
  have hsd : IsSample P fun t ω => (s t ω : ℕ) := by
    have hc : Measurable fun i : Fin 2 => (i : ℕ) := measurable_of_countable _
    exact ⟨fun i => hc.comp (hs.1 i), hs.2.1.comp (fun _ => fun i : Fin 2 => (i : ℕ)) fun _ => hc, fun i => (hs.2.2 i).comp hc⟩
  refine ⟨Ω, mΩ, P, hP, fun t ω => (s t ω : ℕ), hsd, fun lambda hl => ?_⟩
  have hu : ∀ i < 2, P.real {ω | (s 0 ω : ℕ) % 2 = i} = 1 / (2 : ℕ) := by
    intro i hi
    have h1 : {ω | (s 0 ω : ℕ) % 2 = i} = s 0 ⁻¹' {(⟨i, hi⟩ : Fin 2)} := by
      ext ω
      simp only [Set.mem_setOf_eq, Set.mem_preimage, Set.mem_singleton_iff, Fin.ext_iff]
      rw [Nat.mod_eq_of_lt (s 0 ω).2]
    rw [h1, ← map_measureReal_apply (hs.1 0) (measurableSet_singleton _), hlaw, Measure.real, PMF.toMeasure_apply_singleton _ _ (measurableSet_singleton _)]
    simp
  have := C68_kernel_mean hsd (m := { ker := linearKernel (XR.fin 0), lambda := XR.fin lambda }) (C58_kernels.1 0) rfl hl
    (X := ⟨1, [[1], [-3]]⟩) (by intro r hr; simp at hr; rcases hr with rfl | rfl <;> rfl) (y := [1, -1]) rfl (by simp) hu
  filter_upwards [this] with ω h
  have h1 := h [1] rfl (by norm_num [Finset.sum_range_succ, lifted, rdot])
  have e : kernelMeanSign (fun u v => rdot u v + 0) ⟨1, [[1], [-3]]⟩ [1, -1] [1] = 1 := by
    unfold kernelMeanSign
    norm_num [Finset.sum_range_succ, lifted, rdot]
  rw [e] at h1
  exact h1

end RM
