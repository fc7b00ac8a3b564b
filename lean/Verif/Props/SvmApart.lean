import Verif.Props.Svm
import Verif.Props.SvmLimit
import Verif.Spec.Score
import Mathlib.Analysis.Complex.ExponentialBounds

/-! C138: when a support vector machine tells apart what lies apart, and when it cannot. -/

namespace RM
open Outcome Scalar Spec MeasureTheory ProbabilityTheory

/-- The targets are `1` and `-1`, one for each row. -/
def Spec.SignTargets (X : Mat ℝ) (y : List ℝ) : Prop := y.length = X.rows.length ∧ ∀ i < X.rows.length, y.getD i 0 = 1 ∨ y.getD i 0 = -1

/-- The point `z` lies with the training rows of target `s`: its similarity to each of them is at least `near`, its similarity to each of the others at
most `far`. -/
def Spec.LiesWith (k : List ℝ → List ℝ → ℝ) (X : Mat ℝ) (y : List ℝ) (near far s : ℝ) (z : List ℝ) : Prop :=
  (s = 1 ∨ s = -1) ∧ z.length = X.cols ∧ (∀ j < X.rows.length, y.getD j 0 = s → near ≤ k (1 :: z) (lifted X j)) ∧
    ∀ j < X.rows.length, y.getD j 0 = -s → k (1 :: z) (lifted X j) ≤ far

/-- The number of iterations that draw sample `i` and count it. -/
noncomputable def svmCount (k : List ℝ → List ℝ → ℝ) (lambda : ℝ) (X : Mat ℝ) (y : List ℝ) (draws : ℕ → ℕ) (T i : ℕ) : ℕ :=
  open Classical in ((Finset.range T).filter fun t => draws t % X.rows.length = i ∧ y.getD i 0 * kernelMass k X i < lambda * t).card

/-- The sum the sign of which is predicted, up to a positive factor. -/
noncomputable def svmSum (k : List ℝ → List ℝ → ℝ) (lambda : ℝ) (X : Mat ℝ) (y : List ℝ) (draws : ℕ → ℕ) (T : ℕ) (z : List ℝ) : ℝ :=
  ∑ j ∈ Finset.range X.rows.length, svmCount k lambda X y draws T j * y.getD j 0 * k (1 :: z) (lifted X j)

section
variable {m : Svm XR} {k : List ℝ → List ℝ → ℝ} (hk : FiniteKernel m.ker k) {lambda : ℝ} (hm : m.lambda = XR.fin lambda) (hl : 0 < lambda)
  {X : Mat ℝ} (hX : X.WF) {y : List ℝ}

theorem svm_predictions (hk : FiniteKernel m.ker k) (hm : m.lambda = XR.fin lambda) (hl : 0 < lambda) (hX : X.WF) (hy : y.length = X.rows.length)
    (hn : X.rows ≠ []) (hT : 0 < m.optimIters) (draws : ℕ → ℕ) : ∃ m', m.train draws (finMat X) (fins y) = ok m' ∧
    ∀ Z : Mat ℝ, Z.WF → Z.cols = X.cols →
      m'.predict (finMat Z) = ok (Z.rows.map fun z => XR.fin (if 0 ≤ svmSum k lambda X y draws m.optimIters z then 1 else -1)) := by
  obtain ⟨m', h1, h2, h3, h4, h5, h6⟩ := C68_multipliers_partial hk hm hl hX hy hn hT draws
  refine ⟨m', h1, fun Z hZ hc => ?_⟩
  have hTpos : (0 : ℝ) < m.optimIters := by exact_mod_cast hT
  rw [svm_predict_fin (by rw [h2]; exact hk) (h3.trans hm) hl.ne' hX hZ hc hy
    (fun i => (svmCount k lambda X y draws m.optimIters i : ℝ) / m.optimIters) (by rw [h6]; unfold svmCount; congr!) h4 h5]
  simp only [fins, List.map_map]
  congr 1
  apply List.map_congr_left
  intro z _
  simp only [Function.comp_apply]
  have e : decision k lambda X y (fun i => (svmCount k lambda X y draws m.optimIters i : ℝ) / m.optimIters) z =
      svmSum k lambda X y draws m.optimIters z / (m.optimIters * lambda) := by
    unfold decision svmSum
    rw [Finset.sum_div, Finset.sum_div]
    refine Finset.sum_congr rfl fun j _ => ?_
    field_simp
  rw [e]
  have hp : 0 < m.optimIters * lambda := mul_pos hTpos hl
  have : (0 ≤ svmSum k lambda X y draws m.optimIters z / (m.optimIters * lambda)) ↔ 0 ≤ svmSum k lambda X y draws m.optimIters z := by
    rw [le_div_iff₀ hp, zero_mul]
  simp only [this]

theorem svmCount_sum (draws : ℕ → ℕ) (T : ℕ) (S : Finset ℕ) : ∑ i ∈ S, svmCount k lambda X y draws T i ≤ T := by
  classical
  have h : ∑ i ∈ S, svmCount k lambda X y draws T i ≤ ∑ i ∈ S, ((Finset.range T).filter fun t => draws t % X.rows.length = i).card := by
    refine Finset.sum_le_sum fun i _ => Finset.card_le_card ?_
    intro t ht
    simp only [Finset.mem_filter] at ht ⊢
    exact ⟨ht.1, ht.2.1⟩
  refine h.trans ?_
  rw [← Finset.card_biUnion]
  · refine (Finset.card_le_card (t := Finset.range T) ?_).trans_eq (Finset.card_range T)
    intro t ht
    obtain ⟨i, _, h⟩ := Finset.mem_biUnion.1 ht
    exact (Finset.mem_filter.1 h).1
  · intro i _ j _ hij
    rw [Function.onFun, Finset.disjoint_left]
    intro t h1 h2
    exact hij ((Finset.mem_filter.1 h1).2.symm.trans (Finset.mem_filter.1 h2).2)

/-- The sum has the sign of the group the point lies with. -/
theorem svmSum_sign (hy : SignTargets X y) (hn : X.rows ≠ []) (draws : ℕ → ℕ) (T : ℕ) {near far : ℝ} (hf : 0 ≤ far) (hnf : T * far < near)
    {s : ℝ} {z : List ℝ} (hz : LiesWith k X y near far s z)
    (hd : ∃ t < T, y.getD (draws t % X.rows.length) 0 = s ∧ s * kernelMass k X (draws t % X.rows.length) < lambda * t) :
    0 < s * svmSum k lambda X y draws T z := by
  classical
  obtain ⟨hs, -, hsame, hother⟩ := hz
  have hlen : 0 < X.rows.length := List.length_pos_iff.2 hn
  set c := svmCount k lambda X y draws T with hc
  set A := (Finset.range X.rows.length).filter fun j => y.getD j 0 = s with hA
  set B := (Finset.range X.rows.length).filter fun j => ¬ y.getD j 0 = s with hB
  have hss : s * s = 1 := by rcases hs with rfl | rfl <;> norm_num
  have hnear : 0 ≤ near := le_trans (mul_nonneg (Nat.cast_nonneg T) hf) hnf.le
  have hsplit : s * svmSum k lambda X y draws T z =
      ∑ j ∈ A, (c j : ℝ) * k (1 :: z) (lifted X j) - ∑ j ∈ B, (c j : ℝ) * k (1 :: z) (lifted X j) := by
    unfold svmSum
    rw [← Finset.sum_filter_add_sum_filter_not (Finset.range X.rows.length) (fun j => y.getD j 0 = s), mul_add, Finset.mul_sum, Finset.mul_sum,
      sub_eq_add_neg, ← Finset.sum_neg_distrib]
    congr 1
    · refine Finset.sum_congr rfl fun j hj => ?_
      rw [(Finset.mem_filter.1 hj).2]
      linear_combination (c j : ℝ) * k (1 :: z) (lifted X j) * hss
    · refine Finset.sum_congr rfl fun j hj => ?_
      have h1 : y.getD j 0 = -s := by
        rcases hy.2 j (Finset.mem_range.1 (Finset.mem_filter.1 hj).1) with h | h <;> rcases hs with rfl | rfl
        · exact absurd h (Finset.mem_filter.1 hj).2
        · rw [h]; norm_num
        · exact h
        · exact absurd h (Finset.mem_filter.1 hj).2
      rw [h1]
      linear_combination -(c j : ℝ) * k (1 :: z) (lifted X j) * hss
  have hone : (1 : ℝ) ≤ ∑ j ∈ A, (c j : ℝ) := by
    obtain ⟨t, ht, h1, h2⟩ := hd
    have hin : draws t % X.rows.length ∈ A := Finset.mem_filter.2 ⟨Finset.mem_range.2 (Nat.mod_lt _ hlen), h1⟩
    have hpos : 1 ≤ c (draws t % X.rows.length) := by
      rw [hc]
      unfold svmCount
      rw [Nat.one_le_iff_ne_zero, Finset.card_ne_zero]
      exact ⟨t, Finset.mem_filter.2 ⟨Finset.mem_range.2 ht, rfl, by rw [h1]; exact h2⟩⟩
    calc (1 : ℝ) ≤ c (draws t % X.rows.length) := by exact_mod_cast hpos
      _ ≤ _ := Finset.single_le_sum (f := fun j => (c j : ℝ)) (fun j _ => Nat.cast_nonneg _) hin
  have hTB : ∑ j ∈ B, (c j : ℝ) ≤ T := by exact_mod_cast svmCount_sum (k := k) (lambda := lambda) (X := X) (y := y) draws T B
  have h1 : near ≤ ∑ j ∈ A, (c j : ℝ) * k (1 :: z) (lifted X j) := by
    calc near ≤ (∑ j ∈ A, (c j : ℝ)) * near := le_mul_of_one_le_left hnear hone
      _ = ∑ j ∈ A, (c j : ℝ) * near := Finset.sum_mul ..
      _ ≤ _ := Finset.sum_le_sum fun j hj =>
        mul_le_mul_of_nonneg_left (hsame j (Finset.mem_range.1 (Finset.mem_filter.1 hj).1) (Finset.mem_filter.1 hj).2) (Nat.cast_nonneg _)
  have h2 : ∑ j ∈ B, (c j : ℝ) * k (1 :: z) (lifted X j) ≤ T * far := by
    calc ∑ j ∈ B, (c j : ℝ) * k (1 :: z) (lifted X j) ≤ ∑ j ∈ B, (c j : ℝ) * far := Finset.sum_le_sum fun j hj => by
          refine mul_le_mul_of_nonneg_left (hother j (Finset.mem_range.1 (Finset.mem_filter.1 hj).1) ?_) (Nat.cast_nonneg _)
          rcases hy.2 j (Finset.mem_range.1 (Finset.mem_filter.1 hj).1) with h | h <;> rcases hs with rfl | rfl
          · exact absurd h (Finset.mem_filter.1 hj).2
          · rw [h]; norm_num
          · exact h
          · exact absurd h (Finset.mem_filter.1 hj).2
      _ = (∑ j ∈ B, (c j : ℝ)) * far := (Finset.sum_mul ..).symm
      _ ≤ T * far := mul_le_mul_of_nonneg_right hTB hf
  rw [hsplit]
  linarith

/-- **C138 (two groups are told apart).** Let `near` be larger than `far` times the number of iterations. Then every new point that lies with the training
rows of target `s` is classified as `s`, whenever one of the iterations draws a sample of target `s` late enough to be counted. -/
theorem C138_apart (hk : FiniteKernel m.ker k) (hm : m.lambda = XR.fin lambda) (hl : 0 < lambda) (hX : X.WF) (hy : SignTargets X y) (hn : X.rows ≠ [])
    (hT : 0 < m.optimIters) (draws : ℕ → ℕ) {near far : ℝ} (hf : 0 ≤ far) (hnf : m.optimIters * far < near) :
    ∃ m', m.train draws (finMat X) (fins y) = ok m' ∧ ∀ s z, LiesWith k X y near far s z →
      (∃ t < m.optimIters, y.getD (draws t % X.rows.length) 0 = s ∧ s * kernelMass k X (draws t % X.rows.length) < lambda * t) →
      m'.predict (finMat ⟨X.cols, [z]⟩) = ok [XR.fin s] := by
  obtain ⟨m', h1, h2⟩ := svm_predictions hk hm hl hX hy.1 hn hT draws
  refine ⟨m', h1, fun s z hz hd => ?_⟩
  rw [h2 ⟨X.cols, [z]⟩ (by intro r hr; simp at hr; rw [hr]; exact hz.2.1) rfl]
  have hpos := svmSum_sign hy hn draws m.optimIters hf hnf hz hd
  rcases hz.1 with rfl | rfl
  · rw [one_mul] at hpos
    simp only [List.map_cons, List.map_nil, if_pos hpos.le]
  · have : ¬ 0 ≤ svmSum k lambda X y draws m.optimIters z := by linarith
    simp only [List.map_cons, List.map_nil, if_neg this]

/-- The share of the training rows with target `s`. -/
noncomputable def Spec.shareOf (X : Mat ℝ) (y : List ℝ) (s : ℝ) : ℝ :=
  open Classical in (((Finset.range X.rows.length).filter fun i => y.getD i 0 = s).card : ℝ) / X.rows.length

/-- The probability that none of the draws of an interval hits a set. -/
theorem never_drawn {Ω : Type} [MeasurableSpace Ω] {P : Measure Ω} [IsProbabilityMeasure P] {draws : ℕ → Ω → ℕ} (hs : IsSample P draws)
    (C : Set ℕ) (a b : ℕ) : P.real {ω | ∀ t, a ≤ t → t < b → draws t ω ∉ C} = (1 - P.real {ω | draws 0 ω ∈ C}) ^ (b - a) := by
  have hC : MeasurableSet C := C.to_countable.measurableSet
  have hset : {ω | ∀ t, a ≤ t → t < b → draws t ω ∉ C} = ⋂ t ∈ Finset.Ico a b, draws t ⁻¹' Cᶜ := by
    ext ω
    simp only [Set.mem_ofPred_eq, Set.mem_iInter, Finset.mem_Ico, Set.mem_preimage, Set.mem_compl_iff, and_imp]
  have hP : P (⋂ t ∈ Finset.Ico a b, draws t ⁻¹' Cᶜ) = ∏ t ∈ Finset.Ico a b, P (draws t ⁻¹' Cᶜ) :=
    hs.2.1.measure_inter_preimage_eq_mul (Finset.Ico a b) (sets := fun _ => Cᶜ) fun _ _ => hC.compl
  have hsame : ∀ t, P (draws t ⁻¹' Cᶜ) = P (draws 0 ⁻¹' Cᶜ) := by
    intro t
    exact (hs.2.2 t).measure_mem_eq hC.compl
  have h0 : P.real (draws 0 ⁻¹' Cᶜ) = 1 - P.real {ω | draws 0 ω ∈ C} := by
    have : draws 0 ⁻¹' Cᶜ = {ω | draws 0 ω ∈ C}ᶜ := rfl
    rw [this]
    exact probReal_compl_eq_one_sub (hs.1 0 hC)
  rw [hset, Measure.real, hP, Finset.prod_congr rfl fun t _ => hsame t, Finset.prod_const, Nat.card_Ico, ENNReal.toReal_pow, ← h0]
  rfl

/-- The probability that a fair draw hits a sample of target `s`. -/
theorem share_drawn {Ω : Type} [MeasurableSpace Ω] {P : Measure Ω} [IsProbabilityMeasure P] {draws : ℕ → Ω → ℕ} (hs : IsSample P draws)
    (hn : X.rows ≠ []) (hu : ∀ i < X.rows.length, P.real {ω | draws 0 ω % X.rows.length = i} = 1 / X.rows.length) (s : ℝ) :
    P.real {ω | draws 0 ω ∈ {d : ℕ | y.getD (d % X.rows.length) 0 = s}} = shareOf X y s := by
  classical
  have hlen : 0 < X.rows.length := List.length_pos_iff.2 hn
  have hset : {ω | draws 0 ω ∈ {d : ℕ | y.getD (d % X.rows.length) 0 = s}} =
      ⋃ i ∈ (Finset.range X.rows.length).filter fun i => y.getD i 0 = s, {ω | draws 0 ω % X.rows.length = i} := by
    ext ω
    simp only [Set.mem_ofPred_eq, Set.mem_iUnion, Finset.mem_filter, Finset.mem_range, exists_prop]
    constructor
    · intro h
      exact ⟨_, ⟨Nat.mod_lt _ hlen, h⟩, rfl⟩
    · rintro ⟨i, ⟨-, h⟩, e⟩
      rw [e]; exact h
  rw [hset, measureReal_biUnion_finset]
  · rw [Finset.sum_congr rfl fun i hi => hu i (Finset.mem_range.1 (Finset.mem_filter.1 hi).1), Finset.sum_const, nsmul_eq_mul]
    unfold shareOf
    rw [mul_one_div]
  · intro i _ j _ hij
    rw [Function.onFun, Set.disjoint_left]
    intro ω h1 h2
    exact hij ((show draws 0 ω % X.rows.length = i from h1).symm.trans h2)
  · intro i _
    exact (hs.1 0) (Set.to_countable {d : ℕ | d % X.rows.length = i}).measurableSet

/-- **C138 (how often).** With fair independent draws the machine classifies every new point that lies with one of the two groups as that group, with a
probability of at least `1 - (1 - p)^(T - a) - (1 - q)^(T - b)`: `p` and `q` are the shares of the samples of target `1` and `-1`, `a` and `b` the iterations
from which on these samples are counted. -/
theorem C138_probability {Ω : Type} [MeasurableSpace Ω] {P : Measure Ω} [IsProbabilityMeasure P] {draws : ℕ → Ω → ℕ} (hs : IsSample P draws)
    (hk : FiniteKernel m.ker k) (hm : m.lambda = XR.fin lambda) (hl : 0 < lambda) (hX : X.WF) (hy : SignTargets X y) (hn : X.rows ≠ [])
    (hu : ∀ i < X.rows.length, P.real {ω | draws 0 ω % X.rows.length = i} = 1 / X.rows.length)
    (hT : 0 < m.optimIters) {near far : ℝ} (hf : 0 ≤ far) (hnf : m.optimIters * far < near) {a b : ℕ}
    (ha : ∀ i < X.rows.length, y.getD i 0 = 1 → kernelMass k X i < lambda * a)
    (hb : ∀ i < X.rows.length, y.getD i 0 = -1 → -kernelMass k X i < lambda * b) :
    1 - (1 - shareOf X y 1) ^ (m.optimIters - a) - (1 - shareOf X y (-1)) ^ (m.optimIters - b) ≤
      P.real {ω | ∃ m', m.train (fun t => draws t ω) (finMat X) (fins y) = ok m' ∧
        ∀ s z, LiesWith k X y near far s z → m'.predict (finMat ⟨X.cols, [z]⟩) = ok [XR.fin s]} := by
  have hlen : 0 < X.rows.length := List.length_pos_iff.2 hn
  set C : ℝ → Set ℕ := fun s => {d : ℕ | y.getD (d % X.rows.length) 0 = s} with hC
  set bad1 := {ω | ∀ t, a ≤ t → t < m.optimIters → draws t ω ∉ C 1} with hbad1
  set bad2 := {ω | ∀ t, b ≤ t → t < m.optimIters → draws t ω ∉ C (-1)} with hbad2
  have h1 : P.real bad1 = (1 - shareOf X y 1) ^ (m.optimIters - a) := by rw [hbad1, never_drawn hs, share_drawn hs hn hu]
  have h2 : P.real bad2 = (1 - shareOf X y (-1)) ^ (m.optimIters - b) := by rw [hbad2, never_drawn hs, share_drawn hs hn hu]
  have hmeas : ∀ (s : ℝ) (a : ℕ), MeasurableSet {ω | ∀ t, a ≤ t → t < m.optimIters → draws t ω ∉ C s} := by
    intro s a
    have e : {ω | ∀ t, a ≤ t → t < m.optimIters → draws t ω ∉ C s} = ⋂ t, ⋂ (_ : a ≤ t), ⋂ (_ : t < m.optimIters), draws t ⁻¹' (C s)ᶜ := by
      ext ω
      simp
    rw [e]
    exact MeasurableSet.iInter fun t => MeasurableSet.iInter fun _ => MeasurableSet.iInter fun _ =>
      (hs.1 t) (C s).to_countable.measurableSet.compl
  have hsub : (bad1 ∪ bad2)ᶜ ⊆ {ω | ∃ m', m.train (fun t => draws t ω) (finMat X) (fins y) = ok m' ∧
        ∀ s z, LiesWith k X y near far s z → m'.predict (finMat ⟨X.cols, [z]⟩) = ok [XR.fin s]} := by
    intro ω hω
    rw [Set.mem_compl_iff, Set.mem_union, not_or] at hω
    obtain ⟨hω1, hω2⟩ := hω
    simp only [hbad1, hbad2, Set.mem_ofPred_eq, not_forall, not_not] at hω1 hω2
    obtain ⟨t1, hat, htT, h1⟩ := hω1
    obtain ⟨t2, hbt, htT2, h2⟩ := hω2
    obtain ⟨m', g1, g2⟩ := C138_apart hk hm hl hX hy hn hT (fun t => draws t ω) hf hnf
    refine ⟨m', g1, fun s z hz => g2 s z hz ?_⟩
    rcases hz.1 with rfl | rfl
    · refine ⟨t1, htT, h1, ?_⟩
      rw [one_mul]
      refine (ha _ (Nat.mod_lt _ hlen) h1).trans_le (mul_le_mul_of_nonneg_left ?_ hl.le)
      exact_mod_cast hat
    · refine ⟨t2, htT2, h2, ?_⟩
      rw [neg_one_mul]
      refine (hb _ (Nat.mod_lt _ hlen) h2).trans_le (mul_le_mul_of_nonneg_left ?_ hl.le)
      exact_mod_cast hbt
  have h3 : P.real (bad1 ∪ bad2) ≤ P.real bad1 + P.real bad2 := measureReal_union_le _ _
  have h4 : P.real (bad1 ∪ bad2)ᶜ = 1 - P.real (bad1 ∪ bad2) := probReal_compl_eq_one_sub ((hmeas 1 a).union (hmeas (-1) b))
  have h5 := measureReal_mono (μ := P) hsub
  linarith

/-- **C138 violated.** With a positive kernel, if the kernels of every sample of target 1 add up to `λ (T - 1)` or more, the machine predicts the same for
all points, wherever the two groups lie. -/
theorem C138_blind_violation (hk : FiniteKernel m.ker k) (hpos : ∀ u v, 0 < k u v) (hm : m.lambda = XR.fin lambda) (hl : 0 < lambda) (hX : X.WF)
    (hy : SignTargets X y) (hn : X.rows ≠ []) (hT : 0 < m.optimIters)
    (hmass : ∀ i < X.rows.length, y.getD i 0 = 1 → lambda * (m.optimIters - 1) ≤ kernelMass k X i) (draws : ℕ → ℕ) :
    ∃ (m' : Svm XR) (s : ℝ), m.train draws (finMat X) (fins y) = ok m' ∧
      ∀ Z : Mat ℝ, Z.WF → Z.cols = X.cols → m'.predict (finMat Z) = ok (List.replicate Z.rows.length (XR.fin s)) := by
  classical
  obtain ⟨m', h1, h2⟩ := svm_predictions hk hm hl hX hy.1 hn hT draws
  have hzero : ∀ i < X.rows.length, y.getD i 0 = 1 → svmCount k lambda X y draws m.optimIters i = 0 := by
    intro i hi h
    unfold svmCount
    rw [Finset.card_eq_zero, Finset.filter_eq_empty_iff]
    rintro t ht ⟨-, hlt⟩
    rw [h, one_mul] at hlt
    have htT : (t : ℝ) + 1 ≤ m.optimIters := by exact_mod_cast Finset.mem_range.1 ht
    have := hmass i hi h
    have : lambda * t ≤ lambda * (m.optimIters - 1) := mul_le_mul_of_nonneg_left (by linarith) hl.le
    linarith
  have hterm : ∀ z, ∀ j ∈ Finset.range X.rows.length, (svmCount k lambda X y draws m.optimIters j : ℝ) * y.getD j 0 * k (1 :: z) (lifted X j) =
      -(svmCount k lambda X y draws m.optimIters j * k (1 :: z) (lifted X j)) := by
    intro z j hj
    rcases hy.2 j (Finset.mem_range.1 hj) with h | h
    · rw [hzero j (Finset.mem_range.1 hj) h]; simp
    · rw [h]; ring
  have hsum : ∀ z, svmSum k lambda X y draws m.optimIters z =
      -∑ j ∈ Finset.range X.rows.length, (svmCount k lambda X y draws m.optimIters j * k (1 :: z) (lifted X j)) := by
    intro z
    unfold svmSum
    rw [Finset.sum_congr rfl (hterm z), Finset.sum_neg_distrib]
  by_cases hall : ∀ j ∈ Finset.range X.rows.length, svmCount k lambda X y draws m.optimIters j = 0
  · refine ⟨m', 1, h1, fun Z hZ hc => ?_⟩
    rw [h2 Z hZ hc, ← List.map_const']
    congr 2
    funext z
    rw [if_pos]
    rw [hsum, Finset.sum_eq_zero fun j hj => by rw [hall j hj]; simp]
    simp
  · push Not at hall
    obtain ⟨j, hj, hne⟩ := hall
    refine ⟨m', -1, h1, fun Z hZ hc => ?_⟩
    rw [h2 Z hZ hc, ← List.map_const']
    congr 2
    funext z
    rw [if_neg]
    rw [hsum, not_le, neg_lt_zero]
    refine Finset.sum_pos' (fun i _ => mul_nonneg (Nat.cast_nonneg _) (hpos _ _).le) ⟨j, hj, mul_pos ?_ (hpos _ _)⟩
    exact_mod_cast Nat.pos_of_ne_zero hne

end

/-- The kernel of the default machine as a real function. -/
noncomputable def sqExpReal (u v : List ℝ) : ℝ := 1 * Real.exp (-rdot (List.zipWith (· - ·) u v) (List.zipWith (· - ·) u v) / (2 * 1 * 1))

theorem sqExpReal_lifted (z x : List ℝ) : sqExpReal (1 :: z) (1 :: x) = Real.exp (-sqDist z x / 2) := by
  unfold sqExpReal sqDist
  have h : ∀ z x : List ℝ, rdot (List.zipWith (· - ·) z x) (List.zipWith (· - ·) z x) = (List.zipWith (fun x y => (x - y) ^ 2) z x).sum := by
    intro z
    induction z with
    | nil => intro x; simp [rdot]
    | cons a z ih =>
      intro x
      cases x with
      | nil => simp [rdot]
      | cons b x =>
        have := ih x
        unfold rdot at this ⊢
        simp only [List.zipWith_cons_cons, List.sum_cons] at this ⊢
        rw [this]
        ring
  have h1 := h (1 :: z) (1 :: x)
  rw [h1]
  simp

theorem sqExpReal_default : FiniteKernel (Svm.default : Svm XR).ker sqExpReal := C58_kernels.2 1 1 one_ne_zero

theorem default_lambda : (Svm.default : Svm XR).lambda = XR.fin (3 / 10) := by
  change Scalar.ofRat (3 / 10) = _
  norm_num [Scalar.ofRat]

theorem sqExpReal_pos (u v : List ℝ) : 0 < sqExpReal u v := by unfold sqExpReal; positivity

theorem hundred_lt_exp : (100 : ℝ) < Real.exp 4.65 := by
  have e : Real.exp 4.65 = Real.exp 1 ^ 4 * Real.exp 0.65 := by
    rw [← Real.exp_nat_mul, ← Real.exp_add]; norm_num
  have h1 := Real.exp_one_gt_d9
  have h2 : (2.718 : ℝ) ^ 4 ≤ Real.exp 1 ^ 4 := pow_le_pow_left₀ (by norm_num) (by linarith) 4
  have h3 := Real.quadratic_le_exp_of_nonneg (x := 0.65) (by norm_num)
  rw [e]
  calc (100 : ℝ) < 2.718 ^ 4 * (1 + 0.65 + 0.65 ^ 2 / 2) := by norm_num
    _ ≤ _ := mul_le_mul h2 h3 (by norm_num) (by positivity)

theorem count_le_sum (l : List (List ℝ)) (a : List ℝ) (f : List ℝ → ℝ) (h0 : ∀ x, 0 ≤ f x) (h1 : f a = 1) : (l.count a : ℝ) ≤ (l.map f).sum := by
  induction l with
  | nil => simp
  | cons b l ih =>
    rw [List.count_cons, List.map_cons, List.sum_cons]
    by_cases hb : b = a
    · subst hb
      simp only [beq_self_eq_true, if_true, Nat.cast_add, Nat.cast_one]
      linarith
    · simp only [beq_iff_eq, hb, if_false, add_zero]
      have := h0 b
      linarith

/-- **C138 (the default machine).** Let the new point `z` be farther away from the rows of the other target than from those of target `s`: by at least 9.3 in
the square of the distance. Then it is classified as `s`, whenever a sample of target `s` is drawn - for `s = 1` after more than `10 n / 3` of the 100
iterations, where `n` is the number of samples. -/
theorem C138_default {X : Mat ℝ} (hX : X.WF) {y : List ℝ} (hy : SignTargets X y) (hn : X.rows ≠ []) (draws : ℕ → ℕ) :
    ∃ m', (Svm.default : Svm XR).train draws (finMat X) (fins y) = ok m' ∧ ∀ (s r : ℝ) (z : List ℝ), (s = 1 ∨ s = -1) → z.length = X.cols →
      (∀ j < X.rows.length, y.getD j 0 = s → sqDist z (X.rows.getD j []) ≤ r) →
      (∀ j < X.rows.length, y.getD j 0 = -s → r + 9.3 ≤ sqDist z (X.rows.getD j [])) →
      (∃ t < 100, y.getD (draws t % X.rows.length) 0 = s ∧ (s = -1 ∨ 10 * X.rows.length < 3 * t)) →
      m'.predict (finMat ⟨X.cols, [z]⟩) = ok [XR.fin s] := by
  have hlen : 0 < X.rows.length := List.length_pos_iff.2 hn
  have hT : 0 < (Svm.default : Svm XR).optimIters := by change 0 < 100; norm_num
  have hT' : ((Svm.default : Svm XR).optimIters : ℝ) = 100 := by change ((100 : ℕ) : ℝ) = 100; norm_num
  obtain ⟨m', h1, h2⟩ := svm_predictions sqExpReal_default default_lambda (by norm_num) hX hy.1 hn hT draws
  refine ⟨m', h1, fun s r z hs hz hsame hother hd => ?_⟩
  have hmass : ∀ i < X.rows.length, 0 < kernelMass sqExpReal X i ∧ kernelMass sqExpReal X i ≤ X.rows.length := by
    intro i hi
    constructor
    · exact Finset.sum_pos (fun j _ => sqExpReal_pos _ _) ⟨i, Finset.mem_range.2 hi⟩
    · unfold kernelMass
      calc ∑ j ∈ Finset.range X.rows.length, sqExpReal (lifted X i) (lifted X j) ≤ ∑ j ∈ Finset.range X.rows.length, 1 := by
            refine Finset.sum_le_sum fun j _ => ?_
            unfold lifted
            rw [sqExpReal_lifted, Real.exp_le_one_iff]
            have := sqDist_nonneg (X.rows.getD i []) (X.rows.getD j [])
            linarith
        _ = X.rows.length := by simp
  have hlie : LiesWith sqExpReal X y (Real.exp (-r / 2)) (Real.exp (-(r + 9.3) / 2)) s z := by
    refine ⟨hs, hz, fun j hj h => ?_, fun j hj h => ?_⟩
    · unfold lifted
      rw [sqExpReal_lifted, Real.exp_le_exp]
      have := hsame j hj h
      linarith
    · unfold lifted
      rw [sqExpReal_lifted, Real.exp_le_exp]
      have := hother j hj h
      linarith
  have hfar : ((Svm.default : Svm XR).optimIters : ℝ) * Real.exp (-(r + 9.3) / 2) < Real.exp (-r / 2) := by
    have e : Real.exp (-(r + 9.3) / 2) = Real.exp (-r / 2) * Real.exp (-4.65) := by rw [← Real.exp_add]; ring_nf
    rw [hT', e]
    have h100 : 100 * Real.exp (-4.65) < 1 := by
      rw [Real.exp_neg, ← div_eq_mul_inv, div_lt_one (Real.exp_pos _)]
      exact hundred_lt_exp
    have := Real.exp_pos (-r / 2)
    nlinarith
  have hpos := svmSum_sign (lambda := 3 / 10) hy hn draws _ (Real.exp_pos _).le hfar hlie (by
    obtain ⟨t, ht, g1, g2⟩ := hd
    refine ⟨t, ht, g1, ?_⟩
    obtain ⟨p1, p2⟩ := hmass _ (Nat.mod_lt (draws t) hlen)
    have ht0 : (0 : ℝ) ≤ t := Nat.cast_nonneg t
    rcases hs with rfl | rfl
    · rcases g2 with g2 | g2
      · norm_num at g2
      · have : (10 : ℝ) * X.rows.length < 3 * t := by exact_mod_cast g2
        linarith
    · linarith)
  rw [h2 ⟨X.cols, [z]⟩ (by intro r hr; simp at hr; rw [hr]; exact hz) rfl]
  rcases hs with rfl | rfl
  · rw [one_mul] at hpos
    simp only [List.map_cons, List.map_nil, if_pos hpos.le]
  · have : ¬ 0 ≤ svmSum sqExpReal (3 / 10) X y draws (Svm.default : Svm XR).optimIters z := by linarith
    simp only [List.map_cons, List.map_nil, if_neg this]

/-- **C138 violated for larger samples.** If every row of target 1 is given 30 times or more, the default machine predicts the same for all points: however
far apart the groups lie and whatever is drawn. -/
theorem C138_default_violation {X : Mat ℝ} (hX : X.WF) {y : List ℝ} (hy : SignTargets X y) (hn : X.rows ≠ [])
    (hcopies : ∀ i < X.rows.length, y.getD i 0 = 1 → 30 ≤ X.rows.count (X.rows.getD i [])) (draws : ℕ → ℕ) :
    ∃ (m' : Svm XR) (s : ℝ), (Svm.default : Svm XR).train draws (finMat X) (fins y) = ok m' ∧
      ∀ Z : Mat ℝ, Z.WF → Z.cols = X.cols → m'.predict (finMat Z) = ok (List.replicate Z.rows.length (XR.fin s)) := by
  have hT : 0 < (Svm.default : Svm XR).optimIters := by change 0 < 100; norm_num
  have hT' : ((Svm.default : Svm XR).optimIters : ℝ) = 100 := by change ((100 : ℕ) : ℝ) = 100; norm_num
  refine C138_blind_violation sqExpReal_default sqExpReal_pos default_lambda (by norm_num) hX hy hn hT ?_ draws
  intro i hi h
  rw [hT']
  have h30 : (30 : ℝ) ≤ X.rows.count (X.rows.getD i []) := by exact_mod_cast hcopies i hi h
  have hm : (X.rows.count (X.rows.getD i []) : ℝ) ≤ kernelMass sqExpReal X i := by
    have e : kernelMass sqExpReal X i = (X.rows.map fun x => Real.exp (-sqDist (X.rows.getD i []) x / 2)).sum := by
      unfold kernelMass
      rw [← sum_map_rows X fun r => sqExpReal (lifted X i) r]
      simp only [onesMat, List.map_map, lifted]
      congr 1
      apply List.map_congr_left
      intro x _
      exact sqExpReal_lifted _ _
    rw [e]
    refine count_le_sum _ _ _ (fun x => (Real.exp_pos _).le) ?_
    have : sqDist (X.rows.getD i []) (X.rows.getD i []) = 0 := by
      unfold sqDist
      rw [List.zipWith_self]
      simp
    rw [this]
    simp
  linarith

/-- The rows of the violation: `n` rows at 0 and `n` rows at 100. -/
def twoPiles (n : ℕ) : Mat ℝ := ⟨1, List.replicate n [0] ++ List.replicate n [100]⟩

/-- Their targets. -/
def pileTargets (n : ℕ) : List ℝ := List.replicate n 1 ++ List.replicate n (-1)

theorem twoPiles_wf (n : ℕ) : (twoPiles n).WF := by
  intro r hr
  simp only [twoPiles, List.mem_append, List.mem_replicate] at hr
  rcases hr with ⟨-, rfl⟩ | ⟨-, rfl⟩ <;> rfl

theorem twoPiles_row (n i : ℕ) : (i < n → (twoPiles n).rows.getD i [] = [0] ∧ (pileTargets n).getD i 0 = 1) ∧
    (n ≤ i → i < 2 * n → (twoPiles n).rows.getD i [] = [100] ∧ (pileTargets n).getD i 0 = -1) := by
  constructor
  · intro hi
    unfold twoPiles pileTargets
    simp only [List.getD_eq_getElem?_getD]
    rw [List.getElem?_append_left (by simpa using hi), List.getElem?_append_left (by simpa using hi)]
    simp [hi]
  · intro h1 h2
    unfold twoPiles pileTargets
    simp only [List.getD_eq_getElem?_getD]
    rw [List.getElem?_append_right (by simpa using h1), List.getElem?_append_right (by simpa using h1)]
    simp [show i - n < n by omega]

theorem twoPiles_targets (n : ℕ) : SignTargets (twoPiles n) (pileTargets n) := by
  refine ⟨by simp [twoPiles, pileTargets], fun i hi => ?_⟩
  have hi' : i < 2 * n := by simp [twoPiles] at hi; omega
  rcases Nat.lt_or_ge i n with h | h
  · exact Or.inl ((twoPiles_row n i).1 h).2
  · exact Or.inr ((twoPiles_row n i).2 h hi').2

/-- Non-vacuity of `C138_default_violation`: thirty rows at 0 with target 1 and thirty at 100 with target -1. -/
example (draws : ℕ → ℕ) : ∃ (m' : Svm XR) (s : ℝ),
    (Svm.default : Svm XR).train draws (finMat (twoPiles 30)) (fins (pileTargets 30)) = ok m' ∧
      m'.predict (finMat ⟨1, [[0], [100]]⟩) = ok [XR.fin s, XR.fin s] := by
  obtain ⟨m', s, h1, h2⟩ := C138_default_violation (twoPiles_wf 30) (twoPiles_targets 30) (by simp [twoPiles]) (by
    intro i hi h
    have hi' : i < 2 * 30 := by simp [twoPiles] at hi; omega
    rcases Nat.lt_or_ge i 30 with hlt | hge
    · rw [((twoPiles_row 30 i).1 hlt).1]
      simp only [twoPiles, List.count_append, List.count_replicate_self]
      omega
    · rw [((twoPiles_row 30 i).2 hge hi').2] at h
      norm_num at h) draws
  exact ⟨m', s, h1, h2 ⟨1, [[0], [100]]⟩ (by intro r hr; simp at hr; rcases hr with rfl | rfl <;> rfl) rfl⟩

/-- Non-vacuity of `C138_default`: with five rows at each place the two places are told apart when the draws alternate. -/
example : ∃ m', (Svm.default : Svm XR).train (fun t => if t % 2 = 0 then 0 else 5) (finMat (twoPiles 5)) (fins (pileTargets 5)) = ok m' ∧
    m'.predict (finMat ⟨1, [[1]]⟩) = ok [XR.fin 1] ∧ m'.predict (finMat ⟨1, [[90]]⟩) = ok [XR.fin (-1)] := by
  obtain ⟨m', h1, h2⟩ := C138_default (twoPiles_wf 5) (twoPiles_targets 5) (by simp [twoPiles]) fun t => if t % 2 = 0 then 0 else 5
  have hl : (twoPiles 5).rows.length = 10 := rfl
  refine ⟨m', h1, h2 1 1 [1] (Or.inl rfl) rfl ?_ ?_ ⟨40, by norm_num, ?_, Or.inr ?_⟩, h2 (-1) 100 [90] (Or.inr rfl) rfl ?_ ?_ ⟨1, by norm_num, ?_, Or.inl rfl⟩⟩
  · intro j hj h
    rcases Nat.lt_or_ge j 5 with hlt | hge
    · rw [((twoPiles_row 5 j).1 hlt).1]; norm_num [sqDist]
    · rw [((twoPiles_row 5 j).2 hge (by omega)).2] at h; norm_num at h
  · intro j hj h
    rcases Nat.lt_or_ge j 5 with hlt | hge
    · rw [((twoPiles_row 5 j).1 hlt).2] at h; norm_num at h
    · rw [((twoPiles_row 5 j).2 hge (by omega)).1]; norm_num [sqDist]
  · rw [hl]; exact ((twoPiles_row 5 0).1 (by norm_num)).2
  · rw [hl]; norm_num
  · intro j hj h
    rcases Nat.lt_or_ge j 5 with hlt | hge
    · rw [((twoPiles_row 5 j).1 hlt).2] at h; norm_num at h
    · rw [((twoPiles_row 5 j).2 hge (by omega)).1]; norm_num [sqDist]
  · intro j hj h
    rcases Nat.lt_or_ge j 5 with hlt | hge
    · rw [((twoPiles_row 5 j).1 hlt).1]; norm_num [sqDist]
    · rw [((twoPiles_row 5 j).2 hge (by omega)).2] at h; norm_num at h
  · rw [hl]; exact ((twoPiles_row 5 5).2 (by norm_num) (by norm_num)).2

/-- Non-vacuity of `C138_probability`: one row at 0 and one at 100, fair draws. -/
example : ∃ (Ω : Type) (_ : MeasurableSpace Ω) (P : Measure Ω) (_ : IsProbabilityMeasure P) (draws : ℕ → Ω → ℕ), IsSample P draws ∧
    1 - (1 / 2) ^ 93 - (1 / 2) ^ 100 ≤
      P.real {ω | ∃ m', (Svm.default : Svm XR).train (fun t => draws t ω) (finMat (twoPiles 1)) (fins (pileTargets 1)) = ok m' ∧
        m'.predict (finMat ⟨1, [[0]]⟩) = ok [XR.fin 1] ∧ m'.predict (finMat ⟨1, [[100]]⟩) = ok [XR.fin (-1)]} := by
  obtain ⟨Ω, mΩ, P, hP, s, hs, hlaw⟩ := sample_exists (PMF.uniformOfFintype (Fin 2)).toMeasure
  have hsd : IsSample P fun t ω => (s t ω : ℕ) := by
    have hc : Measurable fun i : Fin 2 => (i : ℕ) := measurable_of_countable _
    exact ⟨fun i => hc.comp (hs.1 i), hs.2.1.comp (fun _ => fun i : Fin 2 => (i : ℕ)) fun _ => hc, fun i => (hs.2.2 i).comp hc⟩
  refine ⟨Ω, mΩ, P, hP, fun t ω => (s t ω : ℕ), hsd, ?_⟩
  have hu : ∀ i < 2, P.real {ω | (s 0 ω : ℕ) % 2 = i} = 1 / (2 : ℕ) := by
    intro i hi
    have h1 : {ω | (s 0 ω : ℕ) % 2 = i} = s 0 ⁻¹' {(⟨i, hi⟩ : Fin 2)} := by
      ext ω
      simp only [Set.mem_ofPred_eq, Set.mem_preimage, Set.mem_singleton_iff, Fin.ext_iff]
      rw [Nat.mod_eq_of_lt (s 0 ω).2]
    rw [h1, ← map_measureReal_apply (hs.1 0) (measurableSet_singleton _), hlaw, Measure.real, PMF.toMeasure_apply_singleton _ _ (measurableSet_singleton _)]
    simp
  have hmass : ∀ i < 2, 0 < kernelMass sqExpReal (twoPiles 1) i ∧ kernelMass sqExpReal (twoPiles 1) i ≤ 2 := by
    intro i _
    have hle : ∀ j, sqExpReal (lifted (twoPiles 1) i) (lifted (twoPiles 1) j) ≤ 1 := by
      intro j
      unfold lifted
      rw [sqExpReal_lifted, Real.exp_le_one_iff]
      have := sqDist_nonneg ((twoPiles 1).rows.getD i []) ((twoPiles 1).rows.getD j [])
      linarith
    have e : kernelMass sqExpReal (twoPiles 1) i = sqExpReal (lifted (twoPiles 1) i) (lifted (twoPiles 1) 0) + sqExpReal (lifted (twoPiles 1) i) (lifted (twoPiles 1) 1) := by
      unfold kernelMass
      rw [show (twoPiles 1).rows.length = 2 from rfl, Finset.sum_range_succ, Finset.sum_range_one]
    rw [e]
    have := hle 0
    have := hle 1
    have := sqExpReal_pos (lifted (twoPiles 1) i) (lifted (twoPiles 1) 0)
    have := sqExpReal_pos (lifted (twoPiles 1) i) (lifted (twoPiles 1) 1)
    constructor <;> linarith
  have hT' : ((Svm.default : Svm XR).optimIters : ℝ) = 100 := by change ((100 : ℕ) : ℝ) = 100; norm_num
  have key := C138_probability hsd sqExpReal_default default_lambda (by norm_num) (twoPiles_wf 1) (twoPiles_targets 1) (by simp [twoPiles]) hu
    (by change 0 < 100; norm_num) (near := 1) (far := Real.exp (-4.65)) (Real.exp_pos _).le (by
      rw [hT', Real.exp_neg, ← div_eq_mul_inv, div_lt_one (Real.exp_pos _)]
      exact hundred_lt_exp) (a := 7) (b := 0) (fun i hi _ => by have := (hmass i hi).2; norm_num; linarith) (fun i hi _ => by have := (hmass i hi).1; norm_num; linarith)
  have hshare : ∀ t, t = 1 ∨ t = -1 → shareOf (twoPiles 1) (pileTargets 1) t = 1 / 2 := by
    intro t ht
    unfold shareOf
    rw [show (twoPiles 1).rows.length = 2 from rfl, show Finset.range 2 = {0, 1} from rfl, Finset.filter_insert, Finset.filter_singleton]
    rcases ht with rfl | rfl <;> norm_num [pileTargets]
  rw [hshare 1 (Or.inl rfl), hshare (-1) (Or.inr rfl)] at key
  refine le_trans (le_of_eq ?_) (key.trans (measureReal_mono ?_))
  · change _ = (1 : ℝ) - (1 - 1 / 2) ^ (100 - 7) - (1 - 1 / 2) ^ (100 - 0)
    norm_num
  · rintro ω ⟨m', g1, g2⟩
    refine ⟨m', g1, g2 1 [0] ⟨Or.inl rfl, rfl, ?_, ?_⟩, g2 (-1) [100] ⟨Or.inr rfl, rfl, ?_, ?_⟩⟩
    all_goals
      intro j hj h
      have hj' : j < 2 := hj
      unfold lifted
      rw [sqExpReal_lifted]
      obtain rfl | rfl : j = 0 ∨ j = 1 := by omega
      all_goals first
        | (exfalso; revert h; norm_num [pileTargets]; done)
        | norm_num [twoPiles, sqDist]

end RM
