import Verif.Proofs.Svm

/-! C58, C68: support vector machines. -/

namespace RM
open Outcome Scalar Spec

/-- **C58 (multipliers).** After training with any kernel, any parameter and any data, finite or not, the multipliers (one for
each sample) lie in `[0, 1]` and sum to at most 1, for every sequence of draws. -/
theorem C58_multipliers (m m' : Svm XR) (draws : ℕ → ℕ) (X : Mat XR) (y : List XR) (hT : 0 < m.optimIters) (h : m.train draws X y = ok m') :
    ∃ a : ℕ → ℝ, m'.alpha = some ((List.range X.rows.length).map fun i => XR.fin (a i)) ∧ (∀ i, 0 ≤ a i ∧ a i ≤ 1) ∧
      ∑ i ∈ Finset.range X.rows.length, a i ≤ 1 := by
  unfold Svm.train at h
  rw [withOnes_xr, ok_bind] at h
  obtain ⟨al, hal, h⟩ := bind_eq_ok.mp h
  have hlen : (⟨X.cols + 1, X.rows.map (XR.fin 1 :: ·)⟩ : Mat XR).rows.length = X.rows.length := by simp
  rw [← hlen] at hal
  obtain ⟨pass, hp⟩ := svm_loop m.optimIters hal
  rw [hlen] at hp
  injection h with h
  have hTpos : (0 : ℝ) < m.optimIters := by exact_mod_cast hT
  have hle : ∀ i, hits (fun t => draws t % X.rows.length) pass m.optimIters i ≤ timesDrawn (fun t => draws t % X.rows.length) m.optimIters i := hits_le _ _ _
  refine ⟨fun i => (hits (fun t => draws t % X.rows.length) pass m.optimIters i : ℝ) / m.optimIters, ?_, ?_, ?_⟩
  · rw [← h]
    simp only [hp, countVec, List.map_map]
    congr 1
    apply List.map_congr_left
    intro i _
    simp only [Function.comp_apply, xr_ofNat]
    rw [xr_div _ _ hTpos.ne']
  · intro i
    refine ⟨by positivity, ?_⟩
    rw [div_le_one hTpos]
    have h1 : timesDrawn (fun t => draws t % X.rows.length) m.optimIters i ≤ m.optimIters :=
      (Finset.card_filter_le _ _).trans_eq (Finset.card_range _)
    exact_mod_cast (hle i).trans h1
  · rw [← Finset.sum_div, div_le_one hTpos]
    have h2 : ∑ i ∈ Finset.range X.rows.length, hits (fun t => draws t % X.rows.length) pass m.optimIters i ≤ m.optimIters :=
      (Finset.sum_le_sum fun i _ => hle i).trans (timesDrawn_sum _ _ _)
    exact_mod_cast h2

section
variable {m : Svm XR} {k : List ℝ → List ℝ → ℝ} (hk : FiniteKernel m.ker k) {lambda : ℝ} (hm : m.lambda = XR.fin lambda) (hl : 0 < lambda)
  {X : Mat ℝ} (hX : X.WF) {y : List ℝ} (hy : y.length = X.rows.length) (hn : X.rows ≠ []) (hT : 0 < m.optimIters) (draws : ℕ → ℕ)
include hk hm hl hX hy hn hT

/-- **C68 (what is computed instead).** Training on finite data always succeeds. The multiplier of sample `i` is the share of
the iterations `t` that draw sample `i` and in which `y_i` times the sum of the kernels of sample `i` with *all* samples is
below `λ t`. Missing for C68: the sum does not involve the current multipliers nor the other targets. -/
theorem C68_multipliers_partial : ∃ m', m.train draws (finMat X) (fins y) = ok m' ∧
    m'.ker = m.ker ∧ m'.lambda = m.lambda ∧ m'.trainInputs = some (finMat (onesMat X)) ∧ m'.trainTargets = some (fins y) ∧
    m'.alpha = some ((List.range X.rows.length).map fun i => XR.fin
      ((((Finset.range m.optimIters).filter fun t => draws t % X.rows.length = i ∧ y.getD i 0 * kernelMass k X i < lambda * t).card : ℝ) / m.optimIters)) := by
  refine ⟨_, svm_train_exact hk hm hl hX hy hn draws, rfl, rfl, rfl, rfl, ?_⟩
  have hTpos : (0 : ℝ) < m.optimIters := by exact_mod_cast hT
  simp only [countVec, List.map_map]
  congr 1
  apply List.map_congr_left
  intro i _
  simp only [Function.comp_apply, xr_ofNat]
  rw [xr_div _ _ hTpos.ne']
  congr 3
  unfold hits
  congr 1
  apply Finset.filter_congr
  intro t _
  constructor
  · rintro ⟨rfl, h⟩; exact ⟨rfl, by simpa using h⟩
  · rintro ⟨rfl, h⟩; exact ⟨rfl, by simpa using h⟩

/-- **C58 (outputs).** After training on finite data the predictions for finite data are `+1` or `-1`: the sign of the weighted
sum of the kernels with the training samples. -/
theorem C58_outputs {Z : Mat ℝ} (hZ : Z.WF) (hc : Z.cols = X.cols) : ∃ m' a, m.train draws (finMat X) (fins y) = ok m' ∧
    m'.alpha = some ((List.range X.rows.length).map fun i => XR.fin (a i)) ∧
    m'.predict (finMat Z) = ok (Z.rows.map fun z => XR.fin (if 0 ≤ decision k lambda X y a z then 1 else -1)) := by
  obtain ⟨m', h1, h2, h3, h4, h5, h6⟩ := C68_multipliers_partial hk hm hl hX hy hn hT draws
  refine ⟨m', _, h1, h6, ?_⟩
  rw [svm_predict_fin (by rw [h2]; exact hk) (h3.trans hm) hl.ne' hX hZ hc hy _ h6 h4 h5]
  simp [fins, Function.comp_def]

/-- **C58 (columns).** Data with another number of columns is rejected. -/
theorem C58_columns {Z : Mat XR} (hc : Z.cols ≠ X.cols) : ∃ m', m.train draws (finMat X) (fins y) = ok m' ∧ m'.predict Z = err .InvalidState := by
  obtain ⟨m', h1, h2, h3, h4, h5, h6⟩ := C68_multipliers_partial hk hm hl hX hy hn hT draws
  refine ⟨m', h1, ?_⟩
  unfold Svm.predict
  rw [withOnes_xr, ok_bind, h4, h5, h6]
  dsimp only
  unfold kerMat
  rw [if_pos (by simpa [finMat, onesMat] using hc)]
  rfl

/-- **C68 (what is learned).** The multipliers are the frequencies of the draws up to a bounded number of iterations: the
multiplier of sample `i` falls short of the share of the draws of `i` by at most `(max 0 (y_i * kernel sum / λ) + 1) / T`. So for
long trainings the machine approaches the classifier that weighs all samples alike, whatever the margin. -/
theorem C68_long_run : ∃ (m' : Svm XR) (a : ℕ → ℝ), m.train draws (finMat X) (fins y) = ok m' ∧ m'.alpha = some ((List.range X.rows.length).map fun i => XR.fin (a i)) ∧
    ∀ i, a i ≤ (timesDrawn (fun t => draws t % X.rows.length) m.optimIters i : ℝ) / m.optimIters ∧
      (timesDrawn (fun t => draws t % X.rows.length) m.optimIters i : ℝ) / m.optimIters - a i ≤ (max 0 (y.getD i 0 * kernelMass k X i / lambda) + 1) / m.optimIters := by
  obtain ⟨m', h1, -, -, -, -, h6⟩ := C68_multipliers_partial hk hm hl hX hy hn hT draws
  have hTpos : (0 : ℝ) < m.optimIters := by exact_mod_cast hT
  refine ⟨m', _, h1, h6, ?_⟩
  intro i
  have hsub : ((Finset.range m.optimIters).filter fun t => draws t % X.rows.length = i ∧ y.getD i 0 * kernelMass k X i < lambda * t) ⊆
      (Finset.range m.optimIters).filter fun t => draws t % X.rows.length = i := by
    intro t ht
    simp only [Finset.mem_filter] at ht ⊢
    exact ⟨ht.1, ht.2.1⟩
  constructor
  · apply div_le_div_of_nonneg_right _ hTpos.le
    exact_mod_cast Finset.card_le_card hsub
  · rw [← sub_div]
    apply div_le_div_of_nonneg_right _ hTpos.le
    unfold timesDrawn
    rw [← Nat.cast_sub (Finset.card_le_card hsub), ← Finset.card_sdiff_of_subset hsub]
    have hin : ((Finset.range m.optimIters).filter fun t => draws t % X.rows.length = i) \
        ((Finset.range m.optimIters).filter fun t => draws t % X.rows.length = i ∧ y.getD i 0 * kernelMass k X i < lambda * t) ⊆
        Finset.range (⌊max 0 (y.getD i 0 * kernelMass k X i / lambda)⌋₊ + 1) := by
      intro t ht
      simp only [Finset.mem_sdiff, Finset.mem_filter, Finset.mem_range, not_and, not_lt] at ht ⊢
      rw [Nat.lt_succ_iff, Nat.le_floor_iff (le_max_left _ _)]
      apply le_max_of_le_right
      rw [le_div_iff₀ hl, mul_comm]
      exact ht.2 ht.1.1 ht.1.2
    have h2 := Finset.card_le_card hin
    rw [Finset.card_range] at h2
    have h3 := Nat.floor_le (le_max_left 0 (y.getD i 0 * kernelMass k X i / lambda))
    have h4 : ((((Finset.range m.optimIters).filter fun t => draws t % X.rows.length = i) \
        ((Finset.range m.optimIters).filter fun t => draws t % X.rows.length = i ∧ y.getD i 0 * kernelMass k X i < lambda * t)).card : ℝ) ≤
        ⌊max 0 (y.getD i 0 * kernelMass k X i / lambda)⌋₊ + 1 := by exact_mod_cast h2
    linarith

end

/-- **C58 (untrained).** -/
theorem C58_untrained (K : Kernel XR) (lambda : XR) (T : ℕ) (Z : Mat XR) : Svm.predict ⟨K, lambda, T, none, none, none⟩ Z = err .UntrainedModel := by
  unfold Svm.predict
  rw [withOnes_xr, ok_bind]

/-- **C58 (misuse).** Training on no samples panics; with too few targets it panics when a sample without a target is drawn. -/
theorem C58_misuse (m : Svm XR) (draws : ℕ → ℕ) (y : List XR) (hT : 0 < m.optimIters) :
    (∀ c, m.train draws ⟨c, []⟩ y = Outcome.panic) ∧
    ∀ (X : Mat ℝ) (k : List ℝ → List ℝ → ℝ), FiniteKernel m.ker k → X.WF → X.rows ≠ [] → y.length ≤ draws 0 % X.rows.length →
      m.train draws (finMat X) y = Outcome.panic := by
  obtain ⟨T, hT'⟩ := Nat.exists_eq_succ_of_ne_zero hT.ne'
  have hfold : ∀ (f : List XR → ℕ → Outcome (List XR)) (a : List XR), f a 0 = Outcome.panic → (List.range m.optimIters).foldlM f a = Outcome.panic := by
    intro f a h
    rw [hT', List.range_succ_eq_map, List.foldlM_cons, h]
    rfl
  constructor
  · intro c
    unfold Svm.train
    rw [withOnes_xr, ok_bind, hfold _ _ (by unfold svmStep genRange; simp)]
    rfl
  · intro X k hk hX hn hd
    have hpos : 0 < X.rows.length := List.length_pos_iff.mpr hn
    have hin : draws 0 % X.rows.length < X.rows.length := Nat.mod_lt _ hpos
    have hlen : (finMat (onesMat X)).rows.length = X.rows.length := by simp [finMat, onesMat]
    unfold Svm.train
    rw [withOnes_fin, ok_bind, hfold]
    · rfl
    · unfold svmStep genRange
      rw [hlen, if_pos hpos, ok_bind]
      simp only [Nat.zero_add, Nat.sub_zero]
      have hrow : getAt (finMat (onesMat X)).rows (draws 0 % X.rows.length) = ok (fins (lifted X (draws 0 % X.rows.length))) := by
        rw [finMat_eq]
        unfold getAt
        simp only [List.getElem?_map]
        rw [onesMat_rows X _ hin]
        rfl
      have hs : kernelRowSum m.ker (fins (lifted X (draws 0 % X.rows.length))) (finMat (onesMat X)) = ok (XR.fin (kernelMass k X (draws 0 % X.rows.length))) := by
        rw [finMat_eq]
        unfold kernelRowSum
        simp only
        rw [xr_zero, foldlM_kernel hk, zero_add, sum_map_rows]
        · rfl
        · intro r hr
          rw [lifted_length hX hin]
          unfold onesMat at hr
          obtain ⟨q, hq, rfl⟩ := List.mem_map.mp hr
          rw [List.length_cons, hX q hq]
      rw [hrow, ok_bind, hs, ok_bind]
      unfold getAt
      rw [List.getElem?_eq_none hd]
      rfl

/-- **C58 (kernels).** The linear kernel and the squared exponential kernel of the default machine are finite on finite data. -/
theorem C58_kernels : (∀ c : ℝ, FiniteKernel (linearKernel (XR.fin c)) fun u v => rdot u v + c) ∧
    ∀ ls ampl : ℝ, ls ≠ 0 → FiniteKernel (sqExpKernel (XR.fin ls) (XR.fin ampl))
      fun u v => ampl * Real.exp (-rdot (List.zipWith (· - ·) u v) (List.zipWith (· - ·) u v) / (2 * ls * ls)) := by
  constructor
  · intro c u v _
    unfold linearKernel
    rw [dot_fins, xr_add]
  · intro ls ampl hls u v h
    unfold sqExpKernel
    have hne : (2 : ℝ) * ls * ls ≠ 0 := by positivity
    rw [fins_length, fins_length, h, beq_self_eq_true, assert_true, ok_bind, vecZip_fins (h := fun a b => a - b) (by simp) h, ok_bind, dot_fins]
    simp only [xr_neg, xr_ofNat, xr_mul, Nat.cast_ofNat]
    rw [xr_div _ _ hne, xr_exp, xr_mul]

theorem nan_fold (l : List XR) : l.foldl Scalar.add XR.nan = XR.nan := by
  induction l with
  | nil => rfl
  | cons a l ih => exact ih

theorem dot_nan (u : List XR) (n : ℕ) (h : u.length = n) (hn : 0 < n) : dot u (List.replicate n XR.nan) = XR.nan := by
  cases u with
  | nil => simp at h; omega
  | cons a u =>
    subst h
    unfold dot fsum
    rw [List.length_cons, List.replicate_succ, List.zipWith_cons_cons, List.foldl_cons]
    have e : Scalar.zero +. (a *. XR.nan) = XR.nan := by cases a <;> rfl
    rw [e, nan_fold]

/-- **C58 violated** when the public field `optim_iters` is set to 0: training succeeds and every prediction is NaN. -/
theorem C58_zero_iters_violation {m : Svm XR} {k : List ℝ → List ℝ → ℝ} (hk : FiniteKernel m.ker k) (h0 : m.optimIters = 0) {X Z : Mat ℝ} (hX : X.WF)
    (hZ : Z.WF) (hc : Z.cols = X.cols) {y : List ℝ} (hy : y.length = X.rows.length) (hn : X.rows ≠ []) (draws : ℕ → ℕ) :
    ∃ m', m.train draws (finMat X) (fins y) = ok m' ∧ m'.predict (finMat Z) = ok (List.replicate Z.rows.length XR.nan) := by
  have hlen : (finMat X).rows.length = X.rows.length := by simp [finMat]
  have e0 : (Scalar.zero : XR) /. Scalar.ofNat 0 = XR.nan := by
    rw [xr_ofNat, Nat.cast_zero, xr_zero, xr_div_zero]; simp [XR.infOf]
  refine ⟨{ m with alpha := some (List.replicate X.rows.length XR.nan), trainInputs := some (finMat (onesMat X)), trainTargets := some (fins y) }, ?_, ?_⟩
  · unfold Svm.train
    rw [withOnes_fin, ok_bind, h0, hlen]
    change ok _ = ok _
    rw [List.map_replicate, e0]
  · have hoX : (onesMat X).WF := by
      intro r hr
      obtain ⟨q, hq, rfl⟩ := List.mem_map.mp hr
      simp [onesMat, hX q hq]
    have hoZ : (onesMat Z).WF := by
      intro r hr
      obtain ⟨q, hq, rfl⟩ := List.mem_map.mp hr
      simp [onesMat, hZ q hq]
    unfold Svm.predict
    rw [withOnes_fin, ok_bind]
    dsimp only
    rw [kerMat_fin hk hoZ hoX (by simp [onesMat, hc]), ok_bind]
    have ew : vecZip Scalar.mul (List.replicate X.rows.length XR.nan) (fins y) = ok (List.replicate X.rows.length XR.nan) := by
      unfold vecZip
      rw [if_pos (by simp [hy])]
      congr 1
      rw [List.eq_replicate_iff]
      constructor
      · simp [hy]
      · intro b hb
        obtain ⟨i, hi, rfl⟩ := List.getElem_of_mem hb
        simp only [List.getElem_zipWith, List.getElem_replicate]
        rfl
    rw [ew, ok_bind, List.map_replicate]
    have e1 : XR.nan /. m.lambda = XR.nan := rfl
    rw [e1]
    unfold Mat.mulVec
    rw [if_pos (by simp [onesMat]), ok_bind]
    congr 1
    simp only [onesMat, List.map_map]
    rw [List.eq_replicate_iff]
    constructor
    · simp
    · intro b hb
      obtain ⟨z, _, rfl⟩ := List.mem_map.mp hb
      simp only [Function.comp_apply]
      rw [dot_nan _ _ (by simp) (List.length_pos_iff.mpr hn)]
      rfl

/-- The data of the violation: the points 10 and 8 with targets 1 and -1. -/
def badX : Mat ℝ := ⟨1, [[10], [8]]⟩

/-- The machine of the violation: linear kernel, `λ = 1`, 100 iterations. -/
noncomputable def badSvm : Svm XR := { ker := linearKernel (XR.fin 0), lambda := XR.fin 1 }

theorem bad_alpha (draws : ℕ → ℕ) : ∃ (m' : Svm XR) (a : ℕ → ℝ), badSvm.train draws (finMat badX) (fins [1, -1]) = ok m' ∧
    m'.alpha = some ((List.range 2).map fun i => XR.fin (a i)) ∧ a 0 = 0 ∧
    m'.predict (finMat badX) = ok [XR.fin (if 0 ≤ -81 * a 1 then 1 else -1), XR.fin (if 0 ≤ -65 * a 1 then 1 else -1)] := by
  have hX : badX.WF := by intro r hr; simp [badX] at hr; rcases hr with rfl | rfl <;> rfl
  have hk : FiniteKernel badSvm.ker (fun u v => rdot u v + 0) := C58_kernels.1 0
  have hy : ([1, -1] : List ℝ).length = badX.rows.length := rfl
  have hn : badX.rows ≠ [] := by simp [badX]
  have hT : 0 < badSvm.optimIters := by change 0 < 100; norm_num
  obtain ⟨m', h1, h2, h3, h4, h5, h6⟩ := C68_multipliers_partial hk (lambda := 1) rfl one_pos hX hy hn hT draws
  obtain ⟨a, ha⟩ : ∃ a : ℕ → ℝ, a = fun i => ((((Finset.range badSvm.optimIters).filter fun t => draws t % badX.rows.length = i ∧ ([1, -1] : List ℝ).getD i 0 *
        kernelMass (fun u v => rdot u v + 0) badX i < 1 * t).card : ℝ) / badSvm.optimIters) := ⟨_, rfl⟩
  have ha0 : a 0 = 0 := by
    rw [ha, div_eq_zero_iff]
    left
    rw [Nat.cast_eq_zero, Finset.card_eq_zero, Finset.filter_eq_empty_iff]
    intro t ht hcon
    have ht' : t < 100 := Finset.mem_range.mp ht
    have htr : (t : ℝ) < 100 := by exact_mod_cast ht'
    have h := hcon.2
    have e : kernelMass (fun u v => rdot u v + 0) badX 0 = 182 := by
      simp [kernelMass, badX, lifted, rdot, Finset.sum_range_succ]; norm_num
    rw [e] at h
    norm_num at h
    linarith
  have h6' : m'.alpha = some ((List.range badX.rows.length).map fun i => XR.fin (a i)) := by rw [h6, ha]
  refine ⟨m', a, h1, h6', ha0, ?_⟩
  rw [svm_predict_fin (by rw [h2]; exact hk) h3 one_ne_zero hX hX rfl hy a h6' h4 h5]
  have e1 : decision (fun u v => rdot u v + 0) 1 badX [1, -1] a [10] = -81 * a 1 := by
    simp [decision, badX, lifted, rdot, Finset.sum_range_succ, ha0]; ring
  have e2 : decision (fun u v => rdot u v + 0) 1 badX [1, -1] a [8] = -65 * a 1 := by
    simp [decision, badX, lifted, rdot, Finset.sum_range_succ, ha0]; ring
  change ok [XR.fin _, XR.fin _] = _
  beta_reduce
  rw [e1, e2]

/-- **C68 violated.** The multiplier of the first sample stays 0, while Pegasos counts the first draw of the first sample. -/
theorem C68_violation : ∃ (m' : Svm XR) (a : ℕ → ℝ), badSvm.train (fun _ => 0) (finMat badX) (fins [1, -1]) = ok m' ∧
    m'.alpha = some ((List.range 2).map fun i => XR.fin (a i)) ∧
    a 0 ≠ pegasos (fun u v => rdot u v + 0) 1 badX [1, -1] (fun _ => 0) badSvm.optimIters 0 / badSvm.optimIters := by
  obtain ⟨m', a, h1, h2, h3, -⟩ := bad_alpha fun _ => 0
  refine ⟨m', a, h1, h2, ?_⟩
  rw [h3]
  have hpos : ∀ T, 1 ≤ pegasos (fun u v => rdot u v + 0) 1 badX [1, -1] (fun _ => 0) (T + 1) 0 := by
    intro T
    induction T with
    | zero =>
      rw [pegasos]
      have e : decision (fun u v => rdot u v + 0) (1 * (((0 : ℕ) : ℝ) + 1)) badX [1, -1] (pegasos (fun u v => rdot u v + 0) 1 badX [1, -1] (fun _ => 0) 0) (badX.rows.getD 0 []) = 0 := by
        simp [decision, pegasos]
      rw [if_pos ⟨rfl, by rw [e]; norm_num⟩]
      simp [pegasos]
    | succ T ih =>
      rw [pegasos]
      split <;> linarith
  have := hpos 99
  have hT : (badSvm.optimIters : ℝ) = 100 := by change ((100 : ℕ) : ℝ) = 100; norm_num
  have hT' : badSvm.optimIters = 99 + 1 := rfl
  rw [hT, hT']
  intro h
  linarith

/-- **C68 violated, in effect.** The two samples are linearly separable, and whatever is drawn in 100 iterations the trained
machine misclassifies one of them. -/
theorem C68_misclassified_violation : (∃ w : List ℝ, 1 ≤ 1 * rdot w (lifted badX 0) ∧ 1 ≤ -1 * rdot w (lifted badX 1)) ∧
    ∀ draws : ℕ → ℕ, ∃ m', badSvm.train draws (finMat badX) (fins [1, -1]) = ok m' ∧ m'.predict (finMat badX) ≠ ok (fins [1, -1]) := by
  constructor
  · exact ⟨[-9, 1], by norm_num [rdot, lifted, badX], by norm_num [rdot, lifted, badX]⟩
  · intro draws
    obtain ⟨m', a, h1, -, -, h4⟩ := bad_alpha draws
    refine ⟨m', h1, ?_⟩
    rw [h4]
    intro h
    injection h with h
    simp only [fins, List.map_cons, List.map_nil] at h
    injection h with h0 h
    injection h with h1 h
    injection h0 with h0
    injection h1 with h1
    by_cases hc : 0 ≤ -81 * a 1
    · rw [if_pos (by linarith)] at h1
      norm_num at h1
    · rw [if_neg hc] at h0
      norm_num at h0

/-- The default machine on two points meets the hypotheses of `C58_outputs` and `C68_multipliers_partial`. -/
example (draws : ℕ → ℕ) : ∃ (k : List ℝ → List ℝ → ℝ) (m' : Svm XR) (a : ℕ → ℝ), (Svm.default : Svm XR).train draws (finMat badX) (fins [1, -1]) = ok m' ∧
    m'.alpha = some ((List.range 2).map fun i => XR.fin (a i)) ∧
    m'.predict (finMat badX) = ok (badX.rows.map fun z => XR.fin (if 0 ≤ decision k (3 / 10) badX [1, -1] a z then 1 else -1)) :=
  ⟨_, C58_outputs (m := Svm.default) (C58_kernels.2 1 1 one_ne_zero) (lambda := 3 / 10) (by simp [Svm.default]) (by norm_num)
    (by intro r hr; simp [badX] at hr; rcases hr with rfl | rfl <;> rfl) rfl (by simp [badX]) (by change 0 < 100; norm_num) draws
    (by intro r hr; simp [badX] at hr; rcases hr with rfl | rfl <;> rfl) rfl⟩

end RM
