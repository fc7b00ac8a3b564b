import Mathlib.LinearAlgebra.Matrix.Rank
import Verif.Proofs.Gmm
import Verif.Proofs.GmmAlg
import Verif.Proofs.Reservoir

/-! Training of the mixture model: the initial state, the invariant of the loop and the loop itself. -/

namespace RM
open Outcome Scalar Spec Matrix

/-! ### Positive matrices -/

theorem gram_semi {n d : ℕ} (c : Fin n → ℝ) (hc : ∀ i, 0 ≤ c i) (y : Fin n → Fin d → ℝ) :
    PosSemi (Matrix.of fun a b => ∑ i, c i * (y i a * y i b)) := by
  refine ⟨?_, fun v => ?_⟩
  · ext a b
    simp only [Matrix.transpose_apply, Matrix.of_apply]
    exact Finset.sum_congr rfl fun i _ => by ring
  · have : v ⬝ᵥ (Matrix.of fun a b => ∑ i, c i * (y i a * y i b)) *ᵥ v = ∑ i, c i * (∑ a, y i a * v a) ^ 2 := by
      simp only [dotProduct, Matrix.mulVec, Matrix.of_apply, Finset.mul_sum, Finset.sum_mul, sq]
      have h1 : ∀ a : Fin d, ∑ b, ∑ i, v a * (c i * (y i a * y i b) * v b) = ∑ i, ∑ b, v a * (c i * (y i a * y i b) * v b) :=
        fun a => Finset.sum_comm
      rw [Finset.sum_congr rfl fun a _ => h1 a, Finset.sum_comm]
      refine Finset.sum_congr rfl fun i _ => ?_
      rw [Finset.sum_comm]
      refine Finset.sum_congr rfl fun a _ => Finset.sum_congr rfl fun b _ => ?_
      ring
    rw [this]
    exact Finset.sum_nonneg fun i _ => mul_nonneg (hc i) (sq_nonneg _)

theorem diag_semi {d : ℕ} (v : Fin d → ℝ) (hv : ∀ a, 0 ≤ v a) : PosSemi (Matrix.diagonal v) := by
  refine ⟨Matrix.diagonal_transpose v, fun u => ?_⟩
  simp only [dotProduct, Matrix.mulVec_diagonal]
  exact Finset.sum_nonneg fun a _ => by nlinarith [hv a, mul_self_nonneg (u a)]

theorem semi_diag_nonneg {d : ℕ} {S : Matrix (Fin d) (Fin d) ℝ} (h : PosSemi S) (a : Fin d) : 0 ≤ S a a := by
  have := h.2 (Pi.single a 1)
  simpa using this

theorem semi_add_one {d : ℕ} {S : Matrix (Fin d) (Fin d) ℝ} (h : PosSemi S) (e : ℝ) (he : 0 ≤ e) :
    PosSemi (S + e • (1 : Matrix (Fin d) (Fin d) ℝ)) := by
  refine ⟨by rw [Matrix.transpose_add, Matrix.transpose_smul, Matrix.transpose_one, h.1], fun v => ?_⟩
  rw [Matrix.add_mulVec, dotProduct_add, Matrix.smul_mulVec, Matrix.one_mulVec, dotProduct_smul, smul_eq_mul]
  have : 0 ≤ v ⬝ᵥ v := Finset.sum_nonneg fun i _ => mul_self_nonneg _
  have := h.2 v
  positivity

theorem def_add_one {d : ℕ} {S : Matrix (Fin d) (Fin d) ℝ} (h : PosSemi S) (e : ℝ) (he : 0 < e) :
    PosDefinite (S + e • (1 : Matrix (Fin d) (Fin d) ℝ)) := by
  refine ⟨(semi_add_one h e he.le).1, fun v hv => ?_⟩
  rw [Matrix.add_mulVec, dotProduct_add, Matrix.smul_mulVec, Matrix.one_mulVec, dotProduct_smul, smul_eq_mul]
  have h1 : 0 < v ⬝ᵥ v := by
    obtain ⟨i, hi⟩ := Function.ne_iff.mp hv
    exact Finset.sum_pos' (fun i _ => mul_self_nonneg _) ⟨i, Finset.mem_univ i, mul_self_pos.mpr hi⟩
  have := h.2 v
  positivity

theorem def_semi {d : ℕ} {S : Matrix (Fin d) (Fin d) ℝ} (h : PosDefinite S) : PosSemi S := by
  refine ⟨h.1, fun v => ?_⟩
  by_cases hv : v = 0
  · rw [hv]; simp
  · exact (h.2 v hv).le

theorem weightedCov_semi {n k d : ℕ} {r : Fin n → Fin k → ℝ} (hr : ∀ i j, 0 ≤ r i j) (x : Fin n → Fin d → ℝ) (j : Fin k) :
    PosSemi (weightedCov r x j) := by
  have hN : 0 ≤ compTotal r j := Finset.sum_nonneg fun i _ => hr i j
  have h := gram_semi (fun i => r i j / compTotal r j) (fun i => div_nonneg (hr i j) hN) (fun i a => x i a - weightedMean r x j a)
  have e : weightedCov r x j = Matrix.of fun a b => ∑ i, (fun i => r i j / compTotal r j) i *
      ((fun i a => x i a - weightedMean r x j a) i a * (fun i a => x i a - weightedMean r x j a) i b) := by
    ext a b
    simp only [weightedCov, Matrix.of_apply, Finset.sum_div]
    exact Finset.sum_congr rfl fun i _ => by ring
  rw [e]
  exact h

theorem optionCov_semi {n k d : ℕ} {r : Fin n → Fin k → ℝ} (hr : ∀ i j, 0 ≤ r i j) (x : Fin n → Fin d → ℝ) (j : Fin k)
    {opt : CovOption ℝ} (ho : ∀ e, opt = .regularized e → 0 ≤ e) : PosSemi (optionCov opt r x j) := by
  have h := weightedCov_semi hr x j
  cases opt with
  | full => exact h
  | diagonal => exact diag_semi _ fun a => semi_diag_nonneg h a
  | regularized e => exact semi_add_one h _ (div_nonneg (ho e rfl) (Finset.sum_nonneg fun i _ => hr i j))

theorem optionCov_def {n k d : ℕ} {r : Fin n → Fin k → ℝ} (hr : ∀ i j, 0 ≤ r i j) (x : Fin n → Fin d → ℝ) (j : Fin k)
    (hN : 0 < compTotal r j) {e : ℝ} (he : 0 < e) : PosDefinite (optionCov (.regularized e) r x j) :=
  def_add_one (weightedCov_semi hr x j) _ (div_pos he hN)

/-- A weighted average is between the smallest and the largest value. -/
theorem weightedMean_range {n k d : ℕ} {r : Fin n → Fin k → ℝ} (hr : ∀ i j, 0 ≤ r i j) (x : Fin n → Fin d → ℝ) (j : Fin k)
    (hN : 0 < compTotal r j) (a : Fin d) : (∃ i, x i a ≤ weightedMean r x j a) ∧ ∃ i, weightedMean r x j a ≤ x i a := by
  have e : ∑ i, r i j * (x i a - weightedMean r x j a) = 0 := by
    simp only [mul_sub, Finset.sum_sub_distrib, ← Finset.sum_mul]
    rw [weightedMean, show ∑ i, r i j = compTotal r j from rfl]
    field_simp
    ring
  have hpos : ∃ i, 0 < r i j := by
    by_contra h
    push Not at h
    exact absurd hN (not_lt.mpr (Finset.sum_nonpos fun i _ => h i))
  obtain ⟨i0, hi0⟩ := hpos
  constructor
  · by_contra h
    push Not at h
    have : 0 < ∑ i, r i j * (x i a - weightedMean r x j a) :=
      Finset.sum_pos' (fun i _ => mul_nonneg (hr i j) (sub_nonneg.mpr (h i).le)) ⟨i0, Finset.mem_univ _, mul_pos hi0 (sub_pos.mpr (h i0))⟩
    linarith
  · by_contra h
    push Not at h
    have : 0 < ∑ i, r i j * (weightedMean r x j a - x i a) :=
      Finset.sum_pos' (fun i _ => mul_nonneg (hr i j) (sub_nonneg.mpr (h i).le)) ⟨i0, Finset.mem_univ _, mul_pos hi0 (sub_pos.mpr (h i0))⟩
    have e2 : ∑ i, r i j * (weightedMean r x j a - x i a) = -∑ i, r i j * (x i a - weightedMean r x j a) := by
      rw [← Finset.sum_neg_distrib]
      exact Finset.sum_congr rfl fun i _ => by ring
    linarith

/-! ### The initial state -/

theorem sampleCov_semi {n d : ℕ} (x : Fin n → Fin d → ℝ) : PosSemi (sampleCov x) := by
  have hn : (0 : ℝ) ≤ 1 / ((n - 1 : ℕ) : ℝ) := by positivity
  have h := gram_semi (fun _ => 1 / ((n - 1 : ℕ) : ℝ)) (fun _ => hn) (fun i a => x i a - (∑ i, x i a) / n)
  have e : sampleCov x = Matrix.of fun a b => ∑ i, (fun _ : Fin n => 1 / ((n - 1 : ℕ) : ℝ)) i *
      ((fun i a => x i a - (∑ i, x i a) / n) i a * (fun i a => x i a - (∑ i, x i a) / n) i b) := by
    ext a b
    simp only [sampleCov, Matrix.of_apply, Finset.sum_div]
    exact Finset.sum_congr rfl fun i _ => by ring
  rw [e]
  exact h

theorem startCov_semi {n d : ℕ} (x : Fin n → Fin d → ℝ) {opt : CovOption ℝ} (ho : ∀ e, opt = .regularized e → 0 ≤ e) :
    PosSemi (startCov opt x) := by
  have h := sampleCov_semi x
  cases opt with
  | full => exact h
  | diagonal => exact diag_semi _ fun a => mul_nonneg (semi_diag_nonneg h a) (Real.sqrt_nonneg _)
  | regularized e => exact semi_add_one h _ (ho e rfl)

theorem meanRow_ofM {n d : ℕ} (x : Matrix (Fin n) (Fin d) ℝ) : (ofM x).meanRow = List.ofFn fun a => (∑ i, x i a) / n := by
  unfold Mat.meanRow
  rw [sumRows_ofM, ofM_rows, List.length_ofFn, List.map_ofFn]
  rfl

theorem colOf_ofM {n d : ℕ} (x : Matrix (Fin n) (Fin d) ℝ) (a : Fin d) : colOf (ofM x).rows a = List.ofFn fun i => x i a := by
  unfold colOf
  have : ∀ (n : ℕ) (y : Fin n → Fin d → ℝ), (List.ofFn fun i => List.ofFn (y i)).filterMap (fun r => r[(a : ℕ)]?) = List.ofFn fun i => y i a := by
    intro n y
    induction n with
    | zero => simp
    | succ n ih =>
      rw [List.ofFn_succ, List.ofFn_succ, List.filterMap_cons]
      simp [ih fun i => y i.succ]
  exact this n x

theorem map_range_ofFn {α : Type} {d : ℕ} (f : ℕ → α) : (List.range d).map f = List.ofFn fun a : Fin d => f a := by
  apply List.ext_getElem (by simp)
  intro i h1 h2
  simp

theorem scatter_ofM {n d : ℕ} (x : Matrix (Fin n) (Fin d) ℝ) :
    scatterMat (ofM x) = ofM (Matrix.of fun a b => ∑ i, (x i a - (∑ i, x i a) / n) * (x i b - (∑ i, x i b) / n)) := by
  unfold scatterMat
  simp only [ofM_cols, meanRow_ofM, map_range_ofFn, ofM_rows, List.map_ofFn]
  unfold ofM matOf
  congr 2
  funext a
  congr 1
  funext b
  rw [fsum_ofFn]
  refine Finset.sum_congr rfl fun i _ => ?_
  simp [real_mul, real_sub]

theorem varianceRow_ofM {n d : ℕ} (x : Matrix (Fin n) (Fin d) ℝ) (hn : 2 ≤ n) :
    (ofM x).varianceRow = ok (List.ofFn fun a => sampleCov x a a) := by
  unfold Mat.varianceRow
  have hl : (ofM x).rows.length = n := by simp [ofM_rows]
  rw [hl, if_neg (by omega), ofM_cols, map_range_ofFn]
  congr 2
  funext a
  simp only [colOf_ofM, List.map_ofFn]
  rw [fsum_ofFn, fsum_ofFn]
  simp only [sampleCov, Matrix.of_apply, real_div, real_sub, real_mul, Function.comp_apply]
  rfl

theorem initCov_ofM {n d : ℕ} (m : Gmm ℝ) (x : Matrix (Fin n) (Fin d) ℝ) (hn : 2 ≤ n) :
    m.initCov (ofM x) (1 / ((n - 1 : ℕ) : ℝ)) = ok (ofM (startCov m.covOption x)) := by
  have hs : (scatterMat (ofM x)).scaleBy (1 / ((n - 1 : ℕ) : ℝ)) = ofM (sampleCov x) := by
    rw [scatter_ofM, Mat.scaleBy, ofM_map]
    congr 1
    ext a b
    simp only [Matrix.map_apply, Matrix.of_apply, sampleCov, real_mul]
    ring
  unfold Gmm.initCov
  cases m.covOption with
  | full => simp only [hs, startCov]
  | diagonal =>
    simp only [varianceRow_ofM x hn, startCov]
    show (do let variance ← ok _; _) = _
    rw [ok_bind, fromDiag_ofFn, Mat.scaleBy, ofM_map]
    congr 2
    ext a b
    simp only [Matrix.map_apply, Matrix.diagonal_apply, real_mul]
    split
    · rfl
    · ring
  | regularized e =>
    simp only [hs, startCov]
    rw [ofM_cols, eyeMat_ofM, Mat.scaleBy, ofM_map, ofM_zip]
    congr 2
    ext a b
    simp only [Matrix.map_apply, Matrix.of_apply, real_add, real_mul, Matrix.add_apply, Matrix.smul_apply, smul_eq_mul]
    ring

theorem selectRows_ofM {n d : ℕ} (x : Matrix (Fin n) (Fin d) ℝ) {k : ℕ} (σ : Fin k → Fin n) :
    (ofM x).selectRows (List.ofFn fun j => (σ j : ℕ)) = ok (ofM (Matrix.of fun j => x (σ j))) := by
  unfold Mat.selectRows
  rw [mapM_ofFn _ _ (fun j => List.ofFn (x (σ j))) fun j => ?_, ok_bind]
  · rfl
  · rw [ofM_rows, getAt_ofFn]

theorem sample_rows (draws : ℕ → ℕ) {n k : ℕ} (hk : k ≤ n) :
    ∃ σ : Fin k → Fin n, Function.Injective σ ∧ reservoirSample draws (List.range n) k = ok (List.ofFn fun j => (σ j : ℕ)) := by
  obtain ⟨res, h1, h2, h3⟩ := reservoirSample_subperm draws (List.range n) k (by simpa using hk)
  have hlt : ∀ v ∈ res, v < n := fun v hv => List.mem_range.mp (h3.subset hv)
  have hnd : res.Nodup := by
    obtain ⟨l, hl, hs⟩ := h3
    exact hl.nodup_iff.mp (hs.nodup List.nodup_range)
  subst h2
  refine ⟨fun j => ⟨res[j], hlt _ (List.getElem_mem _)⟩, ?_, ?_⟩
  · intro i j hij
    have : res[i] = res[j] := by simpa using hij
    exact Fin.ext ((List.Nodup.getElem_inj_iff hnd).mp this)
  · rw [h1]
    simp

/-- The state before the first iteration. -/
theorem init_ofM {n d k : ℕ} (draws : ℕ → ℕ) {m : Gmm ℝ} {w : Fin k → ℝ} (hk : m.compCount = k) (hw : m.mixWeights = List.ofFn w)
    (x : Matrix (Fin n) (Fin d) ℝ) (hn : 2 ≤ n) (hkn : k ≤ n) :
    ∃ σ : Fin k → Fin n, Function.Injective σ ∧ reservoirSample draws (List.range n) k = ok (List.ofFn fun j => (σ j : ℕ)) ∧
      ∃ m0, m.init draws (ofM x) = ok m0 ∧
      HasParams m0 w (fun j => x (σ j)) (fun _ => startCov m.covOption x) ∧ m0.covOption = m.covOption ∧
      m0.maxIters = m.maxIters ∧ m0.logLik = m.logLik := by
  obtain ⟨σ, hσ, hs⟩ := sample_rows draws hkn
  refine ⟨σ, hσ, hs, { m with
    covars := some (List.replicate m.compCount (ofM (startCov m.covOption x)))
    means := some (ofM (Matrix.of fun j => x (σ j))) }, ?_, ⟨hk, hw, rfl, ?_⟩, rfl, rfl, rfl⟩
  · have hl : (ofM x).rows.length = n := by simp [ofM_rows]
    unfold Gmm.init
    rw [hl, if_pos (by omega), hk]
    have : (Scalar.div (Scalar.one : ℝ) (Scalar.ofNat (n - 1))) = 1 / ((n - 1 : ℕ) : ℝ) := rfl
    rw [this, initCov_ofM m x hn, ok_bind, hs, ok_bind, selectRows_ofM, ok_bind]
  · simp only [hk]
    congr 1
    exact (List.ofFn_const k _).symm

/-! ### The loop -/

/-- What holds of the parameters in every iteration. -/
structure GoodParams {n k d : ℕ} (opt : CovOption ℝ) (x : Matrix (Fin n) (Fin d) ℝ) (w : Fin k → ℝ) (μ : Fin k → Fin d → ℝ)
    (S : Fin k → Matrix (Fin d) (Fin d) ℝ) : Prop where
  mix : IsMixture w
  semi : ∀ j, PosSemi (S j)
  diag : opt = .diagonal → ∀ j, ∃ v, S j = Matrix.diagonal v
  reg : ∀ e, opt = .regularized e → 0 < e → ∀ j, PosDefinite (S j)
  range : ∀ j a, (∃ i, x i a ≤ μ j a) ∧ ∃ i, μ j a ≤ x i a

/-- A regularisation constant is not negative. -/
abbrev OptOk (opt : CovOption ℝ) : Prop := ∀ e, opt = .regularized e → 0 ≤ e

theorem start_good {n k d : ℕ} {opt : CovOption ℝ} (ho : OptOk opt) (x : Matrix (Fin n) (Fin d) ℝ) {w : Fin k → ℝ} (hw : IsMixture w)
    (σ : Fin k → Fin n) : GoodParams opt x w (fun j => x (σ j)) (fun _ => startCov opt x) where
  mix := hw
  semi := fun _ => startCov_semi x ho
  diag := fun h _ => by subst h; exact ⟨_, rfl⟩
  reg := fun e h he _ => by subst h; exact def_add_one (sampleCov_semi x) e he
  range := fun j _ => ⟨⟨σ j, le_rfl⟩, ⟨σ j, le_rfl⟩⟩

theorem compTotal_pos {n k d : ℕ} (hn : 0 < n) {w : Fin k → ℝ} (hw : IsMixture w) {μ : Fin k → Fin d → ℝ}
    {S : Fin k → Matrix (Fin d) (Fin d) ℝ} (hS : ∀ j, PosDefinite (S j)) (x : Fin n → Fin d → ℝ) (j : Fin k) :
    0 < compTotal (fun i => posterior w μ S (x i)) j :=
  Finset.sum_pos (fun i _ => (posterior_pos hw hS (x i)).2.1 j) ⟨⟨0, hn⟩, Finset.mem_univ _⟩

theorem next_good {n k d : ℕ} (hn : 0 < n) {opt : CovOption ℝ} (ho : OptOk opt) (x : Matrix (Fin n) (Fin d) ℝ) {w : Fin k → ℝ}
    {μ : Fin k → Fin d → ℝ} {S : Fin k → Matrix (Fin d) (Fin d) ℝ} (hw : IsMixture w) (hS : ∀ j, PosDefinite (S j)) :
    GoodParams opt x (fun j => compTotal (fun i => posterior w μ S (x i)) j / n) (weightedMean (fun i => posterior w μ S (x i)) x)
      (optionCov opt (fun i => posterior w μ S (x i)) x) := by
  have hn' : (0 : ℝ) < n := by exact_mod_cast hn
  have hp := fun i => posterior_pos (μ := μ) hw hS (x i)
  have hr : ∀ i j, 0 ≤ posterior w μ S (x i) j := fun i j => ((hp i).2.1 j).le
  have hN := compTotal_pos (μ := μ) hn hw hS x
  refine ⟨⟨fun j => div_pos (hN j) hn', ?_⟩, fun j => optionCov_semi hr x j ho, ?_, ?_, fun j a => weightedMean_range hr x j (hN j) a⟩
  · rw [← Finset.sum_div]
    unfold compTotal
    rw [Finset.sum_comm, Finset.sum_congr rfl fun i _ => (hp i).2.2]
    simp [hn'.ne']
  · intro h j
    subst h
    exact ⟨_, rfl⟩
  · intro e h he j
    subst h
    exact optionCov_def hr x j (hN j) he

/-- The logarithm of the likelihood the code computes: it leaves the constant factor of the densities out. -/
noncomputable def codeLik {n k d : ℕ} (w : Fin k → ℝ) (μ : Fin k → Fin d → ℝ) (S : Fin k → Matrix (Fin d) (Fin d) ℝ)
    (x : Fin n → Fin d → ℝ) : ℝ := ∑ i, Real.log (Real.sqrt ((2 * Real.pi) ^ d) * mixDensity w μ S (x i))

theorem codeLik_eq {n k d : ℕ} {w : Fin k → ℝ} (hw : IsMixture w) {μ : Fin k → Fin d → ℝ} {S : Fin k → Matrix (Fin d) (Fin d) ℝ}
    (hS : ∀ j, PosDefinite (S j)) (x : Fin n → Fin d → ℝ) :
    codeLik w μ S x = logLikelihood w μ S x + n * Real.log (Real.sqrt ((2 * Real.pi) ^ d)) := by
  have h2 : 0 < (2 * Real.pi) ^ d := by have := Real.pi_pos; positivity
  have h3 : Real.sqrt ((2 * Real.pi) ^ d) ≠ 0 := (Real.sqrt_pos.mpr h2).ne'
  unfold codeLik logLikelihood
  have : ∀ i, Real.log (Real.sqrt ((2 * Real.pi) ^ d) * mixDensity w μ S (x i)) =
      Real.log (mixDensity w μ S (x i)) + Real.log (Real.sqrt ((2 * Real.pi) ^ d)) := by
    intro i
    rw [Real.log_mul h3 (posterior_pos hw hS (x i)).1.ne', add_comm]
  simp only [this, Finset.sum_add_distrib, Finset.sum_const, Finset.card_univ, Fintype.card_fin, nsmul_eq_mul]

theorem emStep_eval {n k d : ℕ} {lup : Mat ℝ → Outcome (ℝ × Outcome (Mat ℝ))} {m : Gmm ℝ} {w : Fin k → ℝ} {μ : Fin k → Fin d → ℝ}
    {S : Fin k → Matrix (Fin d) (Fin d) ℝ} (hm : HasParams m w μ S) (x : Matrix (Fin n) (Fin d) ℝ)
    (h : m.memberships lup (ofM x) = ok (ofM (Matrix.of fun i => posterior w μ S (x i)), codeLik w μ S x)) :
    (|codeLik w μ S x - m.logLik| < 1 / 10 ^ 15 → m.emStep lup (ofM x) = ok none) ∧
    (¬ |codeLik w μ S x - m.logLik| < 1 / 10 ^ 15 → ∃ m', m.emStep lup (ofM x) = ok (some m') ∧
      HasParams m' (fun j => compTotal (fun i => posterior w μ S (x i)) j / n) (weightedMean (fun i => posterior w μ S (x i)) x)
        (optionCov m.covOption (fun i => posterior w μ S (x i)) x) ∧ m'.covOption = m.covOption ∧ m'.maxIters = m.maxIters ∧
      m'.logLik = codeLik w μ S x) := by
  have hc : Scalar.lt (Scalar.abs (Scalar.sub (codeLik w μ S x) m.logLik)) (Scalar.ofRat (1 / 10 ^ 15) : ℝ) =
      decide (|codeLik w μ S x - m.logLik| < 1 / 10 ^ 15) := by
    rw [real_lt, real_abs, real_sub, real_ofRat]
    push_cast
    rfl
  constructor
  · intro hlt
    unfold Gmm.emStep
    rw [h, ok_bind]
    simp only [hc, decide_eq_true hlt, if_true]
  · intro hlt
    obtain ⟨m', h1, h2, h3, h4, h5⟩ := update_ofM (m := { m with logLik := codeLik w μ S x }) hm.1 x (Matrix.of fun i => posterior w μ S (x i))
    refine ⟨m', ?_, h2, h3, h4, h5⟩
    unfold Gmm.emStep
    rw [h, ok_bind]
    simp only [hc, decide_eq_false hlt]
    rw [if_neg (by simp), h1, ok_bind]

/-- Everything about one iteration. -/
theorem emStep_ok {n k d : ℕ} (hn : 0 < n) {lup : Mat ℝ → Outcome (ℝ × Outcome (Mat ℝ))} (hl : LupExact lup) {m : Gmm ℝ}
    (ho : OptOk m.covOption) {w : Fin k → ℝ} {μ : Fin k → Fin d → ℝ} {S : Fin k → Matrix (Fin d) (Fin d) ℝ} (hm : HasParams m w μ S)
    {x : Matrix (Fin n) (Fin d) ℝ} (hg : GoodParams m.covOption x w μ S) {o : Option (Gmm ℝ)} (h : m.emStep lup (ofM x) = ok o) :
    (∀ j, PosDefinite (S j)) ∧ m.memberships lup (ofM x) = ok (ofM (Matrix.of fun i => posterior w μ S (x i)), codeLik w μ S x) ∧
    (o = none ∧ |codeLik w μ S x - m.logLik| < 1 / 10 ^ 15 ∨ ∃ m', o = some m' ∧ ¬ |codeLik w μ S x - m.logLik| < 1 / 10 ^ 15 ∧
      HasParams m' (fun j => compTotal (fun i => posterior w μ S (x i)) j / n) (weightedMean (fun i => posterior w μ S (x i)) x)
        (optionCov m.covOption (fun i => posterior w μ S (x i)) x) ∧
      GoodParams m.covOption x (fun j => compTotal (fun i => posterior w μ S (x i)) j / n)
        (weightedMean (fun i => posterior w μ S (x i)) x) (optionCov m.covOption (fun i => posterior w μ S (x i)) x) ∧
      m'.covOption = m.covOption ∧ m'.maxIters = m.maxIters ∧ m'.logLik = codeLik w μ S x) := by
  obtain ⟨⟨P, l⟩, h1, -⟩ := bind_eq_ok.mp h
  obtain ⟨h2, rfl, h3⟩ := memberships_ok hl hm h1
  have hS : ∀ j, PosDefinite (S j) := fun j => posSemi_posDef (hg.semi j) (h2 j)
  rw [h3] at h1
  have h1' : m.memberships lup (ofM x) = ok (ofM (Matrix.of fun i => posterior w μ S (x i)), codeLik w μ S x) := h1
  refine ⟨hS, h1', ?_⟩
  obtain ⟨e1, e2⟩ := emStep_eval hm x h1'
  by_cases hlt : |codeLik w μ S x - m.logLik| < 1 / 10 ^ 15
  · left
    rw [e1 hlt] at h
    injection h with h
    exact ⟨h.symm, hlt⟩
  · right
    obtain ⟨m', h4, h5, h6, h7, h8⟩ := e2 hlt
    rw [h4] at h
    injection h with h
    exact ⟨m', h.symm, hlt, h5, next_good hn ho x hg.mix hS, h6, h7, h8⟩

/-- One more iteration. -/
theorem emLoop_succ {F : Type} [Scalar F] (lup : Mat F → Outcome (F × Outcome (Mat F))) (X : Mat F) (t : ℕ) (m : Gmm F) :
    m.emLoop lup X (t + 1) = m.emLoop lup X t >>= fun m' => m'.emLoop lup X 1 := by
  induction t generalizing m with
  | zero => rfl
  | succ t ih =>
    rw [Gmm.emLoop]
    conv_rhs => rw [Gmm.emLoop]
    cases h : m.emStep lup X with
    | err e => rfl
    | panic => rfl
    | ub => rfl
    | ok o =>
      rw [ok_bind, ok_bind]
      cases o with
      | none =>
        show ok m = ok m >>= _
        rw [ok_bind, Gmm.emLoop, h]
        rfl
      | some m' => exact ih m'

/-- The invariant of the loop. -/
theorem emLoop_good {n k d : ℕ} (hn : 0 < n) {lup : Mat ℝ → Outcome (ℝ × Outcome (Mat ℝ))} (hl : LupExact lup) {m : Gmm ℝ}
    (ho : OptOk m.covOption) {w : Fin k → ℝ} {μ : Fin k → Fin d → ℝ} {S : Fin k → Matrix (Fin d) (Fin d) ℝ} (hm : HasParams m w μ S)
    {x : Matrix (Fin n) (Fin d) ℝ} (hg : GoodParams m.covOption x w μ S) {t : ℕ} {m' : Gmm ℝ} (h : m.emLoop lup (ofM x) t = ok m') :
    ∃ (w' : Fin k → ℝ) (μ' : Fin k → Fin d → ℝ) (S' : Fin k → Matrix (Fin d) (Fin d) ℝ), HasParams m' w' μ' S' ∧
      GoodParams m.covOption x w' μ' S' ∧ m'.covOption = m.covOption ∧ m'.maxIters = m.maxIters := by
  induction t generalizing m w μ S with
  | zero =>
    injection h with h
    subst h
    exact ⟨w, μ, S, hm, hg, rfl, rfl⟩
  | succ t ih =>
    rw [Gmm.emLoop] at h
    obtain ⟨o, h1, h⟩ := bind_eq_ok.mp h
    obtain ⟨hS, -, h2⟩ := emStep_ok hn hl ho hm hg h1
    rcases h2 with ⟨rfl, -⟩ | ⟨m1, rfl, -, h3, h4, h5, h6, -⟩
    · injection h with h
      subst h
      exact ⟨w, μ, S, hm, hg, rfl, rfl⟩
    · obtain ⟨w', μ', S', g1, g2, g3, g4⟩ := ih (by rw [h5]; exact ho) h3 (by rw [h5]; exact h4) h
      exact ⟨w', μ', S', g1, by rw [← h5]; exact g2, g3.trans h5, g4.trans h6⟩

/-- With a positive regularisation constant the loop always succeeds. -/
theorem emLoop_regularized {n k d : ℕ} (hn : 0 < n) {lup : Mat ℝ → Outcome (ℝ × Outcome (Mat ℝ))} (hl : LupExact lup) (hr : LupRegular lup)
    {m : Gmm ℝ} {e : ℝ} (he : 0 < e) (ho : m.covOption = .regularized e) {w : Fin k → ℝ} {μ : Fin k → Fin d → ℝ}
    {S : Fin k → Matrix (Fin d) (Fin d) ℝ} (hm : HasParams m w μ S) {x : Matrix (Fin n) (Fin d) ℝ} (hg : GoodParams m.covOption x w μ S)
    (t : ℕ) : ∃ m', m.emLoop lup (ofM x) t = ok m' := by
  have ho' : OptOk m.covOption := by rw [ho]; rintro _ ⟨⟩; exact he.le
  induction t generalizing m w μ S with
  | zero => exact ⟨m, rfl⟩
  | succ t ih =>
    have hS := hg.reg e ho he
    have h1 := memberships_regular hl hr hm (fun j => (posDef_det (hS j)).ne') x
    obtain ⟨e1, e2⟩ := emStep_eval hm x h1
    rw [Gmm.emLoop]
    by_cases hlt : |codeLik w μ S x - m.logLik| < 1 / 10 ^ 15
    · rw [e1 hlt]
      exact ⟨m, rfl⟩
    · obtain ⟨m1, h4, h5, h6, h7, h8⟩ := e2 hlt
      rw [h4, ok_bind]
      exact ih (h6.trans ho) h5 (by rw [h6]; exact next_good hn ho' x hg.mix hS) (by rw [h6]; exact ho')

/-! ### Training -/

theorem train_few (lup : Mat ℝ → Outcome (ℝ × Outcome (Mat ℝ))) (draws : ℕ → ℕ) (m : Gmm ℝ) (X : Mat ℝ) (h : X.rows.length < 2) :
    m.train lup draws X = err .InvalidData := by
  unfold Gmm.train Gmm.init
  rw [if_neg (by omega)]
  rfl

theorem train_many {n d : ℕ} (lup : Mat ℝ → Outcome (ℝ × Outcome (Mat ℝ))) (draws : ℕ → ℕ) (m : Gmm ℝ) (x : Matrix (Fin n) (Fin d) ℝ)
    (hn : 2 ≤ n) (h : n < m.compCount) : m.train lup draws (ofM x) = Outcome.panic := by
  have hl : (ofM x).rows.length = n := by simp [ofM_rows]
  have e : Scalar.div (Scalar.one : ℝ) (Scalar.ofNat (n - 1)) = 1 / ((n - 1 : ℕ) : ℝ) := rfl
  unfold Gmm.train Gmm.init
  rw [hl, if_pos (by omega), e, initCov_ofM m x hn, ok_bind]
  have : reservoirSample draws (List.range n) m.compCount = Outcome.panic := by
    unfold reservoirSample
    rw [List.length_range, decide_eq_false (by omega)]
    rfl
  rw [this]
  rfl

/-- The bound on the iterations does not matter to one iteration. -/
theorem emStep_iters {F : Type} [Scalar F] (lup : Mat F → Outcome (F × Outcome (Mat F))) (X : Mat F) (s : ℕ) (m : Gmm F) :
    (m.setMaxIters s).emStep lup X = m.emStep lup X >>= fun o => ok (o.map fun m' => m'.setMaxIters s) := by
  unfold Gmm.emStep
  have h : (m.setMaxIters s).memberships lup X = m.memberships lup X := rfl
  rw [h]
  cases m.memberships lup X with
  | err e => rfl
  | panic => rfl
  | ub => rfl
  | ok p =>
    rw [ok_bind, ok_bind]
    have h2 : (m.setMaxIters s).logLik = m.logLik := rfl
    simp only [h2]
    split
    · rfl
    · unfold Gmm.update
      have h3 : (m.setMaxIters s).compCount = m.compCount := rfl
      have h4 : (m.setMaxIters s).covOption = m.covOption := rfl
      simp only [h3, h4]
      cases p.1.transpose.mul X with
      | err e => rfl
      | panic => rfl
      | ub => rfl
      | ok q =>
        simp only [ok_bind]
        cases (List.range m.compCount).mapM (newCov m.covOption X p.1 ⟨q.cols, List.zipWith (fun r w => r.map fun x => Scalar.div x w) q.rows p.1.sumRows⟩ p.1.sumRows) with
        | err e => rfl
        | panic => rfl
        | ub => rfl
        | ok q => rfl

theorem emLoop_iters {F : Type} [Scalar F] (lup : Mat F → Outcome (F × Outcome (Mat F))) (X : Mat F) (s t : ℕ) (m : Gmm F) :
    (m.setMaxIters s).emLoop lup X t = m.emLoop lup X t >>= fun m' => ok (m'.setMaxIters s) := by
  induction t generalizing m with
  | zero => rfl
  | succ t ih =>
    rw [Gmm.emLoop, Gmm.emLoop, emStep_iters]
    cases m.emStep lup X with
    | err e => rfl
    | panic => rfl
    | ub => rfl
    | ok o =>
      cases o with
      | none => rfl
      | some m' => exact ih m'

theorem init_iters {F : Type} [Scalar F] (draws : ℕ → ℕ) (X : Mat F) (s : ℕ) (m : Gmm F) :
    (m.setMaxIters s).init draws X = m.init draws X >>= fun m' => ok (m'.setMaxIters s) := by
  unfold Gmm.init
  split
  · have h : (m.setMaxIters s).initCov X = m.initCov X := rfl
    rw [h]
    have h3 : (m.setMaxIters s).compCount = m.compCount := rfl
    simp only [h3]
    cases m.initCov X (Scalar.div Scalar.one (Scalar.ofNat (X.rows.length - 1))) with
    | err e => rfl
    | panic => rfl
    | ub => rfl
    | ok c =>
      simp only [ok_bind]
      cases reservoirSample draws (List.range X.rows.length) m.compCount with
      | err e => rfl
      | panic => rfl
      | ub => rfl
      | ok rows =>
        simp only [ok_bind]
        cases X.selectRows rows <;> rfl
  · rfl

/-- Training runs the loop from the start state. -/
theorem train_start {n d k : ℕ} (lup : Mat ℝ → Outcome (ℝ × Outcome (Mat ℝ))) (draws : ℕ → ℕ) {m : Gmm ℝ} {w : Fin k → ℝ}
    (hk : m.compCount = k) (hw : m.mixWeights = List.ofFn w) (x : Matrix (Fin n) (Fin d) ℝ) (hn : 2 ≤ n) (hkn : k ≤ n) :
    ∃ σ : Fin k → Fin n, Function.Injective σ ∧ reservoirSample draws (List.range n) k = ok (List.ofFn fun j => (σ j : ℕ)) ∧
      ∃ m0, HasParams m0 w (fun j => x (σ j)) (fun _ => startCov m.covOption x) ∧ m0.covOption = m.covOption ∧ m0.logLik = m.logLik ∧
      ∀ t, (m.setMaxIters t).train lup draws (ofM x) = m0.emLoop lup (ofM x) t >>= fun m' => ok (m'.setMaxIters t) := by
  obtain ⟨σ, hσ, hs, m0, h1, h2, h3, -, h5⟩ := init_ofM draws hk hw x hn hkn
  refine ⟨σ, hσ, hs, m0, h2, h3, h5, fun t => ?_⟩
  unfold Gmm.train
  rw [init_iters, h1, ok_bind, ok_bind]
  exact emLoop_iters lup (ofM x) t t m0

end RM
