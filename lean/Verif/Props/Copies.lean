import Verif.Spec.Copies
import Verif.Props.RowOrder
import Verif.Props.Regression
import Verif.Props.Glm
import Verif.Props.NaiveBayes
import Verif.Props.Encoding
import Verif.Props.Transforms
import Verif.Props.Backprop
import Verif.Props.RowWise

/-!
C96: giving every sample the same number of times does not matter to models and scores that are defined by averages.
-/

set_option linter.unusedSectionVars false

namespace RM
open Outcome Scalar Spec

/-! ### Lists -/

theorem copies_succ {α : Type} (k : ℕ) (S : List α) : copies (k + 1) S = S ++ copies k S := rfl

theorem map_copies {α β : Type} (f : α → β) (k : ℕ) (S : List α) : (copies k S).map f = copies k (S.map f) := by
  unfold copies
  rw [List.map_flatten, List.map_replicate]

theorem sum_copies (k : ℕ) (l : List ℝ) : (copies k l).sum = k * l.sum := by
  induction k with
  | zero => simp [copies]
  | succ k ih => rw [copies_succ, List.sum_append, ih]; push_cast; ring

theorem length_copies {α : Type} (k : ℕ) (S : List α) : (copies k S).length = k * S.length := by
  induction k with
  | zero => simp [copies]
  | succ k ih => rw [copies_succ, List.length_append, ih]; ring

theorem countP_copies {α : Type} (p : α → Bool) (k : ℕ) (S : List α) : (copies k S).countP p = k * S.countP p := by
  induction k with
  | zero => simp [copies]
  | succ k ih => rw [copies_succ, List.countP_append, ih]; ring

theorem mem_copies {α : Type} {k : ℕ} (hk : 0 < k) {S : List α} {x : α} : x ∈ copies k S ↔ x ∈ S := by
  unfold copies
  rw [List.mem_flatten]
  constructor
  · rintro ⟨l, hl, hx⟩
    rwa [List.eq_of_mem_replicate hl] at hx
  · intro hx
    exact ⟨S, List.mem_replicate.2 ⟨by omega, rfl⟩, hx⟩

theorem fsum_copies {α : Type} (k : ℕ) (S : List α) (f : α → ℝ) : fsum ((copies k S).map f) = k * fsum (S.map f) := by
  rw [map_copies, fsum_real, fsum_real, sum_copies]

theorem copies_width {β : Type} {c k : ℕ} {S : List (List ℝ × β)} (hS : ∀ s ∈ S, s.1.length = c) : ∀ s ∈ copies k S, s.1.length = c := by
  intro s hs
  rcases Nat.eq_zero_or_pos k with rfl | hk
  · simp [copies] at hs
  · exact hS s ((mem_copies hk).1 hs)

theorem inputsOf_wf {β : Type} {c : ℕ} {S : List (List ℝ × β)} (hS : ∀ s ∈ S, s.1.length = c) : (inputsOf c S).WF := by
  intro r hr
  obtain ⟨s, hs, rfl⟩ := List.mem_map.1 hr
  exact hS s hs

/-! ### Linear regression -/

theorem rss_samples (c : ℕ) (S : List (List ℝ × ℝ)) (β : List ℝ) :
    rss (inputsOf c S) (targetsOf S) β = (S.map fun s => (s.2 - affine β s.1) ^ 2).sum := by
  unfold rss inputsOf targetsOf
  rw [zipWith_map_same]

theorem independent_copies {c k : ℕ} (hk : 0 < k) (S : List (List ℝ × ℝ)) : AffinelyIndependent (inputsOf c (copies k S)) ↔ AffinelyIndependent (inputsOf c S) := by
  unfold AffinelyIndependent inputsOf
  simp only [map_copies, mem_copies hk]

/-- **C96 (linear regression).** Training on `k` copies of every sample succeeds exactly when training on one copy does, and gives the
same parameters. -/
theorem C96_lin_reg {solve : Mat ℝ → List ℝ → Outcome (List ℝ)} (hs : SolvesExactly solve) (hr : SolvesRegular solve) {c k : ℕ} (hk : 0 < k)
    (S : List (List ℝ × ℝ)) (hS : ∀ s ∈ S, s.1.length = c) (m : LinReg ℝ) :
    LinReg.train solve (inputsOf c (copies k S)) (targetsOf (copies k S)) = ok m ↔ LinReg.train solve (inputsOf c S) (targetsOf S) = ok m := by
  have hw := inputsOf_wf hS
  have hw' := inputsOf_wf (copies_width (k := k) hS)
  have hiff := C48_succeeds_iff hs hr (inputsOf c S) hw (targetsOf S) (by simp [inputsOf, targetsOf])
  have hiff' := C48_succeeds_iff hs hr (inputsOf c (copies k S)) hw' (targetsOf (copies k S)) (by simp [inputsOf, targetsOf])
  rw [independent_copies hk] at hiff'
  have huniq : ∀ m1 m2, LinReg.train solve (inputsOf c (copies k S)) (targetsOf (copies k S)) = ok m1 →
      LinReg.train solve (inputsOf c S) (targetsOf S) = ok m2 → m1 = m2 := by
    intro m1 m2 h1 h2
    obtain ⟨β1, a1, a2, a3⟩ := C48_least_squares hs _ hw' _ m1 h1
    obtain ⟨β2, b1, b2, b3⟩ := C48_least_squares hs _ hw _ m2 h2
    have : β1 = β2 := by
      by_contra hne
      have e1 := a3 β2 b2 (Ne.symm hne)
      have e2 := b3 β1 a2 hne
      rw [rss_samples, rss_samples, map_copies, map_copies, sum_copies, sum_copies] at e1
      rw [rss_samples, rss_samples] at e2
      have hk' : (0 : ℝ) < k := by exact_mod_cast hk
      have := lt_of_mul_lt_mul_left e1 hk'.le
      linarith
    cases m1
    cases m2
    simp only at a1 b1
    rw [a1, b1, this]
  constructor
  · intro h
    obtain ⟨m2, h2⟩ := hiff.2 (hiff'.1 ⟨m, h⟩)
    rw [huniq m m2 h h2]
    exact h2
  · intro h
    obtain ⟨m1, h1⟩ := hiff'.2 (hiff.1 ⟨m, h⟩)
    rw [← huniq m1 m h1 h]
    exact h1

theorem scale_div {k : ℕ} (hk : 0 < k) (a b : ℝ) : (k * a) / (k * b) = a / b := by
  have : (k : ℝ) ≠ 0 := by exact_mod_cast hk.ne'
  exact mul_div_mul_left a b this

theorem linComputeGrad_copies {c k : ℕ} (hk : 0 < k) {S : List (List ℝ × ℝ)} (hS : ∀ s ∈ S, s.1.length = c) (w : List ℝ) :
    linComputeGrad w (fullOfS c (copies k S)) (targetsOf (copies k S)) = linComputeGrad w (fullOfS c S) (targetsOf S) := by
  by_cases hw : c + 1 = w.length
  · have key : ∀ T : List (List ℝ × ℝ), (∀ s ∈ T, s.1.length = c) → linComputeGrad w (fullOfS c T) (targetsOf T) =
        ok (fsum (T.map fun s => (dot (Scalar.one :: s.1) w -. s.2) *. (dot (Scalar.one :: s.1) w -. s.2)) /.
            (Scalar.ofNat 2 *. Scalar.ofNat T.length),
          (List.range (c + 1)).map fun i =>
            fsum (T.map fun s => (Scalar.one :: s.1).getD i Scalar.zero *. (dot (Scalar.one :: s.1) w -. s.2)) /. Scalar.ofNat T.length) := by
      intro T hT
      unfold linComputeGrad mseCostVec
      rw [fullOfS_transpose hT, fullOfS, mulVec_map, if_pos hw, targetsOf]
      simp only [ok_bind]
      rw [vecZip_map]
      simp only [ok_bind]
      rw [vecZip_map, tmulVec_map]
      simp [Function.comp_def]
    rw [key S hS, key _ (copies_width hS)]
    simp only [fsum_copies, length_copies, real_div, real_mul, real_ofNat, Nat.cast_mul, scale_div hk]
    congr 2
    rw [show (((2 : ℕ) : ℝ) * (k * S.length)) = k * (((2 : ℕ) : ℝ) * S.length) by ring, scale_div hk]
  · have key : ∀ T : List (List ℝ × ℝ), linComputeGrad w (fullOfS c T) (targetsOf T) = Outcome.panic := by
      intro T
      unfold linComputeGrad
      rw [fullOfS, mulVec_map, if_neg hw]
      rfl
    rw [key, key]

/-- **C96 (linear regression by gradient descent).** -/
theorem C96_lin_reg_descent {c k : ℕ} (hk : 0 < k) {S : List (List ℝ × ℝ)} (hS : ∀ s ∈ S, s.1.length = c) :
    LinReg.trainWithOptimization (inputsOf c (copies k S)) (targetsOf (copies k S)) = LinReg.trainWithOptimization (inputsOf c S) (targetsOf S) := by
  unfold LinReg.trainWithOptimization
  rw [withOnes_samples, withOnes_samples]
  simp only [ok_bind]
  rw [show (fun w => linComputeGrad w (fullOfS c (copies k S)) (targetsOf (copies k S))) = fun w => linComputeGrad w (fullOfS c S) (targetsOf S) from
    funext (linComputeGrad_copies hk hS)]
  rfl

/-! ### Logistic regression -/

theorem logComputeGrad_copies {c k : ℕ} (hk : 0 < k) {S : List (List ℝ × ℝ)} (hS : ∀ s ∈ S, s.1.length = c) (w : List ℝ) :
    logComputeGrad w (fullOfS c (copies k S)) (targetsOf (copies k S)) = logComputeGrad w (fullOfS c S) (targetsOf S) := by
  by_cases hw : c + 1 = w.length
  · have key : ∀ T : List (List ℝ × ℝ), (∀ s ∈ T, s.1.length = c) → logComputeGrad w (fullOfS c T) (targetsOf T) =
        ok (Scalar.neg (fsum (T.map fun s => (s.2 *. Scalar.ln (sigmoid.func (dot (Scalar.one :: s.1) w))) +.
              (oneMinus s.2 *. Scalar.ln (oneMinus (sigmoid.func (dot (Scalar.one :: s.1) w)))))) /. Scalar.ofNat T.length,
          (List.range (c + 1)).map fun i =>
            fsum (T.map fun s => (Scalar.one :: s.1).getD i Scalar.zero *. (sigmoid.func (dot (Scalar.one :: s.1) w) -. s.2)) /.
              Scalar.ofNat T.length) := by
      intro T hT
      unfold logComputeGrad ceCostVec
      rw [fullOfS_transpose hT, fullOfS, mulVec_map, if_pos hw, targetsOf]
      simp only [ok_bind, List.map_map]
      rw [vecZip_map]
      simp only [ok_bind, Function.comp_def]
      rw [vecZip_map]
      simp only [ok_bind]
      rw [vecZip_map]
      simp only [ok_bind]
      rw [vecZip_map]
      simp only [ok_bind]
      rw [tmulVec_map]
      simp [Function.comp_def]
    rw [key S hS, key _ (copies_width hS)]
    simp only [fsum_copies, length_copies, real_div, real_ofNat, Nat.cast_mul, scale_div hk]
    simp only [real_neg]
    rw [← mul_neg, scale_div hk]
  · have key : ∀ T : List (List ℝ × ℝ), logComputeGrad w (fullOfS c T) (targetsOf T) = Outcome.panic := by
      intro T
      unfold logComputeGrad
      rw [fullOfS, mulVec_map, if_neg hw]
      rfl
    rw [key, key]

/-- **C96 (logistic regression)**, for any optimisation algorithm that sees the samples through the cost and the gradient. -/
theorem C96_logistic (opt : (List ℝ → Outcome (ℝ × List ℝ)) → List ℝ → Outcome (List ℝ)) {c k : ℕ} (hk : 0 < k)
    {S : List (List ℝ × ℝ)} (hS : ∀ s ∈ S, s.1.length = c) :
    LogReg.train opt (inputsOf c (copies k S)) (targetsOf (copies k S)) = LogReg.train opt (inputsOf c S) (targetsOf S) := by
  unfold LogReg.train
  rw [withOnes_samples, withOnes_samples]
  simp only [ok_bind]
  rw [show (fun w => logComputeGrad w (fullOfS c (copies k S)) (targetsOf (copies k S))) = fun w => logComputeGrad w (fullOfS c S) (targetsOf S) from
    funext (logComputeGrad_copies hk hS)]
  rfl

/-! ### Generalised linear models -/

theorem tab_shape (n : ℕ) (f : ℕ → ℕ → ℝ) : HasShape (⟨n, (List.range n).map fun i => (List.range n).map fun j => f i j⟩ : Mat ℝ) n n := by
  refine ⟨by simp, rfl, ?_⟩
  intro r hr
  obtain ⟨i, _, rfl⟩ := List.mem_map.1 hr
  simp

theorem tab_toM (n : ℕ) (f : ℕ → ℕ → ℝ) (i j : Fin n) :
    toM n n ⟨n, (List.range n).map fun i => (List.range n).map fun j => f i j⟩ i j = f i j := by
  rw [toM_apply]
  simp [ent]

theorem inverse_scaled {inverse : Mat ℝ → Outcome (Mat ℝ)} (hi : InvertsExactly inverse) (hr : InvertsRegular inverse) (n : ℕ) (f : ℕ → ℕ → ℝ) {a : ℝ}
    (ha : a ≠ 0) {B : Mat ℝ} (h : inverse ⟨n, (List.range n).map fun i => (List.range n).map fun j => f i j⟩ = ok B) :
    B.cols = n ∧ inverse ⟨n, (List.range n).map fun i => (List.range n).map fun j => a * f i j⟩ = ok ⟨n, B.rows.map fun r => r.map fun x => x / a⟩ := by
  obtain ⟨h1, h2, h3⟩ := inverse_toM hi (tab_shape n f) h
  refine ⟨h1.2.1, ?_⟩
  have hA : toM n n (⟨n, (List.range n).map fun i => (List.range n).map fun j => a * f i j⟩ : Mat ℝ) =
      a • toM n n ⟨n, (List.range n).map fun i => (List.range n).map fun j => f i j⟩ := by
    ext i j
    rw [tab_toM n (fun i j => a * f i j), Matrix.smul_apply, tab_toM, smul_eq_mul]
  have hrank : FullColumnRank (⟨n, (List.range n).map fun i => (List.range n).map fun j => a * f i j⟩ : Mat ℝ) := by
    rw [fullColumnRank_iff (tab_shape n fun i j => a * f i j), hA]
    intro v hv
    rw [Matrix.smul_mulVec] at hv
    have h0 : (toM n n ⟨n, (List.range n).map fun i => (List.range n).map fun j => f i j⟩).mulVec v = 0 := by
      rcases smul_eq_zero.1 hv with h | h
      · exact absurd h ha
      · exact h
    have := congrArg ((toM n n B).mulVec) h0
    rwa [Matrix.mulVec_mulVec, h3, Matrix.one_mulVec, Matrix.mulVec_zero] at this
  obtain ⟨B', hB'⟩ := hr _ n (tab_shape n fun i j => a * f i j) hrank
  obtain ⟨g1, g2, g3⟩ := inverse_toM hi (tab_shape n fun i j => a * f i j) hB'
  rw [hB']
  congr 1
  have hshape : HasShape (⟨n, B.rows.map fun r => r.map fun x => x / a⟩ : Mat ℝ) n n := by
    refine ⟨by simp [h1.1], rfl, ?_⟩
    intro r hr
    obtain ⟨q, hq, rfl⟩ := List.mem_map.1 hr
    rw [List.length_map]
    have := h1.2.2 q hq
    exact this
  apply toM_inj g1 hshape
  have e : toM n n (⟨n, B.rows.map fun r => r.map fun x => x / a⟩ : Mat ℝ) = a⁻¹ • toM n n B := by
    ext i j
    have hi' : (i : ℕ) < B.rows.length := by rw [h1.1]; exact i.2
    have hj' : (j : ℕ) < B.rows[(i : ℕ)].length := by rw [h1.2.2 _ (List.getElem_mem hi')]; exact j.2
    rw [toM_apply, Matrix.smul_apply, toM_apply, smul_eq_mul]
    simp [ent, hi', hj']
    ring
  rw [e]
  calc toM n n B' = (toM n n B * toM n n ⟨n, (List.range n).map fun i => (List.range n).map fun j => f i j⟩) * toM n n B' := by rw [h3, Matrix.one_mul]
    _ = toM n n B * (a⁻¹ • ((a • toM n n ⟨n, (List.range n).map fun i => (List.range n).map fun j => f i j⟩) * toM n n B')) := by
        rw [Matrix.smul_mul, smul_smul, inv_mul_cancel₀ ha, one_smul, Matrix.mul_assoc]
    _ = a⁻¹ • toM n n B := by rw [← hA, g2, Matrix.mul_smul, Matrix.mul_one]

theorem dot_div (r v : List ℝ) (a : ℝ) : dot (r.map fun x => x / a) v = dot r v / a := by
  rw [dot_real, dot_real]
  induction r generalizing v with
  | nil => simp
  | cons x r ih =>
    cases v with
    | nil => simp
    | cons y v =>
      simp only [List.map_cons, List.zipWith_cons_cons, List.sum_cons, ih]
      ring

theorem irlsLoop_copies {inverse : Mat ℝ → Outcome (Mat ℝ)} (hi : InvertsExactly inverse) (hr : InvertsRegular inverse) (f : Family ℝ)
    (hf : ∀ ws, f ≠ .binomial ws) {c k : ℕ} (hk : 0 < k) {S : List (List ℝ × ℝ)} (hS : ∀ s ∈ S, s.1.length = c) :
    ∀ (n : ℕ) (m z : List ℝ × ℝ → ℝ) (beta r : List ℝ),
      irlsLoop inverse f (fullOfS c S) (fullOfS c S).transpose (targetsOf S) n (S.map m) (S.map z) beta = ok r →
      irlsLoop inverse f (fullOfS c (copies k S)) (fullOfS c (copies k S)).transpose (targetsOf (copies k S)) n ((copies k S).map m) ((copies k S).map z) beta = ok r
  | 0, _, _, _, _, h => h
  | n + 1, m, z, beta, r, h => by
    have hk' : (k : ℝ) ≠ 0 := by exact_mod_cast hk.ne'
    rw [irlsLoop, irlsStep_samples inverse f hf S hS] at h
    rw [irlsLoop, irlsStep_samples inverse f hf _ (copies_width hS)]
    obtain ⟨s, hs, h⟩ := bind_eq_ok.1 h
    obtain ⟨B, hB, hs⟩ := bind_eq_ok.1 hs
    have hB' : inverse ⟨c + 1, (List.range (c + 1)).map fun i => (List.range (c + 1)).map fun j => fsum (S.map fun s =>
        (Scalar.one :: s.1).getD i Scalar.zero * weightOf f (m s) * (Scalar.one :: s.1).getD j Scalar.zero)⟩ = ok B := by
      revert hB
      cases inverse ⟨c + 1, (List.range (c + 1)).map fun i => (List.range (c + 1)).map fun j => fsum (S.map fun s =>
        (Scalar.one :: s.1).getD i Scalar.zero * weightOf f (m s) * (Scalar.one :: s.1).getD j Scalar.zero)⟩ <;> simp [expectOk]
    obtain ⟨hBc, hBk⟩ := inverse_scaled hi hr (c + 1) (fun i j => fsum (S.map fun s =>
        (Scalar.one :: s.1).getD i Scalar.zero * weightOf f (m s) * (Scalar.one :: s.1).getD j Scalar.zero)) hk' hB'
    simp only [fsum_copies]
    rw [hBk]
    rw [if_pos hBc] at hs
    injection hs with hs
    subst hs
    simp only [expectOk, ok_bind, if_true] at h ⊢
    have e : (List.map (fun r => (k : ℝ) * fsum (S.map fun s =>
          dot r ((List.range (c + 1)).map fun i => (Scalar.one :: s.1).getD i Scalar.zero * weightOf f (m s)) * z s)) (B.rows.map fun r => r.map fun x => x / k)) =
        B.rows.map fun r => fsum (S.map fun s => dot r ((List.range (c + 1)).map fun i => (Scalar.one :: s.1).getD i Scalar.zero * weightOf f (m s)) * z s) := by
      rw [List.map_map]
      apply List.map_congr_left
      intro r _
      simp only [Function.comp, dot_div]
      rw [fsum_real, fsum_real, ← List.sum_map_mul_left]
      congr 1
      apply List.map_congr_left
      intro s _
      rw [div_mul_eq_mul_div, mul_div_cancel₀ _ hk']
    rw [e]
    obtain ⟨d, hd, h⟩ := bind_eq_ok.1 h
    rw [hd]
    simp only [ok_bind]
    split at h
    · rename_i hc
      rw [if_pos hc]
      exact h
    · rename_i hc
      rw [if_neg hc]
      rw [fullOfS, mulVec_map] at h
      rw [fullOfS, mulVec_map]
      split at h
      · rename_i hw
        rw [if_pos hw]
        simp only [ok_bind] at h ⊢
        rw [vecZip_map] at h
        rw [vecZip_map]
        simp only [ok_bind, List.map_map] at h ⊢
        exact irlsLoop_copies hi hr f hf hk hS n _ _ _ _ h
      · simp at h

/-- **C96 (generalised linear models).** When training succeeds on the samples it succeeds on `k` copies of each, with the same
parameters: all families but the binomial one, which takes one weight per sample. -/
theorem C96_glm {inverse : Mat ℝ → Outcome (Mat ℝ)} (hi : InvertsExactly inverse) (hr : InvertsRegular inverse) (g g' : Glm ℝ)
    (hf : ∀ ws, g.family ≠ .binomial ws) {c k : ℕ} (hk : 0 < k) {S : List (List ℝ × ℝ)} (hS : ∀ s ∈ S, s.1.length = c)
    (h : g.train inverse (inputsOf c S) (targetsOf S) = ok g') : g.train inverse (inputsOf c (copies k S)) (targetsOf (copies k S)) = ok g' := by
  unfold Glm.train at h ⊢
  rw [if_neg (by simp [inputsOf, targetsOf]), withOnes_samples] at h ⊢
  simp only [ok_bind] at h ⊢
  obtain ⟨β, hβ, h⟩ := bind_eq_ok.1 h
  simp only [targetsOf, List.map_map] at hβ ⊢
  have := irlsLoop_copies hi hr g.family hf hk hS 8 (g.family.startMean ∘ Prod.snd) (g.family.startMean ∘ Prod.snd) _ β (by simpa only [targetsOf] using hβ)
  simp only [targetsOf] at this
  rw [show (inputsOf c (copies k S)).cols = (inputsOf c S).cols from rfl, this]
  exact h

/-! ### Scaling to a range -/

theorem minmax_bounds (l : List ℝ) : ∀ p : ℝ × ℝ, (l.foldl minmaxUpd p).1 ≤ p.1 ∧ p.2 ≤ (l.foldl minmaxUpd p).2 ∧
    ∀ x ∈ l, (l.foldl minmaxUpd p).1 ≤ x ∧ x ≤ (l.foldl minmaxUpd p).2 := by
  induction l with
  | nil => intro p; simp
  | cons a l ih =>
    intro p
    rw [List.foldl_cons]
    obtain ⟨h1, h2, h3⟩ := ih (minmaxUpd p a)
    have g1 : (minmaxUpd p a).1 ≤ p.1 ∧ (minmaxUpd p a).1 ≤ a := by
      unfold minmaxUpd
      simp only [real_lt, decide_eq_true_eq]
      split
      · rename_i h; exact ⟨h.le, le_rfl⟩
      · rename_i h; exact ⟨le_rfl, not_lt.1 h⟩
    have g2 : p.2 ≤ (minmaxUpd p a).2 ∧ a ≤ (minmaxUpd p a).2 := by
      unfold minmaxUpd
      simp only [real_lt, decide_eq_true_eq]
      split
      · rename_i h; exact ⟨h.le, le_rfl⟩
      · rename_i h; exact ⟨le_rfl, not_lt.1 h⟩
    refine ⟨h1.trans g1.1, g2.1.trans h2, ?_⟩
    intro x hx
    rcases List.mem_cons.1 hx with rfl | hx
    · exact ⟨h1.trans g1.2, g2.2.trans h2⟩
    · exact h3 x hx

theorem minmax_idle (l : List ℝ) (p : ℝ × ℝ) (h : ∀ x ∈ l, p.1 ≤ x ∧ x ≤ p.2) : l.foldl minmaxUpd p = p := by
  induction l with
  | nil => rfl
  | cons a l ih =>
    rw [List.foldl_cons]
    have : minmaxUpd p a = p := by
      obtain ⟨h1, h2⟩ := h a (by simp)
      unfold minmaxUpd
      simp only [real_lt, decide_eq_true_eq]
      rw [if_neg (not_lt.2 h1), if_neg (not_lt.2 h2)]
    rw [this]
    exact ih fun x hx => h x (by simp [hx])

theorem minmax_copies {k : ℕ} (hk : 0 < k) (l : List ℝ) (p : ℝ × ℝ) : (copies k l).foldl minmaxUpd p = l.foldl minmaxUpd p := by
  obtain ⟨k, rfl⟩ : ∃ j, k = j + 1 := ⟨k - 1, by omega⟩
  rw [copies_succ, List.foldl_append]
  apply minmax_idle
  intro x hx
  rcases Nat.eq_zero_or_pos k with rfl | hk'
  · simp [copies] at hx
  · exact (minmax_bounds l p).2.2 x ((mem_copies hk').1 hx)

theorem ext_getD {l l' : List ℝ} (h : l.length = l'.length) (hj : ∀ j, j < l.length → l.getD j 0 = l'.getD j 0) : l = l' := by
  apply List.ext_getElem h
  intro i h1 h2
  have := hj i h1
  rwa [getD_lt 0 h1, getD_lt 0 h2] at this

/-- **C96 (min-max scaler).** -/
theorem C96_minmax (f : MinMaxFitter ℝ) {c k : ℕ} (hk : 0 < k) (R : List (List ℝ)) (hR : ∀ r ∈ R, r.length = c) :
    minmaxFit f ⟨c, copies k R⟩ = minmaxFit f ⟨c, R⟩ := by
  obtain ⟨t, h1, h2, h3, h4⟩ := minmaxFit_real f ⟨c, R⟩ hR
  obtain ⟨t', g1, g2, g3, g4⟩ := minmaxFit_real f ⟨c, copies k R⟩ (fun r hr => hR r ((mem_copies hk).1 hr))
  rw [h1, g1]
  congr 1
  have hcol : ∀ j, col (⟨c, copies k R⟩ : Mat ℝ) j = copies k (col (⟨c, R⟩ : Mat ℝ) j) := by
    intro j
    exact map_copies _ k R
  simp only [hcol, minmax_copies hk] at g4
  simp only at h2 h3 h4 g2 g3 g4
  have e1 : t'.scale = t.scale := by
    apply ext_getD (by rw [h2, g2])
    intro j hj
    rw [(g4 j (by omega)).1, (h4 j (by omega)).1]
  have e2 : t'.const = t.const := by
    apply ext_getD (by rw [h3, g3])
    intro j hj
    rw [(g4 j (by omega)).2, (h4 j (by omega)).2, e1]
  cases t
  cases t'
  simp only at e1 e2
  rw [e1, e2]

/-! ### Scores -/

theorem countP_pairs {T : Type} (p : T × T → Bool) (q : ℕ → Bool) (P : List (T × T))
    (h : ∀ i a b, (P.map Prod.fst)[i]? = some a → (P.map Prod.snd)[i]? = some b → q i = p (a, b)) : countPos P.length q = P.countP p := by
  have := countPos_zip p q (P.map Prod.fst) (P.map Prod.snd) (by simp) h
  rwa [zip_samples, List.length_map] at this

theorem pairCount_pairs {T : Type} [DecidableEq T] (P : List (T × T)) (a b : T) :
    pairCount (P.map Prod.fst) (P.map Prod.snd) a b = P.countP fun p => decide (p = (a, b)) := by
  rw [pairCount_zip _ _ (by simp), zip_samples]

theorem pairCount_copies {T : Type} [DecidableEq T] (k : ℕ) (P : List (T × T)) (a b : T) :
    pairCount ((copies k P).map Prod.fst) ((copies k P).map Prod.snd) a b = k * pairCount (P.map Prod.fst) (P.map Prod.snd) a b := by
  rw [pairCount_pairs, pairCount_pairs, countP_copies]

/-- **C96 (accuracy).** -/
theorem C96_accuracy {T : Type} (eqb : T → T → Bool) {k : ℕ} (hk : 0 < k) (P : List (T × T)) :
    accuracy (F := ℝ) eqb ((copies k P).map Prod.fst) ((copies k P).map Prod.snd) = accuracy eqb (P.map Prod.fst) (P.map Prod.snd) := by
  have e : ∀ P : List (T × T), testCount eqb (P.map Prod.fst) (P.map Prod.snd) = P.countP fun p => eqb p.1 p.2 := by
    intro P
    unfold testCount
    rw [List.length_map]
    apply countP_pairs
    intro i a b h1 h2
    simp only [h1, h2]
  rw [(C10_accuracy_value eqb _ _).2 (by simp), (C10_accuracy_value eqb _ _).2 (by simp), e, e, countP_copies, List.length_map, List.length_map, length_copies]
  push_cast
  rw [scale_div hk]

theorem isBinary_copies {T : Type} [Zero T] [One T] {k : ℕ} (hk : 0 < k) (l : List T) : isBinary (copies k l) ↔ isBinary l := by
  unfold isBinary
  simp only [mem_copies hk]

/-- **C96 (precision, recall, F1).** -/
theorem C96_scores {T : Type} [DecidableEq T] [Zero T] [One T] [NeZero (1 : T)] {k : ℕ} (hk : 0 < k) (P : List (T × T)) :
    precision (F := ℝ) isZ isO ((copies k P).map Prod.fst) ((copies k P).map Prod.snd) = precision isZ isO (P.map Prod.fst) (P.map Prod.snd) ∧
    recall (F := ℝ) isZ isO ((copies k P).map Prod.fst) ((copies k P).map Prod.snd) = recall isZ isO (P.map Prod.fst) (P.map Prod.snd) ∧
    f1 (F := ℝ) isZ isO ((copies k P).map Prod.fst) ((copies k P).map Prod.snd) = f1 isZ isO (P.map Prod.fst) (P.map Prod.snd) := by
  by_cases hb : isBinary (P.map Prod.fst) ∧ isBinary (P.map Prod.snd)
  · have hb' : isBinary ((copies k P).map Prod.fst) ∧ isBinary ((copies k P).map Prod.snd) := by
      rw [map_copies, map_copies, isBinary_copies hk, isBinary_copies hk]
      exact hb
    obtain ⟨h1, h2, h3⟩ := C11_score_values _ _ (by simp) hb.1 hb.2
    obtain ⟨g1, g2, g3⟩ := C11_score_values _ _ (by simp) hb'.1 hb'.2
    rw [h1, h2, h3, g1, g2, g3]
    simp only [pairCount_copies, Nat.cast_mul]
    refine ⟨?_, ?_, ?_⟩ <;> congr 1
    · rw [← mul_add, scale_div hk]
    · rw [← mul_add, scale_div hk]
    · rw [← scale_div hk (2 * (pairCount (P.map Prod.fst) (P.map Prod.snd) (1 : T) 1 : ℝ))]
      congr 1 <;> ring
  · have hb' : ¬ (isBinary ((copies k P).map Prod.fst) ∧ isBinary ((copies k P).map Prod.snd)) := by
      rw [map_copies, map_copies, isBinary_copies hk, isBinary_copies hk]
      exact hb
    obtain ⟨h1, h2, h3⟩ := C11_panic_iff (P.map Prod.fst) (P.map Prod.snd)
    obtain ⟨g1, g2, g3⟩ := C11_panic_iff ((copies k P).map Prod.fst) ((copies k P).map Prod.snd)
    rw [h1.2 (Or.inr hb), h2.2 (Or.inr hb), h3.2 (Or.inr hb), g1.2 (Or.inr hb'), g2.2 (Or.inr hb'), g3.2 (Or.inr hb')]
    exact ⟨rfl, rfl, rfl⟩

theorem zipWith_samples {α β γ : Type} (f : α → β → γ) (P : List (α × β)) :
    List.zipWith f (P.map Prod.fst) (P.map Prod.snd) = P.map fun p => f p.1 p.2 := by
  induction P with
  | nil => rfl
  | cons p P ih => simp [ih]

/-- **C96 (mean squared error).** -/
theorem C96_mse {k : ℕ} (hk : 0 < k) (c : ℕ) (P : List (List ℝ × List ℝ)) :
    negMeanSquaredError ⟨c, (copies k P).map Prod.fst⟩ ⟨c, (copies k P).map Prod.snd⟩ =
      negMeanSquaredError ⟨c, P.map Prod.fst⟩ ⟨c, P.map Prod.snd⟩ := by
  rw [(C12_value ⟨c, (copies k P).map Prod.fst⟩ ⟨c, (copies k P).map Prod.snd⟩).2 (by simp [Mat.nrows]) rfl,
    (C12_value ⟨c, P.map Prod.fst⟩ ⟨c, P.map Prod.snd⟩).2 (by simp [Mat.nrows]) rfl]
  simp only [Mat.nrows, zipWith_samples, List.length_map]
  rw [map_copies, sum_copies, length_copies, Nat.cast_mul, scale_div hk]

/-- **C96 (confusion matrix).** Every count is multiplied by `k`. -/
theorem C96_confusion {T : Type} [LinearOrder T] (labels : List T) (hnd : labels.Nodup) (k : ℕ) (P : List (T × T)) :
    ∃ m m', confusionMatrix (P.map Prod.fst) (P.map Prod.snd) (some labels) = ok m ∧
      confusionMatrix ((copies k P).map Prod.fst) ((copies k P).map Prod.snd) (some labels) = ok m' ∧
      m.length = labels.length ∧ m'.length = labels.length ∧
      ∀ i j, i < labels.length → j < labels.length → ∃ n, Spec.entry m i j = some n ∧ Spec.entry m' i j = some (k * n) := by
  obtain ⟨m, h1, h2, _, h3⟩ := C08_confusion_entries (P.map Prod.fst) (P.map Prod.snd) labels (by simp) hnd
  obtain ⟨m', g1, g2, _, g3⟩ := C08_confusion_entries ((copies k P).map Prod.fst) ((copies k P).map Prod.snd) labels (by simp) hnd
  refine ⟨m, m', h1, g1, h2, g2, ?_⟩
  intro i j hi hj
  refine ⟨_, h3 i j _ _ (List.getElem?_eq_getElem hi) (List.getElem?_eq_getElem hj), ?_⟩
  rw [g3 i j _ _ (List.getElem?_eq_getElem hi) (List.getElem?_eq_getElem hj)]
  congr 1
  have swap : ∀ (Q : List (T × T)) (a b : T), pairCount (Q.map Prod.snd) (Q.map Prod.fst) a b = Q.countP fun p => decide (p = (b, a)) := by
    intro Q a b
    have := pairCount_pairs (Q.map Prod.swap) a b
    rw [List.map_map, List.map_map] at this
    rw [show (Q.map Prod.snd) = Q.map (Prod.fst ∘ Prod.swap) from rfl, show (Q.map Prod.fst) = Q.map (Prod.snd ∘ Prod.swap) from rfl, this, List.countP_map]
    congr 1
    funext p
    simp [Prod.ext_iff, Bool.and_comm]
  rw [swap, swap, countP_copies]

/-! ### Networks -/

theorem zipWith_copies {α β γ : Type} (f : α → β → γ) (k : ℕ) (A : List α) (B : List β) (h : A.length = B.length) :
    List.zipWith f (copies k A) (copies k B) = copies k (List.zipWith f A B) := by
  induction k with
  | zero => rfl
  | succ k ih => rw [copies_succ, copies_succ, copies_succ, List.zipWith_append h, ih]

theorem flatten_copies {α : Type} (k : ℕ) (R : List (List α)) : (copies k R).flatten = copies k R.flatten := by
  induction k with
  | zero => rfl
  | succ k ih => rw [copies_succ, copies_succ, List.flatten_append, ih]

theorem zip_copiesMat (f : ℝ → ℝ → ℝ) {k : ℕ} (A B : Mat ℝ) {C : Mat ℝ} (h : Mat.zip f A B = ok C) :
    Mat.zip f (copiesMat k A) (copiesMat k B) = ok (copiesMat k C) ∧ C.rows.length = A.rows.length := by
  unfold Mat.zip at h ⊢
  split at h
  · rename_i hc
    injection h with h
    subst h
    rw [if_pos ⟨by simp [copiesMat, length_copies, hc.1], hc.2⟩]
    refine ⟨?_, by simp [hc.1]⟩
    unfold copiesMat
    rw [zipWith_copies _ _ _ _ hc.1]
  · cases h

theorem sum_copiesMat (k : ℕ) (A : Mat ℝ) : (copiesMat k A).sum = k * A.sum := by
  unfold Mat.sum Mat.data copiesMat
  rw [fsum_real, fsum_real, flatten_copies, sum_copies]

theorem map_copiesMat (k : ℕ) (A : Mat ℝ) (f : ℝ → ℝ) : (copiesMat k A).map f = copiesMat k (A.map f) := by
  unfold Mat.map copiesMat
  rw [map_copies]

theorem mseCost_copies {k : ℕ} (hk : 0 < k) (Y T : Mat ℝ) {v : ℝ} (h : mseCost Y T = ok v) : mseCost (copiesMat k Y) (copiesMat k T) = ok v := by
  unfold mseCost at h ⊢
  obtain ⟨D, hD, h⟩ := bind_eq_ok.1 h
  obtain ⟨Q, hQ, h⟩ := bind_eq_ok.1 h
  rw [(zip_copiesMat _ _ _ hD).1]
  simp only [ok_bind]
  rw [(zip_copiesMat _ _ _ hQ).1]
  simp only [ok_bind]
  rw [← h, sum_copiesMat]
  simp only [copiesMat, length_copies, real_div, real_mul, real_ofNat, Nat.cast_mul]
  rw [show (((2 : ℕ) : ℝ) * (k * D.rows.length)) = k * (((2 : ℕ) : ℝ) * D.rows.length) by ring, scale_div hk]

theorem ceCost_copies {k : ℕ} (hk : 0 < k) (Y T : Mat ℝ) {v : ℝ} (h : ceCost Y T = ok v) : ceCost (copiesMat k Y) (copiesMat k T) = ok v := by
  unfold ceCost at h ⊢
  simp only at h ⊢
  obtain ⟨A, hA, h⟩ := bind_eq_ok.1 h
  obtain ⟨B, hB, h⟩ := bind_eq_ok.1 h
  obtain ⟨C, hC, h⟩ := bind_eq_ok.1 h
  simp only [map_copiesMat]
  rw [(zip_copiesMat _ _ _ hA).1]
  simp only [ok_bind]
  rw [(zip_copiesMat _ _ _ hB).1]
  simp only [ok_bind]
  rw [(zip_copiesMat _ _ _ hC).1]
  simp only [ok_bind]
  rw [← h, sum_copiesMat]
  simp only [copiesMat, length_copies, real_div, real_neg, real_ofNat, Nat.cast_mul]
  rw [← mul_neg, scale_div hk]

theorem forall₂_copies {α β : Type} {R : α → β → Prop} {A : List α} {B : List β} (h : List.Forall₂ R A B) : ∀ k, List.Forall₂ R (copies k A) (copies k B)
  | 0 => List.Forall₂.nil
  | k + 1 => by
    rw [copies_succ, copies_succ]
    exact List.rel_append h (forall₂_copies h k)

theorem cost_copies {k : ℕ} (hk : 0 < k) (net : BaseNet ℝ) (X T : Mat ℝ) (hX : X.WF) (hne : X.rows ≠ []) (w : List ℝ) {v : ℝ}
    (h : costOfWeights net X T w = ok v) : costOfWeights net (copiesMat k X) (copiesMat k T) w = ok v := by
  unfold costOfWeights at h ⊢
  obtain ⟨Y, hY, h⟩ := bind_eq_ok.1 h
  have h2 := ((C75_nnet (withWeights net w)) X Y hX hne).1 hY
  have h3 : (withWeights net w).forwardProp (copiesMat k X) = ok (copiesMat k Y) := by
    apply ((C75_nnet (withWeights net w)) (copiesMat k X) (copiesMat k Y) ?_ ?_).2 (forall₂_copies h2 k)
    · intro r hr
      exact hX r ((mem_copies hk).1 hr)
    · intro h0
      have := congrArg List.length h0
      simp only [copiesMat, length_copies, List.length_nil] at this
      rcases Nat.mul_eq_zero.1 this with h | h
      · omega
      · exact hne (List.length_eq_zero_iff.1 h)
  rw [h3]
  simp only [ok_bind]
  split at h
  · exact ceCost_copies hk Y T h
  · exact mseCost_copies hk Y T h

theorem shape_copiesMat {n c : ℕ} (k : ℕ) {X : Mat ℝ} (h : HasShape X n c) : HasShape (copiesMat k X) (k * n) c := by
  refine ⟨by rw [copiesMat, length_copies, h.1], h.2.1, ?_⟩
  intro r hr
  rcases Nat.eq_zero_or_pos k with rfl | hk
  · simp [copiesMat, copies] at hr
  · exact h.2.2 r ((mem_copies hk).1 hr)

theorem gradient_scale {ι : Type} [Fintype ι] {f : (ι → ℝ) → ℝ} {g x : ι → ℝ} (h : IsGradientAt f g x) (a : ℝ) :
    IsGradientAt (fun v => a * f v) (fun i => a * g i) x := by
  have := gradient_div h a⁻¹
  simpa [div_eq_mul_inv, mul_comm] using this

/-- **C96 (networks).** On `k` copies of every sample a network without regularisation reports the same cost, but a gradient that is
`k` times as large. -/
theorem C96_network_gradient (net : BaseNet ℝ) (hreg : net.criterion.reg = .none) {n c d k : ℕ} (hk : 0 < k) (hn : 0 < n) (X T : Mat ℝ)
    (hX : HasShape X n c) (hT : HasShape T n d) (hne : net.layers ≠ []) (hl : LinesUp net.layers c d) (hA : GoodActivations net)
    (w : List ℝ) (hw : w.length = totalParams net.layers) (hb : net.criterion.kind = .bce → OutputsInside net X w) :
    ∃ cost grad, net.computeGrad w X T = ok (cost, grad) ∧ grad.length = w.length ∧
      net.computeGrad w (copiesMat k X) (copiesMat k T) = ok (cost, grad.map fun x => (k : ℝ) * x) := by
  obtain ⟨cost, grad, h1, h2, h3, f, h4, h5⟩ := C40_backprop net hreg hn X T hX hT hne hl hA w hw hb
  obtain ⟨cost', grad', g1, g2, g3, f', g4, g5⟩ := C40_backprop net hreg (Nat.mul_pos hk hn) (copiesMat k X) (copiesMat k T) (shape_copiesMat k hX)
    (shape_copiesMat k hT) hne hl hA w hw (fun h x hx => hb h x ((mem_copies hk).1 hx))
  have hwf : X.WF := by intro r hr; rw [hX.2.2 r hr, hX.2.1]
  have hX0 : X.rows ≠ [] := by
    intro h0
    have := hX.1
    rw [h0] at this
    simp at this
    omega
  have hcost : cost' = cost := by
    have := cost_copies hk net X T hwf hX0 w h2
    rw [g2] at this
    injection this
  have hf : f' = fun v => k * f v := by
    funext v
    have e := h4 v
    unfold scaledCost at e
    obtain ⟨q, hq, e⟩ := bind_eq_ok.1 e
    have e' := g4 v
    unfold scaledCost at e'
    rw [cost_copies hk net X T hwf hX0 _ hq] at e'
    simp only [ok_bind, Nat.cast_mul] at e'
    injection e with e
    injection e' with e'
    rw [← e', ← e]
    ring
  rw [hf] at g5
  have := gradient_unique g5 (gradient_scale h5 k)
  refine ⟨cost, grad, h1, h3, ?_⟩
  rw [g1, hcost]
  congr 2
  apply ext_getD (by rw [List.length_map, g3, h3])
  intro j hj
  have hj' : j < w.length := by omega
  have := congrFun this ⟨j, hj'⟩
  simp only at this
  rw [this, getD_lt 0 (by omega), getD_lt 0 (by rw [List.length_map]; omega), List.getElem_map]

/-- **C96 (networks trained by gradient descent).** Training on `k` copies of every sample is training on one copy with a step `k` times
as long: the same weights are visited and the same weights are returned. -/
theorem C96_network_descent (net : BaseNet ℝ) (hreg : net.criterion.reg = .none) (hkind : net.criterion.kind = .mse) {n c d k : ℕ} (hk : 0 < k) (hn : 0 < n)
    (X T : Mat ℝ) (hX : HasShape X n c) (hT : HasShape T n d) (hne : net.layers ≠ []) (hl : LinesUp net.layers c d) (hA : GoodActivations net)
    (alpha : ℝ) (iters : ℕ) (w : List ℝ) (hw : w.length = totalParams net.layers) :
    (GradientDesc.mk alpha iters).optimize (fun w => net.computeGrad w (copiesMat k X) (copiesMat k T)) w =
      (GradientDesc.mk (k * alpha) iters).optimize (fun w => net.computeGrad w X T) w := by
  unfold GradientDesc.optimize
  simp only
  generalize (Scalar.zero : ℝ) = prev
  induction iters generalizing w prev with
  | zero => rfl
  | succ m ih =>
    obtain ⟨cost, grad, h1, h2, h3⟩ := C96_network_gradient net hreg hk hn X T hX hT hne hl hA w hw (by rw [hkind]; intro h; cases h)
    unfold gdLoop
    simp only [h1, h3]
    have e : vecScale (grad.map fun x => (k : ℝ) * x) alpha = vecScale grad (k * alpha) := by
      unfold vecScale
      rw [List.map_map]
      apply List.map_congr_left
      intro x _
      simp only [Function.comp, real_mul]
      ring
    have e2 : vecZip Scalar.sub w (vecScale grad (k * alpha)) = ok (List.zipWith Scalar.sub w (vecScale grad (k * alpha))) := by
      unfold vecZip
      rw [if_pos (by simp [vecScale, h2])]
    rw [Logged.call_ok_bind, Logged.call_ok_bind]
    simp only [e, e2, Logged.lift_ok_bind]
    rw [ih _ (by simp [vecScale, h2, hw])]

theorem one_weight_step (alpha : ℝ) : ((GradientDesc.mk alpha 1).optimize
    (fun w => (⟨[.withoutBias 1 1], [0], ⟨.mse, .none⟩⟩ : BaseNet ℝ).computeGrad w ⟨1, [[1]]⟩ ⟨1, [[1]]⟩) [0]).out = ok [alpha] := by
  have h : (⟨[.withoutBias 1 1], [0], ⟨.mse, .none⟩⟩ : BaseNet ℝ).computeGrad [0] ⟨1, [[1]]⟩ ⟨1, [[1]]⟩ = ok (1 / 2, [-1]) := by
    simp [BaseNet.computeGrad, netForward, sliceAt, NetLayer.withoutBias, NetLayer.paramShape, NetLayer.numParams, NetLayer.forward, chunk, Mat.mul, colOf,
      dot, Outcome.unwrap, Criterion.costGrad, mseGrad, Mat.zip, netBackward, layerInput, getAt, NetLayer.backParams, Mat.transpose, transposeRows, copyInto,
      NetLayer.backInput, Criterion.cost, mseCost, Mat.sum, Mat.data, allInit, Criterion.isRegularized]
  unfold GradientDesc.optimize gdLoop gdLoop
  simp only
  rw [h, Logged.call_ok_bind]
  have hs : ¬ (Scalar.abs ((Scalar.zero : ℝ) -. 1 / 2) <. (learningEps : ℝ)) = true := by
    simp only [learningEps, real_lt, decide_eq_true_eq, real_sub, real_abs, real_zero, real_ofRat, not_lt]
    rw [zero_sub, abs_neg, abs_of_pos (by norm_num)]
    norm_num
  rw [if_neg hs]
  simp [vecZip, vecScale, Logged.lift_ok_bind]

/-- **C96 (networks), where it fails.** A network of one weight, trained by one step of gradient descent with the default step length
on one sample and on two copies of it, ends with different weights. -/
theorem C96_network_violation : ∃ (net : BaseNet ℝ) (X T : Mat ℝ) (r r' : BaseNet ℝ),
    net.train (fun g w X T => ((GradientDesc.mk (3 / 10) 1).optimize (fun w => g w X T) w).out) X T = ok r ∧
    net.train (fun g w X T => ((GradientDesc.mk (3 / 10) 1).optimize (fun w => g w X T) w).out) (copiesMat 2 X) (copiesMat 2 T) = ok r' ∧
    r.weights = [3 / 10] ∧ r'.weights = [3 / 5] := by
  refine ⟨⟨[.withoutBias 1 1], [0], ⟨.mse, .none⟩⟩, ⟨1, [[1]]⟩, ⟨1, [[1]]⟩, ⟨[.withoutBias 1 1], [3 / 10], ⟨.mse, .none⟩⟩,
    ⟨[.withoutBias 1 1], [3 / 5], ⟨.mse, .none⟩⟩, ?_, ?_, rfl, rfl⟩
  · unfold BaseNet.train
    simp only [one_weight_step, ok_bind]
  · unfold BaseNet.train
    simp only
    rw [C96_network_descent ⟨[.withoutBias 1 1], [0], ⟨.mse, .none⟩⟩ rfl rfl (n := 1) (c := 1) (d := 1) (k := 2) (by norm_num) one_pos ⟨1, [[1]]⟩ ⟨1, [[1]]⟩
      ⟨rfl, rfl, by simp⟩ ⟨rfl, rfl, by simp⟩ (by simp) (.linear false rfl (.nil _)) (by intro A hA; simp [NetLayer.withoutBias] at hA) _ _ _ (by
        simp [totalParams, NetLayer.withoutBias, NetLayer.numParams, NetLayer.paramShape])]
    rw [one_weight_step]
    simp only [ok_bind]
    norm_num

/-! ### Naive Bayes -/

/-- **C96 (naive Bayes).** Whatever the distribution, the class priors are the same. -/
theorem C96_class_priors {D : Type} (B : NBDistr D ℝ) (m m1 m2 : NaiveBayes D ℝ) {k : ℕ} (hk : 0 < k) (X T : Mat ℝ) (hT : T.WF)
    (h1 : nbTrain B m X T = (m1, ok ())) (h2 : nbTrain B m (copiesMat k X) (copiesMat k T) = (m2, ok ())) :
    m1.classPrior = m2.classPrior ∧ m2.classCounts = m1.classCounts.map fun n => k * n := by
  have hT' : (copiesMat k T).WF := fun r hr => hT r ((mem_copies hk).1 hr)
  obtain ⟨_, d, _, rfl⟩ := (nbTrain_ok_iff B m m1 X T hT).1 h1
  obtain ⟨_, d', _, rfl⟩ := (nbTrain_ok_iff B m m2 _ _ hT').1 h2
  have e : ∀ c, classSize (copiesMat k T).rows c = k * classSize T.rows c := fun c => countP_copies _ _ _
  simp only [e, Nat.cast_mul, List.map_map]
  refine ⟨?_, rfl⟩
  congr 1
  apply List.map_congr_left
  intro c _
  rw [copiesMat, length_copies, Nat.cast_mul, scale_div hk]

/-! ### The hypotheses can be met -/

theorem three_independent : AffinelyIndependent (inputsOf 1 [([0], (1 : ℝ)), ([1], 2), ([3], 5)]) := by
  intro β hb h
  obtain ⟨a, b, rfl⟩ := List.length_eq_two.mp hb
  have h0 := h [0] (by simp [inputsOf])
  have h1 := h [1] (by simp [inputsOf])
  simp [affine, Spec.inner] at h0 h1
  subst h0
  simp only [zero_add] at h1
  subst h1
  rfl

/-- Three samples, each given twice: linear regression finds the line it finds for the three samples. -/
example : ∃ m, LinReg.train (gaussSolve 0) (inputsOf 1 (copies 2 [([0], (1 : ℝ)), ([1], 2), ([3], 5)])) (targetsOf (copies 2 [([0], (1 : ℝ)), ([1], 2), ([3], 5)])) = ok m ∧
    LinReg.train (gaussSolve 0) (inputsOf 1 [([0], (1 : ℝ)), ([1], 2), ([3], 5)]) (targetsOf [([0], (1 : ℝ)), ([1], 2), ([3], 5)]) = ok m := by
  have hS : ∀ s ∈ [([0], (1 : ℝ)), ([1], 2), ([3], 5)], (s : List ℝ × ℝ).1.length = 1 := by simp
  obtain ⟨m, hm⟩ := (C48_succeeds_iff (gaussSolve_exact 0 le_rfl) gaussSolve_regular (inputsOf 1 [([0], (1 : ℝ)), ([1], 2), ([3], 5)]) (inputsOf_wf hS)
    (targetsOf [([0], (1 : ℝ)), ([1], 2), ([3], 5)]) rfl).2 three_independent
  exact ⟨m, (C96_lin_reg (gaussSolve_exact 0 le_rfl) gaussSolve_regular two_pos _ hS m).2 hm, hm⟩

/-- The same samples, five times over, for a generalised linear model with the normal family. -/
example : ∃ g, (⟨.normal, none⟩ : Glm ℝ).train (gaussInverse 0) (inputsOf 1 (copies 5 [([0], (1 : ℝ)), ([1], 2), ([3], 5)]))
    (targetsOf (copies 5 [([0], (1 : ℝ)), ([1], 2), ([3], 5)])) = ok g := by
  have hS : ∀ s ∈ [([0], (1 : ℝ)), ([1], 2), ([3], 5)], (s : List ℝ × ℝ).1.length = 1 := by simp
  obtain ⟨β, h1, _⟩ := C53_linear_regression (gaussInverse_exact 0 le_rfl) gaussInverse_regular (gaussSolve_exact 0 le_rfl) gaussSolve_regular
    (inputsOf 1 [([0], (1 : ℝ)), ([1], 2), ([3], 5)]) (inputsOf_wf hS) three_independent (targetsOf [([0], (1 : ℝ)), ([1], 2), ([3], 5)]) rfl
  exact ⟨_, C96_glm (gaussInverse_exact 0 le_rfl) gaussInverse_regular _ _ (by intro ws h; cases h) (by norm_num) hS h1⟩

/-- One sample of each of two classes, and each of them twice: naive Bayes of the Bernoulli kind trains on both. -/
example : (∃ m, nbTrain bernDistr (nbNew _ ℝ) ⟨1, [[1], [0]]⟩ ⟨2, [[1, 0], [0, 1]]⟩ = (m, ok ())) ∧
    ∃ m, nbTrain bernDistr (nbNew _ ℝ) (copiesMat 2 ⟨1, [[1], [0]]⟩) (copiesMat 2 ⟨2, [[1, 0], [0, 1]]⟩) = (m, ok ()) := by
  have hT : (⟨2, [[1, 0], [0, 1]]⟩ : Mat ℝ).WF := by intro r hr; simp at hr; rcases hr with rfl | rfl <;> rfl
  have hc : ∀ t ∈ (⟨2, [[1, 0], [0, 1]]⟩ : Mat ℝ).rows, classOf t ≠ none := by
    intro t ht
    simp at ht
    rcases ht with rfl | rfl <;> simp [classOf]
  obtain ⟨m, _, h, _⟩ := nb_trained_bern (m := nbNew _ ℝ) (X := ⟨1, [[1], [0]]⟩) hT hc rfl
  obtain ⟨m', _, h', _⟩ := nb_trained_bern (m := nbNew _ ℝ) (X := copiesMat 2 ⟨1, [[1], [0]]⟩) (T := copiesMat 2 ⟨2, [[1, 0], [0, 1]]⟩)
    (fun r hr => hT r ((mem_copies two_pos).1 hr)) (fun t ht => hc t ((mem_copies two_pos).1 ht)) rfl
  exact ⟨⟨m, h⟩, m', h'⟩

end RM
