import Verif.Proofs.RowOrder
import Verif.Proofs.RealMat
import Verif.Model.Glm
import Verif.Model.Transforms
import Verif.Props.Score
import Verif.Proofs.NaiveBayes

/-! C77: the order of the training samples. -/

namespace RM
open Outcome Scalar Spec
variable {F : Type} [Scalar F]

/-! ### Linear and logistic regression -/

/-- Linear regression: the same samples in another order give the same model, or the same failure, whatever the solver. -/
theorem C77_lin_reg [SumsReorder F] (solve : Mat F → List F → Outcome (List F)) {c : ℕ} {S S' : List (List F × F)} (h : S.Perm S')
    (hS : ∀ s ∈ S, s.1.length = c) :
    LinReg.train solve (inputsOf c S) (targetsOf S) = LinReg.train solve (inputsOf c S') (targetsOf S') := by
  have hS' : ∀ s ∈ S', s.1.length = c := fun s hs => hS s (h.mem_iff.mpr hs)
  have key : ∀ T : List (List F × F), (∀ s ∈ T, s.1.length = c) → LinReg.train solve (inputsOf c T) (targetsOf T) = (do
      let p ← fromLinalg (solve
        ⟨c + 1, (List.range (c + 1)).map fun i => (List.range (c + 1)).map fun j => fsum (T.map fun s =>
          (Scalar.one :: s.1).getD i Scalar.zero *. (Scalar.one :: s.1).getD j Scalar.zero)⟩
        ((List.range (c + 1)).map fun i => fsum (T.map fun s => (Scalar.one :: s.1).getD i Scalar.zero *. s.2)))
      ok ⟨some p⟩) := by
    intro T hT
    unfold LinReg.train
    rw [withOnes_samples]
    simp only [ok_bind]
    rw [fullOfS_transpose hT, fullOfS, tmul_map T _ _ (full_length hT), targetsOf, tmulVec_map]
    rfl
  rw [key S hS, key S' hS']
  simp only [fun f => fsum_map_perm h (f := f)]

theorem linComputeGrad_perm [SumsReorder F] {c : ℕ} {S S' : List (List F × F)} (h : S.Perm S') (hS : ∀ s ∈ S, s.1.length = c) (w : List F) :
    linComputeGrad w (fullOfS c S) (targetsOf S) = linComputeGrad w (fullOfS c S') (targetsOf S') := by
  have hS' : ∀ s ∈ S', s.1.length = c := fun s hs => hS s (h.mem_iff.mpr hs)
  by_cases hw : c + 1 = w.length
  · have key : ∀ T : List (List F × F), (∀ s ∈ T, s.1.length = c) → linComputeGrad w (fullOfS c T) (targetsOf T) =
        ok (fsum (T.map fun s => (dot (Scalar.one :: s.1) w -. s.2) *. (dot (Scalar.one :: s.1) w -. s.2)) /.
            (Scalar.ofNat 2 *. Scalar.ofNat T.length),
          (List.range (c + 1)).map fun i =>
            fsum (T.map fun s => (Scalar.one :: s.1).getD i Scalar.zero *. (dot (Scalar.one :: s.1) w -. s.2)) /. Scalar.ofNat T.length) := by
      intro T hT
      unfold linComputeGrad mseCostVec
      rw [fullOfS_transpose hT, fullOfS, mulVec_map, if_pos hw, targetsOf]
      simp only [ok_bind]
      rw [vecZip_map]
      simp only [ok_bind]
      rw [vecZip_map, tmulVec_map]
      simp [Function.comp_def]
    rw [key S hS, key S' hS', h.length_eq]
    simp only [fun f => fsum_map_perm h (f := f)]
  · have key : ∀ T : List (List F × F), linComputeGrad w (fullOfS c T) (targetsOf T) = panic := by
      intro T
      unfold linComputeGrad
      rw [fullOfS, mulVec_map, if_neg hw]
      rfl
    rw [key, key]

/-- Linear regression by gradient descent. -/
theorem C77_lin_reg_descent [SumsReorder F] {c : ℕ} {S S' : List (List F × F)} (h : S.Perm S') (hS : ∀ s ∈ S, s.1.length = c) :
    LinReg.trainWithOptimization (inputsOf c S) (targetsOf S) = LinReg.trainWithOptimization (inputsOf c S') (targetsOf S') := by
  unfold LinReg.trainWithOptimization
  rw [withOnes_samples, withOnes_samples]
  simp only [ok_bind]
  rw [show (fun w => linComputeGrad w (fullOfS c S) (targetsOf S)) = fun w => linComputeGrad w (fullOfS c S') (targetsOf S') from
    funext (linComputeGrad_perm h hS)]
  rfl

theorem logComputeGrad_perm [SumsReorder F] {c : ℕ} {S S' : List (List F × F)} (h : S.Perm S') (hS : ∀ s ∈ S, s.1.length = c) (w : List F) :
    logComputeGrad w (fullOfS c S) (targetsOf S) = logComputeGrad w (fullOfS c S') (targetsOf S') := by
  have hS' : ∀ s ∈ S', s.1.length = c := fun s hs => hS s (h.mem_iff.mpr hs)
  by_cases hw : c + 1 = w.length
  · have key : ∀ T : List (List F × F), (∀ s ∈ T, s.1.length = c) → logComputeGrad w (fullOfS c T) (targetsOf T) =
        ok (Scalar.neg (fsum (T.map fun s => (s.2 *. Scalar.ln (sigmoid.func (dot (Scalar.one :: s.1) w))) +.
              (oneMinus s.2 *. Scalar.ln (oneMinus (sigmoid.func (dot (Scalar.one :: s.1) w)))))) /. Scalar.ofNat T.length,
          (List.range (c + 1)).map fun i =>
            fsum (T.map fun s => (Scalar.one :: s.1).getD i Scalar.zero *. (sigmoid.func (dot (Scalar.one :: s.1) w) -. s.2)) /.
              Scalar.ofNat T.length) := by
      intro T hT
      unfold logComputeGrad ceCostVec
      rw [fullOfS_transpose hT, fullOfS, mulVec_map, if_pos hw, targetsOf]
      simp only [ok_bind, List.map_map]
      rw [vecZip_map]
      simp only [ok_bind, Function.comp_def]
      rw [vecZip_map]
      simp only [ok_bind]
      rw [vecZip_map]
      simp only [ok_bind]
      rw [vecZip_map]
      simp only [ok_bind]
      rw [tmulVec_map]
      simp [Function.comp_def]
    rw [key S hS, key S' hS', h.length_eq]
    simp only [fun f => fsum_map_perm h (f := f)]
  · have key : ∀ T : List (List F × F), logComputeGrad w (fullOfS c T) (targetsOf T) = panic := by
      intro T
      unfold logComputeGrad
      rw [fullOfS, mulVec_map, if_neg hw]
      rfl
    rw [key, key]

/-- Logistic regression, for any optimisation algorithm that sees the samples through the cost and the gradient. -/
theorem C77_logistic [SumsReorder F] (opt : (List F → Outcome (F × List F)) → List F → Outcome (List F)) {c : ℕ}
    {S S' : List (List F × F)} (h : S.Perm S') (hS : ∀ s ∈ S, s.1.length = c) :
    LogReg.train opt (inputsOf c S) (targetsOf S) = LogReg.train opt (inputsOf c S') (targetsOf S') := by
  unfold LogReg.train
  rw [withOnes_samples, withOnes_samples]
  simp only [ok_bind]
  rw [show (fun w => logComputeGrad w (fullOfS c S) (targetsOf S)) = fun w => logComputeGrad w (fullOfS c S') (targetsOf S') from
    funext (logComputeGrad_perm h hS)]
  rfl

/-! ### Generalised linear models -/

theorem diag_sum (l : List ℝ) (w : List ℝ) (hl : l.length = w.length) {j : ℕ} (hj : j < w.length) :
    dot l (colOf (diagMat w).rows j) = l.getD j 0 * w.getD j 0 := by
  have e : colOf (diagMat w).rows j = (List.range w.length).map fun i => if i = j then w.getD i 0 else 0 := by
    unfold diagMat
    rw [colOf_map (List.range w.length) _ (c := w.length) (fun _ _ => by simp) hj]
    refine List.map_congr_left fun i _ => ?_
    rw [List.getD_eq_getElem?_getD, List.getElem?_map, List.getElem?_range hj]
    rfl
  rw [e, dot_real, list_eq_range hl, zipWith_map_same, lsum_range, Finset.sum_eq_single j]
  · rw [getD_map_range _ _ _ hj]
    simp
  · intro b _ hb
    simp [hb]
  · intro h
    exact absurd (Finset.mem_range.mpr hj) h

theorem mul_diag {σ : Type} (S : List σ) (h : ℕ → σ → ℝ) (c : ℕ) (w : σ → ℝ) :
    Mat.mul ⟨S.length, (List.range c).map fun i => S.map (h i)⟩ (diagMat (S.map w)) =
      ok ⟨S.length, (List.range c).map fun i => S.map fun s => h i s * w s⟩ := by
  unfold Mat.mul
  have hd : (diagMat (S.map w)).rows.length = S.length := by simp [diagMat]
  have hc : (diagMat (S.map w)).cols = S.length := by simp [diagMat]
  rw [if_pos hd.symm, hc]
  congr 2
  rw [List.map_map]
  refine List.map_congr_left fun i _ => ?_
  refine List.ext_getElem (by simp) fun j h1 h2 => ?_
  have hj : j < S.length := by simpa using h1
  simp only [Function.comp_apply, List.getElem_map, List.getElem_range]
  rw [diag_sum _ _ (by simp) (by simpa using hj)]
  simp [List.getD_eq_getElem?_getD, hj]

theorem mul_samples {σ : Type} (A : Mat ℝ) (S : List σ) (h : ℕ → σ → ℝ) {c : ℕ} (hA : A.cols = c) :
    Mat.mul A ⟨S.length, (List.range c).map fun i => S.map (h i)⟩ =
      ok ⟨S.length, A.rows.map fun r => S.map fun s => dot r ((List.range c).map fun i => h i s)⟩ := by
  unfold Mat.mul
  rw [if_pos (by simp [hA])]
  congr 2
  refine List.map_congr_left fun r _ => ?_
  refine List.ext_getElem (by simp) fun j h1 h2 => ?_
  have hj : j < S.length := by simpa using h1
  simp only [List.getElem_map, List.getElem_range]
  congr 1
  rw [colOf_map (List.range c) (fun i => S.map (h i)) (c := S.length) (fun _ _ => by simp) hj]
  refine List.map_congr_left fun i _ => ?_
  simp [List.getD_eq_getElem?_getD, hj]

theorem mulVec_samples {σ : Type} (R : List (List ℝ)) (S : List σ) (g : List ℝ → σ → ℝ) (z : σ → ℝ) :
    Mat.mulVec ⟨S.length, R.map fun r => S.map (g r)⟩ (S.map z) = ok (R.map fun r => fsum (S.map fun s => g r s * z s)) := by
  unfold Mat.mulVec
  rw [if_pos (by simp)]
  congr 1
  rw [List.map_map]
  refine List.map_congr_left fun r _ => ?_
  show dot _ _ = _
  rw [dot, zipWith_map_same]
  rfl

/-- The working weight of one sample. -/
noncomputable def weightOf (f : Family ℝ) (m : ℝ) : ℝ :=
  match f with
  | .normal => 1 / (f.variance m * f.link.funcGrad m * f.link.funcGrad m)
  | .poisson => m
  | _ => floorWeight (f.variance m)

theorem workingWeight_map {σ : Type} (f : Family ℝ) (hf : ∀ ws, f ≠ .binomial ws) (S : List σ) (m : σ → ℝ) :
    f.workingWeight (S.map m) = ok (S.map fun s => weightOf f (m s)) := by
  cases f with
  | bernoulli => simp [Family.workingWeight, weightOf, Function.comp_def]
  | binomial ws => exact absurd rfl (hf ws)
  | normal => simp [Family.workingWeight, weightOf, Function.comp_def]
  | poisson => simp [Family.workingWeight, weightOf]

theorem irlsStep_samples (inverse : Mat ℝ → Outcome (Mat ℝ)) (f : Family ℝ) (hf : ∀ ws, f ≠ .binomial ws) {c : ℕ} (S : List (List ℝ × ℝ))
    (hS : ∀ s ∈ S, s.1.length = c) (m z : List ℝ × ℝ → ℝ) :
    irlsStep inverse f (fullOfS c S) (fullOfS c S).transpose (targetsOf S) (S.map m) (S.map z) = (do
      let inv ← expectOk (inverse ⟨c + 1, (List.range (c + 1)).map fun i => (List.range (c + 1)).map fun j => fsum (S.map fun s =>
        (Scalar.one :: s.1).getD i Scalar.zero * weightOf f (m s) * (Scalar.one :: s.1).getD j Scalar.zero)⟩)
      if inv.cols = c + 1 then
        ok (S.map fun s => f.adjust s.2 (m s), inv.rows.map fun r => fsum (S.map fun s =>
          dot r ((List.range (c + 1)).map fun i => (Scalar.one :: s.1).getD i Scalar.zero * weightOf f (m s)) * z s))
      else Outcome.panic) := by
  unfold irlsStep Family.yBar
  rw [workingWeight_map f hf, fullOfS_transpose hS, targetsOf]
  simp only [ok_bind]
  rw [vecZip_map, mul_diag]
  simp only [ok_bind]
  rw [fullOfS, tmul_map S _ _ (full_length hS)]
  simp only [ok_bind]
  congr 1
  funext inv
  split
  · rename_i hc
    rw [mul_samples inv S _ hc]
    simp only [ok_bind]
    rw [mulVec_samples]
    rfl
  · rename_i hc
    unfold Mat.mul
    rw [if_neg (by simpa using hc)]
    rfl

theorem irlsLoop_perm (inverse : Mat ℝ → Outcome (Mat ℝ)) (f : Family ℝ) (hf : ∀ ws, f ≠ .binomial ws) {c : ℕ} {S S' : List (List ℝ × ℝ)}
    (h : S.Perm S') (hS : ∀ s ∈ S, s.1.length = c) :
    ∀ (n : ℕ) (m z : List ℝ × ℝ → ℝ) (beta : List ℝ),
      irlsLoop inverse f (fullOfS c S) (fullOfS c S).transpose (targetsOf S) n (S.map m) (S.map z) beta =
      irlsLoop inverse f (fullOfS c S') (fullOfS c S').transpose (targetsOf S') n (S'.map m) (S'.map z) beta
  | 0, _, _, _ => rfl
  | n + 1, m, z, beta => by
    have hS' : ∀ s ∈ S', s.1.length = c := fun s hs => hS s (h.mem_iff.mpr hs)
    rw [irlsLoop, irlsLoop, irlsStep_samples inverse f hf S hS, irlsStep_samples inverse f hf S' hS']
    simp only [fun g => fsum_map_perm h (f := g)]
    cases expectOk (inverse ⟨c + 1, (List.range (c + 1)).map fun i => (List.range (c + 1)).map fun j => fsum (S'.map fun s =>
        (Scalar.one :: s.1).getD i Scalar.zero * weightOf f (m s) * (Scalar.one :: s.1).getD j Scalar.zero)⟩) with
    | err _ => rfl
    | panic => rfl
    | ub => rfl
    | ok inv =>
      simp only [ok_bind]
      split
      · simp only [ok_bind]
        congr 1
        funext d
        split
        · rfl
        · rw [fullOfS, fullOfS, mulVec_map, mulVec_map]
          split
          · simp only [ok_bind]
            rw [vecZip_map, vecZip_map]
            simp only [ok_bind, List.map_map]
            exact irlsLoop_perm inverse f hf h hS n _ _ _
          · rfl
      · rfl

/-- Generalised linear models of the families that can be built, whatever the inverse. -/
theorem C77_glm (inverse : Mat ℝ → Outcome (Mat ℝ)) (g : Glm ℝ) (hf : ∀ ws, g.family ≠ .binomial ws) {c : ℕ} {S S' : List (List ℝ × ℝ)}
    (h : S.Perm S') (hS : ∀ s ∈ S, s.1.length = c) :
    g.train inverse (inputsOf c S) (targetsOf S) = g.train inverse (inputsOf c S') (targetsOf S') := by
  unfold Glm.train
  rw [if_neg (by simp [inputsOf, targetsOf]), if_neg (by simp [inputsOf, targetsOf]), withOnes_samples, withOnes_samples]
  simp only [ok_bind, targetsOf, List.map_map]
  rw [show (inputsOf c S).cols = (inputsOf c S').cols from rfl]
  have := irlsLoop_perm inverse g.family hf h hS 8 (g.family.startMean ∘ Prod.snd) (g.family.startMean ∘ Prod.snd)
    (List.replicate ((inputsOf c S').cols + 1) Scalar.zero)
  simp only [targetsOf] at this
  rw [this]

/-! ### Transformers -/

theorem colOf_perm {R R' : List (List F)} (h : R.Perm R') (j : ℕ) : (colOf R j).Perm (colOf R' j) := h.filterMap _

theorem sumRows_perm [SumsReorder F] {R R' : List (List F)} (h : R.Perm R') (c : ℕ) : Mat.sumRows ⟨c, R⟩ = Mat.sumRows ⟨c, R'⟩ := by
  unfold Mat.sumRows
  simp only [fun j => fsum_perm (colOf_perm h j)]

theorem meanRow_perm [SumsReorder F] {R R' : List (List F)} (h : R.Perm R') (c : ℕ) : Mat.meanRow ⟨c, R⟩ = Mat.meanRow ⟨c, R'⟩ := by
  unfold Mat.meanRow
  rw [sumRows_perm h, h.length_eq]

theorem varianceRow_perm [SumsReorder F] {R R' : List (List F)} (h : R.Perm R') (c : ℕ) : Mat.varianceRow ⟨c, R⟩ = Mat.varianceRow ⟨c, R'⟩ := by
  unfold Mat.varianceRow
  simp only [h.length_eq]
  congr 2
  refine List.map_congr_left fun j _ => ?_
  rw [fsum_perm (colOf_perm h j), fsum_perm ((colOf_perm h j).map _)]

/-- `Standardizer`: fitting the same rows in another order. -/
theorem C77_standardizer [SumsReorder F] (f : StandardizerFitter F) (c : ℕ) {R R' : List (List F)} (h : R.Perm R') :
    standardizerFit f ⟨c, R⟩ = standardizerFit f ⟨c, R'⟩ := by
  unfold standardizerFit
  rw [meanRow_perm h, varianceRow_perm h]
  simp only [h.length_eq]

theorem real_min_comm (a x y : ℝ) : (if y < (if x < a then x else a) then y else (if x < a then x else a)) =
    (if x < (if y < a then y else a) then x else (if y < a then y else a)) := by
  split_ifs <;> linarith

theorem real_max_comm (a x y : ℝ) : (if (if a < x then x else a) < y then y else (if a < x then x else a)) =
    (if (if a < y then y else a) < x then x else (if a < y then y else a)) := by
  split_ifs <;> linarith

noncomputable instance : FiniteOrder ℝ where
  min_comm a x y _ _ _ := by simpa [Scalar.lt] using real_min_comm a x y
  max_comm a x y _ _ _ := by simpa [Scalar.lt] using real_max_comm a x y
  max_finite := rfl
  min_finite := rfl

noncomputable instance : FiniteOrder XR where
  min_comm a x y ha hx hy := by
    cases a <;> cases x <;> cases y <;> simp [Scalar.isFinite, XR.isFinite] at ha hx hy
    rename_i a x y
    have := congrArg XR.fin (real_min_comm a x y)
    simp only [apply_ite XR.fin] at this
    simp only [Scalar.lt, XR.lt, ← apply_ite XR.fin, decide_eq_true_eq] at this ⊢
    exact this
  max_comm a x y ha hx hy := by
    cases a <;> cases x <;> cases y <;> simp [Scalar.isFinite, XR.isFinite] at ha hx hy
    rename_i a x y
    have := congrArg XR.fin (real_max_comm a x y)
    simp only [apply_ite XR.fin] at this
    simp only [Scalar.lt, XR.lt, ← apply_ite XR.fin, decide_eq_true_eq] at this ⊢
    exact this
  max_finite := rfl
  min_finite := rfl

/-- The update of all columns by a row, without the check. -/
def updRow : List F → List (F × F) → List (F × F)
  | x :: xs, mm :: mms => minmaxUpd mm x :: updRow xs mms
  | _, mms => mms

theorem updRow_length : ∀ (r : List F) (mms : List (F × F)), (updRow r mms).length = mms.length
  | [], mms => by cases mms <;> rfl
  | x :: xs, [] => rfl
  | x :: xs, mm :: mms => by simp [updRow, updRow_length xs mms]

theorem minmaxRow_eq : ∀ (r : List F) (mms : List (F × F)),
    minmaxRow r mms = if (r.take mms.length).all Scalar.isFinite then ok (updRow r mms) else err .InvalidData
  | [], mms => by cases mms <;> rfl
  | x :: xs, [] => rfl
  | x :: xs, mm :: mms => by
    rw [minmaxRow, minmaxRow_eq xs mms]
    cases hx : Scalar.isFinite x
    · simp [hx]
    · have e : (List.take (mm :: mms).length (x :: xs)).all Scalar.isFinite = (xs.take mms.length).all Scalar.isFinite := by
        simp only [List.length_cons, List.take_succ_cons, List.all_cons, hx, Bool.true_and]
      rw [e]
      by_cases h : (xs.take mms.length).all Scalar.isFinite = true
      · rw [if_pos h, if_pos h]
        rfl
      · rw [if_neg h, if_neg h]
        rfl

theorem updRow_swap [FiniteOrder F] : ∀ (r r' : List F) (mms : List (F × F)), (∀ p ∈ mms, Scalar.isFinite p.1 ∧ Scalar.isFinite p.2) →
    (r.take mms.length).all Scalar.isFinite → (r'.take mms.length).all Scalar.isFinite → updRow r' (updRow r mms) = updRow r (updRow r' mms)
  | [], r', mms, _, _, _ => by
    have : ∀ l : List (F × F), updRow [] l = l := fun l => by cases l <;> rfl
    rw [this, this]
  | x :: xs, [], mms, _, _, _ => by
    have : ∀ l : List (F × F), updRow [] l = l := fun l => by cases l <;> rfl
    rw [this, this]
  | x :: xs, y :: ys, [], _, _, _ => rfl
  | x :: xs, y :: ys, mm :: mms, hm, h1, h2 => by
    simp only [List.length_cons, List.take_succ_cons, List.all_cons, Bool.and_eq_true] at h1 h2
    have h0 := hm mm List.mem_cons_self
    rw [updRow, updRow, updRow, updRow, updRow_swap xs ys mms (fun p hp => hm p (List.mem_cons_of_mem _ hp)) h1.2 h2.2]
    congr 1
    exact Prod.ext (FiniteOrder.min_comm mm.1 x y h0.1 h1.1 h2.1) (FiniteOrder.max_comm mm.2 x y h0.2 h1.1 h2.1)

theorem updRow_finite : ∀ (r : List F) (mms : List (F × F)), (∀ p ∈ mms, Scalar.isFinite p.1 ∧ Scalar.isFinite p.2) →
    (r.take mms.length).all Scalar.isFinite → ∀ p ∈ updRow r mms, Scalar.isFinite p.1 ∧ Scalar.isFinite p.2
  | [], mms, h, _ => by
    have : ∀ l : List (F × F), updRow [] l = l := fun l => by cases l <;> rfl
    rwa [this]
  | x :: xs, [], h, _ => h
  | x :: xs, mm :: mms, hm, h1 => by
    simp only [List.length_cons, List.take_succ_cons, List.all_cons, Bool.and_eq_true] at h1
    have h0 := hm mm List.mem_cons_self
    intro p hp
    rw [updRow, List.mem_cons] at hp
    rcases hp with rfl | hp
    · unfold minmaxUpd
      constructor
      · simp only
        split
        · exact h1.1
        · exact h0.1
      · simp only
        split
        · exact h1.1
        · exact h0.2
    · exact updRow_finite xs mms (fun p hp => hm p (List.mem_cons_of_mem _ hp)) h1.2 p hp

theorem minmaxRows_perm [FiniteOrder F] {R R' : List (List F)} (h : R.Perm R') :
    ∀ mms : List (F × F), (∀ p ∈ mms, Scalar.isFinite p.1 ∧ Scalar.isFinite p.2) → minmaxRows R mms = minmaxRows R' mms := by
  induction h with
  | nil => intros; rfl
  | cons r _ ih =>
    intro mms hm
    rw [minmaxRows, minmaxRows, minmaxRow_eq]
    split
    · rename_i hr
      exact ih _ (updRow_finite r mms hm hr)
    · rfl
  | swap r r' l =>
    intro mms hm
    simp only [minmaxRows, minmaxRow_eq]
    by_cases h1 : (r.take mms.length).all Scalar.isFinite = true <;> by_cases h2 : (r'.take mms.length).all Scalar.isFinite = true
    · simp only [h1, h2, if_true, ok_bind, updRow_length, updRow_swap r r' mms hm h1 h2]
    · simp only [h1, h2, if_true, ok_bind, updRow_length, if_false, err_bind, Bool.false_eq_true]
    · simp only [h1, h2, if_true, ok_bind, updRow_length, if_false, err_bind, Bool.false_eq_true]
    · simp only [h1, h2, if_false, err_bind, Bool.false_eq_true]
  | trans _ _ ih1 ih2 => intro mms hm; rw [ih1 mms hm, ih2 mms hm]

/-- `MinMaxScaler`: fitting the same rows in another order, also when some numbers are not finite. -/
theorem C77_minmax [FiniteOrder F] (f : MinMaxFitter F) (c : ℕ) {R R' : List (List F)} (h : R.Perm R') :
    minmaxFit f ⟨c, R⟩ = minmaxFit f ⟨c, R'⟩ := by
  unfold minmaxFit
  rw [minmaxRows_perm h]
  intro p hp
  obtain rfl := List.eq_of_mem_replicate hp
  exact ⟨FiniteOrder.max_finite, FiniteOrder.min_finite⟩

/-! ### Scores -/

theorem zip_samples {α β : Type} (P : List (α × β)) : (P.map Prod.fst).zip (P.map Prod.snd) = P := by
  induction P with
  | nil => rfl
  | cons p P ih => simp [ih]

/-- `accuracy`; the pairs are (output, target). -/
theorem C77_accuracy {T : Type} (eqb : T → T → Bool) {P P' : List (T × T)} (h : P.Perm P') :
    (accuracy eqb (P.map Prod.fst) (P.map Prod.snd) : Outcome F) = accuracy eqb (P'.map Prod.fst) (P'.map Prod.snd) := by
  unfold accuracy
  simp only [zip_samples, List.length_map, h.length_eq, (h.filter _).length_eq]

theorem precisionLoop_perm {T : Type} (isZero isOne : T → Bool) {P P' : List (T × T)} (h : P.Perm P') :
    ∀ a b : F, precisionLoop isZero isOne P a b = precisionLoop isZero isOne P' a b := by
  induction h with
  | nil => intros; rfl
  | cons p _ ih => intro a b; simp only [precisionLoop, ih]
  | swap p q l =>
    intro a b
    simp only [precisionLoop]
    cases notTwoClass isZero isOne p.1 p.2 <;> cases notTwoClass isZero isOne q.1 q.2 <;> cases isOne p.1 <;> cases isOne p.2 <;>
      cases isOne q.1 <;> cases isOne q.2 <;> rfl
  | trans _ _ ih1 ih2 => intro a b; rw [ih1, ih2]

theorem recallLoop_perm {T : Type} (isZero isOne : T → Bool) {P P' : List (T × T)} (h : P.Perm P') :
    ∀ a b : F, recallLoop isZero isOne P a b = recallLoop isZero isOne P' a b := by
  induction h with
  | nil => intros; rfl
  | cons p _ ih => intro a b; simp only [recallLoop, ih]
  | swap p q l =>
    intro a b
    simp only [recallLoop]
    cases notTwoClass isZero isOne p.1 p.2 <;> cases notTwoClass isZero isOne q.1 q.2 <;> cases isOne p.1 <;> cases isOne p.2 <;>
      cases isOne q.1 <;> cases isOne q.2 <;> rfl
  | trans _ _ ih1 ih2 => intro a b; rw [ih1, ih2]

theorem f1Loop_perm {T : Type} (isZero isOne : T → Bool) {P P' : List (T × T)} (h : P.Perm P') :
    ∀ a b c : F, f1Loop isZero isOne P a b c = f1Loop isZero isOne P' a b c := by
  induction h with
  | nil => intros; rfl
  | cons p _ ih => intro a b c; simp only [f1Loop, ih]
  | swap p q l =>
    intro a b c
    simp only [f1Loop]
    cases notTwoClass isZero isOne p.1 p.2 <;> cases notTwoClass isZero isOne q.1 q.2 <;> cases isOne p.1 <;> cases isOne p.2 <;>
      cases isOne q.1 <;> cases isOne q.2 <;> rfl
  | trans _ _ ih1 ih2 => intro a b c; rw [ih1, ih2]

/-- `precision`, `recall` and `f1`, in any arithmetic. -/
theorem C77_scores {T : Type} (isZero isOne : T → Bool) {P P' : List (T × T)} (h : P.Perm P') :
    (precision isZero isOne (P.map Prod.fst) (P.map Prod.snd) : Outcome F) = precision isZero isOne (P'.map Prod.fst) (P'.map Prod.snd) ∧
    (recall isZero isOne (P.map Prod.fst) (P.map Prod.snd) : Outcome F) = recall isZero isOne (P'.map Prod.fst) (P'.map Prod.snd) ∧
    (f1 isZero isOne (P.map Prod.fst) (P.map Prod.snd) : Outcome F) = f1 isZero isOne (P'.map Prod.fst) (P'.map Prod.snd) := by
  unfold precision recall f1
  simp only [zip_samples, List.length_map, precisionLoop_perm _ _ h, recallLoop_perm _ _ h, f1Loop_perm _ _ h]
  exact ⟨trivial, trivial, trivial⟩

/-- `neg_mean_squared_error`; the pairs are the rows (output, target). -/
theorem C77_mse [SumsReorder F] (c : ℕ) {P P' : List (List F × List F)} (h : P.Perm P') :
    negMeanSquaredError ⟨c, P.map Prod.fst⟩ ⟨c, P.map Prod.snd⟩ = negMeanSquaredError ⟨c, P'.map Prod.fst⟩ ⟨c, P'.map Prod.snd⟩ := by
  have key : ∀ Q : List (List F × List F), negMeanSquaredError ⟨c, Q.map Prod.fst⟩ ⟨c, Q.map Prod.snd⟩ =
      ok (Scalar.neg (Scalar.ofNat 2) *. (fsum (Q.map fun p => List.zipWith Scalar.mul (List.zipWith Scalar.sub p.1 p.2)
        (List.zipWith Scalar.sub p.1 p.2)).flatten /. (Scalar.ofNat 2 *. Scalar.ofNat Q.length))) := by
    intro Q
    unfold negMeanSquaredError mseCost Mat.zip
    simp only [List.length_map, and_self, if_true, ok_bind, zipWith_map_same, Mat.sum, Mat.data]
  rw [key, key, fsum_perm (h.map _).flatten, h.length_eq]

theorem confusion_perm {T : Type} [LinearOrder T] (labels : List T) {P P' : List (T × T)} (h : P.Perm P') :
    confusionMatrix (P.map Prod.fst) (P.map Prod.snd) (some labels) = confusionMatrix (P'.map Prod.fst) (P'.map Prod.snd) (some labels) := by
  by_cases hn : labels.Nodup
  · obtain ⟨m, h1, h2, h3, h4⟩ := C08_confusion_entries (P.map Prod.fst) (P.map Prod.snd) labels (by simp) hn
    obtain ⟨m', g1, g2, g3, g4⟩ := C08_confusion_entries (P'.map Prod.fst) (P'.map Prod.snd) labels (by simp) hn
    rw [h1, g1]
    congr 1
    refine List.ext_getElem (by rw [h2, g2]) fun i hi hi' => ?_
    have e1 := h3 _ (List.getElem_mem hi)
    have e2 := g3 _ (List.getElem_mem hi')
    refine List.ext_getElem (by rw [e1, e2]) fun j hj hj' => ?_
    have a1 := h4 i j labels[i] labels[j] (by simp) (by simp)
    have a2 := g4 i j labels[i] labels[j] (by simp) (by simp)
    rw [pairCount_zip _ _ (by simp)] at a1 a2
    have hz : ((P.map Prod.snd).zip (P.map Prod.fst)).Perm ((P'.map Prod.snd).zip (P'.map Prod.fst)) := by
      have : ∀ Q : List (T × T), (Q.map Prod.snd).zip (Q.map Prod.fst) = Q.map Prod.swap := by
        intro Q
        induction Q with
        | nil => rfl
        | cons q Q ih => simp [ih, Prod.swap]
      rw [this, this]
      exact h.map _
    rw [hz.countP_eq, ← a2] at a1
    unfold entry at a1
    simpa [hi, hi', hj, hj'] using a1
  · have g := fun Q : List (T × T) => (C09_panic_iff (Q.map Prod.fst) (Q.map Prod.snd) (some labels)).1.mpr (Or.inr ⟨labels, rfl, hn⟩)
    rw [g, g]

/-- `confusion_matrix`, with and without a list of labels; the pairs are (prediction, target). -/
theorem C77_confusion {T : Type} [LinearOrder T] (labels : Option (List T)) {P P' : List (T × T)} (h : P.Perm P') :
    confusionMatrix (P.map Prod.fst) (P.map Prod.snd) labels = confusionMatrix (P'.map Prod.fst) (P'.map Prod.snd) labels := by
  cases labels with
  | some ls => exact confusion_perm ls h
  | none =>
    obtain ⟨l, h1, h2, h3⟩ := C09_default_labels (P.map Prod.fst) (P.map Prod.snd)
    obtain ⟨l', g1, g2, g3⟩ := C09_default_labels (P'.map Prod.fst) (P'.map Prod.snd)
    have hl : l = l' := by
      have hp : l.Perm l' := (List.perm_ext_iff_of_nodup (h1.imp ne_of_lt) (g1.imp ne_of_lt)).mpr fun x => by
        rw [h2, g2, (h.map Prod.fst).mem_iff, (h.map Prod.snd).mem_iff]
      exact hp.eq_of_pairwise (fun a b _ _ hab hba => absurd hba (not_lt_of_gt hab)) h1 g1
    rw [h3, g3, hl, confusion_perm _ h]

/-! ### k-means -/

theorem closestTo_uniform (C : Mat F) (d : ℕ) : (∃ g : List F → ℕ × F, ∀ row, closestTo C d row = ok (g row)) ∨ ∀ row, closestTo C d row = .panic := by
  by_cases hd : C.cols = d
  · subst hd
    cases hr : C.rows with
    | nil => exact Or.inr fun row => by rw [closestTo_eq, hr]; rfl
    | cons r rs => exact Or.inl ⟨_, fun row => by rw [closestTo_eq, hr]; rfl⟩
  · exact Or.inr fun row => closestTo_mismatch C d row hd

theorem labelled_own {α : Type} (j : ℕ) (h : α → ℕ) : ∀ R : List α, labelled j R (R.map h) = R.filter fun x => h x = j
  | [] => rfl
  | x :: R => by
    have ih := labelled_own j h R
    unfold labelled at ih ⊢
    by_cases hx : h x = j <;> simp [hx, ih]

theorem kmLoop_perm [SumsReorder F] (k c : ℕ) {R R' : List (List F)} (h : R.Perm R') : ∀ (n : ℕ) (cost : F) (C : Mat F),
    kmLoop k ⟨c, R⟩ n cost C = kmLoop k ⟨c, R'⟩ n cost C
  | 0, _, _ => rfl
  | n + 1, cost, C => by
    rw [kmLoop, kmLoop]
    rcases closestTo_uniform C c with ⟨g, hg⟩ | hp
    · have key : ∀ Q : List (List F), findClosest C ⟨c, Q⟩ = ok (Q.map fun x => (g x).1, Q.map fun x => (g x).2) := by
        intro Q
        unfold findClosest
        rw [mapM_ok_map _ g _ fun a _ => hg a]
        simp [Function.comp_def]
      have e : (fun j => (⟨c, R.filter fun x => (g x).1 = j⟩ : Mat F).meanRow) = fun j => (⟨c, R'.filter fun x => (g x).1 = j⟩ : Mat F).meanRow :=
        funext fun j => meanRow_perm (h.filter _) c
      simp only [key, ok_bind, updateCentroids_eq, List.length_map, labelled_own, fsum_map_perm h, e, kmLoop_perm k c h n]
    · cases R with
      | nil => rw [h.nil_eq]
      | cons r R =>
        obtain ⟨r', Q, rfl⟩ : ∃ r' Q, R' = r' :: Q := by
          cases R' with
          | nil => exact absurd h.symm.nil_eq (by simp)
          | cons a b => exact ⟨a, b, rfl⟩
        have key : ∀ (x : List F) Q, findClosest C ⟨c, x :: Q⟩ = .panic := fun x Q => by
          unfold findClosest
          rw [List.mapM_cons, hp]; rfl
        rw [key, key]
        rfl

/-- `KMeansClassifier` from the same starting centroids: the same training rows in another order give the same centroids. -/
theorem C77_kmeans [SumsReorder F] (init : ℕ → Mat F → Outcome (Mat F)) (m : KMeans F) (c : ℕ) {R R' : List (List F)} (h : R.Perm R')
    (hi : init m.k ⟨c, R⟩ = init m.k ⟨c, R'⟩) : kmTrain init m ⟨c, R⟩ = kmTrain init m ⟨c, R'⟩ := by
  unfold kmTrain kmInit
  simp only [h.length_eq, hi, kmLoop_perm m.k c h]

/-! ### Naive Bayes -/

theorem nbFit_congr {D : Type} {B : NBDistr D F} {X X' : Mat F} (hU : ∀ d (c j : ℕ) (R R' : List (List F)), R.Perm R' → B.update d ⟨c, R⟩ j = B.update d ⟨c, R'⟩ j)
    {c : ℕ} (f f' : ℕ → List ℕ) (g g' : ℕ → List (List F)) (hg : ∀ j, X.selectRows (f j) = ok ⟨c, g j⟩) (hg' : ∀ j, X'.selectRows (f' j) = ok ⟨c, g' j⟩)
    (hp : ∀ j, (g j).Perm (g' j)) (hne : ∀ j, (f j).isEmpty = (f' j).isEmpty) :
    ∀ (js : List ℕ) (i : ℕ) (d : D), nbFit B X i (js.map f) d = nbFit B X' i (js.map f') d
  | [], _, _ => rfl
  | j :: js, i, d => by
    rw [List.map_cons, List.map_cons, nbFit, nbFit, hne, hg, hg']
    simp only [hU d c i _ _ (hp j), nbFit_congr hU f f' g g' hg hg' hp hne js]

/-- `NaiveBayes` with any distribution that learns the same from rows in another order: training has the same result, and when it
succeeds the model is the same. (After an error the counts left behind may differ.) -/
theorem C77_naive_bayes {D : Type} {B : NBDistr D ℝ}
    (hU : ∀ d (c j : ℕ) (R R' : List (List ℝ)), R.Perm R' → B.update d ⟨c, R⟩ j = B.update d ⟨c, R'⟩ j) (m : NaiveBayes D ℝ) {c k : ℕ}
    {S S' : List (List ℝ × List ℝ)} (h : S.Perm S') (hS : ∀ s ∈ S, s.2.length = k) :
    (nbTrain B m (inputsOf c S) ⟨k, targetsOf S⟩).2 = (nbTrain B m (inputsOf c S') ⟨k, targetsOf S'⟩).2 ∧
    ((nbTrain B m (inputsOf c S) ⟨k, targetsOf S⟩).2 = ok () →
      nbTrain B m (inputsOf c S) ⟨k, targetsOf S⟩ = nbTrain B m (inputsOf c S') ⟨k, targetsOf S'⟩) := by
  have hT : ∀ t ∈ targetsOf S, t.length = k := fun t ht => by
    obtain ⟨s, hs, rfl⟩ := List.mem_map.1 ht
    exact hS s hs
  have hpt : (targetsOf S).Perm (targetsOf S') := h.map _
  have hT' : ∀ t ∈ targetsOf S', t.length = k := fun t ht => hT t (hpt.mem_iff.mpr ht)
  by_cases hc : ∀ t ∈ targetsOf S, classOf t ≠ none
  · have hc' : ∀ t ∈ targetsOf S', classOf t ≠ none := fun t ht => hc t (hpt.mem_iff.mpr ht)
    have key : nbTrain B m (inputsOf c S) ⟨k, targetsOf S⟩ = nbTrain B m (inputsOf c S') ⟨k, targetsOf S'⟩ := by
      unfold nbTrain
      simp only
      rw [nbScan_ok _ 0 k _ _ (by simp) hT hc, nbScan_ok _ 0 k _ _ (by simp) hT' hc', classData_eq, classData_eq,
        foldl_modify_replicate, foldl_modify_replicate]
      have hcnt : (fun j => (classesOf (targetsOf S)).count j) = fun j => (classesOf (targetsOf S')).count j := by
        funext j; exact (hpt.filterMap _).count_eq j
      have hfit := nbFit_congr (B := B) (X := inputsOf c S) (X' := inputsOf c S') hU (c := c) (fun j => members j 0 (classesOf (targetsOf S)))
        (fun j => members j 0 (classesOf (targetsOf S'))) (fun j => classSamples (S.map Prod.fst) (targetsOf S) j)
        (fun j => classSamples (S'.map Prod.fst) (targetsOf S') j)
        (fun j => selectRows_class (X := inputsOf c S) hc (by simp [inputsOf, targetsOf]) j)
        (fun j => selectRows_class (X := inputsOf c S') hc' (by simp [inputsOf, targetsOf]) j)
        (fun j => by
          unfold classSamples targetsOf
          rw [zip_samples, zip_samples]
          exact (h.filter _).map _)
        (fun j => by
          rw [Bool.eq_iff_iff, List.isEmpty_iff, List.isEmpty_iff, members_eq_nil, members_eq_nil]
          exact not_congr (hpt.filterMap classOf).mem_iff)
        (List.range k) 0 (B.fromParams k c)
      have hl : (inputsOf c S).rows.length = (inputsOf c S').rows.length := by simp [inputsOf, h.length_eq]
      simp only [hcnt, hl]
      rw [show (inputsOf c S).cols = c from rfl, show (inputsOf c S').cols = c from rfl, hfit]
    exact ⟨by rw [key], fun _ => key⟩
  · push Not at hc
    obtain ⟨t, ht, hn⟩ := hc
    obtain ⟨a, ha⟩ := nbScan_err (targetsOf S) 0 k (List.replicate k 0) (List.replicate k []) (by simp) hT ⟨t, ht, hn⟩
    obtain ⟨a', ha'⟩ := nbScan_err (targetsOf S') 0 k (List.replicate k 0) (List.replicate k []) (by simp) hT' ⟨t, hpt.mem_iff.mp ht, hn⟩
    have e : (nbTrain B m (inputsOf c S) ⟨k, targetsOf S⟩).2 = err .InvalidState := by
      unfold nbTrain; simp only; rw [ha]
    have e' : (nbTrain B m (inputsOf c S') ⟨k, targetsOf S'⟩).2 = err .InvalidState := by
      unfold nbTrain; simp only; rw [ha']
    exact ⟨by rw [e, e'], fun h => by rw [e] at h; simp at h⟩

/-- The three built-in distributions learn the same from rows in another order. -/
theorem C77_distributions [SumsReorder F] [ScalarPi F] (c j : ℕ) {R R' : List (List F)} (h : R.Perm R') :
    (∀ d, (gaussDistr : NBDistr (GaussD F) F).update d ⟨c, R⟩ j = gaussDistr.update d ⟨c, R'⟩ j) ∧
    (∀ d, (bernDistr : NBDistr (LogProbsD F) F).update d ⟨c, R⟩ j = bernDistr.update d ⟨c, R'⟩ j) ∧
    (∀ d, (multDistr : NBDistr (LogProbsD F) F).update d ⟨c, R⟩ j = multDistr.update d ⟨c, R'⟩ j) := by
  refine ⟨fun d => ?_, fun d => ?_, fun d => ?_⟩
  · show gaussUpdate _ _ _ = gaussUpdate _ _ _
    unfold gaussUpdate
    rw [meanRow_perm h, varianceRow_perm h]
  · show bernUpdate _ _ _ = bernUpdate _ _ _
    unfold bernUpdate
    rw [sumRows_perm h]
    simp only [h.length_eq]
  · show multUpdate _ _ _ = multUpdate _ _ _
    unfold multUpdate
    rw [sumRows_perm h]

/-! ### The hypotheses are met -/

/-- Three samples and the same in another order, not the same list. -/
example : [([1, 2], 3), ([4, 5], 6), ([7, 8], 9)].Perm [([7, 8], 9), ([1, 2], 3), (([4, 5] : List ℝ), (6 : ℝ))] ∧
    (∀ s ∈ [([1, 2], 3), ([4, 5], 6), (([7, 8] : List ℝ), (9 : ℝ))], s.1.length = 2) :=
  ⟨(List.perm_append_comm (l₁ := [([1, 2], 3), ([4, 5], 6)]) (l₂ := [(([7, 8] : List ℝ), (9 : ℝ))])), by simp⟩

/-- Families other than the binomial one. -/
example (ws : List ℝ) : (Family.poisson : Family ℝ) ≠ .binomial ws := by simp

/-- An initialiser that does not look at the order: the same centroids for all data. -/
example (C : Mat ℝ) (m : KMeans ℝ) : kmTrain (fun _ _ => ok C) m ⟨1, [[1], [2], [5]]⟩ = kmTrain (fun _ _ => ok C) m ⟨1, [[5], [1], [2]]⟩ :=
  C77_kmeans _ m 1 (List.perm_append_comm (l₁ := [[1], [2]]) (l₂ := [[5]])) rfl

/-- The Gaussian model on three labelled samples. -/
example (m : NaiveBayes (GaussD ℝ) ℝ) : (nbTrain gaussDistr m ⟨1, [[1], [2], [5]]⟩ ⟨2, [[1, 0], [1, 0], [0, 1]]⟩).2 =
    (nbTrain gaussDistr m ⟨1, [[5], [1], [2]]⟩ ⟨2, [[0, 1], [1, 0], [1, 0]]⟩).2 :=
  (C77_naive_bayes (B := gaussDistr) (fun d c j _ _ h => (C77_distributions c j h).1 d) m (c := 1) (k := 2)
    (S := [([1], [1, 0]), ([2], [1, 0]), ([5], [0, 1])]) (S' := [([5], [0, 1]), ([1], [1, 0]), ([2], [1, 0])])
    (List.perm_append_comm (l₁ := [([1], [1, 0]), ([2], [1, 0])]) (l₂ := [([5], [0, 1])])) (by simp)).1

/-- Rows with numbers that are not finite are rejected in any order. -/
example (f : MinMaxFitter XR) : minmaxFit f ⟨1, [[.nan], [.fin 2]]⟩ = minmaxFit f ⟨1, [[.fin 2], [.nan]]⟩ :=
  C77_minmax f 1 (List.Perm.swap _ _ _)

end RM
