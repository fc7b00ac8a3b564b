import Verif.Proofs.Fmincg

/-! C47: conjugate gradient descent. -/

namespace RM
open Outcome Scalar Spec

/-- C81: with settings in the intended ranges, for every model with finite costs and gradients, the returned parameters are reached
from the start by moves along descent directions that satisfy the strong Wolfe conditions (`CGPath`). -/
theorem C81_wolfe_path (o : ConjugateGD XR) (ρ σ ι e q : ℝ) (hr : o.rho = .fin ρ) (hr0 : 0 ≤ ρ) (hsig : o.sig = .fin σ)
    (hi : o.int = .fin ι) (h0 : 0 < ι) (h1 : ι < 1) (he : o.ext = .fin e) (he0 : 0 ≤ e) (hq : o.ratio = .fin q) (hq0 : 0 ≤ q)
    (g : List XR → Outcome (XR × List XR)) (f : List ℝ → ℝ) (df : List ℝ → List ℝ) (start : List ℝ)
    (hg : FiniteModel g f df start.length) :
    ∃ y : List ℝ, (o.optimize g (fins start)).out = ok (fins y) ∧ y.length = start.length ∧
      CGPath f df ρ σ o.iters false start ((df start).map fun u => -u) start y := by
  obtain ⟨hgs, hdl⟩ := hg start rfl
  rw [ConjugateGD.optimize, hgs, Logged.call_ok_bind]
  simp only
  rw [vecNeg_fins, dot_fins, rdot_neg_neg, xr_neg]
  have hz := restart_z1 (rdot_self_nonneg (df start))
  rw [hz.1]
  refine cgLoop_spec o hg hr hr0 hsig hi h0 h1 he he0 hq hq0 o.iters _ start start (df start) ((df start).map fun t => -t) _
    ⟨rfl, hdl, by simpa using hdl, rfl, rfl, rfl, rfl, ?_, rfl, ?_, hz.2, ?_, rfl⟩
  · rw [rdot_neg]
  · rw [rdot_neg]; linarith [rdot_self_nonneg (df start)]
  · intro h t ht
    obtain ⟨u, hu, rfl⟩ := List.mem_map.1 ht
    rw [h u hu, neg_zero]

/-- Along such a path the cost does not rise. -/
theorem C81_path_descends {f : List ℝ → ℝ} {df : List ℝ → List ℝ} {ρ σ : ℝ} (hr : 0 ≤ ρ) {k : ℕ} {b : Bool} {p s x y : List ℝ}
    (h : CGPath f df ρ σ k b p s x y) : f y ≤ f x := by
  induction h with
  | done => exact le_rfl
  | accept hy hw hd hf h1 h2 _ ih =>
    have := mul_nonpos_of_nonneg_of_nonpos (mul_nonneg hw hr) hd.le
    linarith
  | retry hq hw _ ih => exact ih
  | giveUp => exact le_rfl

/-- C81: the first accepted move lowers the cost strictly, unless a line search failed before it (`rho` positive, `sig` at most 1). -/
theorem C81_first_move {f : List ℝ → ℝ} {df : List ℝ → List ℝ} {ρ σ : ℝ} (hr : 0 < ρ) (hs : σ ≤ 1) {x y s : List ℝ} {w : ℝ} (hl : x.length = s.length)
    (hy : y = moveAlong x s w) (hw : 0 ≤ w) (hd : rdot (df x) s < 0) (hf : f y ≤ f x + w * ρ * rdot (df x) s)
    (h1 : σ * rdot (df x) s < rdot (df y) s) : f y < f x := by
  rcases hw.eq_or_lt with h | h
  · exfalso
    have : y = x := by
      rw [hy, ← h]
      unfold moveAlong
      apply List.ext_getElem
      · simp [hl]
      · intro i h1 h2
        simp
    rw [this] at h1
    nlinarith
  · have := mul_neg_of_pos_of_neg (mul_pos h hr) hd
    linarith

/-- C47: with settings in the intended ranges, for every model with finite costs and gradients, the returned parameters
have a cost at most that of the start. `f` and `df` are arbitrary: the gradient need not be the gradient of the cost.
Arithmetic with special values: a NaN or an infinity arising inside the line search is covered. -/
theorem C47_never_worse (o : ConjugateGD XR) (ρ σ ι e q : ℝ) (hr : o.rho = .fin ρ) (hr0 : 0 ≤ ρ) (hsig : o.sig = .fin σ)
    (hi : o.int = .fin ι) (h0 : 0 < ι) (h1 : ι < 1) (he : o.ext = .fin e) (he0 : 0 ≤ e) (hq : o.ratio = .fin q) (hq0 : 0 ≤ q)
    (g : List XR → Outcome (XR × List XR)) (f : List ℝ → ℝ) (df : List ℝ → List ℝ) (start : List ℝ)
    (hg : FiniteModel g f df start.length) :
    ∃ y : List ℝ, (o.optimize g (fins start)).out = ok (fins y) ∧ y.length = start.length ∧ f y ≤ f start := by
  obtain ⟨y, h2, h3, h4⟩ := C81_wolfe_path o ρ σ ι e q hr hr0 hsig hi h0 h1 he he0 hq hq0 g f df start hg
  exact ⟨y, h2, h3, C81_path_descends hr0 h4⟩

/-- C47: at most `1 + iters * (1 + max)` evaluations, in any arithmetic and whatever the model does. -/
theorem C47_calls {F : Type} [Scalar F] (o : ConjugateGD F) (g : List F → Outcome (F × List F)) (start : List F) :
    (o.optimize g start).log.length ≤ 1 + o.iters * (1 + o.max) :=
  Logged.log_bind_length _ _ 1 _ (by simp) fun _ _ => cgLoop_calls _ _ _ _

/-- The default settings meet the hypotheses. -/
example : (ConjugateGD.default : ConjugateGD XR).rho = .fin (1 / 100) ∧ (ConjugateGD.default : ConjugateGD XR).sig = .fin (1 / 2) ∧
    (ConjugateGD.default : ConjugateGD XR).int = .fin (1 / 10) ∧ (ConjugateGD.default : ConjugateGD XR).ext = .fin 3 ∧
    (ConjugateGD.default : ConjugateGD XR).ratio = .fin 100 := by
  refine ⟨?_, ?_, ?_, ?_, ?_⟩ <;> simp [ConjugateGD.default]

/-- Reading a finite entry. -/
noncomputable def finVal : XR → ℝ
  | .fin x => x
  | _ => 0

/-- And so does the model with cost `(w - 3)²`. -/
example : FiniteModel (fun w => ok (.fin ((finVal (w.headD (.fin 0)) - 3) ^ 2), [.fin (2 * (finVal (w.headD (.fin 0)) - 3))]))
    (fun w => (w.headD 0 - 3) ^ 2) (fun w => [2 * (w.headD 0 - 3)]) 1 := by
  intro v hv
  obtain ⟨x, rfl⟩ := List.length_eq_one_iff.1 hv
  simp [fins, finVal]

/-- The default settings, with a single iteration. -/
noncomputable def oneIter : ConjugateGD XR :=
  { (ConjugateGD.default : ConjugateGD XR) with iters := 1 }

open Classical in
/-- Without finite costs the property fails: comparisons with NaN are false, so a point whose cost is NaN passes the test
for sufficient decrease. Here the start has cost 1, and the point returned with the default settings (one iteration) has cost NaN. -/
theorem C47_nan_violation : ∃ g : List XR → Outcome (XR × List XR),
    g [.fin 0] = ok (.fin 1, [.fin (-1)]) ∧
    (oneIter.optimize g [.fin 0]).out = ok [.fin (1 / 2)] ∧
    g [.fin (1 / 2)] = ok (.nan, [.fin 0]) := by
  refine ⟨fun w => if w = [.fin 0] then ok (.fin 1, [.fin (-1)]) else ok (.nan, [.fin 0]), by simp, ?_, by simp⟩
  have hz : Scalar.div (XR.fin 1) (XR.fin 2) = .fin (1 / 2) := xr_div _ _ (by norm_num)
  have hn : ∀ x : XR, Scalar.lt x .nan = false := fun x => by cases x <;> rfl
  have hl : ∀ st : LineState XR, st.f2 = .nan → st.d2 = .fin 0 →
      (lineSearch oneIter
        (fun w => if w = [.fin 0] then ok (.fin 1, [.fin (-1)]) else ok (.nan, [.fin 0])) (.fin 1) (.fin (-1)) [.fin 1] 20 st) = pure (st, true) := by
    intro st h1 h2
    have w : wolfeFails oneIter (.fin 1) (.fin (-1)) st = false := by
      simp [wolfeFails, h1, h2, hn, oneIter, ConjugateGD.default]
    rw [lineSearch, w]
    simp [h2, oneIter, ConjugateGD.default]
  simp only [ConjugateGD.optimize, if_true, Logged.call_ok_bind]
  have e0 : dot (vecNeg [XR.fin (-1)]) (vecNeg [XR.fin (-1)]) = .fin 1 := by
    simp [dot, vecNeg, fsum]
  have e1 : vecNeg [XR.fin (-1)] = [.fin 1] := by simp [vecNeg]
  rw [e0, e1, xr_neg, xr_one, xr_sub, show (1 : ℝ) - -1 = 2 by norm_num, hz]
  have e2 : stepAlong [XR.fin 0] [.fin 1] (.fin (1 / 2)) = ok [.fin (1 / 2)] := by
    simp [stepAlong, vecZip, vecScale]
  have e3 : ([XR.fin (1 / 2)] = [XR.fin 0]) = False := by simp
  have hmax : oneIter.max = 20 := rfl
  have hit : oneIter.iters = 1 := rfl
  rw [hit, cgLoop]
  simp only [e2, Logged.lift_ok_bind, e3, if_false, Logged.call_ok_bind, hmax]
  rw [hl _ rfl (by simp [dot, fsum])]
  simp [cgSuccess, vecZip, vecScale, cgLoop, Logged.bind_def, Logged.bind, Logged.lift]

end RM
