import Verif.Proofs.FmincgWide
import Verif.Props.Fmincg

/-! C121: conjugate gradient descent with limits of any size. -/

namespace RM
open Outcome Scalar Spec

/-- **C121 (limits below 2^31).** With `iters` and `max` below `2^31` the casts change nothing: the run is that of C47 and C81. -/
theorem C121_small {F : Type} [Scalar F] (o : ConjugateGD F) (g : List F → Outcome (F × List F)) (start : List F) (hi : o.iters < 2 ^ 31)
    (hm : o.max < 2 ^ 31) (fuel : ℕ) (hf : o.iters < fuel) :
    o.optimizeWide fuel g start = (o.optimize g start >>= fun y => pure (some y)) := by
  rw [← i32Half_eq] at hi hm
  rw [ConjugateGD.optimizeWide, ConjugateGD.optimize, asI32_small hi]
  cases hg : g start with
  | ok r =>
    rw [Logged.call_ok_bind, Logged.call_ok_bind]
    simp only
    rw [if_neg (by omega), cgLoopWide_small o g hm o.iters hi o.iters fuel 0 _ (by omega) hf]
    simp only [Logged.bind_def, Logged.bind]
    split <;> simp
  | err e => rfl
  | panic => rfl
  | ub => rfl

theorem two32 : 2 ^ 32 = 2 * i32Half := by rw [i32Half_eq]; norm_num

theorem start_inv {g : List XR → Outcome (XR × List XR)} {f : List ℝ → ℝ} {df : List ℝ → List ℝ} {start : List ℝ}
    (hg : FiniteModel g f df start.length) :
    CGInv f df start.length ⟨fins start, .fin (f start), fins (df start), vecNeg (fins (df start)),
      Scalar.neg (dot (vecNeg (fins (df start))) (vecNeg (fins (df start)))),
      Scalar.one /. (Scalar.one -. Scalar.neg (dot (vecNeg (fins (df start))) (vecNeg (fins (df start))))), false⟩
      start start (df start) ((df start).map fun t => -t) (1 / (1 + rdot (df start) (df start))) := by
  have hdl := (hg start rfl).2
  have hz := restart_z1 (rdot_self_nonneg (df start))
  refine ⟨rfl, hdl, by simpa using hdl, rfl, rfl, rfl, vecNeg_fins _, ?_, ?_, ?_, hz.2, ?_, rfl⟩
  · simp only; rw [vecNeg_fins, dot_fins, rdot_neg_neg, xr_neg, rdot_neg]
  · simp only; rw [vecNeg_fins, dot_fins, rdot_neg_neg, xr_neg, hz.1]
  · rw [rdot_neg]; linarith [rdot_self_nonneg (df start)]
  · intro h t ht
    obtain ⟨u, hu, rfl⟩ := List.mem_map.1 ht
    rw [h u hu, neg_zero]

/-- **C121 (never worse).** Whatever `iters` and `max` are: if the optimiser returns, then it returns parameters with a cost at most that of
the start, reached by Wolfe steps. -/
theorem C121_never_worse (fuel : ℕ) (o : ConjugateGD XR) (ρ σ ι e q : ℝ) (hr : o.rho = .fin ρ) (hr0 : 0 ≤ ρ) (hsig : o.sig = .fin σ)
    (hi : o.int = .fin ι) (h0 : 0 < ι) (h1 : ι < 1) (he : o.ext = .fin e) (he0 : 0 ≤ e) (hq : o.ratio = .fin q) (hq0 : 0 ≤ q)
    (g : List XR → Outcome (XR × List XR)) (f : List ℝ → ℝ) (df : List ℝ → List ℝ) (start : List ℝ)
    (hg : FiniteModel g f df start.length) (r : Option (List XR)) (h : (o.optimizeWide fuel g (fins start)).out = ok r) :
    r = none ∨ ∃ (y : List ℝ) (k : ℕ), r = some (fins y) ∧ y.length = start.length ∧ f y ≤ f start ∧
      CGPath f df ρ σ k false start ((df start).map fun u => -u) start y := by
  obtain ⟨hgs, hdl⟩ := hg start rfl
  rw [ConjugateGD.optimizeWide, hgs, Logged.call_ok_bind] at h
  simp only at h
  split at h
  · cases h
  · rcases cgLoopWide_spec o hg hr hsig hi h0 h1 he he0 hq hq0 (asI32 o.iters) fuel 0 _ _ _ _ _ _ (start_inv hg) with h' | h' | ⟨y, k, h', hy, -, hp⟩
    · rw [h'] at h; cases h; exact Or.inl rfl
    · rw [h'] at h; cases h
    · rw [h'] at h
      cases h
      exact Or.inr ⟨y, k, rfl, hy, C81_path_descends hr0 hp, hp⟩

/-- **C121 (when it returns).** It returns whenever `max`, taken as an `i32`, is not negative, and `iters` is not the smallest `i32`. -/
theorem C121_returns (o : ConjugateGD XR) (ρ σ ι e q : ℝ) (hr : o.rho = .fin ρ) (hr0 : 0 ≤ ρ) (hsig : o.sig = .fin σ)
    (hi : o.int = .fin ι) (h0 : 0 < ι) (h1 : ι < 1) (he : o.ext = .fin e) (he0 : 0 ≤ e) (hq : o.ratio = .fin q) (hq0 : 0 ≤ q)
    (hmax : o.max % 2 ^ 32 < 2 ^ 31) (hit : o.iters % 2 ^ 32 ≠ 2 ^ 31)
    (g : List XR → Outcome (XR × List XR)) (f : List ℝ → ℝ) (df : List ℝ → List ℝ) (start : List ℝ)
    (hg : FiniteModel g f df start.length) (fuel : ℕ) (hf : 2 ^ 31 ≤ fuel) :
    ∃ y : List ℝ, (o.optimizeWide fuel g (fins start)).out = ok (some (fins y)) ∧ y.length = start.length ∧ f y ≤ f start := by
  obtain ⟨hgs, hdl⟩ := hg start rfl
  rw [← i32Half_eq] at hmax hit hf
  rw [two32] at hmax hit
  have hm : 0 ≤ asI32 o.max := by
    rw [asI32, if_pos hmax]
    omega
  have hmin : asI32 o.iters ≠ -(i32Half : ℤ) := by
    unfold asI32
    split <;> omega
  have hl : |asI32 o.iters| < (i32Half : ℤ) := by
    have := asI32_range o.iters
    rw [abs_lt]
    omega
  rw [ConjugateGD.optimizeWide, hgs, Logged.call_ok_bind]
  simp only
  rw [if_neg hmin]
  have h1' := cgLoopWide_ends o g hm (asI32 o.iters) hl fuel 0 ⟨fins start, .fin (f start), fins (df start), vecNeg (fins (df start)),
      Scalar.neg (dot (vecNeg (fins (df start))) (vecNeg (fins (df start)))),
      Scalar.one /. (Scalar.one -. Scalar.neg (dot (vecNeg (fins (df start))) (vecNeg (fins (df start))))), false⟩ (by simp) (by push_cast; omega)
  have h2' := cgLoopWide_no_panic o hg hr hsig hi h0 h1 he he0 hq hq0 hm (asI32 o.iters) hl fuel 0 _ _ _ _ _ _ (start_inv hg) (by simp)
  rcases cgLoopWide_spec o hg hr hsig hi h0 h1 he he0 hq hq0 (asI32 o.iters) fuel 0 _ _ _ _ _ _ (start_inv hg) with h' | h' | ⟨y, k, h', hy, -, hp⟩
  · exact absurd h' h1'
  · exact absurd h' h2'
  · exact ⟨y, h', hy, C81_path_descends hr0 hp⟩

/-- **C121 (limits that wrap around).** If `iters` is negative as an `i32`, it is a limit on the number of evaluations, and counts down from
`2^32`: the larger the value, the fewer evaluations. -/
theorem C121_wrapped {F : Type} [Scalar F] (o : ConjugateGD F) (hm : o.max % 2 ^ 32 < 2 ^ 31) (hi : 2 ^ 31 < o.iters % 2 ^ 32)
    (g : List F → Outcome (F × List F)) (start : List F) (fuel : ℕ) :
    (o.optimizeWide fuel g start).log.length ≤ 1 + (2 ^ 32 - o.iters % 2 ^ 32) := by
  have hlt := Nat.mod_lt o.iters (show 0 < 2 ^ 32 by norm_num)
  rw [← i32Half_eq] at hm hi
  rw [two32] at hm hi hlt ⊢
  have hm' : 0 ≤ asI32 o.max := by
    rw [asI32, if_pos hm]
    omega
  have hit : asI32 o.iters = -((2 * i32Half - o.iters % (2 * i32Half) : ℕ) : ℤ) := by
    rw [asI32, if_neg (by omega)]
    omega
  rw [ConjugateGD.optimizeWide]
  refine Logged.log_bind_length _ _ 1 _ (by simp) fun r _ => ?_
  simp only
  split
  · simp
  · have hl : |asI32 o.iters| < (i32Half : ℤ) := by
      rw [hit, abs_neg, Nat.abs_cast]
      omega
    have := cgLoopWide_calls o g hm' (asI32 o.iters) hl (by rw [hit]; omega) fuel 0
      ⟨start, r.1, r.2, vecNeg r.2, Scalar.neg (dot (vecNeg r.2) (vecNeg r.2)), Scalar.one /. (Scalar.one -. Scalar.neg (dot (vecNeg r.2) (vecNeg r.2))), false⟩ (by simp)
    rw [hit, abs_neg, Nat.abs_cast] at this
    rw [hit]
    omega

/-- **C121 fails: the largest limit is the smallest.** With `iters` the largest number of 64 bits, which asks for as many iterations as
it takes, the model is evaluated at most twice. -/
theorem C121_largest_violation {F : Type} [Scalar F] (o : ConjugateGD F) (hm : o.max < 2 ^ 31) (hi : o.iters = 2 ^ 64 - 1)
    (g : List F → Outcome (F × List F)) (start : List F) (fuel : ℕ) : (o.optimizeWide fuel g start).log.length ≤ 2 := by
  have := C121_wrapped o (by omega) (by rw [hi]; norm_num) g start fuel
  rw [hi] at this
  norm_num at this
  exact this

/-- And `iters = 2^31` panics (where overflows are checked), after one evaluation. -/
theorem C121_middle_violation {F : Type} [Scalar F] (o : ConjugateGD F) (hi : o.iters = 2 ^ 31)
    (g : List F → Outcome (F × List F)) (start : List F) (r : F × List F) (hg : g start = ok r) (fuel : ℕ) :
    (o.optimizeWide fuel g start).out = panic := by
  rw [ConjugateGD.optimizeWide, hg, Logged.call_ok_bind]
  simp only
  rw [if_pos (by rw [hi, ← i32Half_eq, asI32, Nat.mod_eq_of_lt (by have := i32Half_pos; omega), if_neg (lt_irrefl _)]; omega)]
  rfl

/-- The default settings but the largest number of iterations. -/
noncomputable def mostIters : ConjugateGD XR :=
  { (ConjugateGD.default : ConjugateGD XR) with iters := 2 ^ 64 - 1 }

/-- The cost `(w - 3)²` and its slope, as a model. -/
noncomputable def parabola : List XR → Outcome (XR × List XR) :=
  fun w => ok (.fin ((finVal (w.headD (.fin 0)) - 3) ^ 2), [.fin (2 * (finVal (w.headD (.fin 0)) - 3))])

theorem parabola_finite : FiniteModel parabola (fun w => (w.headD 0 - 3) ^ 2) (fun w => [2 * (w.headD 0 - 3)]) 1 := by
  intro v hv
  obtain ⟨x, rfl⟩ := List.length_eq_one_iff.1 hv
  simp [fins, finVal, parabola]

/-- Non-vacuity of C121: all hypotheses of `C121_returns` hold for `mostIters` on the parabola. -/
example : ∃ y : List ℝ, (mostIters.optimizeWide (2 ^ 31) parabola (fins [0])).out = ok (some (fins y)) ∧ y.length = 1 ∧
    (y.headD 0 - 3) ^ 2 ≤ (0 - 3 : ℝ) ^ 2 := by
  refine C121_returns mostIters (1 / 100) (1 / 2) (1 / 10) 3 100 ?_ (by norm_num) ?_ ?_ (by norm_num) (by norm_num) ?_ (by norm_num) ?_ (by norm_num) ?_ ?_
    parabola _ _ [0] parabola_finite (2 ^ 31) le_rfl
  all_goals simp [mostIters, ConjugateGD.default]

/-- The parabola with the largest number of iterations, from 0: the parameters stay at 0, although the slope there is -6. -/
theorem C121_parabola_violation : (mostIters.optimizeWide 2 parabola [.fin 0]).out = ok (some [.fin 0]) := by
  have hlen : asI32 mostIters.iters = -1 := by simp only [mostIters, asI32, i32Half_eq]; norm_num
  have hmx : asI32 mostIters.max = 20 := by simp only [mostIters, ConjugateGD.default, asI32, i32Half_eq]; norm_num
  have h0 : asI32 0 = 0 := asI32_small i32Half_pos
  have h1 : asI32 1 = 1 := asI32_small (by rw [i32Half_eq]; norm_num)
  have hhalf : (1 : ℤ) < i32Half := by rw [i32Half_eq]; norm_num
  have hg0 : parabola [.fin 0] = ok (.fin 9, [.fin (-6)]) := by
    simp [parabola, finVal]; norm_num
  have hd : dot (vecNeg [XR.fin (-6)]) (vecNeg [XR.fin (-6)]) = .fin 36 := by
    simp [dot, vecNeg, fsum]; norm_num
  have hn : vecNeg [XR.fin (-6)] = [.fin 6] := by simp [vecNeg]
  have hz : Scalar.one /. (Scalar.one -. Scalar.neg (XR.fin 36)) = .fin (1 / 37) := by
    rw [xr_neg, xr_one, xr_sub, xr_div _ _ (by norm_num)]; norm_num
  rw [ConjugateGD.optimizeWide, hg0, Logged.call_ok_bind]
  simp only
  rw [hlen, if_neg (by omega), hd, hn, hz, cgLoopWide, if_pos (by rw [h0]; norm_num)]
  have e2 : stepAlong [XR.fin 0] [.fin 6] (.fin (1 / 37)) = ok [.fin (6 / 37)] := by
    simp [stepAlong, vecZip, vecScale]; norm_num
  have hg1 : parabola [.fin (6 / 37)] = ok (.fin (11025 / 1369), [.fin (-210 / 37)]) := by
    simp [parabola, finVal]; norm_num
  have hlim : searchLimit mostIters (-1) (0 + 1) = ok 0 := by
    rw [searchLimit, if_neg (by norm_num), Nat.zero_add, h1, if_neg (by omega), hmx]
    norm_num
  have hd1 : dot [XR.fin (-210 / 37)] [XR.fin 6] = .fin (-1260 / 37) := by
    simp [dot, fsum]; norm_num
  simp only
  rw [e2, Logged.lift_ok_bind, hg1, Logged.call_ok_bind]
  simp only
  rw [hlim, Logged.lift_ok_bind, hd1, show ((0 : ℤ) + i32Half).toNat = i32Half by omega]
  have hls : lineSearchWide mostIters parabola (.fin 9) (Scalar.neg (.fin 36)) [.fin 6] i32Half
      ⟨[.fin (6 / 37)], .fin (11025 / 1369), [.fin (-210 / 37)], .fin (-1260 / 37), .fin 9, Scalar.neg (.fin 36), .fin (1 / 37),
        Scalar.neg (.fin (1 / 37)), Scalar.neg Scalar.one⟩ =
      pure (⟨[.fin (6 / 37)], .fin (11025 / 1369), [.fin (-210 / 37)], .fin (-1260 / 37), .fin 9, Scalar.neg (.fin 36), .fin (1 / 37),
        Scalar.neg (.fin (1 / 37)), Scalar.neg Scalar.one⟩, false, i32Half) := by
    rw [lineSearchWide, if_neg, if_neg, if_pos rfl]
    · simp [mostIters, ConjugateGD.default]; norm_num
    · simp [wolfeFails, mostIters, ConjugateGD.default]; norm_num
  rw [hls]
  simp only [Logged.pure_def, Logged.mk_ok_bind, Bool.false_eq_true, if_false, Bool.false_or]
  simp only [Nat.sub_self, Nat.add_zero, Nat.zero_add, ite_self, h1]
  norm_num [cgLoopWide, h1]
  rfl

end RM
