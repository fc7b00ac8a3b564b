import Verif.Model.FmincgWide
import Verif.Proofs.Fmincg

namespace RM
open Outcome Scalar Spec
variable {F : Type} [Scalar F]

theorem i32Half_eq : i32Half = 2 ^ 31 := by rw [i32Half]

theorem i32Half_pos : 0 < i32Half := by rw [i32Half_eq]; norm_num

theorem asI32_small {n : ℕ} (h : n < i32Half) : asI32 n = n := by
  rw [asI32, Nat.mod_eq_of_lt (by omega), if_pos h]

theorem asI32_range (n : ℕ) : -(i32Half : ℤ) ≤ asI32 n ∧ asI32 n < i32Half := by
  have h := Nat.mod_lt n (show 0 < 2 * i32Half by have := i32Half_pos; omega)
  unfold asI32
  split <;> constructor <;> omega

/-! ### The line search -/

/-- A finished search is a search of the narrow model with just as much room as it has used. -/
theorem lineSearchWide_run (o : ConjugateGD F) (g : List F → Outcome (F × List F)) (f1 d1 : F) (s : List F) :
    ∀ (k : ℕ) (st st' : LineState F) (b : Bool) (k' : ℕ) (log : List (List F)), lineSearchWide o g f1 d1 s k st = ⟨log, ok (st', b, k')⟩ →
      k' ≤ k ∧ lineSearch o g f1 d1 s (k - k') st = ⟨log, ok (st', b)⟩ ∧ log.length = k - k' ∧ (i32Half ≤ k → i32Half ≤ k') := by
  intro k
  induction k with
  | zero =>
    intro st st' b k' log h
    rw [lineSearchWide] at h
    split at h
    · rename_i hw
      rw [if_pos (Nat.zero_le _)] at h
      cases h
      exact ⟨le_rfl, by rw [lineSearch, if_pos hw]; rfl, rfl, fun h => h⟩
    · rename_i hw
      split at h
      · rename_i hs
        cases h
        exact ⟨le_rfl, by rw [lineSearch, if_neg hw, if_pos hs]; rfl, rfl, fun h => h⟩
      · rw [if_neg i32Half_pos.ne] at h
        simp only at h
        cases hx : stepAlong st.x s (extrapolate o st) with
        | ok x =>
          rw [hx, Logged.lift_ok_bind] at h
          cases hg : g x with
          | ok r =>
            rw [hg, Logged.call_ok_bind] at h
            cases h
          | err e => rw [hg] at h; cases h
          | panic => rw [hg] at h; cases h
          | ub => rw [hg] at h; cases h
        | err e => rw [hx] at h; cases h
        | panic => rw [hx] at h; cases h
        | ub => rw [hx] at h; cases h
  | succ k ih =>
    intro st st' b k' log h
    rw [lineSearchWide] at h
    split at h
    · rename_i hw
      split at h
      · cases h
        exact ⟨le_rfl, by rw [Nat.sub_self, lineSearch, if_pos hw]; rfl, by simp, fun h => h⟩
      · rename_i hk
        simp only at h
        cases hx : stepAlong st.x s (interpolate o f1 st) with
        | ok x =>
          rw [hx, Logged.lift_ok_bind] at h
          cases hg : g x with
          | ok r =>
            rw [hg, Logged.call_ok_bind] at h
            injection h with hlog hout
            obtain ⟨h1, h2, h3, h4⟩ := ih _ st' b k' _ (by rw [← hout])
            refine ⟨by omega, ?_, by rw [← hlog, List.length_cons, h3]; omega, fun _ => h4 (by omega)⟩
            rw [show k + 1 - k' = (k - k') + 1 by omega, lineSearch, if_pos hw]
            simp only
            rw [hx, Logged.lift_ok_bind, hg, Logged.call_ok_bind, h2]
            simp only [← hlog]
          | err e => rw [hg] at h; cases h
          | panic => rw [hg] at h; cases h
          | ub => rw [hg] at h; cases h
        | err e => rw [hx] at h; cases h
        | panic => rw [hx] at h; cases h
        | ub => rw [hx] at h; cases h
    · rename_i hw
      split at h
      · rename_i hs
        cases h
        exact ⟨le_rfl, by rw [Nat.sub_self, lineSearch, if_neg hw, if_pos hs]; rfl, by simp, fun h => h⟩
      · rename_i hs
        split at h
        · cases h
          exact ⟨le_rfl, by rw [Nat.sub_self, lineSearch, if_neg hw, if_neg hs]; rfl, by simp, fun h => h⟩
        · rename_i hk
          simp only at h
          cases hx : stepAlong st.x s (extrapolate o st) with
          | ok x =>
            rw [hx, Logged.lift_ok_bind] at h
            cases hg : g x with
            | ok r =>
              rw [hg, Logged.call_ok_bind] at h
              injection h with hlog hout
              obtain ⟨h1, h2, h3, h4⟩ := ih _ st' b k' _ (by rw [← hout])
              refine ⟨by omega, ?_, by rw [← hlog, List.length_cons, h3]; omega, fun _ => h4 (by omega)⟩
              rw [show k + 1 - k' = (k - k') + 1 by omega, lineSearch, if_neg hw, if_neg hs]
              simp only
              rw [hx, Logged.lift_ok_bind, hg, Logged.call_ok_bind, h2]
              simp only [← hlog]
            | err e => rw [hg] at h; cases h
            | panic => rw [hg] at h; cases h
            | ub => rw [hg] at h; cases h
          | err e => rw [hx] at h; cases h
          | panic => rw [hx] at h; cases h
          | ub => rw [hx] at h; cases h

/-- A search ends, unless its counter overflows or the narrow search fails as well. -/
theorem lineSearchWide_ends (o : ConjugateGD F) (g : List F → Outcome (F × List F)) (f1 d1 : F) (s : List F) :
    ∀ (k : ℕ) (st : LineState F), (∃ r, (lineSearchWide o g f1 d1 s k st).out = ok r) ∨
      (k < i32Half ∧ (lineSearchWide o g f1 d1 s k st).out = panic) ∨ ∃ m, ∀ r, (lineSearch o g f1 d1 s m st).out ≠ ok r := by
  intro k
  induction k with
  | zero =>
    intro st
    rw [lineSearchWide]
    split
    · exact Or.inl ⟨_, by rw [if_pos (Nat.zero_le _)]; rfl⟩
    · rename_i hw
      split
      · exact Or.inl ⟨_, rfl⟩
      · rename_i hs
        rw [if_neg i32Half_pos.ne]
        simp only
        have hf : (∀ x r, stepAlong st.x s (extrapolate o st) = ok x → g x = ok r → False) → ∃ m, ∀ r, (lineSearch o g f1 d1 s m st).out ≠ ok r := by
          intro hno
          refine ⟨1, fun r h => ?_⟩
          rw [lineSearch, if_neg hw, if_neg hs] at h
          simp only at h
          cases hx : stepAlong st.x s (extrapolate o st) with
          | ok x =>
            rw [hx, Logged.lift_ok_bind] at h
            cases hg : g x with
            | ok r => exact hno x r hx hg
            | err e => rw [hg] at h; cases h
            | panic => rw [hg] at h; cases h
            | ub => rw [hg] at h; cases h
          | err e => rw [hx] at h; cases h
          | panic => rw [hx] at h; cases h
          | ub => rw [hx] at h; cases h
        by_cases hno : ∀ x r, stepAlong st.x s (extrapolate o st) = ok x → g x = ok r → False
        · exact Or.inr (Or.inr (hf hno))
        · push Not at hno
          obtain ⟨x, r, hx, hg, -⟩ := hno
          refine Or.inr (Or.inl ⟨i32Half_pos, ?_⟩)
          rw [hx, Logged.lift_ok_bind, hg, Logged.call_ok_bind]
          rfl
  | succ k ih =>
    intro st
    rw [lineSearchWide]
    split
    · rename_i hw
      split
      · exact Or.inl ⟨_, rfl⟩
      · rename_i hk
        simp only
        by_cases hno : ∀ x r, stepAlong st.x s (interpolate o f1 st) = ok x → g x = ok r → False
        · refine Or.inr (Or.inr ⟨1, fun r h => ?_⟩)
          rw [lineSearch, if_pos hw] at h
          simp only at h
          cases hx : stepAlong st.x s (interpolate o f1 st) with
          | ok x =>
            rw [hx, Logged.lift_ok_bind] at h
            cases hg : g x with
            | ok r => exact hno x r hx hg
            | err e => rw [hg] at h; cases h
            | panic => rw [hg] at h; cases h
            | ub => rw [hg] at h; cases h
          | err e => rw [hx] at h; cases h
          | panic => rw [hx] at h; cases h
          | ub => rw [hx] at h; cases h
        · push Not at hno
          obtain ⟨x, r, hx, hg, -⟩ := hno
          rw [hx, Logged.lift_ok_bind, hg, Logged.call_ok_bind]
          simp only
          rcases ih ⟨x, r.1, r.2, dot r.2 s, st.f3, st.d3, st.z1 +. interpolate o f1 st, st.z3 -. interpolate o f1 st, st.z1⟩ with h | h | ⟨m, h⟩
          · exact Or.inl h
          · exact absurd h.1 (by omega)
          · refine Or.inr (Or.inr ⟨m + 1, fun r' h' => ?_⟩)
            rw [lineSearch, if_pos hw] at h'
            simp only at h'
            rw [hx, Logged.lift_ok_bind, hg, Logged.call_ok_bind] at h'
            exact h r' h'
    · rename_i hw
      split
      · exact Or.inl ⟨_, rfl⟩
      · rename_i hs
        split
        · exact Or.inl ⟨_, rfl⟩
        · rename_i hk
          simp only
          by_cases hno : ∀ x r, stepAlong st.x s (extrapolate o st) = ok x → g x = ok r → False
          · refine Or.inr (Or.inr ⟨1, fun r h => ?_⟩)
            rw [lineSearch, if_neg hw, if_neg hs] at h
            simp only at h
            cases hx : stepAlong st.x s (extrapolate o st) with
            | ok x =>
              rw [hx, Logged.lift_ok_bind] at h
              cases hg : g x with
              | ok r => exact hno x r hx hg
              | err e => rw [hg] at h; cases h
              | panic => rw [hg] at h; cases h
              | ub => rw [hg] at h; cases h
            | err e => rw [hx] at h; cases h
            | panic => rw [hx] at h; cases h
            | ub => rw [hx] at h; cases h
          · push Not at hno
            obtain ⟨x, r, hx, hg, -⟩ := hno
            rw [hx, Logged.lift_ok_bind, hg, Logged.call_ok_bind]
            simp only
            rcases ih ⟨x, r.1, r.2, dot r.2 s, st.f2, st.d2, st.z1 +. extrapolate o st, Scalar.neg (extrapolate o st), st.limit⟩ with h | h | ⟨m, h⟩
            · exact Or.inl h
            · exact Or.inr (Or.inl ⟨by omega, h.2⟩)
            · refine Or.inr (Or.inr ⟨m + 1, fun r' h' => ?_⟩)
              rw [lineSearch, if_neg hw, if_neg hs] at h'
              simp only at h'
              rw [hx, Logged.lift_ok_bind, hg, Logged.call_ok_bind] at h'
              exact h r' h'

/-- With room for `m` evaluations left, the wide search is the narrow one. -/
theorem lineSearchWide_eq (o : ConjugateGD F) (g : List F → Outcome (F × List F)) (f1 d1 : F) (s : List F) :
    ∀ (m k : ℕ) (st : LineState F), k = m + i32Half → lineSearch o g f1 d1 s m st =
      (lineSearchWide o g f1 d1 s k st >>= fun r => pure (r.1, r.2.1)) := by
  intro m
  induction m with
  | zero =>
    intro k st hk
    rw [lineSearch, lineSearchWide]
    by_cases hw : wolfeFails o f1 d1 st = true
    · rw [if_pos hw, if_pos hw, if_pos (by omega)]
      simp only [Logged.pure_def, Logged.mk_ok_bind, List.append_nil]
    · rw [if_neg hw, if_neg hw]
      by_cases hs : (o.sig *. d1 <. st.d2) = true
      · rw [if_pos hs, if_pos hs]
        simp only [Logged.pure_def, Logged.mk_ok_bind, List.append_nil]
      · rw [if_neg hs, if_neg hs, if_pos (by omega)]
        simp only [Logged.pure_def, Logged.mk_ok_bind, List.append_nil]
  | succ m ih =>
    intro k st hk
    obtain ⟨k, rfl⟩ : ∃ k', k = k' + 1 := ⟨k - 1, by omega⟩
    rw [lineSearch, lineSearchWide]
    by_cases hw : wolfeFails o f1 d1 st = true
    · rw [if_pos hw, if_pos hw, if_neg (by omega)]
      simp only
      cases hx : stepAlong st.x s (interpolate o f1 st) with
      | ok x =>
        rw [Logged.lift_ok_bind, Logged.lift_ok_bind]
        cases hg : g x with
        | ok r =>
          rw [Logged.call_ok_bind, Logged.call_ok_bind, ih k _ (by omega)]
          simp only [Logged.bind_def, Logged.bind]
          split <;> simp
        | err e => rfl
        | panic => rfl
        | ub => rfl
      | err e => rfl
      | panic => rfl
      | ub => rfl
    · rw [if_neg hw, if_neg hw]
      by_cases hs : (o.sig *. d1 <. st.d2) = true
      · rw [if_pos hs, if_pos hs]
        simp only [Logged.pure_def, Logged.mk_ok_bind, List.append_nil]
      · rw [if_neg hs, if_neg hs, if_neg (by omega)]
        simp only
        cases hx : stepAlong st.x s (extrapolate o st) with
        | ok x =>
          rw [Logged.lift_ok_bind, Logged.lift_ok_bind]
          cases hg : g x with
          | ok r =>
            rw [Logged.call_ok_bind, Logged.call_ok_bind, ih k _ (by omega)]
            simp only [Logged.bind_def, Logged.bind]
            split <;> simp
          | err e => rfl
          | panic => rfl
          | ub => rfl
        | err e => rfl
        | panic => rfl
        | ub => rfl

/-! ### The main loop -/

theorem cgLoopWide_spec (o : ConjugateGD XR) {g : List XR → Outcome (XR × List XR)} {f : List ℝ → ℝ} {df : List ℝ → List ℝ} {n : ℕ}
    (hg : FiniteModel g f df n) {ρ σ ι e q : ℝ} (hr : o.rho = .fin ρ) (hsig : o.sig = .fin σ)
    (hi : o.int = .fin ι) (h0 : 0 < ι) (h1 : ι < 1) (he : o.ext = .fin e) (he0 : 0 ≤ e) (hq : o.ratio = .fin q) (hq0 : 0 ≤ q) (length : ℤ) :
    ∀ (fuel i : ℕ) (c : CGState XR) (p x d s : List ℝ) (z1 : ℝ), CGInv f df n c p x d s z1 →
      (cgLoopWide o g length fuel i c).out = ok none ∨ (cgLoopWide o g length fuel i c).out = panic ∨
      ∃ (y : List ℝ) (k : ℕ), (cgLoopWide o g length fuel i c).out = ok (some (fins y)) ∧ y.length = n ∧ k ≤ fuel ∧ CGPath f df ρ σ k c.lsFailed p s x y := by
  intro fuel
  induction fuel with
  | zero => intro i c p x d s z1 _; exact Or.inl rfl
  | succ fuel ih =>
    intro i c p x d s z1 inv
    obtain ⟨x', hx', hgx, hm⟩ := cgTurn_spec o hg hr hsig hi h0 h1 he he0 hq hq0 c p x d s z1 inv
    rw [cgLoopWide]
    split
    swap
    · exact Or.inr (Or.inr ⟨x, 0, by simp [inv.hx], inv.xlen, Nat.zero_le _, .done _ p s x⟩)
    rw [hx', Logged.lift_ok_bind, hgx, Logged.call_ok_bind]
    simp only
    cases hlim : searchLimit o length (i + 1) with
    | ok m =>
      rw [Logged.lift_ok_bind]
      set st0 : LineState XR := ⟨fins x', .fin (f x'), fins (df x'), dot (fins (df x')) c.s, c.f1, c.d1, c.z1, Scalar.neg c.z1, Scalar.neg Scalar.one⟩
      rcases lineSearchWide_ends o g c.f1 c.d1 c.s (m + i32Half).toNat st0 with ⟨r, hr'⟩ | ⟨-, hp⟩ | ⟨m', hm'⟩
      · obtain ⟨st', b, k'⟩ := r
        obtain ⟨-, hrun, -, -⟩ := lineSearchWide_run o g c.f1 c.d1 c.s _ st0 st' b k' _ (by rw [← hr'])
        obtain ⟨st'', b', y, w1, hls, hy, hw1, hacc, hrej⟩ := hm ((m + i32Half).toNat - k')
        rw [hrun] at hls
        cases hls
        rw [Logged.bind_ok hr']
        simp only
        generalize (if length < 0 then i + 1 + ((m + i32Half).toNat - k') else i + 1) = i'
        cases b with
        | true =>
          obtain ⟨k1, k2, k3, k4, c', s', z', hc', hinv', hnext, hls'⟩ := hacc rfl
          simp only [if_true]
          rw [hc', Logged.lift_ok_bind]
          rcases ih i' c' y y (df y) s' z' hinv' with h | h | ⟨y', k, hy1, hy2, hk, hy3⟩
          · exact Or.inl h
          · exact Or.inr (Or.inl h)
          · refine Or.inr (Or.inr ⟨y', k + 1, hy1, hy2, by omega, .accept (s := s) (w := w1) hy hw1 k1 k2 k3 k4 ?_⟩)
            rw [← hnext, ← hls']
            exact hy3
        | false =>
          simp only [Bool.false_eq_true, if_false]
          cases hfl : c.lsFailed with
          | true =>
            simp only [Bool.true_or, if_true]
            exact Or.inr (Or.inr ⟨x, 1, by simp [inv.hx], inv.xlen, by omega, .giveUp 0 p s x⟩)
          | false =>
            simp only [Bool.false_or]
            split
            · refine Or.inr (Or.inr ⟨x, 1, by simp [inv.hx], inv.xlen, by omega, .retry (s := s) (w := w1) hy hw1 (.done _ _ _ x)⟩)
            · rcases ih i' _ y x (df y) _ _ (hrej rfl) with h | h | ⟨y', k, hy1, hy2, hk, hy3⟩
              · exact Or.inl h
              · exact Or.inr (Or.inl h)
              · exact Or.inr (Or.inr ⟨y', k + 1, hy1, hy2, by omega, .retry (s := s) (w := w1) hy hw1 hy3⟩)
      · refine Or.inr (Or.inl ?_)
        rw [Logged.bind_def, Logged.bind, hp]
      · obtain ⟨st'', b', y, w1, hls, -⟩ := hm m'
        exact absurd hls (hm' _)
    | panic => exact Or.inr (Or.inl rfl)
    | err e =>
      unfold searchLimit at hlim
      split at hlim
      · cases hlim
      · split at hlim <;> cases hlim
    | ub =>
      unfold searchLimit at hlim
      split at hlim
      · cases hlim
      · split at hlim <;> cases hlim

omit [Scalar F] in
/-- While `i` has not passed the limit, and `max` is not negative as an `i32`, the counter of a search starts in range. -/
theorem searchLimit_ok (o : ConjugateGD F) (hmax : 0 ≤ asI32 o.max) {length : ℤ} (hl : |length| < (i32Half : ℤ)) {i : ℕ} (hi : (i : ℤ) ≤ |length|) :
    ∃ m : ℤ, searchLimit o length i = ok m ∧ 0 ≤ m ∧ m ≤ asI32 o.max ∧ (length < 0 → m ≤ |length| - i) := by
  have e : asI32 i = i := asI32_small (by omega)
  unfold searchLimit
  by_cases h : 0 < length
  · exact ⟨asI32 o.max, by rw [if_pos h], hmax, le_rfl, fun h' => absurd h (by omega)⟩
  · have ha : |length| = -length := abs_of_nonpos (by omega)
    rw [if_neg h, e, if_neg (by omega)]
    refine ⟨_, rfl, le_min hmax (by omega), min_le_left _ _, fun _ => ?_⟩
    rw [ha]
    exact min_le_right _ _

/-- With `max` not negative as an `i32` the loop ends: no overflow happens and the fuel suffices. -/
theorem cgLoopWide_ends (o : ConjugateGD F) (g : List F → Outcome (F × List F)) (hmax : 0 ≤ asI32 o.max) (length : ℤ) (hl : |length| < (i32Half : ℤ)) :
    ∀ (fuel i : ℕ) (c : CGState F), (i : ℤ) ≤ |length| → |length| - i < fuel → (cgLoopWide o g length fuel i c).out ≠ ok none := by
  intro fuel
  induction fuel with
  | zero => intro i c h1 h2; exact absurd h2 (by push_cast; omega)
  | succ fuel ih =>
    intro i c h1 h2 h
    rw [cgLoopWide] at h
    split at h
    swap
    · cases h
    rename_i hlt
    rw [asI32_small (by omega)] at hlt
    cases hx : stepAlong c.x c.s c.z1 with
    | ok x =>
      rw [hx, Logged.lift_ok_bind] at h
      cases hg : g x with
      | ok r =>
        rw [hg, Logged.call_ok_bind] at h
        simp only at h
        obtain ⟨m, hm, hm0, hmm, hml⟩ := searchLimit_ok o hmax hl (i := i + 1) (by push_cast; omega)
        rw [hm, Logged.lift_ok_bind] at h
        set st0 : LineState F := ⟨x, r.1, r.2, dot r.2 c.s, c.f1, c.d1, c.z1, Scalar.neg c.z1, Scalar.neg Scalar.one⟩
        cases hs : (lineSearchWide o g c.f1 c.d1 c.s (m + i32Half).toNat st0).out with
        | ok res =>
          obtain ⟨st', b, k'⟩ := res
          obtain ⟨hk1, hrun, hlen, hk⟩ := lineSearchWide_run o g c.f1 c.d1 c.s _ st0 st' b k' _ (by rw [← hs])
          have hk2 := hk (by omega)
          rw [Logged.bind_ok hs] at h
          simp only at h
          have hi1 : (((if length < 0 then i + 1 + ((m + i32Half).toNat - k') else i + 1 : ℕ)) : ℤ) ≤ |length| := by
            split
            · rename_i hneg
              have := hml hneg
              omega
            · omega
          have hi2 : i + 1 ≤ (if length < 0 then i + 1 + ((m + i32Half).toNat - k') else i + 1) := by split <;> omega
          generalize (if length < 0 then i + 1 + ((m + i32Half).toNat - k') else i + 1) = i' at hi1 hi2 h
          cases b with
          | true =>
            simp only [if_true] at h
            cases hc : cgSuccess o c st' with
            | ok c' =>
              rw [hc, Logged.lift_ok_bind] at h
              exact ih i' c' hi1 (by omega) h
            | err e => rw [hc] at h; cases h
            | panic => rw [hc] at h; cases h
            | ub => rw [hc] at h; cases h
          | false =>
            simp only [Bool.false_eq_true, if_false] at h
            split at h
            · cases h
            · exact ih i' _ hi1 (by omega) h
        | err e => rw [Logged.bind_def, Logged.bind, hs] at h; cases h
        | panic => rw [Logged.bind_def, Logged.bind, hs] at h; cases h
        | ub => rw [Logged.bind_def, Logged.bind, hs] at h; cases h
      | err e => rw [hg] at h; cases h
      | panic => rw [hg] at h; cases h
      | ub => rw [hg] at h; cases h
    | err e => rw [hx] at h; cases h
    | panic => rw [hx] at h; cases h
    | ub => rw [hx] at h; cases h

/-- And if model calls do not fail, there is no panic. -/
theorem cgLoopWide_no_panic (o : ConjugateGD XR) {g : List XR → Outcome (XR × List XR)} {f : List ℝ → ℝ} {df : List ℝ → List ℝ} {n : ℕ}
    (hg : FiniteModel g f df n) {ρ σ ι e q : ℝ} (hr : o.rho = .fin ρ) (hsig : o.sig = .fin σ)
    (hi : o.int = .fin ι) (h0 : 0 < ι) (h1 : ι < 1) (he : o.ext = .fin e) (he0 : 0 ≤ e) (hq : o.ratio = .fin q) (hq0 : 0 ≤ q)
    (hmax : 0 ≤ asI32 o.max) (length : ℤ) (hl : |length| < (i32Half : ℤ)) :
    ∀ (fuel i : ℕ) (c : CGState XR) (p x d s : List ℝ) (z1 : ℝ), CGInv f df n c p x d s z1 → (i : ℤ) ≤ |length| →
      (cgLoopWide o g length fuel i c).out ≠ panic := by
  intro fuel
  induction fuel with
  | zero => intro i c p x d s z1 _ _ h; cases h
  | succ fuel ih =>
    intro i c p x d s z1 inv h1' h
    obtain ⟨x', hx', hgx, hm⟩ := cgTurn_spec o hg hr hsig hi h0 h1 he he0 hq hq0 c p x d s z1 inv
    rw [cgLoopWide] at h
    split at h
    swap
    · cases h
    rename_i hlt
    rw [asI32_small (by omega)] at hlt
    rw [hx', Logged.lift_ok_bind, hgx, Logged.call_ok_bind] at h
    simp only at h
    obtain ⟨m, hm', hm0, hmm, hml⟩ := searchLimit_ok o hmax hl (i := i + 1) (by push_cast; omega)
    rw [hm', Logged.lift_ok_bind] at h
    set st0 : LineState XR := ⟨fins x', .fin (f x'), fins (df x'), dot (fins (df x')) c.s, c.f1, c.d1, c.z1, Scalar.neg c.z1, Scalar.neg Scalar.one⟩
    rcases lineSearchWide_ends o g c.f1 c.d1 c.s (m + i32Half).toNat st0 with ⟨r, hr'⟩ | ⟨hp, -⟩ | ⟨m', hm'⟩
    · obtain ⟨st', b, k'⟩ := r
      obtain ⟨hk1, hrun, hlen, hk⟩ := lineSearchWide_run o g c.f1 c.d1 c.s _ st0 st' b k' _ (by rw [← hr'])
      have hk2 := hk (by omega)
      obtain ⟨st'', b', y, w1, hls, hy, hw1, hacc, hrej⟩ := hm ((m + i32Half).toNat - k')
      rw [hrun] at hls
      cases hls
      rw [Logged.bind_ok hr'] at h
      simp only at h
      have hi1 : (((if length < 0 then i + 1 + ((m + i32Half).toNat - k') else i + 1 : ℕ)) : ℤ) ≤ |length| := by
        split
        · rename_i hneg
          have := hml hneg
          omega
        · omega
      generalize (if length < 0 then i + 1 + ((m + i32Half).toNat - k') else i + 1) = i' at hi1 h
      cases b with
      | true =>
        obtain ⟨k1, k2, k3, k4, c', s', z', hc', hinv', hnext, hls'⟩ := hacc rfl
        simp only [if_true] at h
        rw [hc', Logged.lift_ok_bind] at h
        exact ih i' c' y y (df y) s' z' hinv' hi1 h
      | false =>
        simp only [Bool.false_eq_true, if_false] at h
        split at h
        · cases h
        · exact ih i' _ y x (df y) _ _ (hrej rfl) hi1 h
    · omega
    · obtain ⟨st'', b', y, w1, hls, -⟩ := hm m'
      exact absurd hls (hm' _)

/-- If `length` is negative it limits the number of evaluations. -/
theorem cgLoopWide_calls (o : ConjugateGD F) (g : List F → Outcome (F × List F)) (hmax : 0 ≤ asI32 o.max) (length : ℤ) (hl : |length| < (i32Half : ℤ))
    (hneg : length < 0) :
    ∀ (fuel i : ℕ) (c : CGState F), (i : ℤ) ≤ |length| → ((cgLoopWide o g length fuel i c).log.length : ℤ) ≤ |length| - i := by
  intro fuel
  induction fuel with
  | zero => intro i c h; simp only [cgLoopWide, Logged.pure_def, List.length_nil]; omega
  | succ fuel ih =>
    intro i c h1
    rw [cgLoopWide]
    split
    swap
    · simp only [Logged.pure_def, List.length_nil]; omega
    rename_i hlt
    rw [asI32_small (by omega)] at hlt
    cases hx : stepAlong c.x c.s c.z1 with
    | ok x =>
      rw [Logged.lift_ok_bind]
      cases hg : g x with
      | ok r =>
        rw [Logged.call_ok_bind]
        simp only
        obtain ⟨m, hm, hm0, hmm, hml⟩ := searchLimit_ok o hmax hl (i := i + 1) (by push_cast; omega)
        rw [hm, Logged.lift_ok_bind]
        set st0 : LineState F := ⟨x, r.1, r.2, dot r.2 c.s, c.f1, c.d1, c.z1, Scalar.neg c.z1, Scalar.neg Scalar.one⟩
        have hb := hml hneg
        have hlog : (lineSearchWide o g c.f1 c.d1 c.s (m + i32Half).toNat st0).log.length ≤ m.toNat := by
          have h2 := lineSearch_calls o g c.f1 c.d1 c.s m.toNat st0
          rw [lineSearchWide_eq o g c.f1 c.d1 c.s m.toNat (m + i32Half).toNat st0 (by omega)] at h2
          refine le_trans ?_ h2
          rw [Logged.bind_def, Logged.bind]
          split <;> simp
        cases hs : (lineSearchWide o g c.f1 c.d1 c.s (m + i32Half).toNat st0).out with
        | ok res =>
          obtain ⟨st', b, k'⟩ := res
          obtain ⟨hk1, hrun, hlen, hk⟩ := lineSearchWide_run o g c.f1 c.d1 c.s _ st0 st' b k' _ (by rw [← hs])
          have hk2 := hk (by omega)
          rw [Logged.bind_ok hs]
          simp only
          have hi' : (if length < 0 then i + 1 + ((m + i32Half).toNat - k') else i + 1) = i + 1 + ((m + i32Half).toNat - k') := if_pos hneg
          try rw [hi']
          rw [List.length_cons, List.length_append, hlen]
          have hi1 : ((i + 1 + ((m + i32Half).toNat - k') : ℕ) : ℤ) ≤ |length| := by omega
          cases b with
          | true =>
            simp only [if_true]
            cases hc : cgSuccess o c st' with
            | ok c' =>
              rw [Logged.lift_ok_bind]
              have := ih _ c' hi1
              push_cast at this ⊢
              omega
            | err e => simp only [Logged.bind_def, Logged.bind, Logged.lift_out, Logged.lift_log, List.length_nil]; omega
            | panic => simp only [Logged.bind_def, Logged.bind, Logged.lift_out, Logged.lift_log, List.length_nil]; omega
            | ub => simp only [Logged.bind_def, Logged.bind, Logged.lift_out, Logged.lift_log, List.length_nil]; omega
          | false =>
            simp only [Bool.false_eq_true, if_false]
            split
            · simp only [Logged.pure_def, List.length_nil]; omega
            · have := ih _ (cgRestart c st') hi1
              push_cast at this ⊢
              omega
        | err e => rw [Logged.bind_def, Logged.bind, hs]; simp only [List.length_cons]; omega
        | panic => rw [Logged.bind_def, Logged.bind, hs]; simp only [List.length_cons]; omega
        | ub => rw [Logged.bind_def, Logged.bind, hs]; simp only [List.length_cons]; omega
      | err e => simp only [Logged.bind_def, Logged.bind, Logged.call_out, Logged.call_log, List.length_cons, List.length_nil]; omega
      | panic => simp only [Logged.bind_def, Logged.bind, Logged.call_out, Logged.call_log, List.length_cons, List.length_nil]; omega
      | ub => simp only [Logged.bind_def, Logged.bind, Logged.call_out, Logged.call_log, List.length_cons, List.length_nil]; omega
    | err e => simp only [Logged.bind_def, Logged.bind, Logged.lift_out, Logged.lift_log, List.length_nil]; omega
    | panic => simp only [Logged.bind_def, Logged.bind, Logged.lift_out, Logged.lift_log, List.length_nil]; omega
    | ub => simp only [Logged.bind_def, Logged.bind, Logged.lift_out, Logged.lift_log, List.length_nil]; omega

section
variable {C α β : Type}
theorem lift_err_bind (e : ErrorKind) (f : α → Logged C β) : ((Logged.lift (err e) : Logged C α) >>= f) = ⟨[], err e⟩ := rfl
theorem lift_panic_bind (f : α → Logged C β) : ((Logged.lift panic : Logged C α) >>= f) = ⟨[], panic⟩ := rfl
theorem lift_ub_bind (f : α → Logged C β) : ((Logged.lift ub : Logged C α) >>= f) = ⟨[], ub⟩ := rfl
theorem call_err_bind (c : C) (e : ErrorKind) (f : α → Logged C β) : ((Logged.call c (err e) : Logged C α) >>= f) = ⟨[c], err e⟩ := rfl
theorem call_panic_bind (c : C) (f : α → Logged C β) : ((Logged.call c panic : Logged C α) >>= f) = ⟨[c], panic⟩ := rfl
theorem call_ub_bind (c : C) (f : α → Logged C β) : ((Logged.call c ub : Logged C α) >>= f) = ⟨[c], ub⟩ := rfl
theorem mk_err_bind (l : List C) (e : ErrorKind) (f : α → Logged C β) : ((⟨l, err e⟩ : Logged C α) >>= f) = ⟨l, err e⟩ := rfl
theorem mk_panic_bind (l : List C) (f : α → Logged C β) : ((⟨l, panic⟩ : Logged C α) >>= f) = ⟨l, panic⟩ := rfl
theorem mk_ub_bind (l : List C) (f : α → Logged C β) : ((⟨l, ub⟩ : Logged C α) >>= f) = ⟨l, ub⟩ := rfl
end

/-- Limits below `2^31`: the narrow model. -/
theorem cgLoopWide_small (o : ConjugateGD F) (g : List F → Outcome (F × List F)) (hmax : o.max < i32Half) (N : ℕ) (hN : N < i32Half) :
    ∀ (k fuel i : ℕ) (c : CGState F), i + k = N → k < fuel →
      cgLoopWide o g N fuel i c = (cgLoop o g k c >>= fun y => pure (some y)) := by
  intro k
  induction k with
  | zero =>
    intro fuel i c h1 h2
    obtain ⟨fuel, rfl⟩ : ∃ f, fuel = f + 1 := ⟨fuel - 1, by omega⟩
    rw [cgLoopWide, if_neg, cgLoop]
    · rfl
    · rw [asI32_small (by omega), Nat.abs_cast]; omega
  | succ k ih =>
    intro fuel i c h1 h2
    obtain ⟨fuel, rfl⟩ : ∃ f, fuel = f + 1 := ⟨fuel - 1, by omega⟩
    rw [cgLoopWide, if_pos (by rw [asI32_small (by omega), Nat.abs_cast]; omega), cgLoop]
    cases hx : stepAlong c.x c.s c.z1 with
    | ok x =>
      rw [Logged.lift_ok_bind, Logged.lift_ok_bind]
      cases hg : g x with
      | ok r =>
        rw [Logged.call_ok_bind, Logged.call_ok_bind]
        simp only
        have hlim : searchLimit o (N : ℤ) (i + 1) = ok (o.max : ℤ) := by
          rw [searchLimit, if_pos (by omega), asI32_small hmax]
        obtain ⟨K, hK⟩ : ∃ K, K = ((o.max : ℤ) + i32Half).toNat := ⟨_, rfl⟩
        rw [hlim, Logged.lift_ok_bind, ← hK, lineSearchWide_eq o g c.f1 c.d1 c.s o.max K _ (by omega)]
        set st0 : LineState F := ⟨x, r.1, r.2, dot r.2 c.s, c.f1, c.d1, c.z1, Scalar.neg c.z1, Scalar.neg Scalar.one⟩
        cases hs : (lineSearchWide o g c.f1 c.d1 c.s K st0).out with
        | ok res =>
          obtain ⟨st', b, k'⟩ := res
          rw [Logged.bind_ok hs, Logged.bind_ok hs]
          simp only [Logged.pure_def, Logged.mk_ok_bind, List.append_nil]
          rw [if_neg (by omega : ¬ (N : ℤ) < 0)]
          cases b with
          | true =>
            simp only [if_true]
            cases hc : cgSuccess o c st' with
            | ok c' =>
              rw [Logged.lift_ok_bind, Logged.lift_ok_bind, ih fuel (i + 1) c' (by omega) (by omega)]
              simp only [Logged.bind_def, Logged.bind]
              split <;> simp
            | err e => simp [Logged.bind_def, Logged.bind]
            | panic => simp [Logged.bind_def, Logged.bind]
            | ub => simp [Logged.bind_def, Logged.bind]
          | false =>
            simp only [Bool.false_eq_true, if_false]
            have hno : ¬ |(N : ℤ)| < asI32 (i + 1) := by rw [asI32_small (by omega), Nat.abs_cast]; push_cast; omega
            cases hf : c.lsFailed with
            | true => simp [Logged.bind_def, Logged.bind]
            | false =>
              simp only [hno, decide_false, Bool.or_false, Bool.false_eq_true, if_false]
              rw [ih fuel (i + 1) _ (by omega) (by omega)]
              simp only [Logged.bind_def, Logged.bind]
              split <;> simp
        | err e => simp only [Logged.bind_def, Logged.bind, hs]
        | panic => simp only [Logged.bind_def, Logged.bind, hs]
        | ub => simp only [Logged.bind_def, Logged.bind, hs]
      | err e => rw [call_err_bind, call_err_bind, mk_err_bind]
      | panic => rw [call_panic_bind, call_panic_bind, mk_panic_bind]
      | ub => rw [call_ub_bind, call_ub_bind, mk_ub_bind]
    | err e => rw [lift_err_bind, lift_err_bind, mk_err_bind]
    | panic => rw [lift_panic_bind, lift_panic_bind, mk_panic_bind]
    | ub => rw [lift_ub_bind, lift_ub_bind, mk_ub_bind]

end RM
