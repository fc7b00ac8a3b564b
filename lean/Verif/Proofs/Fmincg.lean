import Verif.Model.Fmincg
import Verif.Spec.LineSearch
import Verif.Proofs.Optim
import Verif.Proofs.Linalg

namespace RM
open Outcome Scalar Spec

/-! ### Number of evaluations -/

theorem lineSearch_calls {F : Type} [Scalar F] (o : ConjugateGD F) (g : List F → Outcome (F × List F)) (f1 d1 : F) (s : List F) :
    ∀ (m : ℕ) (st : LineState F), (lineSearch o g f1 d1 s m st).log.length ≤ m
  | 0, st => by
    rw [lineSearch]
    split
    · simp
    · split <;> simp
  | m + 1, st => by
    have h : ∀ (x : Outcome (List F)) (k : List F → F × List F → LineState F),
        (do let x ← Logged.lift x; let r ← Logged.call x (g x); lineSearch o g f1 d1 s m (k x r) :
          Logged (List F) (LineState F × Bool)).log.length ≤ m + 1 := by
      intro x k
      refine (Logged.log_bind_length _ _ 0 (1 + m) (by simp) fun x' _ => ?_).trans (by omega)
      exact Logged.log_bind_length _ _ 1 m (by simp) fun r _ => lineSearch_calls o g f1 d1 s m (k x' r)
    rw [lineSearch]
    split
    · exact h _ fun x r => ⟨x, r.1, r.2, dot r.2 s, st.f3, st.d3, st.z1 +. interpolate o f1 st, st.z3 -. interpolate o f1 st, st.z1⟩
    · split
      · simp
      · exact h _ fun x r => ⟨x, r.1, r.2, dot r.2 s, st.f2, st.d2, st.z1 +. extrapolate o st, Scalar.neg (extrapolate o st), st.limit⟩

theorem cgLoop_calls {F : Type} [Scalar F] (o : ConjugateGD F) (g : List F → Outcome (F × List F)) :
    ∀ (n : ℕ) (c : CGState F), (cgLoop o g n c).log.length ≤ n * (1 + o.max)
  | 0, c => by simp [cgLoop]
  | n + 1, c => by
    rw [cgLoop]
    refine (Logged.log_bind_length _ _ 0 (1 + (o.max + n * (1 + o.max))) (by simp) fun x _ => ?_).trans
      (by rw [Nat.succ_mul]; omega)
    refine Logged.log_bind_length _ _ 1 _ (by simp) fun r _ => ?_
    refine Logged.log_bind_length _ _ o.max _ (lineSearch_calls _ _ _ _ _ _ _) fun res _ => ?_
    split
    · refine (Logged.log_bind_length _ _ 0 (n * (1 + o.max)) (by simp) fun c' _ => cgLoop_calls o g n c').trans (by omega)
    · split
      · simp
      · exact cgLoop_calls o g n _

/-! ### Finite vectors -/

@[simp] theorem fins_length (v : List ℝ) : (fins v).length = v.length := by simp [fins]

theorem fsum_fins_aux (v : List ℝ) : ∀ a : ℝ, (fins v).foldl Scalar.add (XR.fin a) = XR.fin (a + v.sum) := by
  induction v with
  | nil => intro a; simp [fins]
  | cons x v ih =>
    intro a
    have := ih (a + x)
    simp only [fins, List.map_cons, List.foldl_cons, xr_add] at this ⊢
    rw [this, List.sum_cons, add_assoc]

theorem fsum_fins (v : List ℝ) : fsum (fins v) = XR.fin v.sum := by
  rw [fsum]
  have := fsum_fins_aux v 0
  simpa using this

theorem zipWith_fins {f : XR → XR → XR} {h : ℝ → ℝ → ℝ} (hf : ∀ x y, f (XR.fin x) (XR.fin y) = XR.fin (h x y)) (u v : List ℝ) :
    List.zipWith f (fins u) (fins v) = fins (List.zipWith h u v) := by
  simp [fins, List.zipWith_map, List.map_zipWith, hf]

theorem dot_fins (u v : List ℝ) : dot (fins u) (fins v) = XR.fin (rdot u v) := by
  rw [dot, zipWith_fins (h := fun x y => x * y) (by simp), fsum_fins, rdot]

theorem vecScale_fins (v : List ℝ) (a : ℝ) : vecScale (fins v) (XR.fin a) = fins (v.map fun x => x * a) := by
  simp [vecScale, fins]

theorem vecNeg_fins (v : List ℝ) : vecNeg (fins v) = fins (v.map fun x => -x) := by
  simp [vecNeg, fins]

theorem vecZip_fins {f : XR → XR → XR} {h : ℝ → ℝ → ℝ} (hf : ∀ x y, f (XR.fin x) (XR.fin y) = XR.fin (h x y)) {u v : List ℝ}
    (hl : u.length = v.length) : vecZip f (fins u) (fins v) = ok (fins (List.zipWith h u v)) := by
  rw [vecZip, if_pos (by simpa using hl), zipWith_fins hf]

theorem stepAlong_fins {x s : List ℝ} (h : x.length = s.length) (z : ℝ) :
    stepAlong (fins x) (fins s) (XR.fin z) = ok (fins (List.zipWith (fun a b => a + b) x (s.map fun t => t * z))) := by
  rw [stepAlong, vecScale_fins, vecZip_fins (h := fun a b => a + b) (by simp) (by simpa using h)]

theorem rdot_self_nonneg (v : List ℝ) : 0 ≤ rdot v v := by
  induction v with
  | nil => simp [rdot]
  | cons x v ih =>
    simp only [rdot, List.zipWith_cons_cons, List.sum_cons] at ih ⊢
    nlinarith [mul_self_nonneg x]

theorem rdot_self_eq_zero {v : List ℝ} (h : rdot v v = 0) : ∀ x ∈ v, x = 0 := by
  induction v with
  | nil => simp
  | cons x v ih =>
    have h2 := rdot_self_nonneg v
    simp only [rdot, List.zipWith_cons_cons, List.sum_cons] at h h2 ih
    have hx : x * x = 0 := by nlinarith [mul_self_nonneg x]
    intro y hy
    rcases List.mem_cons.1 hy with rfl | hy
    · exact mul_self_eq_zero.1 hx
    · exact ih (by linarith) y hy

theorem rdot_zero_right (u v : List ℝ) (h : ∀ x ∈ v, x = 0) : rdot u v = 0 := by
  induction u generalizing v with
  | nil => simp [rdot]
  | cons x u ih =>
    cases v with
    | nil => simp [rdot]
    | cons y v =>
      have := ih v fun z hz => h z (List.mem_cons_of_mem _ hz)
      simp only [rdot, List.zipWith_cons_cons, List.sum_cons] at this ⊢
      rw [this, h y List.mem_cons_self]
      simp

theorem rdot_neg (u : List ℝ) : rdot u (u.map fun x => -x) = -rdot u u := by
  induction u with
  | nil => simp [rdot]
  | cons x u ih =>
    simp only [rdot, List.map_cons, List.zipWith_cons_cons, List.sum_cons] at ih ⊢
    rw [ih]; ring

theorem rdot_neg_neg (u : List ℝ) : rdot (u.map fun x => -x) (u.map fun x => -x) = rdot u u := by
  induction u with
  | nil => simp [rdot]
  | cons x u ih =>
    simp only [rdot, List.map_cons, List.zipWith_cons_cons, List.sum_cons] at ih ⊢
    rw [ih]; ring

/-! ### The two step proposals -/

theorem interpolate_spec (o : ConjugateGD XR) (f1 : XR) (st : LineState XR) {ι z3 : ℝ} (hi : o.int = .fin ι) (h0 : 0 < ι) (h1 : ι < 1)
    (hz : st.z3 = .fin z3) : ∃ z2 : ℝ, interpolate o f1 st = .fin z2 ∧ (z3 ≤ 0 → z3 ≤ z2) ∧ (0 ≤ z3 → 0 ≤ z2) := by
  unfold interpolate
  simp only
  generalize (if f1 <. st.f2 then _ else _ : XR) = w
  have : ∃ v : ℝ, (if !Scalar.isFinite w then st.z3 /. Scalar.ofNat 2 else w) = .fin v := by
    by_cases h : Scalar.isFinite w = true
    · obtain ⟨v, hv⟩ := (xr_isFinite_iff w).1 h
      exact ⟨v, by simp [h, hv]⟩
    · refine ⟨z3 / 2, ?_⟩
      simp only [Bool.not_eq_true] at h
      simp only [h, hz, Bool.not_false, if_true, xr_ofNat]
      exact xr_div _ _ (by norm_num)
  obtain ⟨v, hv⟩ := this
  rw [hv, hi, hz]
  simp only [xr_one, xr_sub, xr_mul, xr_le, decide_eq_true_eq]
  have key : ∀ r : ℝ, ((z3 ≤ 0 → z3 ≤ r) ∧ (0 ≤ z3 → 0 ≤ r)) → ∃ z2 : ℝ, XR.fin r = .fin z2 ∧ (z3 ≤ 0 → z3 ≤ z2) ∧ (0 ≤ z3 → 0 ≤ z2) :=
    fun r h => ⟨r, rfl, h⟩
  have k1 : (z3 ≤ 0 → z3 ≤ (1 - ι) * z3) ∧ (0 ≤ z3 → 0 ≤ (1 - ι) * z3) := by
    constructor <;> intro h <;> nlinarith
  have k2 : (z3 ≤ 0 → z3 ≤ ι * z3) ∧ (0 ≤ z3 → 0 ≤ ι * z3) := by
    constructor <;> intro h <;> nlinarith
  split
  · split
    · exact key _ k1
    · rename_i hn
      push Not at hn
      exact key _ ⟨fun h => (k1.1 h).trans hn.le, fun h => (k1.2 h).trans hn.le⟩
  · split
    · exact key _ k1
    · exact key _ k2

theorem extrapolate_spec (o : ConjugateGD XR) (st : LineState XR) {ι e z1 z3 l : ℝ} (hi : o.int = .fin ι) (he : o.ext = .fin e)
    (he0 : 0 ≤ e) (hz1 : st.z1 = .fin z1) (hz10 : 0 ≤ z1) (hz3 : st.z3 = .fin z3) (hl : st.limit = .fin l) (hl0 : l = -1 ∨ 0 ≤ l) :
    ∃ z2 : ℝ, extrapolate o st = .fin z2 ∧ 0 ≤ z1 + z2 := by
  unfold extrapolate
  simp only
  generalize (Scalar.neg st.d2 *. st.z3 *. st.z3) /. (cubicB st +. Scalar.sqrt (cubicDisc st)) = w
  rw [hi, he, hz1, hz3, hl]
  have kext : ∃ z2 : ℝ, XR.fin z1 *. (XR.fin e -. Scalar.one) = XR.fin z2 ∧ 0 ≤ z1 + z2 := by
    refine ⟨z1 * (e - 1), by simp, ?_⟩
    nlinarith
  have kmid : (0 ≤ l) → ∃ z2 : ℝ, (XR.fin l -. XR.fin z1) /. Scalar.ofNat 2 = XR.fin z2 ∧ 0 ≤ z1 + z2 := by
    intro h
    refine ⟨(l - z1) / 2, ?_, by linarith⟩
    rw [xr_sub, xr_ofNat, xr_div _ _ (by norm_num)]
    norm_num
  by_cases hw : (!Scalar.isFinite w || w <. Scalar.zero) = true
  · rw [if_pos hw]
    split
    · exact kext
    · rename_i h
      apply kmid
      simp only [xr_ofRat, xr_lt, decide_eq_true_eq] at h
      rcases hl0 with rfl | h'
      · norm_num at h
      · exact h'
  · rw [if_neg hw]
    simp only [Bool.or_eq_true, not_or, Bool.not_eq_true', Bool.not_eq_false, Bool.not_eq_true] at hw
    obtain ⟨v, rfl⟩ := (xr_isFinite_iff w).1 hw.1
    have hv : 0 ≤ v := by simpa using hw.2
    simp only [xr_ofRat, xr_lt, xr_add, xr_mul, xr_neg, xr_sub, xr_one, xr_ofNat, Bool.and_eq_true, decide_eq_true_eq]
    split
    · rename_i h
      have := kmid (by
        rcases hl0 with rfl | h'
        · norm_num at h
        · exact h')
      simpa using this
    · split
      · simpa using kext
      · split
        · rename_i h
          exact ⟨_, rfl, by linarith⟩
        · split
          · rename_i h
            exact ⟨_, rfl, by linarith [h.2]⟩
          · exact ⟨_, rfl, by linarith⟩

/-! ### Line search -/

theorem moveAlong_moveAlong {x s : List ℝ} (h : x.length = s.length) (z w : ℝ) :
    List.zipWith (fun a b => a + b) (moveAlong x s z) (s.map fun t => t * w) = moveAlong x s (z + w) := by
  unfold moveAlong
  apply List.ext_getElem
  · simp [h]
  · intro i h1 h2
    simp only [List.getElem_zipWith, List.getElem_map]
    ring

/-- Invariant of the line search along direction `s`. -/
structure LineInv (f : List ℝ → ℝ) (df : List ℝ → List ℝ) (n : ℕ) (x0 s : List ℝ) (st : LineState XR) (x : List ℝ) (z1 z3 l : ℝ) : Prop where
  xlen : x.length = n
  hx : st.x = fins x
  hf2 : st.f2 = .fin (f x)
  hdf2 : st.df2 = fins (df x)
  hd2 : st.d2 = .fin (rdot (df x) s)
  hz1 : st.z1 = .fin z1
  hz3 : st.z3 = .fin z3
  hl : st.limit = .fin l
  z1n : 0 ≤ z1
  zsum : 0 ≤ z1 + z3
  lim : l = -1 ∨ 0 ≤ l
  at0 : x = moveAlong x0 s z1

theorem lineSearch_spec (o : ConjugateGD XR) {g : List XR → Outcome (XR × List XR)} {f : List ℝ → ℝ} {df : List ℝ → List ℝ} {n : ℕ}
    (hg : FiniteModel g f df n) {ι e : ℝ} (hi : o.int = .fin ι) (h0 : 0 < ι) (h1 : ι < 1) (he : o.ext = .fin e) (he0 : 0 ≤ e)
    (f1 d1 : XR) {x0 s : List ℝ} (hs : s.length = n) (hx0 : x0.length = n) :
    ∀ (m : ℕ) (st : LineState XR) (x : List ℝ) (z1 z3 l : ℝ), LineInv f df n x0 s st x z1 z3 l →
      ∃ (st' : LineState XR) (b : Bool) (x' : List ℝ) (z1' z3' l' : ℝ), (lineSearch o g f1 d1 (fins s) m st).out = ok (st', b) ∧
        LineInv f df n x0 s st' x' z1' z3' l' ∧
        (b = true → wolfeFails o f1 d1 st' = false ∧ (o.sig *. d1 <. st'.d2) = true) := by
  intro m
  induction m with
  | zero =>
    intro st x z1 z3 l inv
    rw [lineSearch]
    split
    · exact ⟨st, false, x, z1, z3, l, rfl, inv, by simp⟩
    · rename_i hw
      split
      · rename_i hsig
        exact ⟨st, true, x, z1, z3, l, rfl, inv, fun _ => ⟨by simpa using hw, hsig⟩⟩
      · exact ⟨st, false, x, z1, z3, l, rfl, inv, by simp⟩
  | succ m ih =>
    intro st x z1 z3 l inv
    rw [lineSearch]
    split
    · obtain ⟨z2, e2, hneg, hpos⟩ := interpolate_spec o f1 st hi h0 h1 inv.hz3
      simp only
      rw [e2, inv.hx, stepAlong_fins (by rw [inv.xlen, hs]), Logged.lift_ok_bind]
      set x' := List.zipWith (fun a b => a + b) x (s.map fun t => t * z2) with hx'
      have hl' : x'.length = n := by simp [hx', inv.xlen, hs]
      obtain ⟨hgx, hdl⟩ := hg x' hl'
      rw [hgx, Logged.call_ok_bind]
      refine ih _ x' (z1 + z2) (z3 - z2) z1 ⟨hl', rfl, rfl, rfl, by simp only [dot_fins], by simp [inv.hz1], by simp [inv.hz3], inv.hz1, ?_, ?_, Or.inr inv.z1n, by rw [hx', inv.at0]; exact moveAlong_moveAlong (by rw [hx0, hs]) z1 z2⟩
      · have h1 := inv.z1n
        have h2 := inv.zsum
        rcases le_total z3 0 with h | h
        · linarith [hneg h]
        · linarith [hpos h]
      · linarith [inv.zsum]
    · rename_i hw
      split
      · rename_i hsig
        exact ⟨st, true, x, z1, z3, l, rfl, inv, fun _ => ⟨by simpa using hw, hsig⟩⟩
      · obtain ⟨z2, e2, hpos⟩ := extrapolate_spec o st hi he he0 inv.hz1 inv.z1n inv.hz3 inv.hl inv.lim
        simp only
        rw [e2, inv.hx, stepAlong_fins (by rw [inv.xlen, hs]), Logged.lift_ok_bind]
        set x' := List.zipWith (fun a b => a + b) x (s.map fun t => t * z2) with hx'
        have hl' : x'.length = n := by simp [hx', inv.xlen, hs]
        obtain ⟨hgx, hdl⟩ := hg x' hl'
        rw [hgx, Logged.call_ok_bind]
        refine ih _ x' (z1 + z2) (-z2) l ⟨hl', rfl, rfl, rfl, by simp only [dot_fins], by simp [inv.hz1], by simp, inv.hl, hpos, ?_, inv.lim, by rw [hx', inv.at0]; exact moveAlong_moveAlong (by rw [hx0, hs]) z1 z2⟩
        have := inv.z1n
        linarith

/-! ### Main loop -/

/-- Invariant of the main loop: the current cost is `v`. -/
structure CGInv (f : List ℝ → ℝ) (df : List ℝ → List ℝ) (n : ℕ) (c : CGState XR) (p x d s : List ℝ) (z1 : ℝ) : Prop where
  xlen : x.length = n
  dlen : d.length = n
  slen : s.length = n
  hx : c.x = fins x
  hf1 : c.f1 = .fin (f x)
  hdf1 : c.df1 = fins d
  hs : c.s = fins s
  hd1 : c.d1 = .fin (rdot d s)
  hz1 : c.z1 = .fin z1
  dneg : rdot d s ≤ 0
  z1n : 0 ≤ z1
  flat : (∀ t ∈ d, t = 0) → ∀ t ∈ s, t = 0
  grad : d = df p

theorem restart_z1 {q : ℝ} (h : 0 ≤ q) : Scalar.one /. (Scalar.one -. XR.fin (-q)) = XR.fin (1 / (1 + q)) ∧ 0 ≤ 1 / (1 + q) := by
  constructor
  · rw [xr_one, xr_sub, xr_div _ _ (by linarith), sub_neg_eq_add]
  · positivity

/-- What one turn of the main loop does, with room for any number `m` of evaluations in its line search. -/
theorem cgTurn_spec (o : ConjugateGD XR) {g : List XR → Outcome (XR × List XR)} {f : List ℝ → ℝ} {df : List ℝ → List ℝ} {n : ℕ}
    (hg : FiniteModel g f df n) {ρ σ ι e q : ℝ} (hr : o.rho = .fin ρ) (hsig : o.sig = .fin σ)
    (hi : o.int = .fin ι) (h0 : 0 < ι) (h1 : ι < 1) (he : o.ext = .fin e) (he0 : 0 ≤ e) (hq : o.ratio = .fin q) (hq0 : 0 ≤ q)
    (c : CGState XR) (p x d s : List ℝ) (z1 : ℝ) (inv : CGInv f df n c p x d s z1) :
    ∃ x' : List ℝ, stepAlong c.x c.s c.z1 = ok (fins x') ∧ g (fins x') = ok (.fin (f x'), fins (df x')) ∧
      ∀ m : ℕ, ∃ (st' : LineState XR) (b : Bool) (y : List ℝ) (w1 : ℝ), (lineSearch o g c.f1 c.d1 c.s m
          ⟨fins x', .fin (f x'), fins (df x'), dot (fins (df x')) c.s, c.f1, c.d1, c.z1, Scalar.neg c.z1, Scalar.neg Scalar.one⟩).out = ok (st', b) ∧
        y = moveAlong x s w1 ∧ 0 ≤ w1 ∧
        (b = true → rdot (df p) s < 0 ∧ f y ≤ f x + w1 * ρ * rdot (df p) s ∧ σ * rdot (df p) s < rdot (df y) s ∧
          rdot (df y) s ≤ -(σ * rdot (df p) s) ∧
          ∃ (c' : CGState XR) (s' : List ℝ) (z' : ℝ), cgSuccess o c st' = ok c' ∧ CGInv f df n c' y y (df y) s' z' ∧
            s' = nextDir s (df p) (df y) ∧ c'.lsFailed = false) ∧
        (b = false → CGInv f df n (cgRestart c st') y x (df y) ((df y).map fun t => -t) (1 / (1 + rdot (df y) (df y)))) := by
  set x' := List.zipWith (fun a b => a + b) x (s.map fun t => t * z1) with hx'
  have hl' : x'.length = n := by simp [hx', inv.xlen, inv.slen]
  obtain ⟨hgx, hdl⟩ := hg x' hl'
  refine ⟨x', by rw [inv.hx, inv.hs, inv.hz1, stepAlong_fins (by rw [inv.xlen, inv.slen])], hgx, fun m => ?_⟩
  have linv : LineInv f df n x s (⟨fins x', .fin (f x'), fins (df x'), dot (fins (df x')) (fins s), c.f1, c.d1, .fin z1,
      Scalar.neg (.fin z1), Scalar.neg Scalar.one⟩ : LineState XR) x' z1 (-z1) (-1) :=
    ⟨hl', rfl, rfl, rfl, by simp only [dot_fins], rfl, by simp, by simp, inv.z1n, by linarith, Or.inl rfl, rfl⟩
  obtain ⟨st', b, y, w1, w3, l, hls, hinv, hb⟩ := lineSearch_spec o hg hi h0 h1 he he0 c.f1 c.d1 inv.slen inv.xlen m _ _ _ _ _ linv
  refine ⟨st', b, y, w1, by rw [inv.hs, inv.hz1]; exact hls, hinv.at0, hinv.z1n, ?_, ?_⟩
  · intro hbt
    obtain ⟨hwf, hcurv⟩ := hb hbt
    -- what success means over the reals
    simp only [wolfeFails, Bool.or_eq_false_iff, inv.hf1, inv.hd1, hinv.hz1, hr, hsig, hinv.hf2, hinv.hd2, xr_mul, xr_add, xr_neg, xr_lt,
      decide_eq_false_iff_not, not_lt] at hwf
    rw [inv.hd1, hsig, hinv.hd2, xr_mul, xr_lt, decide_eq_true_eq] at hcurv
    have hdd : rdot d d ≠ 0 := by
      intro h
      have hs0 := inv.flat (rdot_self_eq_zero h)
      rw [rdot_zero_right d s hs0, rdot_zero_right _ s hs0] at hcurv
      simp at hcurv
    have hyl := (hg y hinv.xlen).2
    have hdyl : (df y).length = d.length := by rw [hyl, inv.dlen]
    -- the update
    have hup : ∃ (c' : CGState XR) (s' : List ℝ) (z' : ℝ), cgSuccess o c st' = ok c' ∧ CGInv f df n c' y y (df y) s' z' ∧
        s' = nextDir s d (df y) ∧ c'.lsFailed = false := by
      set β := rdot (List.zipWith (fun a b => a - b) (df y) d) (df y) with hβ
      set snew := List.zipWith (fun a b => a - b) (s.map fun t => t * β / rdot d d) (df y) with hsn
      have hsnl : snew.length = n := by simp [hsn, inv.slen, hyl]
      have e1 : (vecScale c.s (dot (fins (List.zipWith (fun a b => a - b) (df y) d)) st'.df2)).map (fun x => x /. dot c.df1 c.df1) =
          fins (s.map fun t => t * β / rdot d d) := by
        rw [inv.hs, inv.hdf1, hinv.hdf2, dot_fins, dot_fins, vecScale_fins]
        simp only [fins, List.map_map]
        refine List.map_congr_left fun t _ => ?_
        simp only [Function.comp]
        exact xr_div _ _ hdd
      have e2 : cgSuccess o c st' = ok (
          let d2 := dot (fins (df y)) (fins snew)
          let s' := if Scalar.zero <. d2 then vecNeg (fins (df y)) else fins snew
          let d2' := if Scalar.zero <. d2 then Scalar.neg (dot (vecNeg (fins (df y))) (vecNeg (fins (df y)))) else d2
          let ratio := c.d1 /. (d2' -. Scalar.ofRat (1 / 2 ^ 1022))
          let z1 := if o.ratio <. ratio then st'.z1 *. o.ratio else st'.z1 *. ratio
          ⟨st'.x, st'.f2, fins (df y), s', d2', z1, false⟩) := by
        unfold cgSuccess
        rw [inv.hdf1, hinv.hdf2, vecZip_fins (h := fun a b => a - b) (by simp) hdyl, ok_bind]
        rw [inv.hdf1, hinv.hdf2] at e1
        simp only
        rw [e1, vecZip_fins (h := fun a b => a - b) (by simp) (by simp [inv.slen, hyl]), ok_bind]
      -- direction and slope
      obtain ⟨s', hs', hs'l, hneg, hd2, hflat, hnext⟩ : ∃ s' : List ℝ,
          (if Scalar.zero <. dot (fins (df y)) (fins snew) then vecNeg (fins (df y)) else fins snew) = fins s' ∧ s'.length = n ∧
          rdot (df y) s' ≤ 0 ∧
          (if Scalar.zero <. dot (fins (df y)) (fins snew) then Scalar.neg (dot (vecNeg (fins (df y))) (vecNeg (fins (df y))))
            else dot (fins (df y)) (fins snew)) = XR.fin (rdot (df y) s') ∧ ((∀ t ∈ df y, t = 0) → ∀ t ∈ s', t = 0) ∧
          s' = nextDir s d (df y) := by
        rw [dot_fins, xr_zero, xr_lt]
        by_cases hp : 0 < rdot (df y) snew
        · refine ⟨(df y).map fun t => -t, ?_, by simpa using hyl, ?_, ?_, ?_, (if_pos hp).symm⟩
          · simp [hp, vecNeg_fins]
          · rw [rdot_neg]; linarith [rdot_self_nonneg (df y)]
          · simp only [hp, decide_true, if_true]
            rw [vecNeg_fins, dot_fins, rdot_neg_neg, rdot_neg, xr_neg]
          · intro h t ht
            obtain ⟨u, hu, rfl⟩ := List.mem_map.1 ht
            rw [h u hu, neg_zero]
        · refine ⟨snew, by simp [hp], hsnl, not_lt.1 hp, by simp [hp], ?_, (if_neg hp).symm⟩
          intro h t ht
          have hβ0 : β = 0 := rdot_zero_right _ _ h
          rw [hsn, hβ0] at ht
          obtain ⟨i, hi, rfl⟩ := List.getElem_of_mem ht
          simp only [List.getElem_zipWith, List.getElem_map, mul_zero, zero_div, zero_sub, neg_eq_zero]
          exact h _ (List.getElem_mem _)
      have hM : (0 : ℝ) < ((1 / 2 ^ 1022 : ℚ) : ℝ) := by positivity
      have hden : rdot (df y) s' - ((1 / 2 ^ 1022 : ℚ) : ℝ) < 0 := by linarith
      have hrat : c.d1 /. (XR.fin (rdot (df y) s') -. Scalar.ofRat (1 / 2 ^ 1022)) =
          XR.fin (rdot d s / (rdot (df y) s' - ((1 / 2 ^ 1022 : ℚ) : ℝ))) := by
        rw [inv.hd1, xr_ofRat, xr_sub, xr_div _ _ hden.ne]
      have hrat0 : 0 ≤ rdot d s / (rdot (df y) s' - ((1 / 2 ^ 1022 : ℚ) : ℝ)) := div_nonneg_of_nonpos inv.dneg hden.le
      obtain ⟨z', hz', hz'n⟩ : ∃ z' : ℝ, (if o.ratio <. XR.fin (rdot d s / (rdot (df y) s' - ((1 / 2 ^ 1022 : ℚ) : ℝ))) then st'.z1 *. o.ratio
          else st'.z1 *. XR.fin (rdot d s / (rdot (df y) s' - ((1 / 2 ^ 1022 : ℚ) : ℝ)))) = XR.fin z' ∧ 0 ≤ z' := by
        rw [hq, hinv.hz1]
        split
        · exact ⟨_, xr_mul _ _, mul_nonneg hinv.z1n hq0⟩
        · exact ⟨_, xr_mul _ _, mul_nonneg hinv.z1n hrat0⟩
      refine ⟨_, s', z', e2, ⟨hinv.xlen, hyl, hs'l, hinv.hx, hinv.hf2, rfl, hs', hd2, ?_, hneg, hz'n, hflat, rfl⟩, hnext, rfl⟩
      simp only
      rw [hd2, hrat, hz']
    rw [← inv.grad]
    refine ⟨?_, hwf.1, hcurv, by linarith [hwf.2], hup⟩
    refine lt_of_le_of_ne inv.dneg fun h => ?_
    rw [h] at hcurv hwf
    linarith [hwf.2]
  · rintro -
    have hyl := (hg y hinv.xlen).2
    have hd1 : Scalar.neg (dot (vecNeg st'.df2) (vecNeg st'.df2)) = XR.fin (-rdot (df y) (df y)) := by
      rw [hinv.hdf2, vecNeg_fins, dot_fins, rdot_neg_neg, xr_neg]
    have hz := restart_z1 (rdot_self_nonneg (df y))
    refine ⟨inv.xlen, hyl, by simpa using hyl, ?_, ?_, hinv.hdf2, ?_, ?_, ?_, ?_, hz.2, ?_, rfl⟩
    · exact inv.hx
    · exact inv.hf1
    · simp only [cgRestart]; rw [hinv.hdf2, vecNeg_fins]
    · simp only [cgRestart]; rw [hd1, rdot_neg]
    · simp only [cgRestart]; rw [hd1, hz.1]
    · rw [rdot_neg]; linarith [rdot_self_nonneg (df y)]
    · intro h t ht
      obtain ⟨u, hu, rfl⟩ := List.mem_map.1 ht
      rw [h u hu, neg_zero]

theorem cgLoop_spec (o : ConjugateGD XR) {g : List XR → Outcome (XR × List XR)} {f : List ℝ → ℝ} {df : List ℝ → List ℝ} {n : ℕ}
    (hg : FiniteModel g f df n) {ρ σ ι e q : ℝ} (hr : o.rho = .fin ρ) (hr0 : 0 ≤ ρ) (hsig : o.sig = .fin σ)
    (hi : o.int = .fin ι) (h0 : 0 < ι) (h1 : ι < 1) (he : o.ext = .fin e) (he0 : 0 ≤ e) (hq : o.ratio = .fin q) (hq0 : 0 ≤ q) :
    ∀ (k : ℕ) (c : CGState XR) (p x d s : List ℝ) (z1 : ℝ), CGInv f df n c p x d s z1 →
      ∃ y : List ℝ, (cgLoop o g k c).out = ok (fins y) ∧ y.length = n ∧ CGPath f df ρ σ k c.lsFailed p s x y := by
  intro k
  induction k with
  | zero =>
    intro c p x d s z1 inv
    exact ⟨x, by simp [cgLoop, inv.hx], inv.xlen, .done _ p s x⟩
  | succ k ih =>
    intro c p x d s z1 inv
    obtain ⟨x', hx', hgx, hm⟩ := cgTurn_spec o hg hr hsig hi h0 h1 he he0 hq hq0 c p x d s z1 inv
    obtain ⟨st', b, y, w1, hls, hy, hw1, hacc, hrej⟩ := hm o.max
    rw [cgLoop, hx', Logged.lift_ok_bind, hgx, Logged.call_ok_bind]
    simp only
    rw [Logged.bind_ok hls]
    simp only
    cases b with
    | true =>
      obtain ⟨k1, k2, k3, k4, c', s', z', hc', hinv', hnext, hls'⟩ := hacc rfl
      simp only [if_true]
      rw [hc', Logged.lift_ok_bind]
      obtain ⟨y', hy1, hy2, hy3⟩ := ih c' y y (df y) s' z' hinv'
      refine ⟨y', hy1, hy2, .accept (s := s) (w := w1) hy hw1 k1 k2 k3 k4 ?_⟩
      rw [← hnext, ← hls']
      exact hy3
    | false =>
      simp only [Bool.false_eq_true, if_false]
      cases hfl : c.lsFailed with
      | true => exact ⟨x, by simp [inv.hx], inv.xlen, .giveUp k p s x⟩
      | false =>
        simp only [Bool.false_eq_true, if_false]
        obtain ⟨y', hy1, hy2, hy3⟩ := ih _ y x (df y) _ _ (hrej rfl)
        exact ⟨y', hy1, hy2, .retry (s := s) (w := w1) hy hw1 hy3⟩

end RM
