import Mathlib.Data.Int.Log
import Mathlib.Algebra.Order.Ring.Pow
import Verif.Spec.Rounding

/-! Calculus of rounding errors, and a rounding function with `p + 1` significant bits. -/

namespace RM
open Outcome Scalar Spec
variable {R : Rounding} {u : ℝ}

/-! ### The factor -/

theorem growth_zero (u : ℝ) : growth u 0 = 1 := by simp [growth]

theorem growth_add (u : ℝ) (m k : ℕ) : growth u (m + k) = growth u m * growth u k := by simp [growth, pow_add]

theorem growth_one (u : ℝ) : growth u 1 = 1 / (1 - u) := by simp [growth]

theorem growth_base (h : Precise R u) : 1 ≤ 1 / (1 - u) := by
  have := h.lt_one
  have := h.nonneg
  rw [le_div_iff₀ (by linarith)]; linarith

theorem one_le_growth (h : Precise R u) (m : ℕ) : 1 ≤ growth u m := one_le_pow₀ (growth_base h)

theorem growth_pos (h : Precise R u) (m : ℕ) : 0 < growth u m := lt_of_lt_of_le one_pos (one_le_growth h m)

theorem growth_mono (h : Precise R u) {m k : ℕ} (hmk : m ≤ k) : growth u m ≤ growth u k := pow_le_pow_right₀ (growth_base h) hmk

/-! ### Agreement up to a factor -/

theorem AgreeUpTo.refl (a : ℝ) : AgreeUpTo 1 a a := by simp [AgreeUpTo]

theorem AgreeUpTo.symm {f a b : ℝ} (h : AgreeUpTo f a b) : AgreeUpTo f b a := ⟨h.2, h.1⟩

theorem agree_mono {f g a b : ℝ} (h : AgreeUpTo f a b) (ha : 0 ≤ a) (hb : 0 ≤ b) (hfg : f ≤ g) : AgreeUpTo g a b :=
  ⟨h.1.trans (mul_le_mul_of_nonneg_right hfg hb), h.2.trans (mul_le_mul_of_nonneg_right hfg ha)⟩

theorem agree_trans {f g a b c : ℝ} (h : AgreeUpTo f a b) (k : AgreeUpTo g b c) (hf : 0 ≤ f) (hg : 0 ≤ g) : AgreeUpTo (f * g) a c := by
  refine ⟨h.1.trans ?_, k.2.trans ?_⟩
  · rw [mul_assoc]; exact mul_le_mul_of_nonneg_left k.1 hf
  · rw [mul_comm f g, mul_assoc]; exact mul_le_mul_of_nonneg_left h.2 hg

theorem agree_add {f a b c d : ℝ} (h : AgreeUpTo f a b) (k : AgreeUpTo f c d) : AgreeUpTo f (a + c) (b + d) :=
  ⟨by rw [mul_add]; exact add_le_add h.1 k.1, by rw [mul_add]; exact add_le_add h.2 k.2⟩

theorem agree_mul {f g a b c d : ℝ} (h : AgreeUpTo f a b) (k : AgreeUpTo g c d) (ha : 0 ≤ a) (hb : 0 ≤ b) (hc : 0 ≤ c) (hd : 0 ≤ d) :
    AgreeUpTo (f * g) (a * c) (b * d) := by
  constructor
  · calc a * c ≤ (f * b) * (g * d) := mul_le_mul h.1 k.1 hc (ha.trans h.1)
      _ = _ := by ring
  · calc b * d ≤ (f * a) * (g * c) := mul_le_mul h.2 k.2 hd (hb.trans h.2)
      _ = _ := by ring

theorem agree_inv {f a b : ℝ} (h : AgreeUpTo f a b) (ha : 0 < a) (hb : 0 < b) : AgreeUpTo f a⁻¹ b⁻¹ := by
  constructor
  · rw [← div_eq_mul_inv, le_div_iff₀ hb, inv_mul_le_iff₀ ha, mul_comm]; exact h.2
  · rw [← div_eq_mul_inv, le_div_iff₀ ha, inv_mul_le_iff₀ hb, mul_comm]; exact h.1

theorem agree_div {f g a b c d : ℝ} (h : AgreeUpTo f a b) (k : AgreeUpTo g c d) (ha : 0 ≤ a) (hb : 0 ≤ b) (hc : 0 < c) (hd : 0 < d) :
    AgreeUpTo (f * g) (a / c) (b / d) := by
  rw [div_eq_mul_inv, div_eq_mul_inv]
  exact agree_mul h (agree_inv k hc hd) ha hb (inv_pos.2 hc).le (inv_pos.2 hd).le

theorem agree_sqrt {f a b : ℝ} (h : AgreeUpTo f a b) (hf : 1 ≤ f) : AgreeUpTo f (Real.sqrt a) (Real.sqrt b) := by
  have key : ∀ x y : ℝ, x ≤ f * y → Real.sqrt x ≤ f * Real.sqrt y := by
    intro x y hxy
    refine (Real.sqrt_le_sqrt hxy).trans ?_
    rw [Real.sqrt_mul (by linarith)]
    refine mul_le_mul_of_nonneg_right ?_ (Real.sqrt_nonneg _)
    rw [Real.sqrt_le_left (by linarith)]
    nlinarith
  exact ⟨key _ _ h.1, key _ _ h.2⟩

theorem fl_nonneg (R : Rounding) {x : ℝ} (hx : 0 ≤ x) : 0 ≤ R.fl x := by
  have := R.mono hx; rwa [R.zero] at this

theorem agree_fl (h : Precise R u) {x : ℝ} (hx : 0 ≤ x) : AgreeUpTo (growth u 1) (R.fl x) x := by
  have h1 := h.rel x
  rw [abs_of_nonneg hx] at h1
  have h2 := abs_le.1 h1
  have hu := h.lt_one
  have hn := h.nonneg
  rw [growth_one]
  constructor
  · rw [one_div, inv_mul_eq_div, le_div_iff₀ (by linarith)]
    nlinarith [mul_nonneg (mul_nonneg hn hn) hx]
  · rw [one_div, inv_mul_eq_div, le_div_iff₀ (by linarith)]
    nlinarith

theorem fl_pos (h : Precise R u) {x : ℝ} (hx : 0 < x) : 0 < R.fl x := by
  have := (agree_fl h hx.le).2
  by_contra hc
  push Not at hc
  have : growth u 1 * R.fl x ≤ 0 := mul_nonpos_of_nonneg_of_nonpos (growth_pos h 1).le hc
  linarith

/-- One more rounding. -/
theorem agree_fl_trans (h : Precise R u) {m : ℕ} {x y : ℝ} (hx : 0 ≤ x) (k : AgreeUpTo (growth u m) x y) :
    AgreeUpTo (growth u (m + 1)) (R.fl x) y := by
  rw [growth_add, mul_comm]
  exact agree_trans (agree_fl h hx) k (growth_pos h 1).le (growth_pos h m).le

/-! ### Error bounds relative to a magnitude -/

/-- `a'` is an approximation of `a` whose error is at most what `m` roundings make of the magnitude `A`. -/
def Err (u : ℝ) (m : ℕ) (A a' a : ℝ) : Prop := |a| ≤ A ∧ |a' - a| ≤ (growth u m - 1) * A

theorem Err.nonneg {m : ℕ} {A a' a : ℝ} (k : Err u m A a' a) : 0 ≤ A := (abs_nonneg _).trans k.1

theorem err_exact (u a : ℝ) : Err u 0 |a| a a := by simp [Err, growth_zero]

theorem err_mono (h : Precise R u) {m k : ℕ} {A a' a : ℝ} (hmk : m ≤ k) (e : Err u m A a' a) : Err u k A a' a :=
  ⟨e.1, e.2.trans (mul_le_mul_of_nonneg_right (by linarith [growth_mono h hmk]) e.nonneg)⟩

theorem err_size {m : ℕ} {A a' a : ℝ} (e : Err u m A a' a) : |a'| ≤ growth u m * A := by
  have : |a'| ≤ |a' - a| + |a| := by
    have := abs_add_le (a' - a) a
    simpa using this
  have := e.1
  have := e.2
  linarith

theorem err_fl (h : Precise R u) {m : ℕ} {A z w : ℝ} (e : Err u m A z w) : Err u (m + 1) A (R.fl z) w := by
  refine ⟨e.1, ?_⟩
  have h1 := h.rel z
  have h2 : u ≤ growth u 1 - 1 := by
    rw [growth_one, le_sub_iff_add_le, le_div_iff₀ (by linarith [h.lt_one])]
    nlinarith [h.nonneg]
  have h3 := err_size e
  have h4 : |R.fl z - w| ≤ |R.fl z - z| + |z - w| := abs_sub_le _ _ _
  have h5 := e.2
  have h6 : u * |z| ≤ (growth u 1 - 1) * (growth u m * A) :=
    mul_le_mul h2 h3 (abs_nonneg _) (h.nonneg.trans h2)
  rw [growth_add]
  nlinarith

theorem err_add' {m : ℕ} {A B a' a b' b : ℝ} (e : Err u m A a' a) (k : Err u m B b' b) : Err u m (A + B) (a' + b') (a + b) := by
  refine ⟨(abs_add_le _ _).trans (add_le_add e.1 k.1), ?_⟩
  have : a' + b' - (a + b) = (a' - a) + (b' - b) := by ring
  rw [this, mul_add]
  exact (abs_add_le _ _).trans (add_le_add e.2 k.2)

theorem err_neg {m : ℕ} {A a' a : ℝ} (e : Err u m A a' a) : Err u m A (-a') (-a) := by
  refine ⟨by rw [abs_neg]; exact e.1, ?_⟩
  have : -a' - -a = -(a' - a) := by ring
  rw [this, abs_neg]
  exact e.2

theorem err_mul' (h : Precise R u) {m k : ℕ} {A B a' a b' b : ℝ} (e : Err u m A a' a) (l : Err u k B b' b) :
    Err u (m + k) (A * B) (a' * b') (a * b) := by
  refine ⟨by rw [abs_mul]; exact mul_le_mul e.1 l.1 (abs_nonneg _) e.nonneg, ?_⟩
  have h1 : a' * b' - a * b = (a' - a) * b' + a * (b' - b) := by ring
  have h2 : |a' - a| * |b'| ≤ ((growth u m - 1) * A) * (growth u k * B) :=
    mul_le_mul e.2 (err_size l) (abs_nonneg _) ((abs_nonneg _).trans e.2)
  have h3 : |a| * |b' - b| ≤ A * ((growth u k - 1) * B) := mul_le_mul e.1 l.2 (abs_nonneg _) e.nonneg
  rw [h1, growth_add]
  refine (abs_add_le _ _).trans ?_
  rw [abs_mul, abs_mul]
  nlinarith

/-- Dividing by a positive number that is known up to a factor. -/
theorem err_div' (h : Precise R u) {m k : ℕ} {A a' a b' b : ℝ} (e : Err u m A a' a) (hb : 0 < b) (hb' : 0 < b')
    (l : AgreeUpTo (growth u k) b' b) : Err u (m + k) (A / b) (a' / b') (a / b) := by
  have l' := agree_inv l hb' hb
  have hg := one_le_growth h k
  have : Err u k b⁻¹ b'⁻¹ b⁻¹ := by
    have hi : (0 : ℝ) < b⁻¹ := inv_pos.2 hb
    refine ⟨by rw [abs_of_pos hi], ?_⟩
    rw [abs_le]
    constructor
    · have h1 := l'.2
      have h2 : b'⁻¹ ≥ b⁻¹ / growth u k := by rw [ge_iff_le, div_le_iff₀ (by linarith), mul_comm]; exact h1
      have h3 : b⁻¹ - b⁻¹ / growth u k ≤ (growth u k - 1) * b⁻¹ := by
        have : (growth u k)⁻¹ ≥ 2 - growth u k := by
          rw [ge_iff_le, ← one_div, le_div_iff₀ (by linarith)]; nlinarith [sq_nonneg (growth u k - 1)]
        rw [div_eq_mul_inv]
        nlinarith
      linarith
    · have h1 := l'.1
      linarith
  have := err_mul' h e this
  simpa only [div_eq_mul_inv] using this

theorem agree_err {f a' a : ℝ} (hf : 1 ≤ f) (ha : 0 ≤ a) (l : AgreeUpTo f a' a) : |a' - a| ≤ (f - 1) * a := by
  rw [abs_le]
  constructor
  · have h1 := l.2
    by_contra hc
    push Not at hc
    have : f * a' < a := by nlinarith [mul_nonneg (mul_nonneg (sub_nonneg.2 hf) (sub_nonneg.2 hf)) ha]
    linarith
  · have := l.1; linarith

/-! ### Sums -/

theorem err_fsum_acc (h : Precise R u) {m : ℕ} : ∀ (l : List (Fl R)) (es As : List ℝ) (acc : Fl R) (A a : ℝ),
    Err u m A acc.1 a → es.length = l.length → As.length = l.length →
    (∀ i, i < l.length → Err u m (As.getD i 0) ((reals l).getD i 0) (es.getD i 0)) →
    Err u (m + l.length) (A + As.sum) (l.foldl Scalar.add acc).1 (a + es.sum)
  | [], es, As, acc, A, a, h0, h1, h2, _ => by
    rw [List.length_eq_zero_iff.1 h1, List.length_eq_zero_iff.1 h2]
    simpa using h0
  | x :: l, [], As, acc, A, a, h0, h1, h2, _ => by simp at h1
  | x :: l, e :: es, [], acc, A, a, h0, h1, h2, _ => by simp at h2
  | x :: l, e :: es, B :: As, acc, A, a, h0, h1, h2, h3 => by
    have hx : Err u m B x.1 e := by simpa [reals] using h3 0 (by simp)
    have hstep : Err u (m + 1) (A + B) (Scalar.add acc x).1 (a + e) := err_fl h (err_add' h0 hx)
    have := err_fsum_acc h (m := m + 1) l es As (Scalar.add acc x) (A + B) (a + e) hstep (by simpa using h1) (by simpa using h2) (by
      intro i hi
      have := h3 (i + 1) (by simp; omega)
      exact err_mono h (m := m) (by omega) (by simpa [reals] using this))
    have e1 : m + (x :: l).length = m + 1 + l.length := by simp; omega
    rw [e1, List.foldl_cons, List.sum_cons, List.sum_cons, ← add_assoc, ← add_assoc]
    exact this

theorem err_fsum (h : Precise R u) {m : ℕ} (l : List (Fl R)) (es As : List ℝ) (h1 : es.length = l.length) (h2 : As.length = l.length)
    (h3 : ∀ i, i < l.length → Err u m (As.getD i 0) ((reals l).getD i 0) (es.getD i 0)) :
    Err u (m + l.length) As.sum (fsum l).1 es.sum := by
  have h0 : Err u m 0 (Scalar.zero : Fl R).1 0 := by
    refine ⟨by simp, ?_⟩
    change |(0 : ℝ) - 0| ≤ _
    simp
  have := err_fsum_acc h l es As Scalar.zero 0 0 h0 h1 h2 h3
  simpa [fsum] using this

theorem err_fsum_map {α : Type} (h : Precise R u) {m : ℕ} (l : List α) (f : α → Fl R) (e A : α → ℝ)
    (h3 : ∀ a ∈ l, Err u m (A a) (f a).1 (e a)) : Err u (m + l.length) (l.map A).sum (fsum (l.map f)).1 (l.map e).sum := by
  have := err_fsum h (m := m) (l.map f) (l.map e) (l.map A) (by simp) (by simp) (by
    intro i hi
    have hi' : i < l.length := by simpa using hi
    have := h3 l[i] (List.getElem_mem hi')
    simpa [reals, hi'] using this)
  simpa using this

theorem err_fsum_zipWith {α β : Type} (h : Precise R u) {m : ℕ} (f : α → β → Fl R) (e A : α → β → ℝ)
    (h3 : ∀ a b, Err u m (A a b) (f a b).1 (e a b)) (l : List α) (l' : List β) :
    Err u (m + min l.length l'.length) (List.zipWith A l l').sum (fsum (List.zipWith f l l')).1 (List.zipWith e l l').sum := by
  have := err_fsum_map h (m := m) (l.zip l') (fun p => f p.1 p.2) (fun p => e p.1 p.2) (fun p => A p.1 p.2) (fun p _ => h3 p.1 p.2)
  simpa [List.zip, List.map_zipWith] using this

/-- Sums of nonnegative numbers. -/
theorem agree_fsum_acc (h : Precise R u) {m : ℕ} {α : Type} (f : α → Fl R) (e : α → ℝ) : ∀ (l : List α) (acc : Fl R) (a : ℝ),
    0 ≤ acc.1 → 0 ≤ a → AgreeUpTo (growth u m) acc.1 a →
    (∀ x ∈ l, 0 ≤ (f x).1 ∧ 0 ≤ e x ∧ AgreeUpTo (growth u m) (f x).1 (e x)) →
    0 ≤ ((l.map f).foldl Scalar.add acc).1 ∧ AgreeUpTo (growth u (m + l.length)) ((l.map f).foldl Scalar.add acc).1 (a + (l.map e).sum)
  | [], acc, a, h0, _, h1, _ => by simpa using ⟨h0, h1⟩
  | x :: l, acc, a, h0, ha, h1, h2 => by
    obtain ⟨p1, p2, p3⟩ := h2 x (by simp)
    have hs : AgreeUpTo (growth u (m + 1)) (Scalar.add acc (f x)).1 (a + e x) := agree_fl_trans h (add_nonneg h0 p1) (agree_add h1 p3)
    have h0' : 0 ≤ (Scalar.add acc (f x)).1 := fl_nonneg R (add_nonneg h0 p1)
    have := agree_fsum_acc h (m := m + 1) f e l (Scalar.add acc (f x)) (a + e x) h0' (add_nonneg ha p2) hs (by
      intro y hy
      obtain ⟨q1, q2, q3⟩ := h2 y (by simp [hy])
      exact ⟨q1, q2, agree_mono q3 q1 q2 (growth_mono h (by omega))⟩)
    have e1 : m + (x :: l).length = m + 1 + l.length := by simp; omega
    rw [e1, List.map_cons, List.map_cons, List.foldl_cons, List.sum_cons, ← add_assoc]
    exact this

theorem agree_fsum (h : Precise R u) {m : ℕ} {α : Type} (f : α → Fl R) (e : α → ℝ) (l : List α)
    (h2 : ∀ x ∈ l, 0 ≤ (f x).1 ∧ 0 ≤ e x ∧ AgreeUpTo (growth u m) (f x).1 (e x)) :
    0 ≤ (fsum (l.map f)).1 ∧ AgreeUpTo (growth u (m + l.length)) (fsum (l.map f)).1 (l.map e).sum := by
  have hz : (0 : ℝ) ≤ (Scalar.zero : Fl R).1 := le_of_eq rfl
  have := agree_fsum_acc h (m := m) f e l Scalar.zero 0 hz le_rfl (by
    change AgreeUpTo _ (0 : ℝ) 0
    simp [AgreeUpTo]) h2
  simpa [fsum] using this

/-! ### Truncation to `p + 1` significant bits -/

/-- Truncation of a nonnegative number. -/
noncomputable def bitsTrunc (p : ℕ) (x : ℝ) : ℝ := (2 : ℝ) ^ (Int.log 2 x - p) * ⌊x / (2 : ℝ) ^ (Int.log 2 x - p)⌋

theorem two_zpow_pos (e : ℤ) : (0 : ℝ) < (2 : ℝ) ^ e := zpow_pos (by norm_num) e

theorem bitsTrunc_le (p : ℕ) (x : ℝ) : bitsTrunc p x ≤ x := by
  unfold bitsTrunc
  have h := Int.floor_le (x / (2 : ℝ) ^ (Int.log 2 x - p))
  have hp := two_zpow_pos (Int.log 2 x - p)
  rw [le_div_iff₀ hp] at h
  linarith

theorem bitsTrunc_ge (p : ℕ) {x : ℝ} (hx : 0 < x) : (2 : ℝ) ^ (Int.log 2 x) ≤ bitsTrunc p x := by
  unfold bitsTrunc
  have hp := two_zpow_pos (Int.log 2 x - p)
  have h1 : (2 : ℝ) ^ (Int.log 2 x) ≤ x := by exact_mod_cast Int.zpow_log_le_self (b := 2) (by norm_num) hx
  have h2 : (2 : ℝ) ^ (Int.log 2 x) = (2 : ℝ) ^ (Int.log 2 x - p) * ((2 ^ p : ℤ) : ℝ) := by
    push_cast
    rw [← zpow_natCast, ← zpow_add₀ (by norm_num)]
    congr 1; ring
  have h3 : ((2 ^ p : ℤ)) ≤ ⌊x / (2 : ℝ) ^ (Int.log 2 x - p)⌋ := by
    rw [Int.le_floor, le_div_iff₀ hp, mul_comm, ← h2]
    exact h1
  conv_lhs => rw [h2]
  exact mul_le_mul_of_nonneg_left (by exact_mod_cast h3) hp.le

theorem bitsTrunc_pos (p : ℕ) {x : ℝ} (hx : 0 < x) : 0 < bitsTrunc p x := lt_of_lt_of_le (two_zpow_pos _) (bitsTrunc_ge p hx)

theorem bitsTrunc_zero (p : ℕ) : bitsTrunc p 0 = 0 := by simp [bitsTrunc]

theorem lt_two_zpow {x : ℝ} : x < (2 : ℝ) ^ (Int.log 2 x + 1) := by
  exact_mod_cast Int.lt_zpow_succ_log_self (b := 2) (by norm_num) x

theorem bitsTrunc_mono (p : ℕ) {x y : ℝ} (hx : 0 ≤ x) (hxy : x ≤ y) : bitsTrunc p x ≤ bitsTrunc p y := by
  rcases hx.eq_or_lt with rfl | hx
  · rw [bitsTrunc_zero]
    rcases hxy.eq_or_lt with rfl | hy
    · rw [bitsTrunc_zero]
    · exact (bitsTrunc_pos p hy).le
  · have hl : Int.log 2 x ≤ Int.log 2 y := Int.log_mono_right hx hxy
    rcases hl.eq_or_lt with he | hlt
    · unfold bitsTrunc
      rw [he]
      refine mul_le_mul_of_nonneg_left ?_ (two_zpow_pos _).le
      have : ⌊x / (2 : ℝ) ^ (Int.log 2 y - p)⌋ ≤ ⌊y / (2 : ℝ) ^ (Int.log 2 y - p)⌋ :=
        Int.floor_le_floor (div_le_div_of_nonneg_right hxy (two_zpow_pos _).le)
      exact_mod_cast this
    · have h1 : (2 : ℝ) ^ (Int.log 2 x + 1) ≤ (2 : ℝ) ^ (Int.log 2 y) := zpow_le_zpow_right₀ (by norm_num) (by omega)
      have h2 := bitsTrunc_ge p (lt_of_lt_of_le hx hxy)
      have h3 := bitsTrunc_le p x
      have h4 := lt_two_zpow (x := x)
      linarith

theorem bitsTrunc_idem (p : ℕ) {x : ℝ} (hx : 0 ≤ x) : bitsTrunc p (bitsTrunc p x) = bitsTrunc p x := by
  rcases hx.eq_or_lt with rfl | hx
  · rw [bitsTrunc_zero, bitsTrunc_zero]
  · have hlog : Int.log 2 (bitsTrunc p x) = Int.log 2 x := by
      apply le_antisymm
      · exact Int.log_mono_right (bitsTrunc_pos p hx) (bitsTrunc_le p x)
      · rw [← Int.zpow_le_iff_le_log (b := 2) (by norm_num) (bitsTrunc_pos p hx)]
        exact_mod_cast bitsTrunc_ge p hx
    rw [bitsTrunc, hlog]
    have : bitsTrunc p x / (2 : ℝ) ^ (Int.log 2 x - p) = ⌊x / (2 : ℝ) ^ (Int.log 2 x - p)⌋ := by
      unfold bitsTrunc
      rw [mul_div_assoc, mul_comm, div_mul_cancel₀]
      exact (two_zpow_pos _).ne'
    rw [this, Int.floor_intCast]
    rfl

/-- Truncation towards zero to `p + 1` significant bits. -/
noncomputable def truncBits (p : ℕ) : Rounding where
  fl x := if 0 ≤ x then bitsTrunc p x else -bitsTrunc p (-x)
  mono := by
    intro x y hxy
    have hnn : ∀ z : ℝ, 0 ≤ z → 0 ≤ bitsTrunc p z := by
      intro z hz
      have := bitsTrunc_mono p le_rfl hz
      rwa [bitsTrunc_zero] at this
    by_cases hx : 0 ≤ x
    · simp only [if_pos hx, if_pos (hx.trans hxy)]
      exact bitsTrunc_mono p hx hxy
    · push Not at hx
      simp only [if_neg (not_le.2 hx)]
      by_cases hy : 0 ≤ y
      · simp only [if_pos hy]
        have h1 := hnn (-x) (by linarith)
        have h2 := hnn y hy
        linarith
      · push Not at hy
        simp only [if_neg (not_le.2 hy)]
        have := bitsTrunc_mono p (x := -y) (y := -x) (by linarith) (by linarith)
        linarith
  odd := by
    intro x
    rcases lt_trichotomy x 0 with hx | rfl | hx
    · rw [if_pos (by linarith), if_neg (not_le.2 hx), neg_neg]
    · simp [bitsTrunc_zero]
    · rw [if_neg (by linarith), if_pos hx.le, neg_neg]
  idem := by
    intro x
    have hnn : ∀ z : ℝ, 0 ≤ z → 0 ≤ bitsTrunc p z := by
      intro z hz
      have := bitsTrunc_mono p le_rfl hz
      rwa [bitsTrunc_zero] at this
    by_cases hx : 0 ≤ x
    · simp only [if_pos hx, if_pos (hnn x hx)]
      exact bitsTrunc_idem p hx
    · push Not at hx
      simp only [if_neg (not_le.2 hx)]
      have h1 : 0 < bitsTrunc p (-x) := bitsTrunc_pos p (by linarith)
      rw [if_neg (by linarith), neg_neg, bitsTrunc_idem p (by linarith)]

theorem truncBits_precise (p : ℕ) (hp : 1 ≤ p) : Precise (truncBits p) (1 / 2 ^ p) := by
  have key : ∀ x : ℝ, 0 ≤ x → |bitsTrunc p x - x| ≤ 1 / 2 ^ p * x := by
    intro x hx
    rcases hx.eq_or_lt with rfl | hx
    · simp [bitsTrunc_zero]
    · have h1 := bitsTrunc_le p x
      rw [abs_of_nonpos (by linarith)]
      have hq := two_zpow_pos (Int.log 2 x - p)
      have h2 := Int.lt_floor_add_one (x / (2 : ℝ) ^ (Int.log 2 x - p))
      rw [div_lt_iff₀ hq] at h2
      have h3 : x - bitsTrunc p x ≤ (2 : ℝ) ^ (Int.log 2 x - p) := by unfold bitsTrunc; nlinarith
      have h4 : (2 : ℝ) ^ (Int.log 2 x - p) = 1 / 2 ^ p * (2 : ℝ) ^ (Int.log 2 x) := by
        rw [zpow_sub₀ (by norm_num), zpow_natCast]; ring
      have h5 : (2 : ℝ) ^ (Int.log 2 x) ≤ x := by exact_mod_cast Int.zpow_log_le_self (b := 2) (by norm_num) hx
      have h6 : (0 : ℝ) ≤ 1 / 2 ^ p := by positivity
      nlinarith [mul_le_mul_of_nonneg_left h5 h6]
  refine ⟨by positivity, ?_, ?_⟩
  · rw [div_lt_one (by positivity)]
    exact one_lt_pow₀ (by norm_num) (by omega)
  · intro x
    change |(if 0 ≤ x then bitsTrunc p x else -bitsTrunc p (-x)) - x| ≤ _
    by_cases hx : 0 ≤ x
    · rw [if_pos hx, abs_of_nonneg hx]
      exact key x hx
    · push Not at hx
      rw [if_neg (not_le.2 hx), abs_of_neg hx]
      have := key (-x) (by linarith)
      have e : -bitsTrunc p (-x) - x = -(bitsTrunc p (-x) - -x) := by ring
      rw [e, abs_neg]
      exact this

end RM
