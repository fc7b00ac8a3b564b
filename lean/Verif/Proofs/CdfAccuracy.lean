import Mathlib.Analysis.SpecialFunctions.Integrals.Basic
import Mathlib.Analysis.SpecialFunctions.Gaussian.GaussianIntegral
import Mathlib.Analysis.Calculus.Deriv.MeanValue
import Mathlib.Analysis.Normed.Algebra.Exponential
import Mathlib.Analysis.SpecialFunctions.Exponential
import Mathlib.Analysis.Real.Pi.Bounds

/-!
Pólya's approximation of the error integral: `sqrt (1 - exp (-2x²/π))` exceeds the probability that a standard normal
variable lies in `[-x, x]` by at most 0.0064.
-/

namespace RM
open MeasureTheory

/-- The Taylor polynomials of `exp (-u)` alternate around it. -/
theorem exp_neg_alternates (n : ℕ) : ∀ u : ℝ, 0 ≤ u →
    0 ≤ (-1 : ℝ) ^ n * ((∑ k ∈ Finset.range (n + 1), (-u) ^ k / k.factorial) - Real.exp (-u)) := by
  induction n with
  | zero =>
    intro u hu
    have : Real.exp (-u) ≤ 1 := Real.exp_le_one_iff.2 (by linarith)
    simpa using this
  | succ n ih =>
    -- the function is 0 at 0 and its derivative is the previous one
    let f : ℝ → ℝ := fun u => (-1 : ℝ) ^ (n + 1) * ((∑ k ∈ Finset.range (n + 2), (-u) ^ k / k.factorial) - Real.exp (-u))
    have hderiv : ∀ u : ℝ, HasDerivAt f ((-1 : ℝ) ^ n * ((∑ k ∈ Finset.range (n + 1), (-u) ^ k / k.factorial) - Real.exp (-u))) u := by
      intro u
      have h1 : ∀ k : ℕ, HasDerivAt (fun u : ℝ => (-u) ^ (k + 1) / ((k + 1).factorial : ℝ)) (-((-u) ^ k / (k.factorial : ℝ))) u := by
        intro k
        have h := ((hasDerivAt_neg u).fun_pow (k + 1)).div_const ((k + 1).factorial : ℝ)
        refine h.congr_deriv ?_
        rw [Nat.factorial_succ]
        have : (k.factorial : ℝ) ≠ 0 := by positivity
        push_cast
        field_simp
      have h2 : HasDerivAt (fun u : ℝ => ∑ k ∈ Finset.range (n + 2), (-u) ^ k / (k.factorial : ℝ)) (-(∑ k ∈ Finset.range (n + 1), (-u) ^ k / (k.factorial : ℝ))) u := by
        have e : (fun u : ℝ => ∑ k ∈ Finset.range (n + 2), (-u) ^ k / (k.factorial : ℝ)) =
            fun u : ℝ => (∑ k ∈ Finset.range (n + 1), (-u) ^ (k + 1) / ((k + 1).factorial : ℝ)) + 1 := by
          funext u
          rw [Finset.sum_range_succ']
          simp
        rw [e, ← Finset.sum_neg_distrib]
        exact (HasDerivAt.fun_sum fun k _ => h1 k).add_const 1
      have h3 : HasDerivAt (fun u : ℝ => Real.exp (-u)) (-Real.exp (-u)) u := by
        have := (hasDerivAt_neg u).exp
        simpa using this
      have h4 := (h2.sub h3).const_mul ((-1 : ℝ) ^ (n + 1))
      refine h4.congr_deriv ?_
      rw [pow_succ]
      ring
    intro u hu
    have hmono : MonotoneOn f (Set.Ici 0) := by
      apply monotoneOn_of_deriv_nonneg (convex_Ici 0)
      · exact fun x _ => (hderiv x).continuousAt.continuousWithinAt
      · exact fun x _ => (hderiv x).differentiableAt.differentiableWithinAt
      · intro x hx
        rw [(hderiv x).deriv]
        simp only [Set.nonempty_Iio, interior_Ici'] at hx
        exact ih x (Set.mem_Ioi.1 hx).le
    have h0 : f 0 = 0 := by
      simp [f, Finset.sum_range_succ']
    have := hmono (Set.mem_Ici.2 le_rfl) (Set.mem_Ici.2 hu) hu
    rw [h0] at this
    exact this

theorem integral_half_gauss : ∫ t in Set.Iic (0 : ℝ), Real.exp (-(t ^ 2) / 2) = Real.sqrt (2 * Real.pi) / 2 := by
  have h := integral_gaussian_Ioi (1 / 2)
  have e : ∫ t in Set.Iic (0 : ℝ), Real.exp (-(t ^ 2) / 2) = ∫ t in Set.Ioi (0 : ℝ), Real.exp (-(1 / 2) * t ^ 2) := by
    have := integral_comp_neg_Ioi (0 : ℝ) (fun t : ℝ => Real.exp (-(t ^ 2) / 2))
    rw [neg_zero] at this
    rw [← this]
    refine setIntegral_congr_fun measurableSet_Ioi fun t _ => ?_
    congr 1
    ring
  rw [e, h]
  congr 2
  field_simp

/-! ## Sign of the derivative of the difference -/

/-- Its sign is the sign of the derivative of the error at `x`, for `t = 2x²/π` and `q = π/2 - 1`. -/
noncomputable def polyaSign (q t : ℝ) : ℝ := t * Real.exp (q * t) - (Real.exp t - 1)

theorem polyaSign_hasSum (q t : ℝ) :
    HasSum (fun n : ℕ => (((n : ℝ) + 1) * q ^ n - 1) / ((n + 1).factorial : ℝ) * t ^ (n + 1)) (polyaSign q t) := by
  have h1 : HasSum (fun n : ℕ => (q * t) ^ n / (n.factorial : ℝ)) (Real.exp (q * t)) := by
    rw [Real.exp_eq_exp_ℝ]
    exact NormedSpace.expSeries_div_hasSum_exp (q * t)
  have h2 : HasSum (fun n : ℕ => t ^ n / (n.factorial : ℝ)) (Real.exp t) := by
    rw [Real.exp_eq_exp_ℝ]
    exact NormedSpace.expSeries_div_hasSum_exp t
  have h3 : HasSum (fun n : ℕ => t ^ (n + 1) / ((n + 1).factorial : ℝ)) (Real.exp t - 1) := by
    have := (hasSum_nat_add_iff' 1).2 h2
    simpa using this
  refine ((h1.mul_left t).sub h3).congr_fun fun n => ?_
  have : (n.factorial : ℝ) ≠ 0 := by positivity
  rw [Nat.factorial_succ]
  push_cast
  field_simp
  ring

theorem polya_coeff (q : ℝ) (h0 : 0 ≤ q) (h1 : q ≤ 0.571) (n : ℕ) : ((n + 2 : ℕ) + 1 : ℝ) * q ^ (n + 2) - 1 ≤ 0 := by
  induction n with
  | zero => norm_num; nlinarith
  | succ n ih =>
    push_cast at ih ⊢
    have h2 : 0 ≤ q ^ (n + 2) := by positivity
    have h3 : ((n : ℝ) + 1 + 2 + 1) * q ≤ (n : ℝ) + 2 + 1 := by
      have : (0 : ℝ) ≤ n := by positivity
      nlinarith
    have h4 := mul_le_mul_of_nonneg_right h3 h2
    rw [show n + 1 + 2 = (n + 2) + 1 by ring, pow_succ]
    nlinarith

/-- `polyaSign q t / t²` is antitone. -/
theorem polyaSign_antitone (q : ℝ) (h0 : 0 ≤ q) (h1 : q ≤ 0.571) {s t : ℝ} (hs : 0 ≤ s) (hst : s ≤ t) :
    s ^ 2 * polyaSign q t ≤ t ^ 2 * polyaSign q s := by
  refine hasSum_le (fun n => ?_) ((polyaSign_hasSum q t).mul_left (s ^ 2)) ((polyaSign_hasSum q s).mul_left (t ^ 2))
  match n with
  | 0 => simp
  | 1 => apply le_of_eq; ring
  | n + 2 =>
    have hc := polya_coeff q h0 h1 n
    have hc' : (((n + 2 : ℕ) : ℝ) + 1) * q ^ (n + 2) - 1 ≤ 0 := by exact_mod_cast hc
    have hd : ((((n + 2 : ℕ) : ℝ) + 1) * q ^ (n + 2) - 1) / ((n + 2 + 1).factorial : ℝ) ≤ 0 :=
      div_nonpos_of_nonpos_of_nonneg hc' (by positivity)
    have hp : s ^ (n + 1) ≤ t ^ (n + 1) := pow_le_pow_left₀ hs hst _
    have h2 : t ^ 2 * s ^ (n + 2 + 1) ≤ s ^ 2 * t ^ (n + 2 + 1) := by
      rw [show n + 2 + 1 = n + 1 + 2 by ring, pow_add s, pow_add t]
      have := mul_le_mul_of_nonneg_left hp (by positivity : 0 ≤ s ^ 2 * t ^ 2)
      nlinarith
    have := mul_le_mul_of_nonpos_left h2 hd
    nlinarith

theorem polyaSign_nonneg_down {q s t : ℝ} (h0 : 0 ≤ q) (h1 : q ≤ 0.571) (hs : 0 < s) (hst : s ≤ t) (h : 0 ≤ polyaSign q t) :
    0 ≤ polyaSign q s := by
  have := polyaSign_antitone q h0 h1 hs.le hst
  have ht : 0 < t ^ 2 := by have := hs.trans_le hst; positivity
  have h3 : 0 ≤ s ^ 2 * polyaSign q t := by positivity
  exact nonneg_of_mul_nonneg_right (h3.trans this) ht

theorem polyaSign_nonpos_up {q s t : ℝ} (h0 : 0 ≤ q) (h1 : q ≤ 0.571) (hs : 0 < s) (hst : s ≤ t) (h : polyaSign q s ≤ 0) :
    polyaSign q t ≤ 0 := by
  have := polyaSign_antitone q h0 h1 hs.le hst
  have h3 : t ^ 2 * polyaSign q s ≤ 0 := mul_nonpos_of_nonneg_of_nonpos (by positivity) h
  by_contra hc
  push Not at hc
  have : 0 < s ^ 2 * polyaSign q t := by positivity
  linarith

/-! ## The two functions -/

/-- Pólya's approximation. -/
noncomputable def polya (x : ℝ) : ℝ := Real.sqrt (1 - Real.exp (-(2 / Real.pi * x ^ 2)))

/-- The probability that a standard normal variable lies in `[-x, x]`. -/
noncomputable def errInt (x : ℝ) : ℝ := Real.sqrt (2 / Real.pi) * ∫ t in (0 : ℝ)..x, Real.exp (-(t ^ 2) / 2)

theorem polya_arg_pos {x : ℝ} (hx : 0 < x) : 0 < 1 - Real.exp (-(2 / Real.pi * x ^ 2)) := by
  rw [sub_pos, Real.exp_lt_one_iff]
  have := Real.pi_pos
  rw [neg_lt_zero]; positivity

theorem polya_pos {x : ℝ} (hx : 0 < x) : 0 < polya x := Real.sqrt_pos.2 (polya_arg_pos hx)

theorem polya_deriv {x : ℝ} (hx : 0 < x) :
    HasDerivAt polya (2 / Real.pi * x * Real.exp (-(2 / Real.pi * x ^ 2)) / polya x) x := by
  have h1 : HasDerivAt (fun x : ℝ => -(2 / Real.pi * x ^ 2)) (-(2 / Real.pi * (2 * x))) x := by
    have := ((hasDerivAt_pow 2 x).const_mul (2 / Real.pi)).fun_neg
    refine this.congr_deriv ?_
    norm_num
  have h2 := (h1.exp.const_sub 1).sqrt (polya_arg_pos hx).ne'
  refine h2.congr_deriv ?_
  unfold polya
  have := (Real.sqrt_pos.2 (polya_arg_pos hx)).ne'
  have := Real.pi_pos.ne'
  field_simp

theorem polya_continuous : Continuous polya := by
  unfold polya
  fun_prop

theorem errInt_deriv (x : ℝ) : HasDerivAt errInt (Real.sqrt (2 / Real.pi) * Real.exp (-(x ^ 2) / 2)) x := by
  have hc : Continuous fun t : ℝ => Real.exp (-(t ^ 2) / 2) := by fun_prop
  exact (intervalIntegral.integral_hasDerivAt_right (hc.intervalIntegrable _ _) (hc.stronglyMeasurableAtFilter _ _) hc.continuousAt).const_mul _

/-- The error of the approximation. -/
noncomputable def polyaErr (x : ℝ) : ℝ := polya x - errInt x

noncomputable def polyaErr' (x : ℝ) : ℝ :=
  2 / Real.pi * x * Real.exp (-(2 / Real.pi * x ^ 2)) / polya x - Real.sqrt (2 / Real.pi) * Real.exp (-(x ^ 2) / 2)

theorem polyaErr_deriv {x : ℝ} (hx : 0 < x) : HasDerivAt polyaErr (polyaErr' x) x := (polya_deriv hx).sub (errInt_deriv x)

theorem polyaErr_continuous : Continuous polyaErr :=
  polya_continuous.sub (continuous_iff_continuousAt.2 fun x => (errInt_deriv x).continuousAt)

/-- The squares of the two parts of the derivative compare as `polyaSign` says. -/
theorem polyaErr'_sign {x : ℝ} (hx : 0 < x) :
    (0 ≤ polyaSign (Real.pi / 2 - 1) (2 / Real.pi * x ^ 2) → 0 ≤ polyaErr' x) ∧
    (polyaSign (Real.pi / 2 - 1) (2 / Real.pi * x ^ 2) ≤ 0 → polyaErr' x ≤ 0) := by
  have hpi := Real.pi_pos
  have hP := polya_pos hx
  set t := 2 / Real.pi * x ^ 2 with ht
  have hx2 : x ^ 2 = Real.pi / 2 * t := by rw [ht]; field_simp
  have hsq : polya x ^ 2 = 1 - Real.exp (-t) := Real.sq_sqrt (polya_arg_pos hx).le
  -- the two squares
  have e1 : (2 / Real.pi * x * Real.exp (-t)) ^ 2 = (2 / Real.pi) * Real.exp (-(Real.pi / 2 + 1) * t) * (t * Real.exp ((Real.pi / 2 - 1) * t)) := by
    have : Real.exp (-(Real.pi / 2 + 1) * t) * Real.exp ((Real.pi / 2 - 1) * t) = Real.exp (-t) ^ 2 := by
      rw [← Real.exp_add, ← Real.exp_nat_mul]
      congr 1
      push_cast
      ring
    calc (2 / Real.pi * x * Real.exp (-t)) ^ 2 = (2 / Real.pi) * (2 / Real.pi * x ^ 2) * Real.exp (-t) ^ 2 := by ring
      _ = (2 / Real.pi) * t * Real.exp (-t) ^ 2 := by rw [← ht]
      _ = _ := by rw [← this]; ring
  have e2 : (Real.sqrt (2 / Real.pi) * Real.exp (-(x ^ 2) / 2) * polya x) ^ 2 = (2 / Real.pi) * Real.exp (-(Real.pi / 2 + 1) * t) * (Real.exp t - 1) := by
    have h1 : Real.exp (-(x ^ 2) / 2) ^ 2 = Real.exp (-(Real.pi / 2) * t) := by
      rw [← Real.exp_nat_mul, hx2]
      congr 1
      push_cast
      ring
    have h2 : Real.exp (-(Real.pi / 2 + 1) * t) * (Real.exp t - 1) = Real.exp (-(Real.pi / 2) * t) * (1 - Real.exp (-t)) := by
      rw [mul_sub, mul_sub, ← Real.exp_add, ← Real.exp_add, mul_one, mul_one]
      congr 2 <;> ring
    rw [mul_pow, mul_pow, Real.sq_sqrt (by positivity), h1, hsq, mul_assoc, mul_assoc, h2]
  have hc : 0 < (2 / Real.pi) * Real.exp (-(Real.pi / 2 + 1) * t) := by positivity
  have hA : 0 ≤ 2 / Real.pi * x * Real.exp (-t) := by positivity
  have hB : 0 ≤ Real.sqrt (2 / Real.pi) * Real.exp (-(x ^ 2) / 2) * polya x := by positivity
  unfold polyaErr' polyaSign
  rw [← ht]
  constructor
  · intro h
    rw [sub_nonneg, le_div_iff₀ hP]
    apply abs_le_of_sq_le_sq' _ hA |>.2
    rw [e1, e2]
    exact mul_le_mul_of_nonneg_left (by linarith) hc.le
  · intro h
    rw [sub_nonpos, div_le_iff₀ hP]
    apply abs_le_of_sq_le_sq' _ hB |>.2
    rw [e1, e2]
    exact mul_le_mul_of_nonneg_left (by linarith) hc.le

theorem q_bounds : 0 ≤ Real.pi / 2 - 1 ∧ Real.pi / 2 - 1 ≤ 0.571 := by
  have h1 := Real.pi_gt_d6
  have h2 := Real.pi_lt_d6
  constructor <;> norm_num at * <;> linarith

theorem polyaErr_mono {b : ℝ} (hb : 0 ≤ polyaSign (Real.pi / 2 - 1) (2 / Real.pi * b ^ 2)) : MonotoneOn polyaErr (Set.Icc 0 b) := by
  apply monotoneOn_of_deriv_nonneg (convex_Icc 0 b) polyaErr_continuous.continuousOn
  · intro x hx
    rw [interior_Icc] at hx
    exact (polyaErr_deriv hx.1).differentiableAt.differentiableWithinAt
  · intro x hx
    rw [interior_Icc] at hx
    rw [(polyaErr_deriv hx.1).deriv]
    have := Real.pi_pos
    have h0 := hx.1
    refine (polyaErr'_sign hx.1).1 (polyaSign_nonneg_down q_bounds.1 q_bounds.2 (by positivity) ?_ hb)
    apply mul_le_mul_of_nonneg_left _ (by positivity)
    exact pow_le_pow_left₀ hx.1.le hx.2.le _

theorem polyaErr_anti {a : ℝ} (ha : 0 < a) (h : polyaSign (Real.pi / 2 - 1) (2 / Real.pi * a ^ 2) ≤ 0) : AntitoneOn polyaErr (Set.Ici a) := by
  apply antitoneOn_of_deriv_nonpos (convex_Ici a) polyaErr_continuous.continuousOn
  · intro x hx
    rw [interior_Ici] at hx
    exact (polyaErr_deriv (ha.trans hx)).differentiableAt.differentiableWithinAt
  · intro x hx
    rw [interior_Ici] at hx
    have hx0 : 0 < x := ha.trans hx
    rw [(polyaErr_deriv hx0).deriv]
    have := Real.pi_pos
    refine (polyaErr'_sign hx0).2 (polyaSign_nonpos_up q_bounds.1 q_bounds.2 (by positivity) ?_ h)
    apply mul_le_mul_of_nonneg_left _ (by positivity)
    exact pow_le_pow_left₀ ha.le (le_of_lt hx) _

theorem gauss_integrable : Integrable (fun t : ℝ => Real.exp (-(t ^ 2) / 2)) := by
  have := integrable_exp_neg_mul_sq (b := 1 / 2) (by norm_num)
  refine this.congr (ae_of_all _ fun t => ?_)
  simp only
  congr 1
  ring

theorem errInt_le_one (x : ℝ) (hx : 0 ≤ x) : errInt x ≤ 1 := by
  have h : ∫ t in (0 : ℝ)..x, Real.exp (-(t ^ 2) / 2) ≤ Real.sqrt (Real.pi / 2) := by
    rw [intervalIntegral.integral_of_le hx]
    have h1 : ∫ t in Set.Ioc 0 x, Real.exp (-(t ^ 2) / 2) ≤ ∫ t in Set.Ioi (0 : ℝ), Real.exp (-(t ^ 2) / 2) :=
      setIntegral_mono_set gauss_integrable.integrableOn (ae_of_all _ fun t => (Real.exp_pos _).le) (Set.Ioc_subset_Ioi_self.eventuallyLE)
    refine h1.trans (le_of_eq ?_)
    have h2 := integral_gaussian_Ioi (1 / 2)
    have e : ∫ t in Set.Ioi (0 : ℝ), Real.exp (-(t ^ 2) / 2) = ∫ t in Set.Ioi (0 : ℝ), Real.exp (-(1 / 2) * t ^ 2) := by
      refine setIntegral_congr_fun measurableSet_Ioi fun t _ => ?_
      congr 1
      ring
    rw [e, h2]
    have : Real.pi / (1 / 2) = 2 ^ 2 * (Real.pi / 2) := by ring
    rw [this, Real.sqrt_mul (by positivity), Real.sqrt_sq (by norm_num)]
    ring
  have hp := Real.pi_pos
  unfold errInt
  calc Real.sqrt (2 / Real.pi) * ∫ t in (0 : ℝ)..x, Real.exp (-(t ^ 2) / 2) ≤ Real.sqrt (2 / Real.pi) * Real.sqrt (Real.pi / 2) :=
        mul_le_mul_of_nonneg_left h (Real.sqrt_nonneg _)
    _ = 1 := by
        rw [← Real.sqrt_mul (by positivity)]
        rw [show 2 / Real.pi * (Real.pi / 2) = 1 by field_simp]
        exact Real.sqrt_one

theorem polya_tendsto : Filter.Tendsto polya Filter.atTop (nhds 1) := by
  have hp := Real.pi_pos
  have h1 : Filter.Tendsto (fun x : ℝ => -(2 / Real.pi * x ^ 2)) Filter.atTop Filter.atBot :=
    Filter.tendsto_neg_atTop_atBot.comp ((Filter.tendsto_pow_atTop two_ne_zero).const_mul_atTop (by positivity : 0 < 2 / Real.pi))
  have h2 := (Real.continuous_sqrt.tendsto _).comp ((Real.tendsto_exp_atBot.comp h1).const_sub 1)
  rw [sub_zero, Real.sqrt_one] at h2
  exact h2

theorem polyaErr_zero : polyaErr 0 = 0 := by simp [polyaErr, polya, errInt]

/-- The approximation is never too small. -/
theorem polyaErr_nonneg {x : ℝ} (hx : 0 ≤ x) : 0 ≤ polyaErr x := by
  rcases hx.eq_or_lt with rfl | hx0
  · rw [polyaErr_zero]
  rcases le_total 0 (polyaSign (Real.pi / 2 - 1) (2 / Real.pi * x ^ 2)) with h | h
  · have := polyaErr_mono h (Set.left_mem_Icc.2 hx) (Set.right_mem_Icc.2 hx) hx
    rwa [polyaErr_zero] at this
  · have hanti := polyaErr_anti hx0 h
    have hlim : Filter.Tendsto (fun y => polya y - 1) Filter.atTop (nhds 0) := by
      have := polya_tendsto.sub_const 1
      rwa [sub_self] at this
    refine le_of_tendsto' (f := fun y => polya (max x y) - 1) (x := Filter.atTop) ?_ fun y => ?_
    · refine hlim.congr' ?_
      filter_upwards [Filter.eventually_ge_atTop x] with y hy
      rw [max_eq_right hy]
    · have h1 := hanti (Set.mem_Ici.2 le_rfl) (Set.mem_Ici.2 (le_max_left x y)) (le_max_left x y)
      have h2 := errInt_le_one (max x y) (hx.trans (le_max_left x y))
      have : polyaErr (max x y) = polya (max x y) - errInt (max x y) := rfl
      linarith

/-! ## Numbers -/

theorem exp_neg_upper (u : ℝ) (hu : 0 ≤ u) : Real.exp (-u) ≤ ∑ k ∈ Finset.range 13, (-u) ^ k / (k.factorial : ℝ) := by
  have := exp_neg_alternates 12 u hu
  norm_num at this
  linarith

theorem exp_neg_lower (u : ℝ) (hu : 0 ≤ u) : ∑ k ∈ Finset.range 14, (-u) ^ k / (k.factorial : ℝ) ≤ Real.exp (-u) := by
  have := exp_neg_alternates 13 u hu
  norm_num at this
  linarith

/-- `polyaSign` after multiplication with `exp (-t)`. -/
theorem polyaSign_eq (t : ℝ) : polyaSign (Real.pi / 2 - 1) t = Real.exp t * (t * Real.exp (-((2 - Real.pi / 2) * t)) - 1 + Real.exp (-t)) := by
  unfold polyaSign
  have h1 : Real.exp ((Real.pi / 2 - 1) * t) = Real.exp t * Real.exp (-((2 - Real.pi / 2) * t)) := by
    rw [← Real.exp_add]; congr 1; ring
  have h2 : Real.exp t * Real.exp (-t) = 1 := by rw [← Real.exp_add]; simp
  rw [h1]
  linear_combination -h2

theorem polyaSign_left : 0 ≤ polyaSign (Real.pi / 2 - 1) (2 / Real.pi * (33 / 20 : ℝ) ^ 2) := by
  have hpi1 := Real.pi_gt_d6
  have hpi2 := Real.pi_lt_d6
  refine polyaSign_nonneg_down (t := (4333 / 2500)) q_bounds.1 q_bounds.2 (by have := Real.pi_pos; positivity) ?_ ?_
  · rw [div_mul_eq_mul_div, div_le_iff₀ Real.pi_pos]
    nlinarith
  · rw [polyaSign_eq]
    apply mul_nonneg (Real.exp_pos _).le
    have h1 := exp_neg_lower (4333 / 2500) (by norm_num)
    have h2 := exp_neg_lower (743899 / 1000000) (by norm_num)
    have h3 : Real.exp (-(743899 / 1000000)) ≤ Real.exp (-((2 - Real.pi / 2) * (4333 / 2500))) := by
      apply Real.exp_le_exp.2
      nlinarith
    norm_num [Finset.sum_range_succ, Nat.factorial] at h1 h2
    linarith

theorem polyaSign_right : polyaSign (Real.pi / 2 - 1) (2 / Real.pi * (83 / 50 : ℝ) ^ 2) ≤ 0 := by
  have hpi1 := Real.pi_gt_d6
  have hpi2 := Real.pi_lt_d6
  refine polyaSign_nonpos_up (s := (8771 / 5000)) q_bounds.1 q_bounds.2 (by norm_num) ?_ ?_
  · rw [div_mul_eq_mul_div, le_div_iff₀ Real.pi_pos]
    nlinarith
  · rw [polyaSign_eq]
    apply mul_nonpos_of_nonneg_of_nonpos (Real.exp_pos _).le
    have h1 := exp_neg_upper (8771 / 5000) (by norm_num)
    have h2 := exp_neg_upper (188227 / 250000) (by norm_num)
    have h3 : Real.exp (-((2 - Real.pi / 2) * (8771 / 5000))) ≤ Real.exp (-(188227 / 250000)) := by
      apply Real.exp_le_exp.2
      nlinarith
    norm_num [Finset.sum_range_succ, Nat.factorial] at h1 h2
    linarith

theorem errInt_lower : 0.901045 ≤ errInt (33 / 20) := by
  have hpi1 := Real.pi_gt_d6
  have hpi2 := Real.pi_lt_d6
  have h1 : ∫ t in (0 : ℝ)..(33 / 20), (∑ k ∈ Finset.range 14, (-(t ^ 2 / 2)) ^ k / k.factorial) ≤ ∫ t in (0 : ℝ)..(33 / 20), Real.exp (-(t ^ 2) / 2) := by
    apply intervalIntegral.integral_mono_on (by norm_num) (Continuous.intervalIntegrable (by fun_prop) _ _) (Continuous.intervalIntegrable (by fun_prop) _ _)
    intro t _
    rw [neg_div]
    exact exp_neg_lower (t ^ 2 / 2) (by positivity)
  have e : ∀ t : ℝ, (∑ k ∈ Finset.range 14, (-(t ^ 2 / 2)) ^ k / (k.factorial : ℝ)) =
      ∑ k ∈ Finset.range 14, ((-1) ^ k / (2 ^ k * k.factorial)) * t ^ (2 * k) := by
    intro t
    refine Finset.sum_congr rfl fun k _ => ?_
    rw [neg_pow, div_pow, ← pow_mul]
    have : (k.factorial : ℝ) ≠ 0 := by positivity
    field_simp
  simp only [e] at h1
  rw [intervalIntegral.integral_finsetSum fun k _ => Continuous.intervalIntegrable (by fun_prop) _ _] at h1
  simp only [intervalIntegral.integral_const_mul, integral_pow] at h1
  have h2 : (1.1293 : ℝ) ≤ ∫ t in (0 : ℝ)..(33 / 20), Real.exp (-(t ^ 2) / 2) := by
    refine le_trans ?_ h1
    norm_num [Finset.sum_range_succ, Nat.factorial]
  have h3 : (0.797884 : ℝ) ≤ Real.sqrt (2 / Real.pi) := by
    apply Real.le_sqrt_of_sq_le
    rw [le_div_iff₀ Real.pi_pos]
    nlinarith
  unfold errInt
  calc (0.901045 : ℝ) ≤ 0.797884 * 1.1293 := by norm_num
    _ ≤ _ := mul_le_mul h3 h2 (by norm_num) (Real.sqrt_nonneg _)

theorem exp_left : 0.1767 ≤ Real.exp (-(2 / Real.pi * (33 / 20 : ℝ) ^ 2)) ∧ Real.exp (-(2 / Real.pi * (33 / 20 : ℝ) ^ 2)) ≤ 0.17673 := by
  have hpi1 := Real.pi_gt_d6
  have hpi2 := Real.pi_lt_d6
  constructor
  · have h1 := exp_neg_lower (4333 / 2500) (by norm_num)
    norm_num [Finset.sum_range_succ, Nat.factorial] at h1
    have h2 : Real.exp (-(4333 / 2500)) ≤ Real.exp (-(2 / Real.pi * (33 / 20 : ℝ) ^ 2)) := by
      rw [Real.exp_le_exp, neg_le_neg_iff, div_mul_eq_mul_div, div_le_iff₀ Real.pi_pos]
      nlinarith
    linarith
  · have h1 := exp_neg_upper (173319 / 100000) (by norm_num)
    norm_num [Finset.sum_range_succ, Nat.factorial] at h1
    have h2 : Real.exp (-(2 / Real.pi * (33 / 20 : ℝ) ^ 2)) ≤ Real.exp (-(173319 / 100000)) := by
      rw [Real.exp_le_exp, neg_le_neg_iff, div_mul_eq_mul_div, le_div_iff₀ Real.pi_pos]
      nlinarith
    linarith

theorem polya_left : 0.9073 ≤ polya (33 / 20) ∧ polya (33 / 20) ≤ 0.90737 := by
  obtain ⟨h1, h2⟩ := exp_left
  unfold polya
  constructor
  · apply Real.le_sqrt_of_sq_le
    norm_num at *
    linarith
  · rw [Real.sqrt_le_left (by norm_num)]
    norm_num at *
    linarith

theorem polyaErr_left : polyaErr (33 / 20) ≤ 0.00633 := by
  have h1 := polya_left.2
  have h2 := errInt_lower
  unfold polyaErr
  linarith

theorem polya_mono {x y : ℝ} (hx : 0 ≤ x) (hxy : x ≤ y) : polya x ≤ polya y := by
  have hp := Real.pi_pos
  apply Real.sqrt_le_sqrt
  have : Real.exp (-(2 / Real.pi * y ^ 2)) ≤ Real.exp (-(2 / Real.pi * x ^ 2)) := by
    rw [Real.exp_le_exp, neg_le_neg_iff]
    exact mul_le_mul_of_nonneg_left (pow_le_pow_left₀ hx hxy _) (by positivity)
  linarith

theorem polyaErr'_mid {x : ℝ} (h1 : 33 / 20 ≤ x) (h2 : x ≤ 83 / 50) : polyaErr' x ≤ 0.006 := by
  have hpi1 := Real.pi_gt_d6
  have hpi2 := Real.pi_lt_d6
  have hp := Real.pi_pos
  have a1 : 2 / Real.pi * x * Real.exp (-(2 / Real.pi * x ^ 2)) / polya x ≤ 0.2061 := by
    rw [div_le_iff₀ (polya_pos (by linarith))]
    have b1 : Real.exp (-(2 / Real.pi * x ^ 2)) ≤ 0.17673 := by
      refine le_trans ?_ exp_left.2
      rw [Real.exp_le_exp, neg_le_neg_iff]
      exact mul_le_mul_of_nonneg_left (pow_le_pow_left₀ (by norm_num) h1 _) (by positivity)
    have b2 : 2 / Real.pi * x ≤ 1.0569 := by
      rw [div_mul_eq_mul_div, div_le_iff₀ hp]
      nlinarith
    have b3 := polya_left.1.trans (polya_mono (by norm_num) h1)
    calc 2 / Real.pi * x * Real.exp (-(2 / Real.pi * x ^ 2)) ≤ 1.0569 * 0.17673 :=
          mul_le_mul b2 b1 (Real.exp_pos _).le (by norm_num)
      _ ≤ 0.2061 * 0.9073 := by norm_num
      _ ≤ _ := mul_le_mul_of_nonneg_left b3 (by norm_num)
  have a2 : 0.2011 ≤ Real.sqrt (2 / Real.pi) * Real.exp (-(x ^ 2) / 2) := by
    have c1 : (0.797884 : ℝ) ≤ Real.sqrt (2 / Real.pi) := by
      apply Real.le_sqrt_of_sq_le
      rw [le_div_iff₀ Real.pi_pos]
      nlinarith
    have c2 : 0.25212 ≤ Real.exp (-(x ^ 2) / 2) := by
      have h := exp_neg_lower (13778 / 10000) (by norm_num)
      norm_num [Finset.sum_range_succ, Nat.factorial] at h
      have : Real.exp (-(6889 / 5000)) ≤ Real.exp (-(x ^ 2) / 2) := by
        rw [Real.exp_le_exp]
        nlinarith
      linarith
    calc (0.2011 : ℝ) ≤ 0.797884 * 0.25212 := by norm_num
      _ ≤ _ := mul_le_mul c1 c2 (by norm_num) (Real.sqrt_nonneg _)
  unfold polyaErr'
  linarith

/-- The approximation is too large by at most 0.0064. -/
theorem polyaErr_le {x : ℝ} (hx : 0 ≤ x) : polyaErr x ≤ 0.0064 := by
  have hmid : ∀ y, 33 / 20 ≤ y → y ≤ 83 / 50 → polyaErr y ≤ 0.0064 := by
    intro y h1 h2
    have hd : ∀ z ∈ interior (Set.Icc (33 / 20 : ℝ) (83 / 50)), 0 < z := by
      intro z hz
      rw [interior_Icc] at hz
      exact lt_trans (by norm_num) hz.1
    have := (convex_Icc (33 / 20 : ℝ) (83 / 50)).image_sub_le_mul_sub_of_deriv_le polyaErr_continuous.continuousOn
      (fun z hz => (polyaErr_deriv (hd z hz)).differentiableAt.differentiableWithinAt) (C := 0.006)
      (fun z hz => by
        rw [(polyaErr_deriv (hd z hz)).deriv]
        rw [interior_Icc] at hz
        exact polyaErr'_mid hz.1.le hz.2.le)
      (33 / 20) (Set.left_mem_Icc.2 (by norm_num)) y ⟨h1, h2⟩ h1
    have h3 := polyaErr_left
    norm_num at *
    linarith
  rcases le_total x (33 / 20) with h | h
  · have h1 := polyaErr_mono polyaSign_left ⟨hx, h⟩ ⟨by norm_num, le_rfl⟩ h
    exact h1.trans (hmid _ le_rfl (by norm_num))
  rcases le_total x (83 / 50) with h' | h'
  · exact hmid x h h'
  · exact (polyaErr_anti (by norm_num) polyaSign_right (Set.mem_Ici.2 le_rfl) h' h').trans (hmid _ (by norm_num) le_rfl)

end RM
