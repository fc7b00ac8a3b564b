import Mathlib.Analysis.SpecialFunctions.ExpDeriv
import Mathlib.Analysis.SpecialFunctions.Gaussian.GaussianIntegral
import Mathlib.MeasureTheory.Integral.IntervalIntegral.FundThmCalculus
import Mathlib.Analysis.Real.Pi.Bounds
import Mathlib.Analysis.Complex.ExponentialBounds
import Verif.Model.Dist

/-!
C62: the exponential distribution. C63: the Gaussian distribution (exact arithmetic).
-/

namespace RM
open Outcome Scalar MeasureTheory

/-- C62: the three functions panic exactly when the argument is not `>= 0` (NaN included), for every rate and arithmetic. -/
theorem C62_panics {F : Type} [Scalar F] (d : ExpDist F) (x : F) :
    (d.pdf x = Outcome.panic ↔ (Scalar.zero <=. x) = false) ∧ (d.logpdf x = Outcome.panic ↔ (Scalar.zero <=. x) = false) ∧
    (d.cdf x = Outcome.panic ↔ (Scalar.zero <=. x) = false) := by
  unfold ExpDist.pdf ExpDist.logpdf ExpDist.cdf
  cases h : (Scalar.zero <=. x)
  · exact ⟨⟨fun _ => rfl, fun _ => rfl⟩, ⟨fun _ => rfl, fun _ => rfl⟩, ⟨fun _ => rfl, fun _ => rfl⟩⟩
  · refine ⟨⟨fun h => ?_, fun h => by cases h⟩, ⟨fun h => ?_, fun h => by cases h⟩, ⟨fun h => ?_, fun h => by cases h⟩⟩ <;> cases h

/-- C62: for a positive rate and non-negative arguments the pdf, logpdf and cdf have values `p`, `l`, `c` with: the cdf is 0 at
0, strictly increasing, tends to 1; its derivative is the pdf and it is the integral of the pdf from 0; `l = ln p`. -/
theorem C62_consistent (lam : ℝ) (hl : 0 < lam) :
    ∃ p l c : ℝ → ℝ, (∀ x, 0 ≤ x → (ExpDist.mk lam).pdf x = ok (p x) ∧ (ExpDist.mk lam).logpdf x = ok (l x) ∧ (ExpDist.mk lam).cdf x = ok (c x)) ∧
      c 0 = 0 ∧ StrictMonoOn c (Set.Ici 0) ∧ Filter.Tendsto c Filter.atTop (nhds 1) ∧ (∀ x, 0 ≤ x → HasDerivAt c (p x) x) ∧
      (∀ x, 0 ≤ x → ∫ t in (0 : ℝ)..x, p t = c x) ∧ (∀ x, 0 ≤ x → 0 < p x ∧ l x = Real.log (p x)) ∧ p 0 = lam := by
  have hd : ∀ x : ℝ, HasDerivAt (fun x => 1 - Real.exp (-x * lam)) (Real.exp (-x * lam) * lam) x := by
    intro x
    have h1 : HasDerivAt (fun x : ℝ => -x * lam) (-lam) x := by
      have := (hasDerivAt_neg x).mul_const lam
      simpa using this
    have := h1.exp.const_sub 1
    simpa using this
  refine ⟨fun x => Real.exp (-x * lam) * lam, fun x => Real.log lam - x * lam, fun x => 1 - Real.exp (-x * lam), ?_, by simp, ?_, ?_, fun x _ => hd x, ?_, ?_, by simp⟩
  · intro x hx
    unfold ExpDist.pdf ExpDist.logpdf ExpDist.cdf
    have : (Scalar.zero <=. x) = true := by simpa using hx
    rw [this]
    exact ⟨rfl, rfl, rfl⟩
  · intro a _ b _ hab
    simp only
    have : Real.exp (-b * lam) < Real.exp (-a * lam) := by rw [Real.exp_lt_exp]; nlinarith
    linarith
  · have h1 : Filter.Tendsto (fun x : ℝ => -x * lam) Filter.atTop Filter.atBot := by
      have := (Filter.tendsto_neg_atTop_atBot (G := ℝ)).atBot_mul_const hl
      simpa using this
    have := (Real.tendsto_exp_atBot.comp h1).const_sub 1
    simpa [Function.comp_def] using this
  · intro x hx
    have := intervalIntegral.integral_eq_sub_of_hasDerivAt (a := 0) (b := x) (f := fun x => 1 - Real.exp (-x * lam)) (f' := fun x => Real.exp (-x * lam) * lam)
      (fun t _ => hd t) (Continuous.intervalIntegrable (by fun_prop) _ _)
    rw [this]
    simp
  · intro x _
    refine ⟨mul_pos (Real.exp_pos _) hl, ?_⟩
    rw [Real.log_mul (Real.exp_pos _).ne' hl.ne', Real.log_exp]
    ring

/-- C62, sampling: a sample of rate `lam` is at most `x` exactly when the `Exp1` draw is at most `lam * x`, and the cdf at `x` is
the unit-rate cdf at `lam * x`: samples follow the cdf whenever `Exp1` draws follow the unit-rate one. -/
theorem C62_sample (lam : ℝ) (hl : 0 < lam) (n x : ℝ) (hx : 0 ≤ x) :
    ((ExpDist.mk lam).sample n ≤ x ↔ n ≤ lam * x) ∧ (ExpDist.mk lam).cdf x = (ExpDist.mk 1).cdf (lam * x) := by
  constructor
  · show n / lam ≤ x ↔ _
    rw [div_le_iff₀ hl, mul_comm]
  · unfold ExpDist.cdf
    have h1 : (Scalar.zero <=. x) = true := by simpa using hx
    have h2 : (Scalar.zero <=. lam * x) = true := by simpa using mul_nonneg hl.le hx
    rw [h1, h2]
    simp only [assert_true, ok_bind, real_sub, real_one, real_exp, real_mul, real_neg]
    congr 3
    ring

/-- The constructor takes any rate; with a negative one the "density" is negative. -/
theorem C62_no_validation : (ExpDist.mk (-1 : ℝ)).pdf 0 = ok (-1) := by
  unfold ExpDist.pdf
  simp

/-- Example. -/
example : (ExpDist.mk (2 : ℝ)).cdf 0 = ok 0 ∧ (ExpDist.mk (2 : ℝ)).pdf (-1) = Outcome.panic := by
  unfold ExpDist.cdf ExpDist.pdf
  constructor
  · simp
  · have : (Scalar.zero <=. (-1 : ℝ)) = false := by simp
    rw [this]; rfl

/-! ### Gaussian -/

/-- `exp (LN_2_PI / 2)` is `SQRT_2_PI` up to `10^-30`. -/
theorem exp_half_ln2Pi : |Real.exp ((ln2Pi : ℝ) / 2) - (sqrt2Pi : ℝ)| ≤ 1 / 10 ^ 30 := by
  simp only [sqrt2Pi, ln2Pi, real_ofRat]
  have h := Real.exp_bound (x := ((1.83787706640934548356065947281123527 : ℚ) : ℝ) / 2) (by rw [abs_le]; norm_num) (n := 30) (by norm_num)
  have hs : |(∑ m ∈ Finset.range 30, (((1.83787706640934548356065947281123527 : ℚ) : ℝ) / 2) ^ m / (m.factorial : ℝ)) - ((2.50662827463100050241576528481104525 : ℚ) : ℝ)| ≤ 1 / 10 ^ 31 := by
    rw [abs_le]
    constructor
    · norm_num [Finset.sum_range_succ, Nat.factorial]
    · norm_num [Finset.sum_range_succ, Nat.factorial]
  have h2 : |((1.83787706640934548356065947281123527 : ℚ) : ℝ) / 2| ^ 30 * ((Nat.succ 30 : ℝ) / ((Nat.factorial 30 : ℝ) * (30 : ℕ))) ≤ 1 / 10 ^ 31 := by
    rw [abs_of_nonneg (by norm_num)]
    norm_num [Nat.factorial]
  rw [abs_le] at *
  have : (2 : ℝ) / 10 ^ 31 ≤ 1 / 10 ^ 30 := by norm_num
  constructor <;> linarith [h.1, h.2, hs.1, hs.2]

theorem sqrt2Pi_pos : (2 : ℝ) < sqrt2Pi := by
  simp only [sqrt2Pi, real_ofRat]; norm_num

/-- The library's `SQRT_2_PI` is `sqrt (2π)` up to `10^-20`. -/
theorem sqrt2Pi_bound : |Real.sqrt (2 * Real.pi) - (sqrt2Pi : ℝ)| ≤ 1 / 10 ^ 20 := by
  have h1 := Real.pi_gt_d20
  have h2 := Real.pi_lt_d20
  have hs : (sqrt2Pi : ℝ) = 2.50662827463100050241576528481104525 := by simp only [sqrt2Pi, real_ofRat]; norm_num
  rw [hs, abs_le]
  constructor
  · have : (2.50662827463100050241576528481104525 - 1 / 10 ^ 20 : ℝ) ≤ Real.sqrt (2 * Real.pi) := by
      apply Real.le_sqrt_of_sq_le
      refine le_trans ?_ (by linarith : (2 * 3.14159265358979323846 : ℝ) ≤ _)
      norm_num
    linarith
  · have : Real.sqrt (2 * Real.pi) ≤ (2.50662827463100050241576528481104525 + 1 / 10 ^ 20 : ℝ) := by
      rw [Real.sqrt_le_left (by norm_num)]
      refine le_trans (by linarith : _ ≤ (2 * 3.14159265358979323847 : ℝ)) ?_
      norm_num
    linarith

theorem gauss_pdf (m v x : ℝ) : (GaussDist.new m v).pdf x = Real.exp (-((x - m) ^ 2 / (2 * v))) / (sqrt2Pi * Real.sqrt v) := by
  unfold GaussDist.pdf GaussDist.new
  simp only [real_exp, real_div, real_mul, real_neg, real_sub, real_ofNat, real_sqrt]
  congr 2
  push_cast
  ring

/-- C63: the two constructors agree. -/
theorem C63_constructors (m s : ℝ) (hs : 0 ≤ s) : GaussDist.fromStdDev m s = GaussDist.new m (s ^ 2) := by
  unfold GaussDist.fromStdDev GaussDist.new
  simp only [real_mul, real_sqrt]
  rw [Real.sqrt_sq hs, sq]

/-- C63: `logpdf` is the logarithm of `pdf` up to `10^-30` (the rounding of the decimal constants of the library). -/
theorem C63_logpdf (m v x : ℝ) (hv : 0 < v) : |(GaussDist.new m v).logpdf x - Real.log ((GaussDist.new m v).pdf x)| ≤ 1 / 10 ^ 30 := by
  have hS : (0 : ℝ) < sqrt2Pi := by linarith [sqrt2Pi_pos]
  have hsv := Real.sqrt_pos.2 hv
  have e : (GaussDist.new m v).logpdf x - Real.log ((GaussDist.new m v).pdf x) = Real.log sqrt2Pi - ln2Pi / 2 := by
    rw [gauss_pdf, Real.log_div (Real.exp_pos _).ne' (mul_pos hS hsv).ne', Real.log_exp, Real.log_mul hS.ne' hsv.ne']
    unfold GaussDist.logpdf GaussDist.new
    simp only [real_div, real_mul, real_neg, real_sub, real_ofNat, real_sqrt, real_ln]
    push_cast
    ring
  rw [e]
  have h := exp_half_ln2Pi
  have hE := Real.exp_pos ((ln2Pi : ℝ) / 2)
  rw [abs_le] at h ⊢
  have he : (1 : ℝ) ≤ Real.exp (ln2Pi / 2) := by
    apply Real.one_le_exp
    simp only [ln2Pi, real_ofRat]; norm_num
  have hS1 := sqrt2Pi_pos
  constructor
  · have h1 := Real.log_le_sub_one_of_pos (div_pos hE hS)
    rw [Real.log_div hE.ne' hS.ne', Real.log_exp] at h1
    have h2 : Real.exp (ln2Pi / 2) / sqrt2Pi - 1 ≤ 1 / 10 ^ 30 := by
      rw [div_sub_one hS.ne', div_le_iff₀ hS]
      nlinarith [h.2]
    linarith
  · have h1 := Real.log_le_sub_one_of_pos (div_pos hS hE)
    rw [Real.log_div hS.ne' hE.ne', Real.log_exp] at h1
    have h2 : (sqrt2Pi : ℝ) / Real.exp (ln2Pi / 2) - 1 ≤ 1 / 10 ^ 30 := by
      rw [div_sub_one hE.ne', div_le_iff₀ hE]
      nlinarith [h.1]
    linarith

/-- C63: the pdf is positive, symmetric about the mean, and strictly smaller the further away from the mean, so maximal
exactly there. -/
theorem C63_pdf (m v : ℝ) (hv : 0 < v) :
    (∀ x, 0 < (GaussDist.new m v).pdf x) ∧ (∀ d, (GaussDist.new m v).pdf (m + d) = (GaussDist.new m v).pdf (m - d)) ∧
    ∀ x y, |x - m| < |y - m| → (GaussDist.new m v).pdf y < (GaussDist.new m v).pdf x := by
  have hS : (0 : ℝ) < sqrt2Pi := by linarith [sqrt2Pi_pos]
  have hsv := Real.sqrt_pos.2 hv
  refine ⟨?_, ?_, ?_⟩
  · intro x
    rw [gauss_pdf]
    positivity
  · intro d
    rw [gauss_pdf, gauss_pdf]
    congr 4
    ring
  · intro x y h
    rw [gauss_pdf, gauss_pdf]
    apply div_lt_div_of_pos_right _ (mul_pos hS hsv)
    rw [Real.exp_lt_exp, neg_lt_neg_iff]
    apply div_lt_div_of_pos_right _ (by positivity)
    exact sq_lt_sq.2 h

/-- C63: the pdf integrates to 1 up to `10^-20` (the rounding of `SQRT_2_PI`). -/
theorem C63_pdf_integral (m v : ℝ) (hv : 0 < v) : |(∫ x, (GaussDist.new m v).pdf x) - 1| ≤ 1 / 10 ^ 20 := by
  have hS : (2 : ℝ) < sqrt2Pi := sqrt2Pi_pos
  have hsv := Real.sqrt_pos.2 hv
  have e : ∫ x, (GaussDist.new m v).pdf x = Real.sqrt (2 * Real.pi) / sqrt2Pi := by
    have h1 : ∀ x, (GaussDist.new m v).pdf x = (fun y => Real.exp (-(1 / (2 * v)) * y ^ 2) / (sqrt2Pi * Real.sqrt v)) (x - m) := by
      intro x
      rw [gauss_pdf]
      simp only
      congr 2
      ring
    simp only [h1]
    rw [integral_sub_right_eq_self (μ := volume) (fun y => Real.exp (-(1 / (2 * v)) * y ^ 2) / (sqrt2Pi * Real.sqrt v)) m, integral_div, integral_gaussian]
    have : Real.sqrt (Real.pi / (1 / (2 * v))) = Real.sqrt (2 * Real.pi) * Real.sqrt v := by
      rw [← Real.sqrt_mul (by positivity)]
      congr 1
      field_simp
    rw [this]
    field_simp
  have hb := sqrt2Pi_bound
  rw [e, div_sub_one (by linarith), abs_div, abs_of_pos (by linarith : (0 : ℝ) < sqrt2Pi), div_le_iff₀ (by linarith)]
  refine hb.trans ?_
  have : (1 / 10 ^ 20 : ℝ) * 1 ≤ 1 / 10 ^ 20 * sqrt2Pi := mul_le_mul_of_nonneg_left (by linarith) (by positivity)
  simpa using this

theorem gauss_cdf (m v x : ℝ) : (GaussDist.new m v).cdf x =
    1 / 2 * (1 + (if x < m then -1 else 1) * Real.sqrt (1 - Real.exp (-(2 / Real.pi * (x - m) ^ 2 / v)))) := by
  unfold GaussDist.cdf GaussDist.new signum
  simp only [real_exp, real_div, real_mul, real_neg, real_sub, real_ofNat, real_sqrt, real_add, real_one, real_isNaN, real_signNeg, real_ofRat, real_pi]
  have : (decide (x - m < 0) = true) ↔ x < m := by simp
  simp only [this, Bool.false_eq_true, if_false]
  congr 1
  · norm_num
  · have e : -(((2 : ℕ) : ℝ) / Real.pi) * (x - m) * (x - m) / v = -(2 / Real.pi * (x - m) ^ 2 / v) := by
      push_cast
      ring
    rw [e]

/-- C63: the cdf is strictly increasing, lies strictly between 0 and 1, is 1/2 at the mean, is symmetric, and tends to 0
and 1. -/
theorem C63_cdf (m v : ℝ) (hv : 0 < v) :
    StrictMono (GaussDist.new m v).cdf ∧ (∀ x, 0 < (GaussDist.new m v).cdf x ∧ (GaussDist.new m v).cdf x < 1) ∧ (GaussDist.new m v).cdf m = 1 / 2 ∧
    (∀ d, (GaussDist.new m v).cdf (m + d) + (GaussDist.new m v).cdf (m - d) = 1) ∧
    Filter.Tendsto (GaussDist.new m v).cdf Filter.atTop (nhds 1) ∧ Filter.Tendsto (GaussDist.new m v).cdf Filter.atBot (nhds 0) := by
  have hpi := Real.pi_pos
  -- the value of the root at distance `d`
  let g : ℝ → ℝ := fun d => Real.sqrt (1 - Real.exp (-(2 / Real.pi * d ^ 2 / v)))
  have g0 : g 0 = 0 := by simp [g]
  have glt : ∀ d, g d < 1 := by
    intro d
    have := Real.exp_pos (-(2 / Real.pi * d ^ 2 / v))
    have : Real.sqrt (1 - Real.exp (-(2 / Real.pi * d ^ 2 / v))) < Real.sqrt 1 := Real.sqrt_lt_sqrt (by
      rw [sub_nonneg, Real.exp_le_one_iff, neg_nonpos]; positivity) (by linarith)
    simpa using this
  have gnn : ∀ d, 0 ≤ g d := fun d => Real.sqrt_nonneg _
  have gmono : ∀ a b, 0 ≤ a → a < b → g a < g b := by
    intro a b ha hab
    apply Real.sqrt_lt_sqrt
    · rw [sub_nonneg, Real.exp_le_one_iff, neg_nonpos]; positivity
    · have : Real.exp (-(2 / Real.pi * b ^ 2 / v)) < Real.exp (-(2 / Real.pi * a ^ 2 / v)) := by
        rw [Real.exp_lt_exp, neg_lt_neg_iff]
        apply div_lt_div_of_pos_right _ hv
        apply mul_lt_mul_of_pos_left _ (by positivity)
        nlinarith
      linarith
  have geven : ∀ d, g (-d) = g d := by intro d; simp [g]
  have hc : ∀ x, (GaussDist.new m v).cdf x = 1 / 2 * (1 + (if x < m then -1 else 1) * g (x - m)) := fun x => gauss_cdf m v x
  have hsym : ∀ d, (GaussDist.new m v).cdf (m + d) + (GaussDist.new m v).cdf (m - d) = 1 := by
    intro d
    rw [hc, hc, add_sub_cancel_left, show m - d - m = -d by ring, geven]
    rcases lt_trichotomy d 0 with h | h | h
    · rw [if_pos (by linarith), if_neg (by linarith)]; ring
    · subst h; rw [g0]; ring
    · rw [if_neg (by linarith), if_pos (by linarith)]; ring
  have htop : Filter.Tendsto (GaussDist.new m v).cdf Filter.atTop (nhds 1) := by
    have h1 : Filter.Tendsto (fun x : ℝ => -(2 / Real.pi * (x - m) ^ 2 / v)) Filter.atTop Filter.atBot := by
      have h2 : Filter.Tendsto (fun x : ℝ => (x - m) ^ 2) Filter.atTop Filter.atTop :=
        (Filter.tendsto_pow_atTop two_ne_zero).comp (Filter.tendsto_atTop_add_const_right _ (-m) Filter.tendsto_id)
      have h3 := Filter.tendsto_neg_atTop_atBot.comp ((h2.const_mul_atTop (by positivity : 0 < 2 / Real.pi)).atTop_div_const hv)
      exact h3
    have h2 : Filter.Tendsto (fun x => 1 / 2 * (1 + 1 * Real.sqrt (1 - Real.exp (-(2 / Real.pi * (x - m) ^ 2 / v))))) Filter.atTop (nhds (1 / 2 * (1 + 1 * Real.sqrt (1 - 0)))) :=
      (((Real.continuous_sqrt.tendsto _).comp ((Real.tendsto_exp_atBot.comp h1).const_sub 1)).const_mul 1 |>.const_add 1).const_mul (1 / 2)
    have e : (1 / 2 * (1 + 1 * Real.sqrt (1 - 0)) : ℝ) = 1 := by simp; norm_num
    rw [e] at h2
    refine h2.congr' ?_
    filter_upwards [Filter.eventually_ge_atTop m] with x hx
    rw [gauss_cdf, if_neg (not_lt.2 hx)]
  refine ⟨?_, ?_, ?_, hsym, htop, ?_⟩
  · intro x y hxy
    rw [hc, hc]
    by_cases hy : y < m
    · rw [if_pos (hxy.trans hy), if_pos hy]
      have := gmono (m - y) (m - x) (by linarith) (by linarith)
      rw [← geven (x - m), ← geven (y - m), neg_sub, neg_sub]
      linarith
    · rw [if_neg hy]
      by_cases hx : x < m
      · rw [if_pos hx]
        have h1 := gmono 0 (m - x) le_rfl (by linarith)
        rw [g0, ← neg_sub, geven] at h1
        have := gnn (y - m)
        linarith
      · rw [if_neg hx]
        have := gmono (x - m) (y - m) (by linarith) (by linarith)
        linarith
  · intro x
    rw [hc]
    have h1 := glt (x - m)
    have h2 := gnn (x - m)
    split
    · constructor <;> linarith
    · constructor <;> linarith
  · rw [hc, sub_self, g0]; norm_num
  · have h1 : ∀ x, (GaussDist.new m v).cdf x = 1 - (GaussDist.new m v).cdf (2 * m - x) := by
      intro x
      have := hsym (m - x)
      rw [show m + (m - x) = 2 * m - x by ring, show m - (m - x) = x by ring] at this
      linarith
    have h2 : Filter.Tendsto (fun x : ℝ => 2 * m - x) Filter.atBot Filter.atTop := by
      have := Filter.tendsto_atTop_add_const_left Filter.atBot (2 * m) (Filter.tendsto_neg_atBot_atTop (G := ℝ))
      simpa [sub_eq_add_neg] using this
    have h3 := (htop.comp h2).const_sub 1
    rw [sub_self] at h3
    exact h3.congr fun x => (h1 x).symm

/-- C63, sampling: a sample is at most `x` exactly when the standard normal draw is at most `(x - mean)/std_dev`. -/
theorem C63_sample (m v n x : ℝ) (hv : 0 < v) : (GaussDist.new m v).sample n ≤ x ↔ n ≤ (x - m) / Real.sqrt v := by
  have hsv := Real.sqrt_pos.2 hv
  unfold GaussDist.sample GaussDist.new
  simp only [real_add, real_mul, real_sqrt]
  rw [le_div_iff₀ hsv, mul_comm]
  constructor <;> intro h <;> linarith

end RM
