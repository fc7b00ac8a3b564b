import Mathlib.Analysis.SpecialFunctions.Pow.Real
import Mathlib.Tactic.LinearCombination
import Verif.Props.Fmincg

/-! C81: the steps of the line search of conjugate gradient descent. -/

namespace RM
open Outcome Scalar Spec

/-- The cubic `c0 + c1 z + c2 z^2 + c3 z^3` has at `z` slope 0 and curvature at least 0. -/
def Spec.CubicMinAt (c1 c2 c3 z : ℝ) : Prop := c1 + 2 * c2 * z + 3 * c3 * z ^ 2 = 0 ∧ 0 ≤ 2 * c2 + 6 * c3 * z

/-- The cubic has value `f2` and slope `d2` at the present point and value `f3` and slope `d3` at distance `z3` from it. -/
structure Spec.CubicFits (c0 c1 c2 c3 : ℝ) (st : LineState ℝ) : Prop where
  v2 : c0 = st.f2
  s2 : c1 = st.d2
  v3 : c0 + c1 * st.z3 + c2 * st.z3 ^ 2 + c3 * st.z3 ^ 3 = st.f3
  s3 : c1 + 2 * c2 * st.z3 + 3 * c3 * st.z3 ^ 2 = st.d3

theorem cubic_coeffs {c0 c1 c2 c3 : ℝ} {st : LineState ℝ} (h : CubicFits c0 c1 c2 c3 st) (hz : st.z3 ≠ 0) :
    cubicA st = 3 * c3 * st.z3 ^ 2 ∧ cubicB st = c2 * st.z3 ^ 2 := by
  obtain ⟨rfl, rfl, hv, hs⟩ := id h
  unfold cubicA cubicB
  simp only [real_add, real_sub, real_mul, real_div, real_ofNat]
  constructor
  · field_simp
    push_cast
    linear_combination 6 * hv - 3 * st.z3 * hs
  · push_cast
    linear_combination (-3) * hv + st.z3 * hs

theorem cubic_root {c0 c1 c2 c3 : ℝ} {st : LineState ℝ} (h : CubicFits c0 c1 c2 c3 st) (hz : st.z3 ≠ 0) (hA : cubicA st ≠ 0) (hD : 0 ≤ cubicDisc st) :
    CubicMinAt c1 c2 c3 ((Scalar.sqrt (cubicDisc st) -. cubicB st) /. cubicA st) := by
  obtain ⟨ha, hb⟩ := cubic_coeffs h hz
  have hdisc : cubicDisc st = cubicB st * cubicB st - cubicA st * c1 * st.z3 * st.z3 := by rw [h.s2]; rfl
  have hsq : Real.sqrt (cubicDisc st) ^ 2 = cubicDisc st := Real.sq_sqrt hD
  set R := Real.sqrt (cubicDisc st) with hR
  have hR0 : 0 ≤ R := Real.sqrt_nonneg _
  have hz2 : (0 : ℝ) < st.z3 ^ 2 := by positivity
  show CubicMinAt c1 c2 c3 ((R - cubicB st) / cubicA st)
  set A := cubicA st
  set B := cubicB st
  have h1 : 3 * c3 = A / st.z3 ^ 2 := by rw [ha]; field_simp
  have h2 : c2 = B / st.z3 ^ 2 := by rw [hb]; field_simp
  constructor
  · rw [h1, h2]
    have : c1 * st.z3 ^ 2 * A + 2 * B * (R - B) + (R - B) ^ 2 = 0 := by
      rw [hdisc] at hsq
      linear_combination hsq
    field_simp
    linear_combination this
  · have : 2 * c2 + 6 * c3 * ((R - B) / A) = 2 * R / st.z3 ^ 2 := by
      rw [show 6 * c3 = 2 * (3 * c3) by ring, h1, h2]
      field_simp
      ring
    rw [this]
    positivity

/-- **C81 (interpolation).** While the step is too long, the next point is the minimiser of the parabola through both values and the
old slope (if the cost rose) or of the cubic through both values and slopes, moved, if need be, into the middle part of the bracket.
`z3` leads back to the point before, so it is negative after a step forward. -/
theorem C81_interpolate (o : ConjugateGD ℝ) (f1 : ℝ) (st : LineState ℝ) (hz : st.z3 < 0) (hi : o.int ≤ 1 / 2) :
    ∃ z, interpolate o f1 st = max (min z (o.int * st.z3)) ((1 - o.int) * st.z3) ∧
      (f1 < st.f2 → ∀ a b c : ℝ, a = st.f2 → a + b * st.z3 + c * st.z3 ^ 2 = st.f3 → b + 2 * c * st.z3 = st.d3 → c ≠ 0 → b + 2 * c * z = 0) ∧
      (st.f2 ≤ f1 → 0 ≤ cubicDisc st → ∀ c0 c1 c2 c3 : ℝ, CubicFits c0 c1 c2 c3 st → c3 ≠ 0 → CubicMinAt c1 c2 c3 z) := by
  refine ⟨if f1 < st.f2 then st.z3 - (1 / 2 * st.d3 * st.z3 * st.z3) / (st.d3 * st.z3 + st.f2 - st.f3)
    else (Scalar.sqrt (cubicDisc st) -. cubicB st) /. cubicA st, ?_, ?_, ?_⟩
  · unfold interpolate
    simp only [real_lt, real_le, real_sub, real_mul, real_div, real_add, real_ofRat, real_one, decide_eq_true_eq, real_isFinite, Bool.not_true,
      Bool.false_eq_true, if_false]
    have hlt : (1 - o.int) * st.z3 ≤ o.int * st.z3 := by nlinarith
    have hc : ((1 / 2 : ℚ) : ℝ) = 1 / 2 := by norm_num
    rw [hc]
    set w := if f1 < st.f2 then st.z3 - (1 / 2 * st.d3 * st.z3 * st.z3) / (st.d3 * st.z3 + st.f2 - st.f3)
      else (Scalar.sqrt (cubicDisc st) - cubicB st) / cubicA st with hw
    by_cases h1 : w ≤ o.int * st.z3
    · rw [if_pos h1, min_eq_left h1]
      by_cases h2 : w ≤ (1 - o.int) * st.z3
      · rw [if_pos h2, max_eq_right h2]
      · rw [if_neg h2, max_eq_left (not_le.1 h2).le]
    · rw [if_neg h1, min_eq_right (not_le.1 h1).le, max_eq_left hlt]
      split
      · linarith
      · rfl
  · intro h a b c ha hb hs hc
    rw [if_pos h]
    have hz0 : st.z3 ≠ 0 := hz.ne
    have hden : st.d3 * st.z3 + st.f2 - st.f3 = c * st.z3 ^ 2 := by
      rw [← ha, ← hb, ← hs]; ring
    have hcz : c * st.z3 ^ 2 ≠ 0 := mul_ne_zero hc (pow_ne_zero 2 hz0)
    rw [hden]
    field_simp
    rw [← hs]
    ring
  · intro h hD c0 c1 c2 c3 hf hc
    rw [if_neg (not_lt.2 h)]
    refine cubic_root hf hz.ne ?_ hD
    rw [(cubic_coeffs hf hz.ne).1]
    exact mul_ne_zero (mul_ne_zero three_ne_zero hc) (pow_ne_zero 2 hz.ne)

/-- **C81 (extrapolation).** While the step is too short, the next point is the minimiser of the cubic through both values and slopes, if that
lies ahead and within the allowed range: not nearer than `int` times the last step, and, before any step was too long, not beyond `ext` times the
present distance, and after one, in the last part of the bracket. Otherwise the step ends inside the range. -/
theorem C81_extrapolate (o : ConjugateGD ℝ) (st : LineState ℝ) (hz3 : st.z3 < 0) (hz1 : 0 ≤ st.z1) (hi0 : 0 < o.int) (hi : o.int ≤ 1) (he : 1 ≤ o.ext) :
    ∃ z, (0 ≤ cubicDisc st → ∀ c0 c1 c2 c3 : ℝ, CubicFits c0 c1 c2 c3 st → 0 < c2 → CubicMinAt c1 c2 c3 z) ∧
      (st.limit = -1 → 0 ≤ extrapolate o st ∧ st.z1 + extrapolate o st ≤ max (o.ext * st.z1) (st.z1 + o.int * -st.z3) ∧
        (o.int * -st.z3 ≤ z → st.z1 + z ≤ o.ext * st.z1 → extrapolate o st = z)) ∧
      (st.z1 ≤ st.limit → 0 ≤ extrapolate o st ∧ st.z1 + extrapolate o st ≤ max st.limit (st.z1 + o.int * -st.z3) ∧
        (o.int * -st.z3 ≤ z → (1 - o.int) * (st.limit - st.z1) ≤ z → st.z1 + z ≤ st.limit → extrapolate o st = z)) := by
  refine ⟨-st.d2 * st.z3 * st.z3 / (cubicB st + Real.sqrt (cubicDisc st)), ?_, ?_, ?_⟩
  · intro hD c0 c1 c2 c3 h hc2
    obtain ⟨ha, hb⟩ := cubic_coeffs h hz3.ne
    have hdisc : cubicDisc st = cubicB st * cubicB st - cubicA st * c1 * st.z3 * st.z3 := by rw [h.s2]; rfl
    have hsq : Real.sqrt (cubicDisc st) ^ 2 = cubicDisc st := Real.sq_sqrt hD
    have hR0 : 0 ≤ Real.sqrt (cubicDisc st) := Real.sqrt_nonneg _
    set R := Real.sqrt (cubicDisc st) with hR
    have hz0 : st.z3 ≠ 0 := hz3.ne
    have hz2 : (0 : ℝ) < st.z3 ^ 2 := by positivity
    rw [← h.s2]
    have hB : 0 < cubicB st := by rw [hb]; positivity
    set A := cubicA st
    set B := cubicB st
    have hS : B + R ≠ 0 := by positivity
    have h1 : 3 * c3 = A / st.z3 ^ 2 := by rw [ha]; field_simp
    have h2 : c2 = B / st.z3 ^ 2 := by rw [hb]; field_simp
    rw [hdisc] at hsq
    constructor
    · rw [h1, h2]
      have : (c1 + 2 * (B / st.z3 ^ 2) * (-c1 * st.z3 * st.z3 / (B + R)) + A / st.z3 ^ 2 * (-c1 * st.z3 * st.z3 / (B + R)) ^ 2) =
          c1 * (R ^ 2 - B * B + A * c1 * st.z3 * st.z3) / (B + R) ^ 2 := by
        field_simp
        ring
      rw [this, hsq]
      ring
    · have : 2 * c2 + 6 * c3 * (-c1 * st.z3 * st.z3 / (B + R)) = 2 * (B * B + B * R - A * c1 * st.z3 * st.z3) / ((B + R) * st.z3 ^ 2) := by
        rw [show 6 * c3 = 2 * (3 * c3) by ring, h1, h2]
        field_simp
        ring
      rw [this, show B * B + B * R - A * c1 * st.z3 * st.z3 = R ^ 2 + B * R by linear_combination -hsq]
      positivity
  · intro hl
    set z := -st.d2 * st.z3 * st.z3 / (cubicB st + Real.sqrt (cubicDisc st)) with hz
    have hex : extrapolate o st = if z < 0 then st.z1 * (o.ext - 1) else if st.z1 * o.ext < z + st.z1 then st.z1 * (o.ext - 1)
        else if z < -st.z3 * o.int then -st.z3 * o.int else z := by
      unfold extrapolate
      simp only [real_lt, real_sub, real_mul, real_div, real_add, real_ofRat, real_one, real_isFinite, Bool.not_true, hl, real_neg, real_zero, Bool.false_or,
        Bool.and_eq_true, decide_eq_true_eq]
      rw [hz]
      norm_num
    rw [hex]
    have h1 : 0 ≤ st.z1 * (o.ext - 1) := mul_nonneg hz1 (by linarith)
    have h2 : 0 < -st.z3 * o.int := mul_pos (by linarith) hi0
    refine ⟨?_, ?_, ?_⟩
    · split_ifs <;> linarith
    · split_ifs with a b c
      · exact le_max_of_le_left (by linarith)
      · exact le_max_of_le_left (by linarith)
      · exact le_max_of_le_right (by linarith)
      · exact le_max_of_le_left (by linarith)
    · intro a b
      rw [if_neg (by linarith), if_neg (by linarith), if_neg (by linarith)]
  · intro hl
    set z := -st.d2 * st.z3 * st.z3 / (cubicB st + Real.sqrt (cubicDisc st)) with hz
    have hl1 : -1 / 2 < st.limit := by linarith
    have hl2 : ¬ st.limit < -1 / 2 := by linarith
    have hex : extrapolate o st = if z < 0 then (st.limit - st.z1) / 2 else if st.limit < z + st.z1 then (st.limit - st.z1) / 2
        else if z < -st.z3 * o.int then -st.z3 * o.int else if z < (st.limit - st.z1) * (1 - o.int) then (st.limit - st.z1) * (1 - o.int) else z := by
      unfold extrapolate
      simp only [real_lt, real_sub, real_mul, real_div, real_add, real_ofRat, real_one, real_isFinite, Bool.not_true, real_neg, real_zero, Bool.false_or,
        Bool.and_eq_true, decide_eq_true_eq, real_ofNat]
      push_cast
      simp only [hl1, hl2, true_and, false_and, if_false]
      rfl
    rw [hex]
    have h2 : 0 < -st.z3 * o.int := mul_pos (by linarith) hi0
    have h3 : 0 ≤ (st.limit - st.z1) * (1 - o.int) := mul_nonneg (by linarith) (by linarith)
    have h4 : (st.limit - st.z1) * (1 - o.int) ≤ st.limit - st.z1 := by nlinarith
    refine ⟨?_, ?_, ?_⟩
    · split_ifs <;> linarith
    · split_ifs with a b c
      · exact le_max_of_le_left (by linarith)
      · exact le_max_of_le_left (by linarith)
      · exact le_max_of_le_right (by linarith)
      · exact le_max_of_le_left (by linarith)
      · exact le_max_of_le_left (by linarith)
    · intro a b c
      rw [if_neg (by linarith), if_neg (by linarith), if_neg (by linarith), if_neg (by linarith)]

/-- A state as after a first step of length 1 that went too far: the cost is `z^2 - z` along the direction, which is fitted by a cubic with `c3 = 0`. -/
noncomputable def tooFar : LineState ℝ := ⟨[], 0, [], 1, 0, -1, 1, -1, -1⟩

example : CubicFits 0 1 1 0 tooFar ∧ tooFar.z3 < 0 ∧ 0 ≤ cubicDisc tooFar ∧ (0 : ℝ) < 1 := by
  refine ⟨⟨rfl, rfl, ?_, ?_⟩, ?_, ?_, one_pos⟩ <;> norm_num [tooFar, cubicDisc, cubicA, cubicB]

/-- And one where the cubic has a proper cubic term: the cost `z^3 + z^2` seen from 1, after a step from 0. -/
noncomputable def cubicState : LineState ℝ := ⟨[], 2, [], 5, 0, 0, 1, -1, -1⟩

example : CubicFits 2 5 4 1 cubicState ∧ cubicState.z3 < 0 ∧ 0 ≤ cubicDisc cubicState ∧ (1 : ℝ) ≠ 0 := by
  refine ⟨⟨rfl, rfl, ?_, ?_⟩, ?_, ?_, one_ne_zero⟩ <;> norm_num [cubicState, cubicDisc, cubicA, cubicB]

end RM
