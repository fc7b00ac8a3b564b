import Verif.Model.Examples
import Verif.Props.Svm

/-! C119: the example programs run to the end. This file: examples/svm-sign_learner.rs, in arithmetic with infinities and NaN (the
training divides by zero in its first iteration). -/

namespace RM
open Outcome Scalar Spec

theorem tanh_alt (x : ℝ) : Real.tanh x = 1 - 2 / (Real.exp (2 * x) + 1) := by
  have h := Real.exp_pos x
  rw [Real.tanh_eq_sinh_div_cosh, Real.sinh_eq, Real.cosh_eq, Real.exp_neg, show 2 * x = x + x by ring, Real.exp_add]
  field_simp
  ring

theorem tanh_mono : StrictMono Real.tanh := by
  intro x y h
  rw [tanh_alt, tanh_alt]
  have h1 := Real.exp_pos (2 * x)
  have h2 : Real.exp (2 * x) < Real.exp (2 * y) := Real.exp_lt_exp.2 (by linarith)
  have : 2 / (Real.exp (2 * y) + 1) < 2 / (Real.exp (2 * x) + 1) := div_lt_div_of_pos_left (by norm_num) (by linarith) (by linarith)
  linarith

theorem tanh_hundred : 99 / 100 ≤ Real.tanh 100 := by
  rw [tanh_alt]
  have h1 := Real.add_one_le_exp (2 * 100 : ℝ)
  have : 2 / (Real.exp (2 * 100) + 1) ≤ 1 / 100 := by
    rw [div_le_div_iff₀ (by linarith) (by norm_num)]
    linarith
  linarith

/-- The training inputs of the example. -/
noncomputable def Spec.signX : Mat ℝ := ⟨1, [[-1 / 10], [-2], [-9], [-101], [-6667 / 10], [0], [1 / 10], [1], [11], [99], [4567 / 10]]⟩

/-- The training targets of the example. -/
def Spec.signY : List ℝ := [-1, -1, -1, -1, -1, 1, 1, 1, 1, 1, 1]

/-- The number of the iterations 37 to 99 that draw the sample at 0. -/
def Spec.lateZeros (draws : ℕ → ℕ) : ℕ := ((Finset.range 100).filter fun t => 37 ≤ t ∧ draws t % 11 = 5).card

/-- The number of the iterations 0 to 99 that draw another sample. -/
def Spec.nonZeros (draws : ℕ → ℕ) : ℕ := ((Finset.range 100).filter fun t => draws t % 11 ≠ 5).card

noncomputable def signK (u v : List ℝ) : ℝ := Real.tanh (100 * rdot u v + 0)

theorem signK_fin : FiniteKernel (hyperTanKernel (Scalar.ofRat 100) Scalar.zero) signK := by
  intro u v h
  unfold hyperTanKernel signK
  rw [dot_fins]
  simp

/-- The number of the iterations that add one to the multiplier of sample `i`. -/
noncomputable def signCount (draws : ℕ → ℕ) (i : ℕ) : ℕ :=
  ((Finset.range 100).filter fun t => draws t % 11 = i ∧ signY.getD i 0 * kernelMass signK signX i < 3 / 10 * (t : ℝ)).card

theorem sign_decision (a : ℕ → ℝ) (z : ℝ) : decision signK (3 / 10) signX signY a [z] =
    (-(a 0 * Real.tanh (100 * (1 + z * (-1 / 10)))) - a 1 * Real.tanh (100 * (1 + z * (-2))) - a 2 * Real.tanh (100 * (1 + z * (-9)))
      - a 3 * Real.tanh (100 * (1 + z * (-101))) - a 4 * Real.tanh (100 * (1 + z * (-6667 / 10))) + a 5 * Real.tanh 100
      + a 6 * Real.tanh (100 * (1 + z * (1 / 10))) + a 7 * Real.tanh (100 * (1 + z * 1)) + a 8 * Real.tanh (100 * (1 + z * 11))
      + a 9 * Real.tanh (100 * (1 + z * 99)) + a 10 * Real.tanh (100 * (1 + z * (4567 / 10)))) / (3 / 10) := by
  simp only [decision, signX, signY, signK, lifted, List.length_cons, List.length_nil, Nat.reduceAdd, Finset.sum_range_succ, Finset.sum_range_zero, List.getD_cons_zero, List.getD_cons_succ,
    rdot]
  simp
  ring

theorem sign_pos (a : ℕ → ℝ) (ha : ∀ i, 0 ≤ a i) {z : ℝ} (hz : 100 ≤ z) : 0 ≤ decision signK (3 / 10) signX signY a [z] := by
  rw [sign_decision]
  have hp : ∀ x : ℝ, 0 ≤ x → 0 ≤ Real.tanh x := fun x hx => by
    have := tanh_mono.monotone hx
    simpa using this
  have hn : ∀ x : ℝ, x ≤ 0 → Real.tanh x ≤ 0 := fun x hx => by
    have := tanh_mono.monotone hx
    simpa using this
  have h0 := mul_nonpos_of_nonneg_of_nonpos (ha 0) (hn (100 * (1 + z * (-1 / 10))) (by linarith))
  have h1 := mul_nonpos_of_nonneg_of_nonpos (ha 1) (hn (100 * (1 + z * (-2))) (by linarith))
  have h2 := mul_nonpos_of_nonneg_of_nonpos (ha 2) (hn (100 * (1 + z * (-9))) (by linarith))
  have h3 := mul_nonpos_of_nonneg_of_nonpos (ha 3) (hn (100 * (1 + z * (-101))) (by linarith))
  have h4 := mul_nonpos_of_nonneg_of_nonpos (ha 4) (hn (100 * (1 + z * (-6667 / 10))) (by linarith))
  have h5 := mul_nonneg (ha 5) (hp 100 (by norm_num))
  have h6 := mul_nonneg (ha 6) (hp (100 * (1 + z * (1 / 10))) (by linarith))
  have h7 := mul_nonneg (ha 7) (hp (100 * (1 + z * 1)) (by linarith))
  have h8 := mul_nonneg (ha 8) (hp (100 * (1 + z * 11)) (by linarith))
  have h9 := mul_nonneg (ha 9) (hp (100 * (1 + z * 99)) (by linarith))
  have h10 := mul_nonneg (ha 10) (hp (100 * (1 + z * (4567 / 10))) (by linarith))
  apply div_nonneg _ (by norm_num)
  linarith

theorem sign_neg (a : ℕ → ℝ) (ha : ∀ i, 0 ≤ a i) {z : ℝ} (hz : z ≤ -100) :
    a 5 * Real.tanh 100 - (a 0 + a 1 + a 2 + a 3 + a 4 + a 6 + a 7 + a 8 + a 9 + a 10) ≤ decision signK (3 / 10) signX signY a [z] * (3 / 10) ∧
    decision signK (3 / 10) signX signY a [z] * (3 / 10) ≤
      a 5 * Real.tanh 100 - (a 0 + a 1 + a 2 + a 3 + a 4 + a 6 + a 7 + a 8 + a 9 + a 10) * Real.tanh 900 := by
  rw [sign_decision, div_mul_cancel₀ _ (by norm_num)]
  have hp : ∀ x : ℝ, 900 ≤ x → Real.tanh 900 ≤ Real.tanh x ∧ Real.tanh x ≤ 1 := fun x hx => ⟨tanh_mono.monotone hx, (Real.tanh_lt_one x).le⟩
  have hn : ∀ x : ℝ, x ≤ -900 → -1 ≤ Real.tanh x ∧ Real.tanh x ≤ -Real.tanh 900 := fun x hx =>
    ⟨(Real.neg_one_lt_tanh x).le, by rw [← Real.tanh_neg]; exact tanh_mono.monotone hx⟩
  have b0 := hp (100 * (1 + z * (-1 / 10))) (by linarith)
  have b1 := hp (100 * (1 + z * (-2))) (by linarith)
  have b2 := hp (100 * (1 + z * (-9))) (by linarith)
  have b3 := hp (100 * (1 + z * (-101))) (by linarith)
  have b4 := hp (100 * (1 + z * (-6667 / 10))) (by linarith)
  have b6 := hn (100 * (1 + z * (1 / 10))) (by linarith)
  have b7 := hn (100 * (1 + z * 1)) (by linarith)
  have b8 := hn (100 * (1 + z * 11)) (by linarith)
  have b9 := hn (100 * (1 + z * 99)) (by linarith)
  have b10 := hn (100 * (1 + z * (4567 / 10))) (by linarith)
  have m (i : ℕ) {s t u : ℝ} (h : s ≤ t ∧ t ≤ u) : a i * s ≤ a i * t ∧ a i * t ≤ a i * u :=
    ⟨mul_le_mul_of_nonneg_left h.1 (ha i), mul_le_mul_of_nonneg_left h.2 (ha i)⟩
  have := m 0 b0; have := m 1 b1; have := m 2 b2; have := m 3 b3; have := m 4 b4
  have := m 6 b6; have := m 7 b7; have := m 8 b8; have := m 9 b9; have := m 10 b10
  constructor <;> linarith

theorem signK_le (u v : List ℝ) : |signK u v| ≤ 1 := (Real.abs_tanh_lt_one _).le

theorem signY_le (i : ℕ) : |signY.getD i 0| ≤ 1 := by
  by_cases h : i < 11
  · interval_cases i <;> simp [signY]
  · rw [getD_ge _ (by simp [signY]; omega)]
    simp

theorem sign_late (i : ℕ) {t : ℕ} (ht : 37 ≤ t) : signY.getD i 0 * kernelMass signK signX i < 3 / 10 * (t : ℝ) := by
  have h1 : |kernelMass signK signX i| ≤ 11 := by
    refine (Finset.abs_sum_le_sum_abs _ _).trans ?_
    refine (Finset.sum_le_sum fun j _ => signK_le _ _).trans ?_
    simp [signX]
  have h2 : |signY.getD i 0 * kernelMass signK signX i| ≤ 11 := by
    rw [abs_mul]
    have := mul_le_mul (signY_le i) h1 (abs_nonneg _) zero_le_one
    linarith
  have h3 : (37 : ℝ) ≤ t := by exact_mod_cast ht
  have := le_abs_self (signY.getD i 0 * kernelMass signK signX i)
  linarith

theorem sign_mass_zero : kernelMass signK signX 5 = 11 * Real.tanh 100 := by
  simp only [kernelMass, signX, signK, lifted, List.length_cons, List.length_nil, Nat.reduceAdd, Finset.sum_range_succ, Finset.sum_range_zero, List.getD_cons_zero,
    List.getD_cons_succ, rdot]
  simp
  ring

theorem signCount_zero (draws : ℕ → ℕ) : signCount draws 5 = lateZeros draws := by
  unfold signCount lateZeros
  congr 1
  refine Finset.filter_congr fun t _ => ?_
  constructor
  · rintro ⟨h1, h2⟩
    refine ⟨?_, h1⟩
    by_contra hlt
    have : (t : ℝ) ≤ 36 := by exact_mod_cast (by omega : t ≤ 36)
    rw [sign_mass_zero] at h2
    simp only [signY, List.getD_cons_zero, List.getD_cons_succ] at h2
    have := tanh_hundred
    linarith
  · rintro ⟨h1, h2⟩
    exact ⟨h2, sign_late 5 h1⟩

theorem signCount_others (draws : ℕ → ℕ) :
    let others := signCount draws 0 + signCount draws 1 + signCount draws 2 + signCount draws 3 + signCount draws 4 + signCount draws 6 + signCount draws 7
      + signCount draws 8 + signCount draws 9 + signCount draws 10
    63 ≤ others + lateZeros draws ∧ others ≤ nonZeros draws := by
  intro others
  let S : Finset ℕ := (Finset.range 100).filter fun t => draws t % 11 ≠ 5 ∧ signY.getD (draws t % 11) 0 * kernelMass signK signX (draws t % 11) < 3 / 10 * (t : ℝ)
  have hS : S.card = others := by
    rw [Finset.card_eq_sum_card_fiberwise (f := fun t => draws t % 11) (t := (Finset.range 11).erase 5)
      (by
        intro t ht
        have := (Finset.mem_filter.1 (Finset.mem_coe.1 ht)).2.1
        simp only [Finset.coe_erase, Finset.coe_range, Set.mem_sdiff, Set.mem_Iio, Set.mem_singleton_iff]
        exact ⟨Nat.mod_lt _ (by norm_num), this⟩)]
    have e : ∀ i ∈ (Finset.range 11).erase 5, (S.filter fun t => draws t % 11 = i).card = signCount draws i := by
      intro i hi
      have hi5 := (Finset.mem_erase.1 hi).1
      unfold signCount
      congr 1
      ext t
      simp only [S, Finset.mem_filter]
      constructor
      · rintro ⟨⟨h1, h2, h3⟩, rfl⟩
        exact ⟨h1, rfl, h3⟩
      · rintro ⟨h1, rfl, h3⟩
        exact ⟨⟨h1, hi5, h3⟩, rfl⟩
    rw [Finset.sum_congr rfl e, show (Finset.range 11).erase 5 = {0, 1, 2, 3, 4, 6, 7, 8, 9, 10} by decide]
    simp [others]
    ring
  constructor
  · have h1 : (Finset.range 100).filter (fun t => 37 ≤ t) ⊆ S ∪ (Finset.range 100).filter fun t => 37 ≤ t ∧ draws t % 11 = 5 := by
      intro t ht
      obtain ⟨h1, h2⟩ := Finset.mem_filter.1 ht
      by_cases h5 : draws t % 11 = 5
      · exact Finset.mem_union_right _ (Finset.mem_filter.2 ⟨h1, h2, h5⟩)
      · exact Finset.mem_union_left _ (Finset.mem_filter.2 ⟨h1, h5, sign_late _ h2⟩)
    have h2 := (Finset.card_le_card h1).trans (Finset.card_union_le _ _)
    rw [hS, show ((Finset.range 100).filter fun t => 37 ≤ t).card = 63 by decide] at h2
    exact h2
  · rw [← hS]
    exact Finset.card_le_card fun t ht => by
      obtain ⟨h1, h2, -⟩ := Finset.mem_filter.1 ht
      exact Finset.mem_filter.2 ⟨h1, h2⟩

theorem signTests_eq : signTests = [-1000, -900, -800, -700, -600, -500, -400, -300, -200, -100, 0, 100, 200, 300, 400, 500, 600, 700, 800, 900] := by
  decide +kernel

theorem signEvaluate_eq {m : Svm XR} (s : ℝ → ℝ) (hs : ∀ z : ℝ, m.predict (finMat ⟨1, [[z]]⟩) = ok [XR.fin (s z)]) (ns : List ℤ) (h k : ℕ) :
    signEvaluate m ns (h, k) = ok (h + (ns.filter fun n : ℤ => 0 < s n * n ∨ n = 0).length, k + (ns.filter fun n : ℤ => ¬ (0 < s n * n ∨ n = 0)).length) := by
  classical
  induction ns generalizing h k with
  | nil => simp [signEvaluate]
  | cons n ns ih =>
    rw [signEvaluate]
    have e : Mat.new 1 1 [(Scalar.ofRat n : XR)] = ok (finMat ⟨1, [[(n : ℝ)]]⟩) := by
      simp [Mat.new, finMat, chunk]
    rw [e, ok_bind, hs]
    simp only [expectOk, ok_bind, getAt, List.getElem?_cons_zero, ofOption]
    by_cases h1 : 0 < s n * n
    · rw [if_pos (show (Scalar.zero <. XR.fin (s n) *. Scalar.ofRat (n : ℚ)) = true by simpa using h1), ih, List.filter_cons_of_pos (by simp [h1]),
        List.filter_cons_of_neg (by simp [h1])]
      simp only [List.length_cons]
      congr 2
      omega
    · rw [if_neg (show ¬ (Scalar.zero <. XR.fin (s n) *. Scalar.ofRat (n : ℚ)) = true by simpa using h1)]
      by_cases h2 : n = 0
      · rw [if_pos (show ((Scalar.ofRat (n : ℚ) : XR) ==. Scalar.zero) = true by simp [h2]), ih, List.filter_cons_of_pos (by simp [h2]),
          List.filter_cons_of_neg (by simp [h2])]
        simp only [List.length_cons]
        congr 2
        omega
      · rw [if_neg (show ¬ ((Scalar.ofRat (n : ℚ) : XR) ==. Scalar.zero) = true by simp [h2]), ih, List.filter_cons_of_neg (by simp [h1, h2]),
          List.filter_cons_of_pos (by simp only [h1, h2]; decide)]
        simp only [List.length_cons]
        congr 2
        omega

/-- The result in terms of the multipliers. -/
theorem signExample_eq (draws : ℕ → ℕ) :
    signExample (F := XR) draws = if lateZeros draws ≤ signCount draws 0 + signCount draws 1 + signCount draws 2 + signCount draws 3 + signCount draws 4
      + signCount draws 6 + signCount draws 7 + signCount draws 8 + signCount draws 9 + signCount draws 10 then ok (20, 0) else ok (10, 10) := by
  classical
  obtain ⟨hO, -⟩ := signCount_others draws
  set O := signCount draws 0 + signCount draws 1 + signCount draws 2 + signCount draws 3 + signCount draws 4
      + signCount draws 6 + signCount draws 7 + signCount draws 8 + signCount draws 9 + signCount draws 10 with hOd
  have hX : signX.WF := by
    intro r hr
    simp only [signX, List.mem_cons, List.not_mem_nil, or_false] at hr
    rcases hr with rfl | rfl | rfl | rfl | rfl | rfl | rfl | rfl | rfl | rfl | rfl <;> rfl
  obtain ⟨m', h1, h2, h3, h4, h5, h6⟩ := C68_multipliers_partial (m := { ker := hyperTanKernel (Scalar.ofRat 100) Scalar.zero, lambda := Scalar.ofRat (3 / 10) })
    (k := signK) signK_fin (lambda := 3 / 10) (by simp) (by norm_num) hX (y := signY) rfl (by simp [signX]) (by simp) draws
  let a : ℕ → ℝ := fun i => (signCount draws i : ℝ) / 100
  have h6' : m'.alpha = some ((List.range signX.rows.length).map fun i => XR.fin (a i)) := by
    rw [h6]
    simp [a, signCount, signX]
  have hpred (z : ℝ) : m'.predict (finMat ⟨1, [[z]]⟩) = ok [XR.fin (if 0 ≤ decision signK (3 / 10) signX signY a [z] then 1 else -1)] := by
    rw [svm_predict_fin (k := signK) (by rw [h2]; exact signK_fin) (lambda := 3 / 10) (h3.trans (by simp)) (by norm_num) hX (Z := ⟨1, [[z]]⟩)
      (by simp [Mat.WF]) rfl (y := signY) rfl a h6' h4 h5]
    simp [fins]
  have hin : Mat.new 11 1 (signInputs.map Scalar.ofRat) = ok (finMat signX) := by
    simp [Mat.new, signInputs, signX, finMat, chunk]
  have hta : signTargets.map Scalar.ofRat = fins signY := by
    simp [signTargets, signY, fins]
  have e : signExample (F := XR) draws = signEvaluate m' signTests (0, 0) := by
    unfold signExample
    rw [hin, ok_bind, hta, h1]
    simp only [expectOk, ok_bind]
  rw [e, signEvaluate_eq _ hpred, signTests_eq]
  have ha : ∀ i, 0 ≤ a i := fun i => by positivity
  have hp (z : ℝ) (hz : 100 ≤ z) : (if 0 ≤ decision signK (3 / 10) signX signY a [z] then (1 : ℝ) else -1) = 1 := if_pos (sign_pos a ha hz)
  have ha5 : a 5 = lateZeros draws / 100 := by simp only [a, signCount_zero]
  have hao : a 0 + a 1 + a 2 + a 3 + a 4 + a 6 + a 7 + a 8 + a 9 + a 10 = O / 100 := by
    simp only [a, hOd]
    push_cast
    ring
  have h100 : (lateZeros draws : ℝ) ≤ 100 := by
    have : lateZeros draws ≤ 100 := by
      unfold lateZeros
      exact (Finset.card_filter_le _ _).trans (by simp)
    exact_mod_cast this
  have hn (z : ℝ) (hz : z ≤ -100) : (if 0 ≤ decision signK (3 / 10) signX signY a [z] then (1 : ℝ) else -1) = if lateZeros draws ≤ O then -1 else 1 := by
    obtain ⟨l, u⟩ := sign_neg a ha hz
    rw [ha5, hao] at l u
    have t1 := tanh_hundred
    have t2 : Real.tanh 100 < Real.tanh 900 := tanh_mono (by norm_num)
    by_cases hc : lateZeros draws ≤ O
    · have hc' : (lateZeros draws : ℝ) ≤ O := by exact_mod_cast hc
      have hO' : (0 : ℝ) < O := by
        have : 0 < O := by omega
        exact_mod_cast this
      rw [if_pos hc, if_neg]
      have : (lateZeros draws : ℝ) * Real.tanh 100 < O * Real.tanh 900 := by
        calc (lateZeros draws : ℝ) * Real.tanh 100 ≤ O * Real.tanh 100 := mul_le_mul_of_nonneg_right hc' (by linarith)
          _ < O * Real.tanh 900 := mul_lt_mul_of_pos_left t2 hO'
      linarith
    · have hc' : (O : ℝ) + 1 ≤ lateZeros draws := by exact_mod_cast (by omega : O + 1 ≤ lateZeros draws)
      rw [if_neg hc, if_pos]
      have : (lateZeros draws : ℝ) * (1 - Real.tanh 100) ≤ 100 * (1 / 100) :=
        mul_le_mul h100 (by linarith) (by linarith [Real.tanh_lt_one 100]) (by norm_num)
      nlinarith
  have htri : ∀ n ∈ ([-1000, -900, -800, -700, -600, -500, -400, -300, -200, -100, 0, 100, 200, 300, 400, 500, 600, 700, 800, 900] : List ℤ),
      n ≤ -100 ∨ n = 0 ∨ 100 ≤ n := by decide
  have hcase : ∀ n ∈ ([-1000, -900, -800, -700, -600, -500, -400, -300, -200, -100, 0, 100, 200, 300, 400, 500, 600, 700, 800, 900] : List ℤ),
      (0 < (if 0 ≤ decision signK (3 / 10) signX signY a [(n : ℝ)] then (1 : ℝ) else -1) * n ∨ n = 0) ↔ (0 ≤ n ∨ lateZeros draws ≤ O) := by
    intro n hmem
    rcases htri n hmem with h | h | h
    · have h' : (n : ℝ) ≤ -100 := by exact_mod_cast h
      rw [hn _ h']
      by_cases hc : lateZeros draws ≤ O
      · rw [if_pos hc]
        simp only [hc, or_true, iff_true]
        left
        linarith
      · rw [if_neg hc]
        simp only [hc, or_false, one_mul, Int.cast_pos]
        omega
    · simp [h]
    · have h' : (100 : ℝ) ≤ n := by exact_mod_cast h
      rw [hp _ h']
      have h1 : (0 : ℝ) < 1 * n := by linarith
      have h2 : 0 ≤ n := by omega
      exact ⟨fun _ => Or.inl h2, fun _ => Or.inl h1⟩
  have e1 := List.filter_congr (l := ([-1000, -900, -800, -700, -600, -500, -400, -300, -200, -100, 0, 100, 200, 300, 400, 500, 600, 700, 800, 900] : List ℤ))
    (p := fun n : ℤ => decide (0 < (if 0 ≤ decision signK (3 / 10) signX signY a [(n : ℝ)] then (1 : ℝ) else -1) * n ∨ n = 0))
    (q := fun n => decide (0 ≤ n ∨ lateZeros draws ≤ O)) fun n hmem => by simp only [hcase n hmem]
  have e2 := List.filter_congr (l := ([-1000, -900, -800, -700, -600, -500, -400, -300, -200, -100, 0, 100, 200, 300, 400, 500, 600, 700, 800, 900] : List ℤ))
    (p := fun n : ℤ => decide ¬ (0 < (if 0 ≤ decision signK (3 / 10) signX signY a [(n : ℝ)] then (1 : ℝ) else -1) * n ∨ n = 0))
    (q := fun n => decide ¬ (0 ≤ n ∨ lateZeros draws ≤ O)) fun n hmem => by simp only [hcase n hmem]
  rw [e1, e2]
  by_cases hc : lateZeros draws ≤ O
  · simp [hc]
  · simp only [hc, or_false, if_false]
    rfl

/-- **C119 (the sign example).** Whatever numbers are drawn, the program ends and either gets all 20 numbers right or exactly 10 of them. It gets
them all right when the sample at 0 is drawn in at most 31 of the iterations 37 to 99. It gets 10 wrong when these are more than the
iterations that draw another sample. -/
theorem C119_sign (draws : ℕ → ℕ) :
    (signExample (F := XR) draws = ok (20, 0) ∨ signExample (F := XR) draws = ok (10, 10)) ∧
    (lateZeros draws ≤ 31 → signExample (F := XR) draws = ok (20, 0)) ∧
    (nonZeros draws < lateZeros draws → signExample (F := XR) draws = ok (10, 10)) := by
  obtain ⟨h1, h2⟩ := signCount_others draws
  rw [signExample_eq]
  refine ⟨?_, fun h => ?_, fun h => ?_⟩
  · split <;> simp
  · rw [if_pos (by omega)]
  · rw [if_neg (by omega)]

/-- **C119 (how rare a bad run is).** Of all ways to draw one of the 11 samples in each of the 100 iterations, at most `2 ^ 63 / 11 ^ 32`, less than one in
`10 ^ 14`, get a number wrong. -/
theorem C119_sign_rare :
    {d : Fin 100 → Fin 11 | signExample (F := XR) (fun t => if h : t < 100 then (d ⟨t, h⟩ : ℕ) else 0) ≠ ok (20, 0)}.ncard * 10 ^ 14 ≤
      Fintype.card (Fin 100 → Fin 11) := by
  classical
  let late : Finset (Fin 100) := Finset.univ.filter fun i => 37 ≤ i.val
  have hlate : late.card = 63 := by decide
  let bad : Finset (Fin 100) → Finset (Fin 100 → Fin 11) := fun S => Fintype.piFinset fun i => if i ∈ S then {5} else Finset.univ
  have hbad : ∀ S ∈ Finset.powersetCard 32 late, (bad S).card = 11 ^ 68 := by
    intro S hS
    have hc := (Finset.mem_powersetCard.1 hS).2
    simp only [bad, Fintype.card_piFinset, apply_ite Finset.card, Finset.card_singleton, Finset.card_univ, Fintype.card_fin]
    rw [Finset.prod_ite, Finset.prod_const_one, one_mul, Finset.prod_const]
    congr 1
    rw [Finset.filter_not, Finset.card_sdiff_of_subset (Finset.filter_subset _ _)]
    simp [hc]
  have hsub : {d : Fin 100 → Fin 11 | signExample (F := XR) (fun t => if h : t < 100 then (d ⟨t, h⟩ : ℕ) else 0) ≠ ok (20, 0)} ⊆
      ↑((Finset.powersetCard 32 late).biUnion bad) := by
    intro d hd
    rw [Set.mem_ofPred_eq] at hd
    have h32 : 32 ≤ lateZeros (fun t => if h : t < 100 then (d ⟨t, h⟩ : ℕ) else 0) := by
      by_contra hlt
      exact hd ((C119_sign _).2.1 (by omega))
    have hcard : lateZeros (fun t => if h : t < 100 then (d ⟨t, h⟩ : ℕ) else 0) = (late.filter fun i => d i = 5).card := by
      unfold lateZeros
      refine (Finset.card_bij (fun (i : Fin 100) _ => i.val) ?_ ?_ ?_).symm
      · intro i hi
        obtain ⟨h1, h2⟩ := Finset.mem_filter.1 hi
        refine Finset.mem_filter.2 ⟨Finset.mem_range.2 i.isLt, (Finset.mem_filter.1 h1).2, ?_⟩
        simp [i.isLt, h2]
      · intro i _ j _ h
        exact Fin.ext h
      · intro t ht
        obtain ⟨h1, h2, h3⟩ := Finset.mem_filter.1 ht
        have h1 := Finset.mem_range.1 h1
        refine ⟨⟨t, h1⟩, Finset.mem_filter.2 ⟨Finset.mem_filter.2 ⟨Finset.mem_univ _, h2⟩, ?_⟩, rfl⟩
        simp only [h1, dite_true] at h3
        apply Fin.ext
        have := (d ⟨t, h1⟩).isLt
        rw [Nat.mod_eq_of_lt this] at h3
        exact h3
    rw [hcard] at h32
    have hex := Finset.exists_subset_card_eq (s := late.filter fun i => d i = 5) (n := 32) h32
    clear_value late
    obtain ⟨S, hS⟩ := hex
    have hS1 := hS.1
    have hS2 := hS.2
    refine Finset.mem_coe.2 (Finset.mem_biUnion.2 ⟨S, Finset.mem_powersetCard.2 ⟨hS1.trans (Finset.filter_subset _ _), hS2⟩, ?_⟩)
    refine Fintype.mem_piFinset.2 fun i => ?_
    by_cases hi : i ∈ S
    · rw [if_pos hi, Finset.mem_singleton]
      exact (Finset.mem_filter.1 (hS1 hi)).2
    · rw [if_neg hi]
      exact Finset.mem_univ _
  have hle := Set.ncard_le_ncard hsub (Finset.finite_toSet _)
  rw [Set.ncard_coe_finset] at hle
  have h2 : ((Finset.powersetCard 32 late).biUnion bad).card ≤ 2 ^ 63 * 11 ^ 68 := by
    refine Finset.card_biUnion_le.trans ?_
    rw [Finset.sum_congr rfl hbad, Finset.sum_const, Finset.card_powersetCard, hlate, smul_eq_mul]
    exact Nat.mul_le_mul_right _ (Nat.choose_le_two_pow 63 32)
  rw [Fintype.card_fun, Fintype.card_fin, Fintype.card_fin]
  refine (Nat.mul_le_mul_right _ (hle.trans h2)).trans ?_
  rw [show 11 ^ 100 = 11 ^ 32 * 11 ^ 68 by rw [← pow_add], mul_right_comm]
  exact Nat.mul_le_mul_right _ (by norm_num)

/-- Non-vacuity of C119: drawing the samples in turn gets everything right, drawing only the sample at 0 does not. -/
example : signExample (F := XR) id = ok (20, 0) ∧ signExample (F := XR) (fun _ => 5) = ok (10, 10) :=
  ⟨(C119_sign id).2.1 (by decide +kernel), (C119_sign fun _ => 5).2.2 (by decide +kernel)⟩

end RM
