import Verif.Proofs.PSDIntegral

/-!
C60: kernels are symmetric and composable. C61: positive semi-definite kernels stay so under composition.
-/

namespace RM
open Outcome Scalar Spec

instance instSymmReal : SymmScalar ℝ where
  mul_comm := fun a b => mul_comm a b
  sub_sq := fun a b => by simp only [real_mul, real_sub]; ring

instance instSymmXR : SymmScalar XR where
  mul_comm := by
    intro a b
    show XR.mul a b = XR.mul b a
    cases a <;> cases b <;> simp [XR.mul, mul_comm]
  sub_sq := by
    intro a b
    show XR.mul (XR.add a (XR.neg b)) (XR.add a (XR.neg b)) = XR.mul (XR.add b (XR.neg a)) (XR.add b (XR.neg a))
    cases a <;> cases b <;> simp [XR.mul, XR.add, XR.neg]
    ring

section generic
variable {F : Type} [Scalar F] [SymmScalar F]

theorem dot_comm' (u v : List F) : dot u v = dot v u := by
  unfold dot
  congr 1
  rw [List.zipWith_comm]
  congr 1
  funext a b
  exact SymmScalar.mul_comm _ _

theorem dot_diff (u v : List F) :
    dot (List.zipWith Scalar.sub u v) (List.zipWith Scalar.sub u v) = dot (List.zipWith Scalar.sub v u) (List.zipWith Scalar.sub v u) := by
  unfold dot
  congr 1
  induction u generalizing v with
  | nil => simp
  | cons a u ih =>
    cases v with
    | nil => simp
    | cons b v =>
      simp only [List.zipWith_cons_cons]
      rw [ih v, SymmScalar.sub_sq]

theorem vecZip_diff (u v : List F) {β : Type} (f : F → Outcome β) :
    (do let diff ← vecZip Scalar.sub u v; f (dot diff diff)) = (do let diff ← vecZip Scalar.sub v u; f (dot diff diff)) := by
  unfold vecZip
  by_cases h : u.length = v.length
  · rw [if_pos h, if_pos h.symm, ok_bind, ok_bind, dot_diff]
  · rw [if_neg h, if_neg (Ne.symm h)]

/-- C60: every kernel that can be built is symmetric, panics included, for any arithmetic with a commutative product and
`(a-b)² = (b-a)²` (IEEE arithmetic included). -/
theorem C60_symmetric {K : Kernel F} (h : Built K) (x y : List F) : K x y = K y x := by
  induction h with
  | linear c => simp only [linearKernel, dot_comm' x y]
  | poly alpha c d => simp only [polyKernel, dot_comm' x y]
  | hyperTan alpha c => simp only [hyperTanKernel, dot_comm' x y]
  | sqExp ls ampl =>
    unfold sqExpKernel
    rw [Bool.beq_comm]
    congr 1
    funext _
    exact vecZip_diff x y fun s => ok (ampl *. Scalar.exp (Scalar.neg s /. ((Scalar.ofNat 2 *. ls) *. ls)))
  | exp ls ampl =>
    unfold expKernel
    rw [Bool.beq_comm]
    congr 1
    funext _
    exact vecZip_diff x y fun s => ok (ampl *. Scalar.exp (Scalar.neg (Scalar.sqrt s) /. ((Scalar.ofNat 2 *. ls) *. ls)))
  | multiquadric c =>
    unfold multiquadricKernel
    rw [Bool.beq_comm]
    congr 1
    funext _
    exact vecZip_diff x y fun s => ok (Scalar.sqrt (Scalar.sqrt s *. Scalar.sqrt s +. c *. c))
  | rationalQuadratic alpha ls =>
    unfold rationalQuadraticKernel
    exact vecZip_diff x y fun s => ok (Scalar.powf (Scalar.one +. s /. (((Scalar.ofNat 2 *. alpha) *. ls) *. ls)) (Scalar.neg alpha))
  | sum _ _ ih1 ih2 => unfold kernelSum; rw [ih1, ih2]
  | prod _ _ ih1 ih2 => unfold kernelProd; rw [ih1, ih2]

omit [SymmScalar F]

/-- C60: the value of a sum (product) kernel is the sum (product) of the values; it exists exactly when both do. -/
theorem C60_composition (k1 k2 : Kernel F) (x y : List F) (v : F) :
    (kernelSum k1 k2 x y = ok v ↔ ∃ a b, k1 x y = ok a ∧ k2 x y = ok b ∧ v = a +. b) ∧
    (kernelProd k1 k2 x y = ok v ↔ ∃ a b, k1 x y = ok a ∧ k2 x y = ok b ∧ v = a *. b) := by
  constructor
  · unfold kernelSum
    constructor
    · intro h
      obtain ⟨a, ha, h⟩ := bind_eq_ok.1 h
      obtain ⟨b, hb, h⟩ := bind_eq_ok.1 h
      cases h
      exact ⟨a, b, ha, hb, rfl⟩
    · rintro ⟨a, b, ha, hb, rfl⟩
      rw [ha, ok_bind, hb, ok_bind]
  · unfold kernelProd
    constructor
    · intro h
      obtain ⟨a, ha, h⟩ := bind_eq_ok.1 h
      obtain ⟨b, hb, h⟩ := bind_eq_ok.1 h
      cases h
      exact ⟨a, b, ha, hb, rfl⟩
    · rintro ⟨a, b, ha, hb, rfl⟩
      rw [ha, ok_bind, hb, ok_bind]

/-- C60: a kernel that can be built either returns a value or panics; on vectors of the same length it returns a value. The
kernels of the distance panic exactly on different lengths, whatever their parameters; those of the inner product never
panic (they ignore the tail of the longer vector). -/
theorem C60_panics (x y : List F) :
    (∀ K : Kernel F, Built K → (∃ v, K x y = ok v) ∨ (K x y = Outcome.panic ∧ x.length ≠ y.length)) ∧
    (∀ a b : F, (sqExpKernel a b x y = Outcome.panic ↔ x.length ≠ y.length) ∧ (expKernel a b x y = Outcome.panic ↔ x.length ≠ y.length) ∧
      (multiquadricKernel a x y = Outcome.panic ↔ x.length ≠ y.length) ∧ (rationalQuadraticKernel a b x y = Outcome.panic ↔ x.length ≠ y.length)) ∧
    ∀ a b c : F, (∃ v, linearKernel a x y = ok v) ∧ (∃ v, polyKernel a b c x y = ok v) ∧ ∃ v, hyperTanKernel a b x y = ok v := by
  have hd : ∀ a b : F, (x.length = y.length → ∃ v, sqExpKernel a b x y = ok v) ∧ (x.length ≠ y.length → sqExpKernel a b x y = Outcome.panic) := by
    intro a b
    unfold sqExpKernel vecZip
    exact ⟨fun h => ⟨_, by simp only [h, beq_self_eq_true, assert_true, ok_bind, if_true]; rfl⟩, fun h => by
      have : (x.length == y.length) = false := by simpa using h
      rw [this]; rfl⟩
  have he : ∀ a b : F, (x.length = y.length → ∃ v, expKernel a b x y = ok v) ∧ (x.length ≠ y.length → expKernel a b x y = Outcome.panic) := by
    intro a b
    unfold expKernel vecZip
    exact ⟨fun h => ⟨_, by simp only [h, beq_self_eq_true, assert_true, ok_bind, if_true]; rfl⟩, fun h => by
      have : (x.length == y.length) = false := by simpa using h
      rw [this]; rfl⟩
  have hm : ∀ a : F, (x.length = y.length → ∃ v, multiquadricKernel a x y = ok v) ∧ (x.length ≠ y.length → multiquadricKernel a x y = Outcome.panic) := by
    intro a
    unfold multiquadricKernel vecZip
    exact ⟨fun h => ⟨_, by simp only [h, beq_self_eq_true, assert_true, ok_bind, if_true]; rfl⟩, fun h => by
      have : (x.length == y.length) = false := by simpa using h
      rw [this]; rfl⟩
  have hr : ∀ a b : F, (x.length = y.length → ∃ v, rationalQuadraticKernel a b x y = ok v) ∧ (x.length ≠ y.length → rationalQuadraticKernel a b x y = Outcome.panic) := by
    intro a b
    unfold rationalQuadraticKernel vecZip
    exact ⟨fun h => ⟨_, by simp only [h, ok_bind, if_true]; rfl⟩, fun h => by rw [if_neg h]; rfl⟩
  have iff_of : ∀ {o : Outcome F} {p : Prop}, ((p → ∃ v, o = ok v) ∧ (¬p → o = Outcome.panic)) → (o = Outcome.panic ↔ ¬p) := by
    rintro o p ⟨h1, h2⟩
    refine ⟨fun h hp => ?_, h2⟩
    obtain ⟨v, hv⟩ := h1 hp
    rw [hv] at h; cases h
  have or_of : ∀ {o : Outcome F} {p : Prop}, ((p → ∃ v, o = ok v) ∧ (¬p → o = Outcome.panic)) → (∃ v, o = ok v) ∨ (o = Outcome.panic ∧ ¬p) := by
    rintro o p ⟨h1, h2⟩
    by_cases hp : p
    · exact Or.inl (h1 hp)
    · exact Or.inr ⟨h2 hp, hp⟩
  refine ⟨?_, fun a b => ⟨iff_of (hd a b), iff_of (he a b), iff_of (hm a), iff_of (hr a b)⟩, fun a b c => ⟨⟨_, rfl⟩, ⟨_, rfl⟩, ⟨_, rfl⟩⟩⟩
  intro K hK
  induction hK with
  | linear c => exact Or.inl ⟨_, rfl⟩
  | poly alpha c d => exact Or.inl ⟨_, rfl⟩
  | hyperTan alpha c => exact Or.inl ⟨_, rfl⟩
  | sqExp ls ampl => exact or_of (hd ls ampl)
  | exp ls ampl => exact or_of (he ls ampl)
  | multiquadric c => exact or_of (hm c)
  | rationalQuadratic alpha ls => exact or_of (hr alpha ls)
  | @sum k1 k2 _ _ ih1 ih2 =>
    unfold kernelSum
    rcases ih1 with ⟨a, ha⟩ | ⟨ha, hn⟩
    · rcases ih2 with ⟨b, hb⟩ | ⟨hb, hn⟩
      · exact Or.inl ⟨_, by rw [ha, ok_bind, hb, ok_bind]⟩
      · exact Or.inr ⟨by rw [ha, ok_bind, hb]; rfl, hn⟩
    · exact Or.inr ⟨by rw [ha]; rfl, hn⟩
  | @prod k1 k2 _ _ ih1 ih2 =>
    unfold kernelProd
    rcases ih1 with ⟨a, ha⟩ | ⟨ha, hn⟩
    · rcases ih2 with ⟨b, hb⟩ | ⟨hb, hn⟩
      · exact Or.inl ⟨_, by rw [ha, ok_bind, hb, ok_bind]⟩
      · exact Or.inr ⟨by rw [ha, ok_bind, hb]; rfl, hn⟩
    · exact Or.inr ⟨by rw [ha]; rfl, hn⟩

end generic

theorem dot_diff_real (x y : List ℝ) : dot (List.zipWith Scalar.sub x y) (List.zipWith Scalar.sub x y) = sqDist x y := by
  rw [dot_real]
  unfold Spec.sqDist
  congr 1
  induction x generalizing y with
  | nil => simp
  | cons a x ih =>
    cases y with
    | nil => simp
    | cons b y =>
      simp only [List.zipWith_cons_cons, ih y, real_sub]
      rw [sq]

/-- C60: the values of the built-in kernels, in exact arithmetic. -/
theorem C60_values (x y : List ℝ) (h : x.length = y.length) (alpha c d ls ampl : ℝ) :
    linearKernel c x y = ok (innerProd x y + c) ∧
    polyKernel alpha c d x y = ok ((alpha * innerProd x y + c) ^ d) ∧
    hyperTanKernel alpha c x y = ok (Real.tanh (alpha * innerProd x y + c)) ∧
    sqExpKernel ls ampl x y = ok (ampl * Real.exp (-sqDist x y / (2 * ls ^ 2))) ∧
    expKernel ls ampl x y = ok (ampl * Real.exp (-Real.sqrt (sqDist x y) / (2 * ls ^ 2))) ∧
    multiquadricKernel c x y = ok (Real.sqrt (sqDist x y + c ^ 2)) ∧
    rationalQuadraticKernel alpha ls x y = ok ((1 + sqDist x y / (2 * alpha * ls ^ 2)) ^ (-alpha)) := by
  have hi : dot x y = innerProd x y := dot_real x y
  refine ⟨?_, ?_, ?_, ?_, ?_, ?_, ?_⟩
  · simp only [linearKernel, hi, real_add]
  · simp only [polyKernel, hi, real_add, real_mul, real_powf]
  · simp only [hyperTanKernel, hi, real_add, real_mul, real_tanh]
  · simp only [sqExpKernel, vecZip, h, beq_self_eq_true, assert_true, ok_bind, if_true, dot_diff_real, real_mul, real_exp, real_div, real_neg, real_ofNat]
    congr 4; push_cast; ring
  · simp only [expKernel, vecZip, h, beq_self_eq_true, assert_true, ok_bind, if_true, dot_diff_real, real_mul, real_exp, real_div, real_neg, real_ofNat, real_sqrt]
    congr 4; push_cast; ring
  · simp only [multiquadricKernel, vecZip, h, beq_self_eq_true, assert_true, ok_bind, if_true, dot_diff_real, real_mul, real_add, real_sqrt]
    rw [Real.mul_self_sqrt (sqDist_nonneg x y), sq]
  · simp only [rationalQuadraticKernel, vecZip, h, ok_bind, if_true, dot_diff_real, real_mul, real_add, real_div, real_neg, real_ofNat, real_powf, real_one]
    congr 4; push_cast; ring

/-- C61: Gram matrices of the linear, polynomial, squared exponential, exponential and rational quadratic kernels, and of
all their sums and products, are positive semi-definite on every finite set of points of a common dimension. -/
theorem C61_gram {K : Kernel ℝ} (h : PSDBuilt K) (d : ℕ) : PSDKernel K d := by
  induction h with
  | @linear c hc =>
    intro n x hx
    refine ⟨_, fun i j => (C60_values (x i) (x j) ((hx i).trans (hx j).symm) 0 c 0 0 0).1, ?_⟩
    exact (PSD.gram x hx).add (PSD.const hc)
  | @poly alpha c m ha hc =>
    intro n x hx
    refine ⟨_, fun i j => (C60_values (x i) (x j) ((hx i).trans (hx j).symm) alpha c m 0 0).2.1, ?_⟩
    simp only [Real.rpow_natCast]
    exact (((PSD.gram x hx).smul ha).add (PSD.const hc)).pow m
  | @sqExp ls ampl hl ha =>
    intro n x hx
    refine ⟨_, fun i j => (C60_values (x i) (x j) ((hx i).trans (hx j).symm) 0 0 0 ls ampl).2.2.2.1, ?_⟩
    have := (PSD.gauss x hx (t := 1 / (2 * ls ^ 2)) (by positivity)).smul ha
    convert this using 6
    ring
  | @exp ls ampl hl ha =>
    intro n x hx
    refine ⟨_, fun i j => (C60_values (x i) (x j) ((hx i).trans (hx j).symm) 0 0 0 ls ampl).2.2.2.2.1, ?_⟩
    have := (PSD.expDist x hx (b := 1 / (2 * ls ^ 2)) (by positivity)).smul ha
    convert this using 6
    ring
  | @rationalQuadratic alpha ls ha hl =>
    intro n x hx
    refine ⟨_, fun i j => (C60_values (x i) (x j) ((hx i).trans (hx j).symm) alpha 0 0 ls 0).2.2.2.2.2.2, ?_⟩
    have := (PSD.rationalQuadratic x hx (a := alpha) (b := 1 / (2 * alpha * ls ^ 2)) ha (by positivity))
    convert this using 5
    ring
  | @sum k1 k2 _ _ ih1 ih2 =>
    intro n x hx
    obtain ⟨G1, e1, p1⟩ := ih1 n x hx
    obtain ⟨G2, e2, p2⟩ := ih2 n x hx
    exact ⟨_, fun i j => by unfold kernelSum; rw [e1, ok_bind, e2, ok_bind]; rfl, p1.add p2⟩
  | @prod k1 k2 _ _ ih1 ih2 =>
    intro n x hx
    obtain ⟨G1, e1, p1⟩ := ih1 n x hx
    obtain ⟨G2, e2, p2⟩ := ih2 n x hx
    exact ⟨_, fun i j => by unfold kernelProd; rw [e1, ok_bind, e2, ok_bind]; rfl, p1.mul p2⟩

/-- C61: sums and products of any two kernels (the user's own included) with positive semi-definite Gram matrices have
positive semi-definite Gram matrices. -/
theorem C61_composition {k1 k2 : Kernel ℝ} {d : ℕ} (h1 : PSDKernel k1 d) (h2 : PSDKernel k2 d) :
    PSDKernel (kernelSum k1 k2) d ∧ PSDKernel (kernelProd k1 k2) d := by
  constructor
  · intro n x hx
    obtain ⟨G1, e1, p1⟩ := h1 n x hx
    obtain ⟨G2, e2, p2⟩ := h2 n x hx
    exact ⟨_, fun i j => by unfold kernelSum; rw [e1, ok_bind, e2, ok_bind]; rfl, p1.add p2⟩
  · intro n x hx
    obtain ⟨G1, e1, p1⟩ := h1 n x hx
    obtain ⟨G2, e2, p2⟩ := h2 n x hx
    exact ⟨_, fun i j => by unfold kernelProd; rw [e1, ok_bind, e2, ok_bind]; rfl, p1.mul p2⟩

/-- C61: squared exponential values lie in `(0, ampl]`; the value is `ampl` exactly for equal arguments, and it decreases
strictly with the distance. -/
theorem C61_sqExp_range {ls ampl : ℝ} (hl : ls ≠ 0) (ha : 0 < ampl) (x y : List ℝ) (h : x.length = y.length) :
    ∃ v, sqExpKernel ls ampl x y = ok v ∧ 0 < v ∧ v ≤ ampl ∧ (v = ampl ↔ x = y) ∧
      ∀ z, z.length = x.length → sqDist x y < sqDist x z → ∃ w, sqExpKernel ls ampl x z = ok w ∧ w < v := by
  refine ⟨_, (C60_values x y h 0 0 0 ls ampl).2.2.2.1, by positivity, ?_, ?_, ?_⟩
  · have : Real.exp (-sqDist x y / (2 * ls ^ 2)) ≤ 1 := by
      rw [Real.exp_le_one_iff]
      exact div_nonpos_of_nonpos_of_nonneg (neg_nonpos.2 (sqDist_nonneg x y)) (by positivity)
    nlinarith
  · constructor
    · intro hv
      have h1 : Real.exp (-sqDist x y / (2 * ls ^ 2)) = 1 := by
        have := mul_left_cancel₀ ha.ne' (hv.trans (mul_one ampl).symm)
        exact this
      rw [Real.exp_eq_one_iff, div_eq_zero_iff, neg_eq_zero] at h1
      rcases h1 with h1 | h1
      · exact eq_of_sqDist x y h h1
      · exact absurd h1 (by positivity)
    · rintro rfl
      simp
  · intro z hz hlt
    refine ⟨_, (C60_values x z hz.symm 0 0 0 ls ampl).2.2.2.1, ?_⟩
    apply mul_lt_mul_of_pos_left _ ha
    rw [Real.exp_lt_exp]
    exact div_lt_div_of_pos_right (by linarith) (by positivity)

/-- The other two kernels are not positive semi-definite: two points and the multiquadric kernel, one point and the
hyperbolic tangent kernel with a negative constant. -/
theorem C61_others_not_psd : ¬ PSDKernel (multiquadricKernel 0) 1 ∧ ∀ alpha c : ℝ, c < 0 → ¬ PSDKernel (hyperTanKernel alpha c) 1 := by
  constructor
  · intro h
    obtain ⟨G, hG, hp⟩ := h 2 (fun i => if i = 0 then [0] else [1]) (by intro i; fin_cases i <;> rfl)
    have e : ∀ i j, G i j = if i = j then 0 else 1 := by
      intro i j
      have := hG i j
      rw [(C60_values _ _ (by fin_cases i <;> fin_cases j <;> rfl) 0 0 0 0 0).2.2.2.2.2.1] at this
      injection this with this
      rw [← this]
      fin_cases i <;> fin_cases j <;> simp [sqDist]
    have := hp.2 (fun i => if i = 0 then 1 else -1)
    simp [Fin.sum_univ_two, e] at this
    norm_num at this
  · intro alpha c hc h
    obtain ⟨G, hG, hp⟩ := h 1 (fun _ => [0]) (by intro i; rfl)
    have := hp.2 fun _ => 1
    have e := hG 0 0
    rw [(C60_values [0] [0] rfl alpha c 0 0 0).2.2.1] at e
    injection e with e
    simp [innerProd] at e
    simp [← e] at this
    have hn : Real.tanh c < 0 := by
      rw [Real.tanh_eq_sinh_div_cosh]
      exact div_neg_of_neg_of_pos (Real.sinh_neg_iff.2 hc) (Real.cosh_pos c)
    linarith

/-- Example: a composite kernel, its value at two points, and that it is covered. -/
example : PSDBuilt (kernelSum (kernelProd (linearKernel 1) (sqExpKernel 1 2)) (polyKernel 1 0 (2 : ℕ))) :=
  .sum (.prod (.linear zero_le_one) (.sqExp one_ne_zero zero_le_two)) (.poly 2 zero_le_one le_rfl)

example : linearKernel 1 [1, 2] [3, (4 : ℝ)] = ok 12 ∧ linearKernel 1 [1, 2] [3, (4 : ℝ), 100] = ok 12 ∧ sqExpKernel 1 2 [1] [(1 : ℝ), 2] = Outcome.panic := by
  refine ⟨?_, ?_, ?_⟩
  · simp [linearKernel, dot, fsum]; norm_num
  · simp [linearKernel, dot, fsum]; norm_num
  · rfl

end RM
