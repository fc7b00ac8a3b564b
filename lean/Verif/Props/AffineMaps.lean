import Verif.Spec.AffineMaps
import Verif.Props.Transforms
import Verif.Props.Regression
import Verif.Props.NaiveBayes
import Verif.Props.Glm

/-! C92: invertible affine changes of the features. (C84 has the changes of units by positive factors.) C93: generalised linear
models and units. -/

set_option linter.unusedSectionVars false

namespace RM
open Outcome Scalar Spec Matrix

/-! ### Rescaled data -/

theorem rescaleRow_length (a b : ℕ → ℝ) (r : List ℝ) : (rescaleRow a b r).length = r.length := by simp [rescaleRow]

theorem rescaleRow_getD (a b : ℕ → ℝ) {r : List ℝ} {j : ℕ} (hj : j < r.length) : (rescaleRow a b r).getD j 0 = a j * r.getD j 0 + b j := by
  rw [getD_lt _ (by simpa [rescaleRow] using hj), getD_lt _ hj]
  simp [rescaleRow]

theorem rescale_wf (a b : ℕ → ℝ) {X : Mat ℝ} (h : X.WF) : (rescale a b X).WF := by
  intro r hr
  obtain ⟨r', hr', rfl⟩ := List.mem_map.1 hr
  rw [rescaleRow_length]
  exact h r' hr'

theorem col_rescale (a b : ℕ → ℝ) {X : Mat ℝ} (h : X.WF) {j : ℕ} (hj : j < X.cols) :
    Spec.col (rescale a b X) j = (Spec.col X j).map fun x => a j * x + b j := by
  unfold Spec.col rescale
  rw [List.map_map, List.map_map]
  apply List.map_congr_left
  intro r hr
  exact rescaleRow_getD a b (by rw [h r hr]; exact hj)

theorem nonConstant_affine {l : List ℝ} (h : NonConstant l) {a : ℝ} (ha : a ≠ 0) (b : ℝ) : NonConstant (l.map fun x => a * x + b) := by
  obtain ⟨x, hx, y, hy, hne⟩ := h
  refine ⟨_, List.mem_map_of_mem hx, _, List.mem_map_of_mem hy, fun h => hne ?_⟩
  have : a * x = a * y := by linarith
  exact mul_left_cancel₀ ha this



theorem classSamples_rescale (a b : ℕ → ℝ) : ∀ (X T : List (List ℝ)) (c : ℕ),
    classSamples (X.map (rescaleRow a b)) T c = (classSamples X T c).map (rescaleRow a b)
  | [], _, _ => by simp [classSamples]
  | _ :: _, [], _ => by simp [classSamples]
  | x :: X, t :: T, c => by
    have ih := classSamples_rescale a b X T c
    unfold classSamples at ih ⊢
    simp only [List.map_cons, List.zip_cons_cons, List.filter_cons]
    by_cases h : decide (classOf t = some c) = true
    · simp only [h, if_true, List.map_cons, ih]
    · simp only [h, if_false, ih, Bool.false_eq_true]

theorem classSamples_subset {X T : List (List ℝ)} {c : ℕ} {x : List ℝ} (h : x ∈ classSamples X T c) : x ∈ X := by
  unfold classSamples at h
  obtain ⟨p, hp, rfl⟩ := List.mem_map.1 h
  exact (List.of_mem_zip (List.mem_filter.1 hp).1).1

theorem normalPdf_affine {a : ℝ} (ha : a ≠ 0) (b m v x : ℝ) (hv : 0 < v) :
    normalPdf (a * m + b) (a ^ 2 * v) (a * x + b) = |a|⁻¹ * normalPdf m v x := by
  unfold normalPdf
  have h1 : Real.sqrt (2 * Real.pi * (a ^ 2 * v)) = |a| * Real.sqrt (2 * Real.pi * v) := by
    rw [show 2 * Real.pi * (a ^ 2 * v) = a ^ 2 * (2 * Real.pi * v) by ring, Real.sqrt_mul (sq_nonneg a), Real.sqrt_sq_eq_abs]
  have h2 : -(a * x + b - (a * m + b)) ^ 2 / (2 * (a ^ 2 * v)) = -(x - m) ^ 2 / (2 * v) := by
    have := pow_ne_zero 2 ha
    field_simp
    ring
  rw [h1, h2, mul_inv, mul_assoc]

theorem isFirstMax_unique {l : List ℝ} {i j : ℕ} (hi : IsFirstMax l i) (hj : IsFirstMax l j) : i = j := by
  obtain ⟨v, h1, h2, h3⟩ := hi
  obtain ⟨w, g1, g2, g3⟩ := hj
  have a1 := h2 w (List.mem_of_getElem? g1)
  have a2 := g2 v (List.mem_of_getElem? h1)
  rcases lt_trichotomy i j with h | h | h
  · have := g3 i v h h1; linarith
  · exact h
  · have := h3 j w h g1; linarith

theorem isFirstMax_shift {l : List ℝ} {i : ℕ} (c : ℝ) (h : IsFirstMax l i) : IsFirstMax (l.map (· - c)) i := by
  obtain ⟨v, h1, h2, h3⟩ := h
  refine ⟨v - c, by simp [h1], ?_, ?_⟩
  · intro x hx
    obtain ⟨y, hy, rfl⟩ := List.mem_map.1 hx
    have := h2 y hy
    linarith
  · intro t x ht hx
    rw [List.getElem?_map] at hx
    cases hl : l[t]? with
    | none => rw [hl] at hx; simp at hx
    | some y =>
      rw [hl] at hx
      simp at hx
      have := h3 t y ht hl
      linarith

theorem isOneHot_unique {k i : ℕ} {r r' : List ℝ} (h : IsOneHot k i r) (h' : IsOneHot k i r') : r = r' := by
  obtain ⟨h1, h2, h3⟩ := h
  obtain ⟨g1, g2, g3⟩ := h'
  apply List.ext_getElem (by rw [h1, g1])
  intro j q1 q2
  have a1 := h3 j (by omega)
  have a2 := g3 j (by omega)
  unfold coord at a1 a2
  rw [getD_lt _ q1] at a1
  rw [getD_lt _ q2] at a2
  rw [a1, a2]

/-- **C92 (Gaussian naive Bayes).** Training on the data in other units (each feature multiplied by a number that is not 0, and
shifted) succeeds when training on the original data does, and the predictions for data in the same units are the same, when every
class has samples and no feature is constant within a class. -/
theorem C92_naive_bayes (m m₁ m₂ : NaiveBayes (GaussD ℝ) ℝ) (X T : Mat ℝ) (hX : X.WF) (hT : T.WF) (hk : 0 < T.cols)
    (hn : X.rows.length = T.rows.length) (a b : ℕ → ℝ) (ha : ∀ j < X.cols, a j ≠ 0) (h : nbTrain gaussDistr m X T = (m₁, ok ()))
    (hcls : ∀ c < T.cols, 0 < classSize T.rows c ∧ ∀ j < X.cols, NonConstant ((classSamples X.rows T.rows c).map fun x => coord x j)) :
    ∃ m', nbTrain gaussDistr m₂ (rescale a b X) T = (m', ok ()) ∧
      ∀ Z : Mat ℝ, Z.WF → Z.cols = X.cols → ∃ P, nbPredict gaussDistr m₁ Z = ok P ∧ nbPredict gaussDistr m' (rescale a b Z) = ok P := by
  have hX' := rescale_wf a b hX
  have hn' : (rescale a b X).rows.length = T.rows.length := by simpa [rescale] using hn
  obtain ⟨m', h'⟩ := (C35_trains_iff m₂ (rescale a b X) T hX' hT hn').2 ((C35_trains_iff m X T hX hT hn).1 ⟨_, h⟩)
  refine ⟨m', h', ?_⟩
  intro Z hZ hc
  obtain ⟨L, P, l1, l2, l3, l4, l5⟩ := C34_predict_gaussian m m₁ X T Z hT hk hc h
  obtain ⟨L', P', k1, k2, k3, k4, k5⟩ := C34_predict_gaussian m₂ m' (rescale a b X) T (rescale a b Z) hT hk hc h'
  obtain ⟨L0, l1', l6, l7⟩ := C35_gaussian m m₁ X T Z hX hT hZ hc hn h
  obtain ⟨L0', k1', k6, k7⟩ := C35_gaussian m₂ m' (rescale a b X) T (rescale a b Z) hX' hT (rescale_wf a b hZ) hc hn' h'
  rw [l1] at l1'; injection l1' with l1'; subst l1'
  rw [k1] at k1'; injection k1' with k1'; subst k1'
  refine ⟨P, l2, ?_⟩
  rw [k2]
  have hPP : P' = P := by
    have hrows : P'.rows = P.rows := by
      have hlen := l5.length_eq
      have hlen' := k5.length_eq
      have hZr : (rescale a b Z).rows.length = Z.rows.length := by simp [rescale]
      apply List.ext_getElem (by rw [← hlen, ← hlen', l3, k3, hZr])
      intro i q1 q2
      have hiZ : i < Z.rows.length := by rw [← l3, hlen]; exact q2
      have hiL : i < L.rows.length := by rw [l3]; exact hiZ
      have hiL' : i < L'.rows.length := by rw [k3, hZr]; exact hiZ
      obtain ⟨r1, s, r2, r3⟩ := (List.forall₂_iff_get.1 l5).2 i hiL q2
      obtain ⟨r1', s', r2', r3'⟩ := (List.forall₂_iff_get.1 k5).2 i hiL' q1
      simp only [List.get_eq_getElem] at r1 r2 r3 r1' r2' r3'
      have hrow : L'.rows[i] = L.rows[i].map (· - Real.log (∏ j ∈ Finset.range X.cols, |a j|)) := by
        apply List.ext_getElem (by rw [List.length_map, r1, r1'])
        intro c p1 p2
        have hcT : c < T.cols := by rw [← r1']; exact p1
        obtain ⟨c1, c2⟩ := hcls c hcT
        have e1 := (l7 c hcT c1).2.2 c2 i hiZ
        have hnc' : ∀ j < X.cols, (classSamples (rescale a b X).rows T.rows c).map (fun x => coord x j) =
            ((classSamples X.rows T.rows c).map fun x => coord x j).map fun x => a j * x + b j := by
          intro j hj
          unfold rescale
          rw [classSamples_rescale, List.map_map, List.map_map]
          apply List.map_congr_left
          intro x hx
          exact rescaleRow_getD a b (by rw [hX x (classSamples_subset hx)]; exact hj)
        have e2 := (k7 c hcT c1).2.2 (fun j hj => by
          dsimp only
          rw [hnc' j hj]
          exact nonConstant_affine (c2 j hj) (ha j hj) _) i (by rw [hZr]; exact hiZ)
        have hprod : ∏ j ∈ Finset.range (rescale a b X).cols,
            normalPdf (Spec.mean ((classSamples (rescale a b X).rows T.rows c).map fun x => coord x j))
              (sampleVar ((classSamples (rescale a b X).rows T.rows c).map fun x => coord x j)) (coord (rowOf (rescale a b Z) i) j) =
            (∏ j ∈ Finset.range X.cols, |a j|)⁻¹ * ∏ j ∈ Finset.range X.cols,
            normalPdf (Spec.mean ((classSamples X.rows T.rows c).map fun x => coord x j))
              (sampleVar ((classSamples X.rows T.rows c).map fun x => coord x j)) (coord (rowOf Z i) j) := by
          rw [← Finset.prod_inv_distrib, ← Finset.prod_mul_distrib]
          apply Finset.prod_congr rfl
          intro j hj
          have hj' : j < X.cols := Finset.mem_range.1 hj
          have hne : (classSamples X.rows T.rows c).map (fun x => coord x j) ≠ [] := by
            have := NonConstant.length (c2 j hj')
            intro h; rw [h] at this; simp at this
          have hco : coord (rowOf (rescale a b Z) i) j = a j * coord (rowOf Z i) j + b j := by
            have : rowOf (rescale a b Z) i = rescaleRow a b (rowOf Z i) := by
              simp [rowOf, rescale, hiZ]
            rw [this]
            exact rescaleRow_getD a b (by rw [hZ _ (rowOf_mem hiZ), hc]; exact hj')
          rw [hnc' j hj', mean_affine _ hne, sampleVar_affine _ hne, hco, normalPdf_affine (ha j hj') _ _ _ _ (sampleVar_pos (c2 j hj'))]
        dsimp only at e1 e2
        rw [hprod, show (rescale a b X).rows.length = X.rows.length by simp [rescale]] at e2
        have hA : 0 < ∏ j ∈ Finset.range X.cols, |a j| := Finset.prod_pos fun j hj => abs_pos.2 (ha j (Finset.mem_range.1 hj))
        have e3 : Real.exp (coord (rowOf L' i) c) = (∏ j ∈ Finset.range X.cols, |a j|)⁻¹ * Real.exp (coord (rowOf L i) c) := by
          rw [e2, e1]; ring
        have e4 := congrArg Real.log e3
        rw [Real.log_exp, Real.log_mul (inv_ne_zero hA.ne') (Real.exp_pos _).ne', Real.log_exp, Real.log_inv] at e4
        have f1 : coord (rowOf L' i) c = L'.rows[i][c] := by
          unfold coord rowOf
          rw [getD_lt _ hiL', getD_lt _ p1]
        have f2 : coord (rowOf L i) c = L.rows[i][c]'(by rw [r1]; exact hcT) := by
          unfold coord rowOf
          rw [getD_lt _ hiL, getD_lt]
        rw [f1, f2] at e4
        rw [List.getElem_map, e4]
        ring
      have hs : s' = s := by
        have := isFirstMax_shift (Real.log (∏ j ∈ Finset.range X.cols, |a j|)) r2
        rw [← hrow] at this
        exact isFirstMax_unique r2' this
      rw [hs] at r3'
      exact isOneHot_unique r3' r3
    cases P; cases P'
    simp only at l4 k4 hrows
    rw [l4, k4, hrows]
  rw [hPP]

/-! ### Linear regression -/

theorem inner_fin {d : ℕ} {x w : List ℝ} (hx : x.length = d) (hw : w.length = d) : Spec.inner x w = ∑ i : Fin d, x.getD i 0 * w.getD i 0 := by
  rw [← dot_inner, dot_eq_range hx hw, Finset.sum_range]

/-- An invertible affine map of the features acts on affine functions. -/
theorem affine_pullback {d : ℕ} {φ : List ℝ → List ℝ} (h : InvertibleAffine d φ) :
    ∃ pull push : List ℝ → List ℝ, (∀ β, (pull β).length = d + 1) ∧ (∀ β, (push β).length = d + 1) ∧
      (∀ β, β.length = d + 1 → pull (push β) = β ∧ push (pull β) = β) ∧
      ∀ β x, β.length = d + 1 → x.length = d → affine β (φ x) = affine (pull β) x := by
  obtain ⟨M, c, hM, hφ⟩ := h
  have hMi : M * M⁻¹ = 1 := Matrix.mul_nonsing_inv _ hM
  have hiM : M⁻¹ * M = 1 := Matrix.nonsing_inv_mul _ hM
  let w : List ℝ → Fin d → ℝ := fun β => toV d β.tail
  let pull : List ℝ → List ℝ := fun β => (β.headD 0 + c ⬝ᵥ w β) :: List.ofFn (Mᵀ.mulVec (w β))
  let push : List ℝ → List ℝ := fun β => (β.headD 0 - c ⬝ᵥ (M⁻¹)ᵀ.mulVec (w β)) :: List.ofFn ((M⁻¹)ᵀ.mulVec (w β))
  have hcons : ∀ β : List ℝ, β.length = d + 1 → β = β.headD 0 :: List.ofFn (w β) := by
    intro β hb
    cases β with
    | nil => simp at hb
    | cons b β =>
      have : β.length = d := by simpa using hb
      show b :: β = b :: List.ofFn fun i : Fin d => β.getD i 0
      rw [ofFn_getD this]
  refine ⟨pull, push, fun β => by simp [pull], fun β => by simp [push], ?_, ?_⟩
  · intro β hb
    have hw1 : w (push β) = (M⁻¹)ᵀ.mulVec (w β) := toV_ofFn _
    have hw2 : w (pull β) = Mᵀ.mulVec (w β) := toV_ofFn _
    constructor
    · conv_rhs => rw [hcons β hb]
      show ((β.headD 0 - c ⬝ᵥ (M⁻¹)ᵀ.mulVec (w β)) + c ⬝ᵥ w (push β)) :: List.ofFn (Mᵀ.mulVec (w (push β))) = _
      rw [hw1, Matrix.mulVec_mulVec, ← Matrix.transpose_mul, hiM, Matrix.transpose_one, Matrix.one_mulVec, sub_add_cancel]
    · conv_rhs => rw [hcons β hb]
      show ((β.headD 0 + c ⬝ᵥ w β) - c ⬝ᵥ (M⁻¹)ᵀ.mulVec (w (pull β))) :: List.ofFn ((M⁻¹)ᵀ.mulVec (w (pull β))) = _
      rw [hw2, Matrix.mulVec_mulVec, ← Matrix.transpose_mul, hMi, Matrix.transpose_one, Matrix.one_mulVec, add_sub_cancel_right]
  · intro β x hb hx
    have ht : β.tail.length = d := by simp [hb]
    unfold affine
    show β.headD 0 + Spec.inner (φ x) β.tail = (β.headD 0 + c ⬝ᵥ w β) + Spec.inner x (List.ofFn (Mᵀ.mulVec (w β)))
    rw [inner_fin (by rw [hφ x hx]; simp) ht, inner_fin hx (by simp), hφ x hx, add_assoc]
    congr 1
    have e1 : ∀ i : Fin d, (List.ofFn fun i => ∑ j : Fin d, M i j * x.getD j 0 + c i).getD i 0 = ∑ j : Fin d, M i j * x.getD j 0 + c i := by
      intro i; simp
    have e2 : ∀ i : Fin d, (List.ofFn (Mᵀ.mulVec (w β))).getD i 0 = ∑ j : Fin d, M j i * w β j := by
      intro i; simp [Matrix.mulVec, dotProduct]
    have e4 : c ⬝ᵥ w β = ∑ i, c i * w β i := rfl
    simp only [e1, e2, e4]
    have e3 : ∀ i : Fin d, β.tail.getD i 0 = w β i := fun i => rfl
    simp only [e3, add_mul, Finset.sum_add_distrib, Finset.sum_mul, Finset.mul_sum]
    rw [add_comm, Finset.sum_comm]
    congr 1
    exact Finset.sum_congr rfl fun i _ => Finset.sum_congr rfl fun j _ => by ring

theorem mapRows_wf {X : Mat ℝ} (hX : X.WF) {φ : List ℝ → List ℝ} (hφ : InvertibleAffine X.cols φ) : (mapRows φ X).WF := by
  obtain ⟨M, c, -, h⟩ := hφ
  intro r hr
  obtain ⟨x, hx, rfl⟩ := List.mem_map.1 hr
  rw [h x (hX x hx)]
  simp [mapRows]

theorem rss_pullback {X : Mat ℝ} (hX : X.WF) {φ pull : List ℝ → List ℝ}
    (h : ∀ β x, β.length = X.cols + 1 → x.length = X.cols → affine β (φ x) = affine (pull β) x) (y β : List ℝ) (hb : β.length = X.cols + 1) :
    rss (mapRows φ X) y β = rss X y (pull β) := by
  unfold rss mapRows
  simp only
  rw [List.zipWith_map_left]
  congr 1
  have : ∀ (rows : List (List ℝ)) (y : List ℝ), (∀ x ∈ rows, x.length = X.cols) →
      List.zipWith (fun x t => (t - affine β (φ x)) ^ 2) rows y = List.zipWith (fun x t => (t - affine (pull β) x) ^ 2) rows y := by
    intro rows
    induction rows with
    | nil => intro y _; rfl
    | cons x rows ih =>
      intro y hx
      cases y with
      | nil => rfl
      | cons t y =>
        rw [List.zipWith_cons_cons, List.zipWith_cons_cons, ih y fun x hx' => hx x (by simp [hx']), h β x hb (hx x (by simp))]
  exact this X.rows y hX

theorem independent_mapRows {X : Mat ℝ} (hX : X.WF) {φ : List ℝ → List ℝ} (hφ : InvertibleAffine X.cols φ) (hI : AffinelyIndependent X) :
    AffinelyIndependent (mapRows φ X) := by
  obtain ⟨pull, push, h1, h2, h3, h4⟩ := affine_pullback hφ
  intro β hb h0
  have hz : ∀ x : List ℝ, affine (zeroVec (X.cols + 1)) x = 0 := by
    intro x
    unfold affine zeroVec Spec.inner
    simp only [List.replicate_succ, List.headD_cons, List.tail_cons, zero_add]
    have : ∀ (n : ℕ) (x : List ℝ), (List.zipWith (· * ·) x (List.replicate n (0 : ℝ))).sum = 0 := by
      intro n
      induction n with
      | zero => intro x; simp
      | succ n ih =>
        intro x
        cases x with
        | nil => simp
        | cons v x => rw [List.replicate_succ, List.zipWith_cons_cons, List.sum_cons, ih, mul_zero, add_zero]
    exact this _ _
  have hp := hI (pull β) (h1 β) fun x hx => by
    rw [← h4 β x hb (hX x hx)]
    exact h0 _ (List.mem_map_of_mem hx)
  have hq := hI (pull (zeroVec (X.cols + 1))) (h1 _) fun x hx => by
    rw [← h4 _ x (by simp [zeroVec]) (hX x hx), hz]
  have := (h3 β hb).2
  rw [hp, ← hq, (h3 _ (by simp [zeroVec])).2] at this
  exact this.symm

/-- **C92 (linear regression).** After any invertible affine change of the features, linear regression trains when it did before,
and predicts the same for every input. -/
theorem C92_linear_regression {solve : Mat ℝ → List ℝ → Outcome (List ℝ)} (hs : SolvesExactly solve) (hr : SolvesRegular solve) (X : Mat ℝ)
    (hX : X.WF) (y : List ℝ) (m : LinReg ℝ) (h : LinReg.train solve X y = ok m) {φ : List ℝ → List ℝ} (hφ : InvertibleAffine X.cols φ) :
    ∃ m', LinReg.train solve (mapRows φ X) y = ok m' ∧
      ∀ Z : Mat ℝ, Z.WF → Z.cols = X.cols → ∃ p, m.predict Z = ok p ∧ m'.predict (mapRows φ Z) = ok p := by
  obtain ⟨β, hm, hy, hb, -⟩ := linTrain_normal hs hX h
  have hX' := mapRows_wf hX hφ
  have hI := (C48_succeeds_iff hs hr X hX y hy).1 ⟨_, h⟩
  obtain ⟨m', h'⟩ := (C48_succeeds_iff hs hr (mapRows φ X) hX' y (by simpa [mapRows] using hy)).2 (independent_mapRows hX hφ hI)
  refine ⟨m', h', ?_⟩
  obtain ⟨β', hm', -, hb', -⟩ := linTrain_normal hs hX' h'
  obtain ⟨b1, p1, -, p2⟩ := C48_least_squares hs X hX y m h
  obtain ⟨b2, q1, -, q2⟩ := C48_least_squares hs _ hX' y m' h'
  rw [hm] at p1; injection p1 with p1; subst p1
  rw [hm'] at q1; injection q1 with q1; subst q1
  replace hb' : β'.length = X.cols + 1 := hb'
  obtain ⟨pull, push, h1, h2, h3, h4⟩ := affine_pullback hφ
  have heq : pull β' = β := by
    by_contra hne
    have a1 := p2 _ (h1 β') hne
    have a2 := q2 (push β) (h2 β) (fun hc => hne (by rw [← hc]; exact (h3 β hb).1))
    rw [rss_pullback hX h4 y β' hb', rss_pullback hX h4 y _ (h2 β), (h3 β hb).1] at a2
    exact lt_asymm a1 a2
  intro Z hZ hc
  refine ⟨_, by rw [hm]; exact C48_predict β Z (by rw [hb, hc]), ?_⟩
  rw [hm', C48_predict β' (mapRows φ Z) (by show β'.length = Z.cols + 1; rw [hb', hc])]
  congr 1
  unfold mapRows
  rw [List.map_map]
  apply List.map_congr_left
  intro z hz
  rw [Function.comp, h4 β' z hb' (by rw [hZ z hz, hc]), heq]

/-- Changing units feature by feature is such a map. -/
theorem C92_rescaling (a b : ℕ → ℝ) (d : ℕ) (ha : ∀ j < d, a j ≠ 0) : InvertibleAffine d (rescaleRow a b) := by
  refine ⟨Matrix.diagonal fun i : Fin d => a i, fun i => b i, ?_, ?_⟩
  · rw [Matrix.det_diagonal, isUnit_iff_ne_zero]
    exact Finset.prod_ne_zero_iff.2 fun i _ => ha i i.2
  · intro x hx
    apply List.ext_getElem (by simp [rescaleRow, hx])
    intro j h1 h2
    have hj : j < x.length := by simpa [rescaleRow] using h1
    simp only [rescaleRow, List.getElem_mapIdx, List.getElem_ofFn, Matrix.diagonal_apply, ite_mul, zero_mul, Finset.sum_ite_eq, Finset.mem_univ, if_true]
    rw [getD_lt 0 hj]

theorem units_independent : AffinelyIndependent ⟨1, [[1], [3], [4]]⟩ := by
  intro β hb h
  obtain ⟨a, b, rfl⟩ := List.length_eq_two.mp hb
  have h1 := h [1] (by simp)
  have h2 := h [3] (by simp)
  simp [affine, Spec.inner] at h1 h2
  have hb0 : b = 0 := by linarith
  have ha0 : a = 0 := by linarith
  subst hb0; subst ha0
  rfl

/-- The regression of C92 on three temperatures, in Celsius and in Fahrenheit. -/
example : ∃ m m' p, LinReg.train (gaussSolve (0 : ℝ)) ⟨1, [[1], [3], [4]]⟩ [2, 2, 7] = ok m ∧
    LinReg.train (gaussSolve (0 : ℝ)) (mapRows (rescaleRow (fun _ => 9 / 5) (fun _ => 32)) ⟨1, [[1], [3], [4]]⟩) [2, 2, 7] = ok m' ∧
    m.predict ⟨1, [[10]]⟩ = ok p ∧ m'.predict (mapRows (rescaleRow (fun _ => 9 / 5) (fun _ => 32)) ⟨1, [[10]]⟩) = ok p := by
  have hX : (⟨1, [[1], [3], [4]]⟩ : Mat ℝ).WF := by intro r hr; simp at hr; rcases hr with rfl | rfl | rfl <;> rfl
  obtain ⟨m, hm⟩ := (C48_succeeds_iff (gaussSolve_exact 0 le_rfl) gaussSolve_regular ⟨1, [[1], [3], [4]]⟩ hX [2, 2, 7] rfl).2 units_independent
  obtain ⟨m', h1, h2⟩ := C92_linear_regression (gaussSolve_exact 0 le_rfl) gaussSolve_regular _ hX _ m hm
    (C92_rescaling (fun _ => 9 / 5) (fun _ => 32) 1 (by intro j _; norm_num))
  obtain ⟨p, h3, h4⟩ := h2 ⟨1, [[10]]⟩ (by intro r hr; simp at hr; subst hr; rfl) rfl
  exact ⟨m, m', p, hm, h1, h3, h4⟩

/-! ### C93: generalised linear models -/

/-- **C93 (partial).** Missing: the other families, for which it is false (`C93_violation`). For the normal family the predictions
of a generalised linear model do not depend on the units of the features. -/
theorem C93_normal_partial {inverse : Mat ℝ → Outcome (Mat ℝ)} (hi : InvertsExactly inverse) (hr : InvertsRegular inverse) (X : Mat ℝ) (hX : X.WF)
    (hI : AffinelyIndependent X) (y : List ℝ) (hy : y.length = X.rows.length) {φ : List ℝ → List ℝ} (hφ : InvertibleAffine X.cols φ) :
    ∃ m m', Glm.train inverse ⟨.normal, none⟩ X y = ok m ∧ Glm.train inverse ⟨.normal, none⟩ (mapRows φ X) y = ok m' ∧
      ∀ Z : Mat ℝ, Z.WF → Z.cols = X.cols → ∃ p, m.predict Z = ok p ∧ m'.predict (mapRows φ Z) = ok p := by
  obtain ⟨β, h1, h2⟩ := C53_linear_regression hi hr (gaussSolve_exact 0 le_rfl) gaussSolve_regular X hX hI y hy
  obtain ⟨β', h1', h2'⟩ := C53_linear_regression hi hr (gaussSolve_exact 0 le_rfl) gaussSolve_regular (mapRows φ X) (mapRows_wf hX hφ)
    (independent_mapRows hX hφ hI) y (by simpa [mapRows] using hy)
  refine ⟨_, _, h1, h1', ?_⟩
  obtain ⟨m', g1, g2⟩ := C92_linear_regression (gaussSolve_exact 0 le_rfl) gaussSolve_regular X hX y _ h2 hφ
  rw [h2'] at g1
  injection g1 with g1
  subst g1
  intro Z hZ hc
  obtain ⟨p, p1, p2⟩ := g2 Z hZ hc
  refine ⟨p, ?_, ?_⟩
  · have : ∀ (β : List ℝ) (Z : Mat ℝ) (p : List ℝ), LinReg.predict ⟨some β⟩ Z = ok p → Glm.predict ⟨.normal, some β⟩ Z = ok p := by
      intro β Z p h
      unfold LinReg.predict at h
      unfold Glm.predict
      simp only at h ⊢
      obtain ⟨u, u1, u2⟩ := bind_eq_ok.1 h
      rw [u1, ok_bind, u2, ok_bind]
      congr 1
      exact (List.map_congr_left fun _ _ => rfl).trans (List.map_id _)
    exact this _ _ _ p1
  · have : ∀ (β : List ℝ) (Z : Mat ℝ) (p : List ℝ), LinReg.predict ⟨some β⟩ Z = ok p → Glm.predict ⟨.normal, some β⟩ Z = ok p := by
      intro β Z p h
      unfold LinReg.predict at h
      unfold Glm.predict
      simp only at h ⊢
      obtain ⟨u, u1, u2⟩ := bind_eq_ok.1 h
      rw [u1, ok_bind, u2, ok_bind]
      congr 1
      exact (List.map_congr_left fun _ _ => rfl).trans (List.map_id _)
    exact this _ _ _ p2

/-- Two samples and two parameters: a pass fits its working response exactly. -/
theorem irlsStep_two {inverse : Mat ℝ → Outcome (Mat ℝ)} (hi : InvertsExactly inverse) {u v : ℝ} {y mu z : List ℝ} (hy : y.length = 2)
    (hmu : mu.length = 2) (hz : z.length = 2) {s : List ℝ × List ℝ}
    (h : irlsStep inverse .bernoulli ⟨2, [[1, u], [1, v]]⟩ (Mat.transpose ⟨2, [[1, u], [1, v]]⟩) y mu z = ok s) :
    s.1 = List.zipWith (Family.adjust .bernoulli) y mu ∧ ∃ a b, s.2 = [a, b] ∧ z = [a + u * b, a + v * b] := by
  have hS : HasShape (⟨2, [[1, u], [1, v]]⟩ : Mat ℝ) 2 2 := ⟨rfl, rfl, by intro r hr; simp at hr; rcases hr with rfl | rfl <;> rfl⟩
  obtain ⟨s1, s2, s3, s4⟩ := irlsStep_ok hi hS hy hmu hz (w := mu.map fun m => floorWeight (Family.variance .bernoulli m)) rfl (by simpa using hmu) h
  refine ⟨s1, ?_⟩
  obtain ⟨a, b, hab⟩ := List.length_eq_two.mp s2
  refine ⟨a, b, hab, ?_⟩
  generalize hA : toM 2 2 (⟨2, [[1, u], [1, v]]⟩ : Mat ℝ) = A at s3 s4
  generalize toV 2 (mu.map fun m => floorWeight (Family.variance .bernoulli m)) = w at s3 s4
  have hB : (Aᵀ * diagonal w).det ≠ 0 := by
    intro h0
    apply s4
    rw [Matrix.det_mul, h0, zero_mul]
  have hu : IsUnit (Aᵀ * diagonal w).det := isUnit_iff_ne_zero.mpr hB
  have hfit : A.mulVec (toV 2 s.2) = toV 2 z := by
    have := congrArg ((Aᵀ * diagonal w)⁻¹.mulVec) s3
    rw [Matrix.mulVec_mulVec, Matrix.mulVec_mulVec, ← Matrix.mul_assoc, Matrix.nonsing_inv_mul _ hu, Matrix.one_mul, Matrix.one_mulVec] at this
    exact this
  apply toV_inj hz (by rfl)
  rw [← hfit, ← hA, hab]
  funext i
  rw [mulVec_row hS rfl]
  fin_cases i <;> simp [Spec.inner, toV]

theorem mulVec_two (u v a b : ℝ) : Mat.mulVec ⟨2, [[1, u], [1, v]]⟩ [a, b] = ok [a + u * b, a + v * b] := by
  unfold Mat.mulVec
  rw [if_pos (by rfl)]
  simp [dot_real]

/-- A target 0 pulls the linear predictor down. -/
theorem adjust_zero_nonpos {m : ℝ} (h0 : 0 < m) (h1 : m < 1) : (Family.bernoulli : Family ℝ).adjust 0 m ≤ 0 := by
  unfold Family.adjust
  simp only [real_sub, zero_sub]
  split
  · exact le_rfl
  · have : 0 < 1 / (m * (1 - m)) := by
      have : 0 < 1 - m := by linarith
      positivity
    show 1 / (m * (1 - m)) * -m ≤ 0
    nlinarith

/-- The second and later passes for two samples, the first with target 0: its linear predictor stays negative. -/
theorem bernoulli_loop {inverse : Mat ℝ → Outcome (Mat ℝ)} (hi : InvertsExactly inverse) (u v : ℝ) : ∀ (n : ℕ) (mu z beta r : List ℝ),
    mu.length = 2 → z.length = 2 → 0 < mu.getD 0 0 → mu.getD 0 0 < 1 → z.getD 0 0 < 0 → (n = 0 → beta.length = 2 ∧ affine beta [u] < 0) →
    irlsLoop inverse .bernoulli ⟨2, [[1, u], [1, v]]⟩ (Mat.transpose ⟨2, [[1, u], [1, v]]⟩) [0, 1] n mu z beta = ok r →
    r.length = 2 ∧ affine r [u] < 0 := by
  intro n
  induction n with
  | zero =>
    intro mu z beta r _ _ _ _ _ h h1
    rw [irlsLoop] at h1
    injection h1 with h1
    subst h1
    exact h rfl
  | succ n ih =>
    intro mu z beta r hmu hz hm0 hm1 h0 _ h
    obtain ⟨m0, m1, rfl⟩ := List.length_eq_two.mp hmu
    rw [irlsLoop] at h
    obtain ⟨s, hs, h⟩ := bind_eq_ok.mp h
    obtain ⟨s1, a, b, s2, s3⟩ := irlsStep_two hi (y := [0, 1]) rfl hmu hz hs
    obtain ⟨d, -, h⟩ := bind_eq_ok.mp h
    have hfit : affine s.2 [u] = a + u * b := by
      rw [s2]; simp [affine, Spec.inner]
    have hz0 : z.getD 0 0 = a + u * b := by rw [s3]; rfl
    rw [hz0] at h0
    split at h
    · injection h with h
      subst h
      exact ⟨by rw [s2]; rfl, by rw [hfit]; exact h0⟩
    · rw [s2, mulVec_two, ok_bind] at h
      rw [vecZip_ok _ (n := 2) (by rw [s1]; rfl) rfl, ok_bind, ← s2] at h
      have hl := logistic_mem (a + u * b)
      refine ih _ _ s.2 r rfl (by rw [s1]; rfl) ?_ ?_ ?_ (fun _ => ⟨by rw [s2]; rfl, by rw [hfit]; exact h0⟩) h
      · show 0 < (logitLink : LinkFn ℝ).funcInv (a + u * b)
        rw [logit_inv]; exact hl.1
      · show (logitLink : LinkFn ℝ).funcInv (a + u * b) < 1
        rw [logit_inv]; exact hl.2
      · rw [s1]
        show (Family.bernoulli : Family ℝ).adjust 0 m0 + (a + u * b) < 0
        have := adjust_zero_nonpos (m := m0) hm0 hm1
        linarith

/-- The two samples of the violation, in units scaled by `k`. -/
noncomputable def unitsPair (k : ℝ) : Mat ℝ := ⟨1, [[k], [k * (10 ^ 10 - 1)]]⟩

theorem unitsPair_independent {k : ℝ} (hk : 0 < k) : AffinelyIndependent (unitsPair k) := by
  intro β hb h
  obtain ⟨a, b, rfl⟩ := List.length_eq_two.mp hb
  have h1 := h [k] (by simp [unitsPair])
  have h2 := h [k * (10 ^ 10 - 1)] (by simp [unitsPair])
  simp [affine, Spec.inner] at h1 h2
  have : k * b * (10 ^ 10 - 2) = 0 := by nlinarith
  have hkb : k * b = 0 := by
    rcases mul_eq_zero.1 this with h | h
    · exact h
    · norm_num at h
  have hb0 : b = 0 := by
    rcases mul_eq_zero.1 hkb with h | h
    · exact absurd h hk.ne'
    · exact h
  subst hb0
  have ha0 : a = 0 := by linarith
  subst ha0
  rfl

/-- The first pass in units scaled by `k`. -/
theorem unitsPair_train {inverse : Mat ℝ → Outcome (Mat ℝ)} (hi : InvertsExactly inverse) (hr : InvertsRegular inverse) {k : ℝ} (hk : 0 < k) :
    ∃ β, Glm.train inverse ⟨.bernoulli, none⟩ (unitsPair k) [0, 1] = ok ⟨.bernoulli, some β⟩ ∧ β.length = 2 ∧
      (1 < k → 0 < affine β [k]) ∧ (k ≤ 1 → affine β [k] < 0) := by
  have hX : (unitsPair k).WF := by intro r hr; simp [unitsPair] at hr; rcases hr with rfl | rfl <;> rfl
  obtain ⟨β, h1, h2⟩ := C52_train hi hr ⟨.bernoulli, none⟩ (unitsPair k) hX (unitsPair_independent hk) [0, 1] rfl trivial
  refine ⟨β, h1, h2, ?_⟩
  unfold Glm.train at h1
  rw [if_neg (by simp [unitsPair]), withOnes_ok, ok_bind] at h1
  obtain ⟨b', hl, h1⟩ := bind_eq_ok.mp h1
  injection h1 with h1
  have hbb : b' = β := by
    have := congrArg Glm.parameters h1
    simpa using this
  subst hbb
  clear h1
  have hmu : [(0 : ℝ), 1].map (Family.bernoulli : Family ℝ).startMean = [1 / 10 ^ 10, 1 - 1 / 10 ^ 10] := by
    simp [Family.startMean]
    norm_num
  dsimp only at hl
  rw [hmu] at hl
  replace hl : irlsLoop inverse .bernoulli ⟨2, [[1, k], [1, k * (10 ^ 10 - 1)]]⟩ (Mat.transpose ⟨2, [[1, k], [1, k * (10 ^ 10 - 1)]]⟩) [0, 1] 8
    [1 / 10 ^ 10, 1 - 1 / 10 ^ 10] [1 / 10 ^ 10, 1 - 1 / 10 ^ 10] [0, 0] = ok b' := hl
  rw [irlsLoop] at hl
  obtain ⟨s, hs, hl⟩ := bind_eq_ok.mp hl
  obtain ⟨s1, a, b, s2, s3⟩ := irlsStep_two hi (y := [0, 1]) rfl rfl rfl hs
  injection s3 with e1 s3
  injection s3 with e2 _
  have hkb : k * b = 1 / 10 ^ 10 := by
    have : k * b * (10 ^ 10 - 2) = 1 - 2 / 10 ^ 10 := by linarith
    nlinarith
  have ha : a = 0 := by linarith
  have hb : b = 1 / 10 ^ 10 / k := by rw [eq_div_iff hk.ne', mul_comm]; exact hkb
  have hfit : affine s.2 [k] = 1 / 10 ^ 10 := by
    rw [s2, ha]
    simp [affine, Spec.inner]
    rw [hkb]; norm_num
  have hbpos : 0 < b := by rw [hb]; positivity
  rw [s2, vecZip_ok _ (n := 2) rfl rfl, ok_bind] at hl
  have hsum : fsum ((List.zipWith (Scalar.sub : ℝ → ℝ → ℝ) [0, 0] [a, b]).map Scalar.abs) = b := by
    rw [fsum_real, ha]
    simp [abs_of_pos hbpos]
  rw [hsum] at hl
  constructor
  · intro h
    have : b < 1 / 10 ^ 10 := by rw [hb]; exact div_lt_self (by norm_num) h
    rw [if_pos (by simpa using this)] at hl
    injection hl with hl
    rw [← hl, ← s2, hfit]
    norm_num
  · intro h
    have : 1 / 10 ^ 10 ≤ b := by rw [hb, le_div_iff₀ hk]; nlinarith
    rw [if_neg (by simpa using this), mulVec_two, ok_bind, vecZip_ok _ (n := 2) (by rw [s1]; rfl) rfl, ok_bind] at hl
    have hl' := logistic_mem (a + k * b)
    refine (bernoulli_loop hi k (k * (10 ^ 10 - 1)) 7 _ _ [a, b] b' rfl (by rw [s1]; rfl) ?_ ?_ ?_ (by simp) hl).2
    · show 0 < (logitLink : LinkFn ℝ).funcInv (a + k * b)
      rw [logit_inv]; exact hl'.1
    · show (logitLink : LinkFn ℝ).funcInv (a + k * b) < 1
      rw [logit_inv]; exact hl'.2
    · rw [s1, ← e1]
      show (Family.bernoulli : Family ℝ).adjust 0 (1 / 10 ^ 10) + 1 / 10 ^ 10 < 0
      have : (Family.bernoulli : Family ℝ).adjust 0 (1 / 10 ^ 10) = -(1 / (1 - 1 / 10 ^ 10)) := by
        unfold Family.adjust
        simp only [real_sub, zero_sub]
        rw [if_neg (by simp [abs_of_pos]; norm_num)]
        show 1 / ((1 / 10 ^ 10 : ℝ) * (1 - 1 / 10 ^ 10)) * -(1 / 10 ^ 10) = _
        norm_num
      rw [this]
      norm_num

/-- **C93 (violation).** Logistic regression through the Bernoulli family on two samples with targets 0 and 1: multiplying the
feature by 4 changes the predicted class of a sample, because the iteration stops on the absolute size of the change of the
parameters. -/
theorem C93_violation {inverse : Mat ℝ → Outcome (Mat ℝ)} (hi : InvertsExactly inverse) (hr : InvertsRegular inverse) :
    ∃ m m' p p', Glm.train inverse ⟨.bernoulli, none⟩ ⟨1, [[1 / 2], [(10 ^ 10 - 1) / 2]]⟩ [0, 1] = ok m ∧
      Glm.train inverse ⟨.bernoulli, none⟩ (rescale (fun _ => 4) (fun _ => 0) ⟨1, [[1 / 2], [(10 ^ 10 - 1) / 2]]⟩) [0, 1] = ok m' ∧
      m.predict ⟨1, [[1 / 2]]⟩ = ok [p] ∧ m'.predict (rescale (fun _ => 4) (fun _ => 0) ⟨1, [[1 / 2]]⟩) = ok [p'] ∧ p < 1 / 2 ∧ 1 / 2 < p' := by
  have e1 : (⟨1, [[1 / 2], [(10 ^ 10 - 1) / 2]]⟩ : Mat ℝ) = unitsPair (1 / 2) := by
    unfold unitsPair; norm_num
  have e2 : rescale (fun _ => 4) (fun _ => 0) ⟨1, [[1 / 2], [(10 ^ 10 - 1) / 2]]⟩ = unitsPair 2 := by
    unfold unitsPair rescale rescaleRow; norm_num
  have e3 : rescale (fun _ => 4) (fun _ => 0) ⟨1, [[1 / 2]]⟩ = ⟨1, [[2]]⟩ := by
    unfold rescale rescaleRow; norm_num
  rw [e2, e1, e3]
  obtain ⟨β, h1, h2, -, h3⟩ := unitsPair_train hi hr (k := 1 / 2) (by norm_num)
  obtain ⟨β', g1, g2, g3, -⟩ := unitsPair_train hi hr (k := 2) (by norm_num)
  have hp : ∀ (β : List ℝ) (x : ℝ), β.length = 2 → Glm.predict ⟨.bernoulli, some β⟩ ⟨1, [[x]]⟩ = ok [logistic (affine β [x])] := by
    intro β x hb
    unfold Glm.predict
    dsimp only
    rw [withOnes_ok, ok_bind]
    unfold Mat.mulVec
    rw [if_pos (by rw [hb])]
    simp only [List.map_cons, List.map_nil, ok_bind]
    rw [dot_affine _ _ (by intro h; rw [h] at hb; simp at hb)]
    congr 2
  have hhalf : logistic 0 = 1 / 2 := by unfold logistic; norm_num
  have hmono : ∀ s t : ℝ, s < t → logistic s < logistic t := by
    intro s t hst
    unfold logistic
    have := Real.exp_lt_exp.2 (neg_lt_neg hst)
    have h0 := Real.exp_pos (-t)
    exact one_div_lt_one_div_of_lt (by linarith) (by linarith)
  refine ⟨_, _, _, _, h1, g1, hp β _ h2, hp β' _ g2, ?_, ?_⟩
  · exact (hmono _ _ (h3 (by norm_num))).trans_eq hhalf
  · exact hhalf.symm.trans_lt (hmono _ _ (g3 (by norm_num)))

/-- The violation with Gaussian elimination. -/
example : ∃ m m' p p', Glm.train (gaussInverse (0 : ℝ)) ⟨.bernoulli, none⟩ ⟨1, [[1 / 2], [(10 ^ 10 - 1) / 2]]⟩ [0, 1] = ok m ∧
    Glm.train (gaussInverse (0 : ℝ)) ⟨.bernoulli, none⟩ (rescale (fun _ => 4) (fun _ => 0) ⟨1, [[1 / 2], [(10 ^ 10 - 1) / 2]]⟩) [0, 1] = ok m' ∧
    m.predict ⟨1, [[1 / 2]]⟩ = ok [p] ∧ m'.predict (rescale (fun _ => 4) (fun _ => 0) ⟨1, [[1 / 2]]⟩) = ok [p'] ∧ p < 1 / 2 ∧ 1 / 2 < p' :=
  C93_violation (gaussInverse_exact 0 le_rfl) gaussInverse_regular

end RM
