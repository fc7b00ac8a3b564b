import Verif.Props.Backprop
import Verif.Props.Regularization

/-!
# C74: what a regularised network hands to its optimiser (exact arithmetic)

The vector `compute_grad` returns is the gradient of `n` times the data cost plus a penalty; the cost it returns is the data
cost plus (for L2) another penalty.
-/

namespace RM
open Outcome Scalar Spec

namespace Spec
/-- The cost a network reports to its optimiser, as a function of the weights: the cost of the predictions plus the
regularisation cost of the column of all weights. -/
noncomputable def reportedCost (net : BaseNet ℝ) (X T : Mat ℝ) (w : List ℝ) : Outcome ℝ := do
  let v ← costOfWeights net X T w
  ok (v + regCost net.criterion.reg (column w))

/-- The penalties of the textbook: `x / 2m * Σ |w|`, `x / 2m * Σ w²`, their sum, nothing; `m` weights. -/
noncomputable def penalty (r : Reg ℝ) (w : List ℝ) : ℝ :=
  match r with
  | .l1 x => x / (2 * w.length) * (w.map fun a => |a|).sum
  | .l2 x => x / (2 * w.length) * (w.map fun a => a ^ 2).sum
  | .elasticNet x y => x / (2 * w.length) * (w.map fun a => |a|).sum + y / (2 * w.length) * (w.map fun a => a ^ 2).sum
  | .none => 0

/-- `a` times the cost of the predictions plus the textbook penalty. -/
noncomputable def penalisedCost (a : ℝ) (net : BaseNet ℝ) (X T : Mat ℝ) (w : List ℝ) : Outcome ℝ := do
  let v ← costOfWeights net X T w
  ok (a * v + penalty net.criterion.reg w)

/-- The regularisation contains an L1 part. -/
def HasL1 : Reg ℝ → Prop
  | .l1 _ => True
  | .elasticNet _ _ => True
  | _ => False
end Spec

theorem abs_gradient {m : ℕ} (a : ℝ) (w : Fin m → ℝ) (hw : ∀ k, w k ≠ 0) :
    IsGradientAt (fun v => a * ∑ k, |v k|) (fun k => if w k < 0 then -a else a) w := by
  have h := gradient_separable (fun _ y => a * |y|) (fun k : Fin m => if w k < 0 then -a else a) w (by
    intro k
    rcases lt_or_gt_of_ne (hw k) with h | h
    · rw [if_pos h]
      simpa using (hasDerivAt_abs_neg h).const_mul a
    · rw [if_neg h.not_gt]
      simpa using (hasDerivAt_abs_pos h).const_mul a)
  convert h using 2 with v
  rw [Finset.mul_sum]

theorem sq_gradient {m : ℕ} (a : ℝ) (w : Fin m → ℝ) :
    IsGradientAt (fun v => a * ∑ k, v k ^ 2) (fun k => w k * (2 * a)) w := by
  have h := gradient_separable (fun _ y => a * y ^ 2) (fun k : Fin m => w k * (2 * a)) w (by
    intro k
    refine ((hasDerivAt_pow 2 (w k)).const_mul a).congr_deriv ?_
    norm_num
    ring)
  convert h using 2 with v
  rw [Finset.mul_sum]

theorem isGradientAt_add {ι : Type} [Fintype ι] {f g : (ι → ℝ) → ℝ} {a b x : ι → ℝ} (hf : IsGradientAt f a x) (hg : IsGradientAt g b x) :
    IsGradientAt (fun v => f v + g v) (fun k => a k + b k) x := by
  unfold IsGradientAt at *
  refine HasFDerivAt.congr_fderiv (HasFDerivAt.fun_add hf hg) ?_
  rw [← Finset.sum_add_distrib]
  simp only [add_smul]

theorem column_eq_matOf {m : ℕ} (v : Fin m → ℝ) : column (List.ofFn v) = matOf m 1 fun k => v k.1 := by
  unfold column matOf
  congr 1
  simp [List.map_ofFn]
  rfl

theorem penalty_ofFn (r : Reg ℝ) {m : ℕ} (v : Fin m → ℝ) : penalty r (List.ofFn v) = match r with
    | .l1 x => x / (2 * m) * ∑ k, |v k|
    | .l2 x => x / (2 * m) * ∑ k, v k ^ 2
    | .elasticNet x y => x / (2 * m) * ∑ k, |v k| + y / (2 * m) * ∑ k, v k ^ 2
    | .none => 0 := by
  unfold penalty
  cases r <;> simp [List.map_ofFn, List.sum_ofFn]

/-- `reg_grad` of the column of weights is the gradient of the textbook penalty. -/
theorem penalty_gradient (r : Reg ℝ) (w : List ℝ) (h0 : HasL1 r → ∀ a ∈ w, a ≠ 0) (R : Mat ℝ) (hR : regGrad r (column w) = ok R) :
    IsGradientAt (fun v : Fin w.length → ℝ => penalty r (List.ofFn v)) (fun k => ent R k 0) (fun k => w.getD k 0) := by
  have hw : w = List.ofFn fun k : Fin w.length => w.getD k 0 := by
    apply List.ext_getElem (by simp)
    intro i h1 h2
    simp
  have hne : HasL1 r → ∀ k : Fin w.length, w.getD k 0 ≠ 0 := by
    intro h k
    rw [List.getD_eq_getElem?_getD, List.getElem?_eq_getElem k.2]
    exact h0 h _ (List.getElem_mem k.2)
  generalize hu : (fun k : Fin w.length => w.getD k 0) = u at *
  have hne' : HasL1 r → ∀ k, u k ≠ 0 := by
    intro h k
    rw [← hu]
    exact hne h k
  have hcol : column w = matOf w.length 1 fun k => u k.1 := by
    conv_lhs => rw [hw]
    exact column_eq_matOf u
  rw [hcol] at hR
  simp only [penalty_ofFn]
  have hm : ∀ k : Fin w.length, (w.length : ℝ) ≠ 0 := by
    intro k
    have := k.pos
    positivity
  have g1 : ∀ x : ℝ, HasL1 r → IsGradientAt (fun v : Fin w.length → ℝ => x / (2 * w.length) * ∑ k, |v k|)
      (fun k => ent (l1Grad (matOf w.length 1 fun k => u k.1) x) k 0) u := by
    intro x h
    have := abs_gradient (x / (2 * w.length)) u (hne' h)
    convert this using 2 with k
    rw [l1Grad_matOf]
    have := ent_matOf (fun k : Fin w.length × Fin 1 => (if u k.1 < 0 then -x else x) / (2 * (w.length : ℝ))) k (0 : Fin 1)
    simp only [Fin.val_zero] at this
    rw [this]
    split <;> ring
  have g2 : ∀ x : ℝ, IsGradientAt (fun v : Fin w.length → ℝ => x / (2 * w.length) * ∑ k, v k ^ 2)
      (fun k => ent (l2Grad (matOf w.length 1 fun k => u k.1) x) k 0) u := by
    intro x
    have := sq_gradient (x / (2 * w.length)) u
    convert this using 2 with k
    rw [l2Grad_matOf]
    have := ent_matOf (fun k : Fin w.length × Fin 1 => u k.1 * (x / (w.length : ℝ))) k (0 : Fin 1)
    simp only [Fin.val_zero] at this
    rw [this]
    have := hm k
    field_simp
  cases r with
  | l1 x => cases hR; exact g1 x trivial
  | l2 x => cases hR; exact g2 x
  | elasticNet x y =>
    have e := zip_matOf Scalar.add (fun k : Fin w.length × Fin 1 => ent (l1Grad (matOf w.length 1 fun k => u k.1) x) k.1 k.2)
      (fun k => ent (l2Grad (matOf w.length 1 fun k => u k.1) y) k.1 k.2)
    rw [← eq_matOf (by rw [l1Grad_matOf]; exact matOf_shape _ _ _), ← eq_matOf (by rw [l2Grad_matOf]; exact matOf_shape _ _ _)] at e
    have hR' : Mat.zip Scalar.add (l1Grad (matOf w.length 1 fun k => u k.1) x) (l2Grad (matOf w.length 1 fun k => u k.1) y) = ok R := hR
    rw [e] at hR'
    cases hR'
    have := isGradientAt_add (g1 x trivial) (g2 y)
    convert this using 2 with k
    have := ent_matOf (fun k : Fin w.length × Fin 1 => Scalar.add (ent (l1Grad (matOf w.length 1 fun k => u k.1) x) k.1 k.2)
      (ent (l2Grad (matOf w.length 1 fun k => u k.1) y) k.1 k.2)) k (0 : Fin 1)
    simp only [Fin.val_zero] at this
    rw [this]
    rfl
  | none =>
    cases hR
    have e : ∀ k : Fin w.length, ent (Mat.zeros (matOf w.length 1 fun k => u k.1).rows.length (matOf w.length 1 fun k => u k.1).cols : Mat ℝ) k 0 = 0 := by
      intro k
      simp [ent, Mat.zeros, matOf, List.getElem?_replicate]
    simp only [e]
    unfold IsGradientAt
    simpa using hasFDerivAt_const (0 : ℝ) u

/-- **C74, what holds.** For every network, every regularisation, every weight vector (without zeros, where `|w|` has no
derivative, if there is an L1 part) and every data set of `n ≥ 1` rows, `compute_grad` returns the reported cost - the cost of
the predictions plus the regularisation cost - and exactly the gradient of `n` times the cost of the predictions plus the
textbook penalty (with the squared norm for L2). -/
theorem C74_partial (net : BaseNet ℝ) {n c d : ℕ} (hn : 0 < n) (X T : Mat ℝ)
    (hX : HasShape X n c) (hT : HasShape T n d) (hne : net.layers ≠ []) (hl : LinesUp net.layers c d) (hA : GoodActivations net)
    (w : List ℝ) (hw : w.length = totalParams net.layers) (hb : net.criterion.kind = .bce → OutputsInside net X w)
    (h0 : HasL1 net.criterion.reg → ∀ a ∈ w, a ≠ 0) :
    ∃ cost grad, net.computeGrad w X T = ok (cost, grad) ∧ reportedCost net X T w = ok cost ∧
      ListGradientAt (penalisedCost n net X T) grad w := by
  by_cases hreg : net.criterion.reg = .none
  · obtain ⟨cost, grad, h1, h2, h3⟩ := C40_backprop net hreg hn X T hX hT hne hl hA w hw hb
    refine ⟨cost, grad, h1, ?_, ?_⟩
    · simp [reportedCost, h2, hreg, regCost]
    · have : penalisedCost (n : ℝ) net X T = scaledCost n net X T := by
        funext v
        simp [penalisedCost, scaledCost, hreg, penalty]
      rw [this]
      exact h3
  · obtain ⟨cost, grad, R, h1, h2, h3, h4, h5⟩ := C40_regularised net hreg hn X T hX hT hne hl hA w hw hb
    refine ⟨_, _, h5, by simp [reportedCost, h1], by simp, ?_⟩
    obtain ⟨hlen, φ, hφ, hgrad⟩ := h2
    refine ⟨fun v => φ v + penalty net.criterion.reg (List.ofFn v), ?_, ?_⟩
    · intro v
      have := hφ v
      unfold scaledCost at this
      unfold penalisedCost
      cases hc : costOfWeights net X T (List.ofFn v) with
      | ok y =>
        rw [hc, ok_bind] at this
        injection this with this
        rw [ok_bind, this]
      | err e => rw [hc] at this; cases this
      | panic => rw [hc] at this; cases this
      | ub => rw [hc] at this; cases this
    · have := isGradientAt_add hgrad (penalty_gradient net.criterion.reg w h0 R h3)
      convert this using 2 with k
      simp [List.getElem?_range]

/-- **C74 (one sample, no L2 part).** On one row - what the stochastic optimisers pass - a network without regularisation or
with L1 hands over exactly the gradient of the cost it reports, at weights without zeros. -/
theorem C74_one_sample (net : BaseNet ℝ) (hr : net.criterion.reg = .none ∨ ∃ x, net.criterion.reg = .l1 x) {c d : ℕ} (X T : Mat ℝ)
    (hX : HasShape X 1 c) (hT : HasShape T 1 d) (hne : net.layers ≠ []) (hl : LinesUp net.layers c d) (hA : GoodActivations net)
    (w : List ℝ) (hw : w.length = totalParams net.layers) (hb : net.criterion.kind = .bce → OutputsInside net X w)
    (h0 : ∀ a ∈ w, a ≠ 0) :
    ∃ cost grad, net.computeGrad w X T = ok (cost, grad) ∧ reportedCost net X T w = ok cost ∧
      ListGradientAt (reportedCost net X T) grad w := by
  obtain ⟨cost, grad, h1, h2, h3⟩ := C74_partial net one_pos X T hX hT hne hl hA w hw hb fun _ => h0
  refine ⟨cost, grad, h1, h2, ?_⟩
  have e : ∀ v : Fin w.length → ℝ, penalisedCost ((1 : ℕ) : ℝ) net X T (List.ofFn v) = reportedCost net X T (List.ofFn v) := by
    intro v
    unfold penalisedCost reportedCost
    have : penalty net.criterion.reg (List.ofFn v) = regCost net.criterion.reg (column (List.ofFn v)) := by
      rcases hr with hr | ⟨x, hr⟩
      · rw [hr]; rfl
      · rw [hr, column_eq_matOf, penalty_ofFn]
        show _ = l1Cost _ _
        rw [l1Cost_matOf, Fintype.sum_prod_type]
        simp only [Finset.univ_unique, Finset.sum_singleton]
        ring
    rw [this]
    simp
  obtain ⟨hlen, φ, hφ, hg⟩ := h3
  exact ⟨hlen, φ, fun v => by rw [← e v]; exact hφ v, hg⟩

/-- The network of the violation: one weight, no bias, mean squared error, L1 of strength 3. -/
noncomputable def Spec.regNet : BaseNet ℝ := ⟨[.withoutBias 1 1], [1], ⟨.mse, .l1 3⟩⟩

/-- **C74 fails with two rows.** The prediction is `w * x`; both rows are `x = 1` with target 2. At `w = 1` the reported cost
`(w - 2)² / 2 + 3/2 |w|` has the derivative `1/2`, but `compute_grad` returns `-1/2`: every step against the returned gradient
goes up the reported cost. -/
theorem C74_violation :
    regNet.computeGrad [1] ⟨1, [[1], [1]]⟩ ⟨1, [[2], [2]]⟩ = ok (2, [-1 / 2]) ∧
    reportedCost regNet ⟨1, [[1], [1]]⟩ ⟨1, [[2], [2]]⟩ [1] = ok 2 ∧
    ListGradientAt (reportedCost regNet ⟨1, [[1], [1]]⟩ ⟨1, [[2], [2]]⟩) [1 / 2] [1] := by
  have hcost : ∀ w : ℝ, reportedCost regNet ⟨1, [[1], [1]]⟩ ⟨1, [[2], [2]]⟩ [w] = ok ((w - 2) ^ 2 / 2 + 3 / 2 * |w|) := by
    intro w
    have h1 : costOfWeights regNet ⟨1, [[1], [1]]⟩ ⟨1, [[2], [2]]⟩ [w] = ok ((w - 2) ^ 2 / 2) := by
      simp [costOfWeights, regNet, withWeights, BaseNet.forwardProp, forwardRest, sliceAt, NetLayer.withoutBias, NetLayer.paramShape,
        NetLayer.forward, chunk, Mat.mul, mseCost, Mat.zip, Mat.sum, Mat.data, dot, colOf, fsum]
      ring
    have h2 : regCost regNet.criterion.reg (column [w]) = 3 / 2 * |w| := by
      simp [regNet, regCost, l1Cost, column, Mat.data, fsum]
      ring
    simp [reportedCost, h1, h2]
  refine ⟨?_, ?_, rfl, fun v => (v 0 - 2) ^ 2 / 2 + 3 / 2 * |v 0|, ?_, ?_⟩
  · simp [BaseNet.computeGrad, netForward, regNet, sliceAt, NetLayer.withoutBias, NetLayer.paramShape, NetLayer.forward, chunk,
      Mat.mul, Mat.zip, Mat.sum, dot, colOf, fsum, Outcome.unwrap, ofOption, Criterion.costGrad, mseGrad, netBackward, layerInput,
      getAt, NetLayer.backParams, copyInto, NetLayer.numParams, Mat.data, NetLayer.backInput, Criterion.cost, mseCost, allInit,
      Criterion.isRegularized, regGrad, regCost, l1Grad, l1Cost, inPlaceBin, Mat.transpose, Mat.map, transposeRows]
    norm_num
  · rw [hcost]
    norm_num
  · intro v
    simpa using hcost (v 0)
  · have hd : HasDerivAt (fun w : ℝ => (w - 2) ^ 2 / 2 + 3 / 2 * |w|) (1 / 2) 1 := by
      have a := ((((hasDerivAt_id (1 : ℝ)).sub_const 2).fun_pow 2).div_const 2).fun_add ((hasDerivAt_abs_pos (one_pos : (0 : ℝ) < 1)).const_mul (3 / 2))
      refine a.congr_deriv ?_
      norm_num
    have := gradient_separable (fun (_ : Fin 1) (w : ℝ) => (w - 2) ^ 2 / 2 + 3 / 2 * |w|) (fun _ => 1 / 2) (fun _ => 1) fun _ => hd
    simp only [Finset.univ_unique, Finset.sum_singleton] at this
    have e : ∀ (a : ℝ) (k : Fin [(1 : ℝ)].length), [a].getD k 0 = a := by
      intro a k
      have : k = (0 : Fin 1) := Fin.fin_one_eq_zero k
      rw [this]
      rfl
    simp only [e]
    exact this

/-- A network, a data set of one row and weights meeting the hypotheses of `C74_partial` and `C74_one_sample`. -/
example : regNet.layers ≠ [] ∧ LinesUp regNet.layers 1 1 ∧ GoodActivations regNet ∧ regNet.weights.length = totalParams regNet.layers ∧
    (∃ x, regNet.criterion.reg = .l1 x) ∧ (∀ a ∈ regNet.weights, a ≠ 0) ∧ (regNet.criterion.kind = .bce → OutputsInside regNet ⟨1, [[1]]⟩ [1]) ∧
    HasShape (⟨1, [[1]]⟩ : Mat ℝ) 1 1 := by
  refine ⟨by simp [regNet], .linear false rfl (.nil _), ?_, rfl, ⟨3, rfl⟩, by simp [regNet], ?_, rfl, rfl, by simp⟩
  · intro A hA
    simp [regNet, NetLayer.withoutBias] at hA
  · intro h
    cases h

end RM
