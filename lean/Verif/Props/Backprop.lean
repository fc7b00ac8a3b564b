import Verif.Proofs.BackpropNet
import Verif.Props.NNet
import Verif.Props.Optim
import Verif.Props.Activ
import Verif.Props.Cost
import Verif.Props.Regularization

/-!
# C40: back-propagation computes the gradient (exact arithmetic)
-/

namespace RM
open Outcome Scalar Spec

namespace Spec
/-- The network with other weights. -/
def withWeights (net : BaseNet ℝ) (w : List ℝ) : BaseNet ℝ := ⟨net.layers, w, net.criterion⟩

/-- The cost of the network's predictions as a function of the weights: predict, then apply the criterion's cost function
(mean squared error or cross entropy, see C42) to the predictions and the targets. -/
noncomputable def costOfWeights (net : BaseNet ℝ) (X T : Mat ℝ) (w : List ℝ) : Outcome ℝ := do
  let Y ← (withWeights net w).forwardProp X
  match net.criterion.kind with
  | .bce => ceCost Y T
  | .mse => mseCost Y T

/-- That cost, times a constant. -/
noncomputable def scaledCost (a : ℝ) (net : BaseNet ℝ) (X T : Mat ℝ) (w : List ℝ) : Outcome ℝ := do
  let v ← costOfWeights net X T w
  ok (a * v)

/-- The activation functions of the network satisfy the contract of `ActivationFunc`: `func_grad_from_output` of the output
is the derivative of `func`. -/
def GoodActivations (net : BaseNet ℝ) : Prop :=
  ∀ A, NetLayer.activ A ∈ net.layers → ∀ x, HasDerivAt A.func (A.gradFromOutput (A.func x)) x

/-- The predictions are strictly between 0 and 1. -/
def OutputsInside (net : BaseNet ℝ) (X : Mat ℝ) (w : List ℝ) : Prop :=
  ∀ x ∈ X.rows, ∀ y ∈ netRow net.layers w x, 0 < y ∧ y < 1
end Spec

theorem crit_gradient (k : CritKind) {n d : ℕ} (hn : 0 < n) (Y T : Mat ℝ) (hY : HasShape Y n d) (hT : HasShape T n d)
    (h : k = .bce → ∀ i : Fin n, ∀ j : Fin d, 0 < ent Y i j ∧ ent Y i j < 1) (r : Reg ℝ) :
    ∃ G, (⟨k, r⟩ : Criterion ℝ).costGrad Y T = ok G ∧ HasShape G n d ∧ ∃ φ : (Fin n × Fin d → ℝ) → ℝ,
      (∀ v, (⟨k, r⟩ : Criterion ℝ).cost (matOf n d v) T = ok (φ v)) ∧
      IsGradientAt (fun v => (n : ℝ) * φ v) (fun k => ent G k.1 k.2) (fun k => ent Y k.1 k.2) := by
  cases k with
  | mse =>
    obtain ⟨G, hG, hGs, φ, hφ, hgrad⟩ := C42_mse_grad Y T hn hY hT
    have hc : ∀ v, mseCost (matOf n d v) T = ok ((∑ k, (v k - ent T k.1 k.2) ^ 2) / (2 * n)) := by
      intro v
      conv_lhs => rw [eq_matOf hT]
      exact mseCost_matOf _ _
    refine ⟨G, hG, hGs, _, hc, ?_⟩
    apply hgrad.congr_of_eventuallyEq
    filter_upwards with v
    have := hφ v (fun _ => trivial)
    simp only [hc, ok_bind] at this
    injection this
  | bce =>
    have h' := h rfl
    obtain ⟨G, hG, hGs, φ, hφ, hgrad⟩ := C42_crossEntropy_grad Y T hn hY hT h'
    have hc : ∀ v, ceCost (matOf n d v) T =
        ok (-(∑ k, (ent T k.1 k.2 * Real.log (v k) + (1 - ent T k.1 k.2) * Real.log (1 - v k))) / n) := by
      intro v
      conv_lhs => rw [eq_matOf hT]
      exact ceCost_matOf _ _
    refine ⟨G, hG, hGs, _, hc, ?_⟩
    apply hgrad.congr_of_eventuallyEq
    have hopen : ∀ᶠ v in nhds (fun k : Fin n × Fin d => ent Y k.1 k.2), ∀ k, v k ∈ Set.Ioo (0 : ℝ) 1 := by
      rw [Filter.eventually_all]
      intro k
      have hcont : Continuous fun v : Fin n × Fin d → ℝ => v k := continuous_apply k
      exact hcont.continuousAt.eventually (isOpen_Ioo.mem_nhds (h' k.1 k.2))
    filter_upwards [hopen] with v hv
    have := hφ v hv
    simp only [hc, ok_bind] at this
    injection this

/-- The unregularised gradient: predictions, cost, gradient. -/
theorem computeGrad_core (net : BaseNet ℝ) {n c d : ℕ} (hn : 0 < n) (X T : Mat ℝ) (hX : HasShape X n c) (hT : HasShape T n d)
    (hne : net.layers ≠ []) (hl : LinesUp net.layers c d) (hA : GoodActivations net) (w : List ℝ)
    (hw : w.length = totalParams net.layers) (hb : net.criterion.kind = .bce → OutputsInside net X w) :
    ∃ cost grad, costOfWeights net X T w = ok cost ∧ ListGradientAt (scaledCost n net X T) grad w ∧
      ∀ β (k : ℝ → List ℝ → Outcome β), (do
        let fw ← netForward w X net.layers 0 [] []
        let output ← ofOption fw.2.1.getLast?
        let outGrad ← net.criterion.costGrad output T
        let g ← netBackward X fw.2.1 fw.2.2 net.layers.zipIdx.reverse fw.1 outGrad (List.replicate w.length none)
        let cost ← net.criterion.cost output T
        let g ← allInit g
        k cost g) = k cost grad := by
  -- the space of weights
  let N := w.length
  let e₀ : Fin N → ℝ := fun k => w.getD k 0
  let W : (Fin N → ℝ) → List ℝ := fun e => List.ofFn e
  let W' : ℕ → (Fin N → ℝ) →L[ℝ] ℝ := fun t => if h : t < N then ContinuousLinearMap.proj ⟨t, h⟩ else 0
  have hW0 : W e₀ = w := ofFn_getD rfl 0
  have hdW : ∀ t < N, HasFDerivAt (fun e => (W e).getD t 0) (W' t) e₀ := by
    intro t ht
    have h1 : HasFDerivAt (fun e : Fin N → ℝ => e ⟨t, ht⟩) (ContinuousLinearMap.proj ⟨t, ht⟩ : (Fin N → ℝ) →L[ℝ] ℝ) e₀ :=
      (ContinuousLinearMap.proj (⟨t, ht⟩ : Fin N) : (Fin N → ℝ) →L[ℝ] ℝ).hasFDerivAt
    simp only [W', dif_pos ht]
    apply h1.congr_of_eventuallyEq
    filter_upwards with e
    simp [W, List.getD_eq_getElem?_getD, ht]
  obtain ⟨Y', hY', hback⟩ := netBackward_spec e₀ W W' N hdW X hX net.layers d hl (by
    intro l hmem
    cases l with
    | linear => trivial
    | activ A => exact hA A hmem) (by simp only [N]; omega)
  obtain ⟨acts, ps, hfw, hal, -, hga⟩ := netForward_spec w X hX net.layers [] [] [] d hl (by rw [List.nil_append]; omega) rfl rfl (by
    intro pre l post h
    simp at h)
  simp only [List.nil_append, totalParams_nil] at hfw hal hga
  -- the output
  have hYs : ∀ e, HasShape (⟨d, X.rows.map (netRow net.layers (W e))⟩ : Mat ℝ) n d := fun e => map_shape hX _ fun x hx => netRow_length hl _ x hx
  have hYe : ∀ (e : Fin N → ℝ) (i j : ℕ), i < n → ent (⟨d, X.rows.map (netRow net.layers (W e))⟩ : Mat ℝ) i j = (netRow net.layers (W e) (X.rows.getD i [])).getD j 0 := by
    intro e i j hi
    rw [ent_of_rows, getD_map_lt _ _ [] _ _ (by rw [hX.1]; exact hi)]
  have hout : acts.getLast? = some ⟨d, X.rows.map (netRow net.layers w)⟩ := by
    rcases List.eq_nil_or_concat net.layers with h | ⟨pre, l, h⟩
    · exact absurd h hne
    · rw [List.concat_eq_append] at h
      obtain ⟨m, P, h1, h2, _, _⟩ := hga pre l [] h
      rw [← h] at h1 h2
      rw [LinesUp_unique h1 hl] at h2
      rw [List.getLast?_eq_getElem?, hal, h]
      simpa [h] using h2
  have hkind : net.criterion = ⟨net.criterion.kind, net.criterion.reg⟩ := rfl
  obtain ⟨G, hG, hGs, φ, hφ, hgrad⟩ := crit_gradient net.criterion.kind hn ⟨d, X.rows.map (netRow net.layers w)⟩ T (by rw [← hW0]; exact hYs e₀) hT
    (by
      intro hk i j
      have hi : (i : ℕ) < X.rows.length := by rw [hX.1]; exact i.2
      have hx : X.rows.getD i [] ∈ X.rows := by
        rw [List.getD_eq_getElem?_getD, List.getElem?_eq_getElem hi]; exact List.getElem_mem hi
      have hj : (j : ℕ) < (netRow net.layers w (X.rows.getD i [])).length := by
        rw [netRow_length hl _ _ (shape_row_length hX i.2)]; exact j.2
      have := hYe e₀ i j i.2
      rw [hW0] at this
      rw [this, List.getD_eq_getElem?_getD, List.getElem?_eq_getElem hj]
      exact hb hk _ hx _ (List.getElem_mem hj)) net.criterion.reg
  rw [← hkind] at hG hφ
  rw [hW0] at hback
  obtain ⟨gr, hgr, hloop, hsum⟩ := hback acts ps hga G hGs (List.replicate w.length none) (by simp; omega)
  rw [List.drop_eq_nil_of_le (by simp; omega), List.append_nil] at hloop
  -- the cost as a function of the weights
  have hcost : ∀ e, costOfWeights net X T (W e) = ok (φ fun k => ent (⟨d, X.rows.map (netRow net.layers (W e))⟩ : Mat ℝ) k.1 k.2) := by
    intro e
    unfold costOfWeights
    have hf := forwardProp_ok (net := withWeights net (W e)) hX hl (by simp only [withWeights, W, List.length_ofFn]; exact hw)
    rw [hf, ok_bind]
    have := hφ (fun k => ent (⟨d, X.rows.map (netRow net.layers (W e))⟩ : Mat ℝ) k.1 k.2)
    rw [← eq_matOf (hYs e)] at this
    unfold Criterion.cost at this
    exact this
  have hc0 := hcost e₀
  rw [hW0] at hc0
  refine ⟨_, gr, hc0, ⟨by rw [hgr, hw], fun e => (n : ℝ) * φ fun k => ent (⟨d, X.rows.map (netRow net.layers (W e))⟩ : Mat ℝ) k.1 k.2, ?_, ?_⟩, ?_⟩
  · intro e
    unfold scaledCost
    have := hcost e
    simp only [W] at this
    rw [this, ok_bind]
  · -- chain rule
    unfold IsGradientAt at hgrad ⊢
    have hvec : HasFDerivAt (fun (e : Fin N → ℝ) (k : Fin n × Fin d) => ent (⟨d, X.rows.map (netRow net.layers (W e))⟩ : Mat ℝ) k.1 k.2)
        (ContinuousLinearMap.pi fun k : Fin n × Fin d => Y' k.1 k.2) e₀ := by
      rw [hasFDerivAt_pi]
      intro k
      apply (hY' k.1 k.1.2 k.2 k.2.2).congr_of_eventuallyEq
      filter_upwards with e
      exact hYe e _ _ k.1.2
    have hgrad' : HasFDerivAt (fun v : Fin n × Fin d → ℝ => (n : ℝ) * φ v) (∑ k, ent G k.1 k.2 • (ContinuousLinearMap.proj k : (Fin n × Fin d → ℝ) →L[ℝ] ℝ))
        ((fun (e : Fin N → ℝ) (k : Fin n × Fin d) => ent (⟨d, X.rows.map (netRow net.layers (W e))⟩ : Mat ℝ) k.1 k.2) e₀) := by
      simp only [hW0]
      exact hgrad
    refine (hgrad'.comp e₀ hvec).congr_fderiv ?_
    ext v
    have hs := congrArg (fun L : (Fin N → ℝ) →L[ℝ] ℝ => L v) hsum
    simp only [ContinuousLinearMap.sum_apply, ContinuousLinearMap.smul_apply, smul_eq_mul] at hs
    simp only [ContinuousLinearMap.comp_apply, ContinuousLinearMap.sum_apply, ContinuousLinearMap.smul_apply, ContinuousLinearMap.proj_apply,
      ContinuousLinearMap.coe_pi', smul_eq_mul]
    rw [Fintype.sum_prod_type]
    rw [Finset.sum_range] at hs
    simp only [Finset.sum_range] at hs
    rw [hs]
    have hNt : totalParams net.layers = N := hw.symm
    have key : ∀ M : ℕ, M = N → ∑ i : Fin M, gr.getD i 0 * (W' i) v = ∑ i : Fin N, gr.getD i 0 * v i := by
      intro M hM
      subst hM
      apply Finset.sum_congr rfl
      intro i _
      simp [W', i.2]
    exact key _ hNt
  · intro β k
    simp only [hfw, ok_bind, hout, ofOption_some, hG, hloop, allInit_some]
    have := hφ (fun k => ent (⟨d, X.rows.map (netRow net.layers (W e₀))⟩ : Mat ℝ) k.1 k.2)
    rw [← eq_matOf (hYs e₀), hW0] at this
    rw [this, ok_bind]

/-- **C40.** Without regularisation, for every network whose layers line up with the data and whose activation functions
are differentiated correctly, every weight vector and every data set of `n ≥ 1` rows: `compute_grad` returns the cost of
the predictions, and a vector that is exactly the gradient, in the weights, of `n` times that cost. (For the cross entropy
the predictions must be strictly between 0 and 1, where the cost is defined.) -/
theorem C40_backprop (net : BaseNet ℝ) (hreg : net.criterion.reg = .none) {n c d : ℕ} (hn : 0 < n) (X T : Mat ℝ)
    (hX : HasShape X n c) (hT : HasShape T n d) (hne : net.layers ≠ []) (hl : LinesUp net.layers c d) (hA : GoodActivations net)
    (w : List ℝ) (hw : w.length = totalParams net.layers) (hb : net.criterion.kind = .bce → OutputsInside net X w) :
    ∃ cost grad, net.computeGrad w X T = ok (cost, grad) ∧ costOfWeights net X T w = ok cost ∧
      ListGradientAt (scaledCost n net X T) grad w := by
  obtain ⟨cost, grad, h1, h2, h3⟩ := computeGrad_core net hn X T hX hT hne hl hA w hw hb
  refine ⟨cost, grad, ?_, h1, h2⟩
  have := h3 (ℝ × List ℝ) fun cost g => if net.criterion.isRegularized then do
    let allParams : Mat ℝ := ⟨1, w.map fun w => [w]⟩
    let rg ← regGrad net.criterion.reg allParams
    ok (cost +. regCost net.criterion.reg allParams, inPlaceBin Scalar.add g rg.data)
  else ok (cost, g)
  unfold BaseNet.computeGrad
  rw [this]
  have hr : net.criterion.isRegularized = false := by unfold Criterion.isRegularized; rw [hreg]
  rw [hr]
  rfl

/-- **C40 (one sample).** On one row `compute_grad` returns the cost and exactly its gradient. -/
theorem C40_one_sample (net : BaseNet ℝ) (hreg : net.criterion.reg = .none) {c d : ℕ} (X T : Mat ℝ)
    (hX : HasShape X 1 c) (hT : HasShape T 1 d) (hne : net.layers ≠ []) (hl : LinesUp net.layers c d) (hA : GoodActivations net)
    (w : List ℝ) (hw : w.length = totalParams net.layers) (hb : net.criterion.kind = .bce → OutputsInside net X w) :
    ∃ cost grad, net.computeGrad w X T = ok (cost, grad) ∧ costOfWeights net X T w = ok cost ∧
      ListGradientAt (costOfWeights net X T) grad w := by
  obtain ⟨cost, grad, h1, h2, h3⟩ := C40_backprop net hreg one_pos X T hX hT hne hl hA w hw hb
  refine ⟨cost, grad, h1, h2, ?_⟩
  have : scaledCost ((1 : ℕ) : ℝ) net X T = costOfWeights net X T := by
    funext w
    unfold scaledCost
    cases costOfWeights net X T w <;> simp
  rwa [this] at h3

/-- The weights as one column, the way the regularisation sees them. -/
def Spec.column (w : List ℝ) : Mat ℝ := ⟨1, w.map fun x => [x]⟩

/-- **C40 (regularised).** With a regularisation the cost grows by the regularisation cost of the column of all weights, and
the gradient by its regularisation gradient, entry by entry - the data part of the gradient still being the gradient of `n`
times the cost. -/
theorem C40_regularised (net : BaseNet ℝ) (hreg : net.criterion.reg ≠ .none) {n c d : ℕ} (hn : 0 < n) (X T : Mat ℝ)
    (hX : HasShape X n c) (hT : HasShape T n d) (hne : net.layers ≠ []) (hl : LinesUp net.layers c d) (hA : GoodActivations net)
    (w : List ℝ) (hw : w.length = totalParams net.layers) (hb : net.criterion.kind = .bce → OutputsInside net X w) :
    ∃ cost grad R, costOfWeights net X T w = ok cost ∧ ListGradientAt (scaledCost n net X T) grad w ∧
      regGrad net.criterion.reg (column w) = ok R ∧ HasShape R w.length 1 ∧
      net.computeGrad w X T = ok (cost + regCost net.criterion.reg (column w),
        (List.range w.length).map fun k => grad.getD k 0 + ent R k 0) := by
  obtain ⟨cost, grad, h1, h2, h3⟩ := computeGrad_core net hn X T hX hT hne hl hA w hw hb
  have hcol : HasShape (column w) w.length 1 := ⟨by simp [column], rfl, by
    intro row hrow
    simp only [column, List.mem_map] at hrow
    obtain ⟨x, _, rfl⟩ := hrow
    rfl⟩
  have hR : ∃ R, regGrad net.criterion.reg (column w) = ok R ∧ HasShape R w.length 1 := by
    have hm : ∀ f : ℝ → ℝ, HasShape ((column w).map f) w.length 1 := by
      intro f
      refine ⟨by simp [Mat.map, hcol.1], rfl, ?_⟩
      intro row hrow
      simp only [Mat.map, List.mem_map] at hrow
      obtain ⟨r, hr, rfl⟩ := hrow
      rw [List.length_map]
      exact hcol.2.2 r hr
    cases hr : net.criterion.reg with
    | l1 x => exact ⟨_, rfl, hm _⟩
    | l2 x => exact ⟨_, rfl, hm _⟩
    | elasticNet x y =>
      have hz := zip_matOf Scalar.add (fun k : Fin w.length × Fin 1 => ent (l1Grad (column w) x) k.1 k.2) (fun k => ent (l2Grad (column w) y) k.1 k.2)
      have e1 : HasShape (l1Grad (column w) x) w.length 1 := hm _
      have e2 : HasShape (l2Grad (column w) y) w.length 1 := hm _
      rw [← eq_matOf e1, ← eq_matOf e2] at hz
      exact ⟨_, hz, matOf_shape _ _ _⟩
    | none => exact absurd hr hreg
  obtain ⟨R, hR, hRs⟩ := hR
  refine ⟨cost, grad, R, h1, h2, hR, hRs, ?_⟩
  have := h3 (ℝ × List ℝ) fun cost g => if net.criterion.isRegularized then do
    let allParams : Mat ℝ := ⟨1, w.map fun w => [w]⟩
    let rg ← regGrad net.criterion.reg allParams
    ok (cost +. regCost net.criterion.reg allParams, inPlaceBin Scalar.add g rg.data)
  else ok (cost, g)
  unfold BaseNet.computeGrad
  rw [this]
  have hr : net.criterion.isRegularized = true := by
    unfold Criterion.isRegularized
    cases hr : net.criterion.reg <;> simp_all
  rw [hr]
  simp only [if_true]
  unfold column at hR
  rw [hR, ok_bind]
  congr 2
  have hd := data_length hRs
  rw [Nat.mul_one] at hd
  unfold inPlaceBin
  rw [List.drop_eq_nil_of_le (by rw [hd, h2.1]), List.append_nil]
  rw [zipWith_eq_range _ h2.1 hd]
  apply List.map_congr_left
  intro k hk
  have := data_ent hRs (List.mem_range.mp hk) Nat.zero_lt_one
  simp only [Nat.mul_one, Nat.add_zero] at this
  rw [this]
  rfl

/-- The activation functions of the crate satisfy the contract. -/
theorem C40_activations (net : BaseNet ℝ)
    (h : ∀ A, NetLayer.activ A ∈ net.layers → A = sigmoid ∨ A = linearActiv ∨ A = expActiv ∨ A = tanhActiv) : GoodActivations net := by
  intro A hA x
  rcases h A hA with rfl | rfl | rfl | rfl
  · rw [C41_sigmoid.from_output]; exact C41_sigmoid.deriv x
  · rw [C41_linear.from_output]; exact C41_linear.deriv x
  · rw [C41_exp.from_output]; exact C41_exp.deriv x
  · rw [C41_tanh.from_output]; exact C41_tanh.deriv x

/-- A network ending with a sigmoid has predictions strictly between 0 and 1, whatever the weights. -/
theorem C40_sigmoid_outputs (net : BaseNet ℝ) (pre : List (NetLayer ℝ)) (h : net.layers = pre ++ [.activ sigmoid]) (X : Mat ℝ) (w : List ℝ) :
    OutputsInside net X w := by
  intro x _ y hy
  rw [h, netRow_append] at hy
  simp only [netRow, List.mem_map] at hy
  obtain ⟨z, _, rfl⟩ := hy
  exact ⟨sigmoid_pos z, sigmoid_lt_one z⟩

/-- The default network (`mlp` with sigmoids and cross entropy) meets all the hypotheses for every weight vector. -/
theorem C40_default (s₀ s₁ : ℕ) (sizes : List ℕ) (r : ℕ → ℕ → ℝ) {n : ℕ} (hn : 0 < n) (X T : Mat ℝ) (hX : HasShape X n s₀)
    (hT : HasShape T n ((s₀ :: s₁ :: sizes).getLast (by simp))) :
    ∃ net, BaseNet.mlp (s₀ :: s₁ :: sizes) ⟨.bce, .none⟩ sigmoid r = ok net ∧ ∀ w : List ℝ, w.length = net.weights.length →
      ∃ cost grad, net.computeGrad w X T = ok (cost, grad) ∧ costOfWeights net X T w = ok cost ∧
        ListGradientAt (scaledCost n net X T) grad w := by
  obtain ⟨h1, h2, h3⟩ := mlpLoop_spec (sigmoid : Activ ℝ) r (s₀ :: s₁ :: sizes) (BaseNet.new ⟨.bce, .none⟩) 0
  simp only [BaseNet.new, List.nil_append, List.tail_cons] at h1 h2 h3
  refine ⟨_, rfl, ?_⟩
  intro w hw
  show ∃ cost grad, (mlpLoop sigmoid r ⟨[], [], ⟨.bce, .none⟩⟩ 0 (s₀ :: s₁ :: sizes)).computeGrad w X T = ok (cost, grad) ∧ _
  replace hw : w.length = (mlpLoop sigmoid r ⟨[], [], ⟨.bce, .none⟩⟩ 0 (s₀ :: s₁ :: sizes)).weights.length := hw
  rw [h3 rfl] at hw
  have hlast : ∃ pre, (mlpLoop sigmoid r ⟨[], [], ⟨.bce, .none⟩⟩ 0 (s₀ :: s₁ :: sizes)).layers = pre ++ [.activ sigmoid] := by
    rw [h1]
    have : ∀ l : List (ℕ × ℕ), l ≠ [] → ∃ pre, l.flatMap (fun p => [NetLayer.linear (p.1 + 1) p.2 true, .activ (sigmoid : Activ ℝ)]) = pre ++ [.activ sigmoid] := by
      intro l hl
      rcases List.eq_nil_or_concat l with h | ⟨l', p, h⟩
      · exact absurd h hl
      · rw [h, List.concat_eq_append, List.flatMap_append]
        exact ⟨l'.flatMap (fun p => [NetLayer.linear (p.1 + 1) p.2 true, .activ (sigmoid : Activ ℝ)]) ++ [NetLayer.linear (p.1 + 1) p.2 true], by simp⟩
    exact this _ (by simp)
  obtain ⟨pre, hpre⟩ := hlast
  refine C40_backprop _ (by rw [h2]) hn X T hX hT (by rw [hpre]; simp) ?_ ?_ w hw ?_
  · rw [h1]; exact LinesUp_mlp sigmoid (s₁ :: sizes) s₀
  · apply C40_activations
    intro A hA
    rw [h1] at hA
    simp only [List.mem_flatMap, List.mem_cons, reduceCtorEq, NetLayer.activ.injEq, List.not_mem_nil, or_false, false_or] at hA
    obtain ⟨_, _, rfl⟩ := hA
    exact Or.inl rfl
  · intro _
    exact C40_sigmoid_outputs _ pre hpre X w

/-- A data set of one row. -/
def Spec.oneRow (c : ℕ) (x : List ℝ) : Mat ℝ := ⟨c, [x]⟩

/-- The gradients a network hands to a stochastic optimiser are the gradients of the sample costs. -/
theorem net_computes (net : BaseNet ℝ) (hreg : net.criterion.reg = .none) {c d : ℕ} (hne : net.layers ≠ [])
    (hl : LinesUp net.layers c d) (hA : GoodActivations net) (hb : net.criterion.kind = .bce → ∀ X w, OutputsInside net X w)
    (X T : Mat ℝ) (hXc : X.cols = c) (hTc : T.cols = d) (hX : X.WF) (hT : T.WF) :
    ∃ (f : List ℝ → Sample ℝ → ℝ) (df : List ℝ → Sample ℝ → List ℝ),
      (∀ (w : List ℝ) (x : Sample ℝ), w.length = totalParams net.layers → x.1.length = c → x.2.length = d →
        costOfWeights net (oneRow c x.1) (oneRow d x.2) w = ok (f w x) ∧
        ListGradientAt (costOfWeights net (oneRow c x.1) (oneRow d x.2)) (df w x) w) ∧
      Computes net.computeGrad f df X T (totalParams net.layers) := by
  classical
  have key : ∀ (w : List ℝ) (x : Sample ℝ), ∃ p : ℝ × List ℝ, (w.length = totalParams net.layers → p.2.length = w.length) ∧
      (w.length = totalParams net.layers → x.1.length = c → x.2.length = d →
        net.computeGrad w (oneRow c x.1) (oneRow d x.2) = ok p ∧ costOfWeights net (oneRow c x.1) (oneRow d x.2) w = ok p.1 ∧
        ListGradientAt (costOfWeights net (oneRow c x.1) (oneRow d x.2)) p.2 w) := by
    intro w x
    by_cases h : w.length = totalParams net.layers ∧ x.1.length = c ∧ x.2.length = d
    · obtain ⟨h1, h2, h3⟩ := h
      obtain ⟨cost, grad, a, b, e⟩ := C40_one_sample net hreg (oneRow c x.1) (oneRow d x.2)
        ⟨rfl, rfl, by intro r hr; simp only [oneRow, List.mem_singleton] at hr; rw [hr, h2]; rfl⟩
        ⟨rfl, rfl, by intro r hr; simp only [oneRow, List.mem_singleton] at hr; rw [hr, h3]; rfl⟩ hne hl hA w h1 (fun hk => hb hk _ _)
      exact ⟨(cost, grad), fun _ => e.1, fun _ _ _ => ⟨a, b, e⟩⟩
    · exact ⟨(0, List.replicate w.length 0), fun _ => by simp, fun h1 h2 h3 => absurd ⟨h1, h2, h3⟩ h⟩
  choose p hp1 hp2 using key
  refine ⟨fun w x => (p w x).1, fun w x => (p w x).2, fun w x h1 h2 h3 => (hp2 w x h1 h2 h3).2, ?_⟩
  intro w hw
  refine ⟨fun x => by rw [hp1 w x hw, hw], ?_⟩
  intro i hi hi'
  have e1 : (X.rows.getD i []).length = c := by
    rw [List.getD_eq_getElem?_getD, List.getElem?_eq_getElem hi, Option.getD_some, hX _ (List.getElem_mem hi), hXc]
  have e2 : (T.rows.getD i []).length = d := by
    rw [List.getD_eq_getElem?_getD, List.getElem?_eq_getElem hi', Option.getD_some, hT _ (List.getElem_mem hi'), hTc]
  have := (hp2 w (sampleAt X T i) hw e1 e2).1
  rw [hXc, hTc]
  exact this

/-- **C40 (training).** Training an unregularised network with stochastic gradient descent, AdaGrad or RMSProp keeps the
layers and the number of weights - so the trained network predicts - and the weights are those of the optimiser (C45) run
on the true per-sample cost gradients. -/
theorem C40_training (net : BaseNet ℝ) (hw : net.weights.length = totalParams net.layers) (hreg : net.criterion.reg = .none) {c d : ℕ}
    (hne : net.layers ≠ []) (hl : LinesUp net.layers c d) (hA : GoodActivations net)
    (hb : net.criterion.kind = .bce → ∀ X w, OutputsInside net X w)
    (X T : Mat ℝ) (hXc : X.cols = c) (hTc : T.cols = d) (hX : X.WF) (hT : T.WF) (hrows : X.rows.length ≤ T.rows.length) (r : ℕ → ℕ → ℕ) :
    ∃ (f : List ℝ → Sample ℝ → ℝ) (df : List ℝ → Sample ℝ → List ℝ),
      (∀ (w : List ℝ) (x : Sample ℝ), w.length = totalParams net.layers → x.1.length = c → x.2.length = d →
        costOfWeights net (oneRow c x.1) (oneRow d x.2) w = ok (f w x) ∧
        ListGradientAt (costOfWeights net (oneRow c x.1) (oneRow d x.2)) (df w x) w) ∧
      (∀ o : StochasticGD ℝ, ∃ w run, net.train (fun g s X T => (o.optimize g r s X T).out) X T = ok (withWeights net w) ∧
        w.length = totalParams net.layers ∧ run.out = ok w ∧ StochRun (sgdRule o.alpha o.mu) o.iters f df r net.weights X T run) ∧
      (∀ o : AdaGrad ℝ, ∃ w run, net.train (fun g s X T => (o.optimize g r s X T).out) X T = ok (withWeights net w) ∧
        w.length = totalParams net.layers ∧ run.out = ok w ∧ StochRun (adaRule o.alpha o.tau) o.iters f df r net.weights X T run) ∧
      (∀ o : RMSProp ℝ, ∃ w run, net.train (fun g s X T => (o.optimize g r s X T).out) X T = ok (withWeights net w) ∧
        w.length = totalParams net.layers ∧ run.out = ok w ∧
        StochRun (rmsRule o.learningRate o.decayRate o.epsilon) o.iters f df r net.weights X T run) := by
  obtain ⟨f, df, h1, h2⟩ := net_computes net hreg hne hl hA hb X T hXc hTc hX hT
  have hlen : ∀ (w : List ℝ) (x : Sample ℝ), w.length = net.weights.length → (df w x).length = net.weights.length := by
    intro w x hwl
    rw [hw] at hwl ⊢
    exact (h2 w hwl).1 x
  rw [← hw] at h2
  refine ⟨f, df, h1, ?_, ?_, ?_⟩
  · intro o
    have hrun := C45_sgd o net.computeGrad f df r net.weights X T hrows h2
    obtain ⟨w, hout, hwl⟩ := C45_length hrun hlen
    exact ⟨w, _, by simp only [BaseNet.train, hout, ok_bind, withWeights], by rw [hwl, hw], hout, hrun⟩
  · intro o
    have hrun := C45_adagrad o net.computeGrad f df r net.weights X T hrows h2
    obtain ⟨w, hout, hwl⟩ := C45_length hrun hlen
    exact ⟨w, _, by simp only [BaseNet.train, hout, ok_bind, withWeights], by rw [hwl, hw], hout, hrun⟩
  · intro o
    have hrun := C45_rmsprop o net.computeGrad f df r net.weights X T hrows h2
    obtain ⟨w, hout, hwl⟩ := C45_length hrun hlen
    exact ⟨w, _, by simp only [BaseNet.train, hout, ok_bind, withWeights], by rw [hwl, hw], hout, hrun⟩

/-- A concrete network meeting the hypotheses of `C40_backprop`: one input, a linear layer with bias and an exponential. -/
example : ∃ net : BaseNet ℝ, net.criterion.reg = .none ∧ net.layers ≠ [] ∧ LinesUp net.layers 1 1 ∧ GoodActivations net ∧
    net.weights.length = totalParams net.layers ∧ HasShape (⟨1, [[3], [4]]⟩ : Mat ℝ) 2 1 ∧ HasShape (⟨1, [[0], [1]]⟩ : Mat ℝ) 2 1 := by
  refine ⟨⟨[.new 1 1, .activ expActiv], [1, 2], ⟨.mse, .none⟩⟩, rfl, by simp, .linear true rfl (.activ _ (.nil _)), ?_, rfl, ⟨rfl, rfl, ?_⟩, ⟨rfl, rfl, ?_⟩⟩
  · apply C40_activations
    intro A hA
    simp only [NetLayer.new, List.mem_cons, reduceCtorEq, NetLayer.activ.injEq, List.not_mem_nil, or_false, false_or] at hA
    exact Or.inr (Or.inr (Or.inl hA))
  · simp
  · simp

end RM
