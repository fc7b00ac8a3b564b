import Verif.Props.Copies
import Verif.Props.GlmLik
import Verif.Props.EncodingTwo

/-!
C102: models that describe the same function agree. A network of one layer is a linear or logistic regressor, a generalized
linear model with normal or Bernoulli outcomes is a linear or logistic regressor.
-/

set_option linter.unusedSectionVars false

namespace RM
open Outcome Scalar Spec Matrix

namespace Spec
/-- A list of targets, or of predictions, as a matrix with one column. -/
def oneColumn {F : Type} (y : List F) : Mat F := ⟨1, y.map fun t => [t]⟩
end Spec

section anyScalar
variable {F : Type} [Scalar F]

/-! ### Predictions, in any arithmetic -/

theorem range_getD {n : ℕ} {w : List F} (h : w.length = n) : ((List.range n).map fun i => w.getD i Scalar.zero) = w := by
  subst h
  apply List.ext_getElem (by simp)
  intro i h1 h2
  simp [List.getD_eq_getElem?_getD, h2]

theorem netRow_single {d : ℕ} (ls : List (NetLayer F)) {w : List F} (hw : w.length = d + 1) (x : List F) :
    netRow (.new d 1 :: ls) w x = netRow ls [] [dot (Scalar.one :: x) w] := by
  have h : w.drop ((d + 1) * 1) = [] := by rw [mul_one, ← hw, List.drop_length]
  show netRow ls (w.drop ((d + 1) * 1)) _ = _
  rw [h]
  simp only [List.range_one, List.map_cons, List.map_nil, mul_one, add_zero, if_true]
  rw [range_getD hw]

theorem linesUp_single (d : ℕ) : LinesUp ([.new d 1] : List (NetLayer F)) d 1 := .linear true rfl (.nil _)
theorem linesUp_single_activ (d : ℕ) (A : Activ F) : LinesUp ([.new d 1, .activ A] : List (NetLayer F)) d 1 := .linear true rfl (.activ A (.nil _))

theorem totalParams_single (d : ℕ) : totalParams ([.new d 1] : List (NetLayer F)) = d + 1 := by simp [totalParams, NetLayer.new]
theorem totalParams_single_activ (d : ℕ) (A : Activ F) : totalParams ([.new d 1, .activ A] : List (NetLayer F)) = d + 1 := by
  simp [totalParams, NetLayer.new]

/-- **C102 (network and linear regression).** A network with one linear layer and no activation makes, in any arithmetic, the predictions
of the linear regressor with the same parameters. -/
theorem C102_linear_predict (cr : Criterion F) (X : Mat F) (hX : X.WF) (β : List F) (hb : β.length = X.cols + 1) :
    ∃ p, LinReg.predict ⟨some β⟩ X = ok p ∧ (⟨[.new X.cols 1], β, cr⟩ : BaseNet F).forwardProp X = ok (oneColumn p) := by
  refine ⟨X.rows.map fun x => dot (Scalar.one :: x) β, ?_, ?_⟩
  · unfold LinReg.predict withOnes
    simp only [hcat_ones, ok_bind]
    unfold Mat.mulVec
    rw [if_pos hb.symm, List.map_map]
    rfl
  · rw [forwardProp_ok ⟨rfl, rfl, hX⟩ (linesUp_single X.cols) (by rw [totalParams_single]; exact hb)]
    unfold oneColumn
    rw [List.map_map]
    congr 2
    apply List.map_congr_left
    intro x _
    rw [netRow_single [] hb]
    rfl

/-- **C102 (network and logistic regression).** A network with one linear layer and the sigmoid makes, in any arithmetic, the predictions
of the logistic regressor with the same parameters. -/
theorem C102_logistic_predict (cr : Criterion F) (X : Mat F) (hX : X.WF) (β : List F) (hb : β.length = X.cols + 1) :
    ∃ p, LogReg.predict ⟨some β⟩ X = ok p ∧ (⟨[.new X.cols 1, .activ sigmoid], β, cr⟩ : BaseNet F).forwardProp X = ok (oneColumn p) := by
  refine ⟨X.rows.map fun x => sigmoid.func (dot (Scalar.one :: x) β), ?_, ?_⟩
  · unfold LogReg.predict withOnes
    simp only [hcat_ones, ok_bind]
    unfold Mat.mulVec
    rw [if_pos hb.symm]
    simp only [ok_bind, List.map_map]
    rfl
  · rw [forwardProp_ok ⟨rfl, rfl, hX⟩ (linesUp_single_activ X.cols sigmoid) (by rw [totalParams_single_activ]; exact hb)]
    unfold oneColumn
    rw [List.map_map]
    congr 2
    apply List.map_congr_left
    intro x _
    rw [netRow_single _ hb]
    rfl

/-- **C102 (generalized linear models).** With the same parameters, or none, the Bernoulli and binomial models predict what logistic
regression predicts and the normal model what linear regression predicts, in any arithmetic and on any inputs. -/
theorem C102_glm_predict (q : Option (List F)) (ws : List F) (X : Mat F) :
    Glm.predict ⟨.bernoulli, q⟩ X = LogReg.predict ⟨q⟩ X ∧ Glm.predict ⟨.binomial ws, q⟩ X = LogReg.predict ⟨q⟩ X ∧
    Glm.predict ⟨.normal, q⟩ X = LinReg.predict ⟨q⟩ X := by
  cases q with
  | none => exact ⟨rfl, rfl, rfl⟩
  | some v =>
    refine ⟨rfl, rfl, ?_⟩
    unfold Glm.predict LinReg.predict
    simp only
    cases withOnes X with
    | ok full =>
      simp only [ok_bind]
      cases full.mulVec v with
      | ok s =>
        simp only [ok_bind]
        congr 1
        exact List.map_id s
      | _ => rfl
    | _ => rfl

end anyScalar

/-! ### Costs and gradients -/

theorem flatten_column (y : List ℝ) : (oneColumn y).data = y := by
  unfold oneColumn Mat.data
  induction y with
  | nil => rfl
  | cons a y ih => simpa using ih

theorem zip_column (f : ℝ → ℝ → ℝ) (a b : List ℝ) (h : a.length = b.length) :
    Mat.zip f (oneColumn a) (oneColumn b) = ok (oneColumn (List.zipWith f a b)) ∧ vecZip f a b = ok (List.zipWith f a b) := by
  constructor
  · unfold Mat.zip oneColumn
    rw [if_pos (by simp [h])]
    simp [List.zipWith_map, List.map_zipWith]
  · unfold vecZip
    rw [if_pos h]

theorem mseCost_column (a b : List ℝ) (h : a.length = b.length) : mseCost (oneColumn a) (oneColumn b) = mseCostVec a b := by
  unfold mseCost mseCostVec
  rw [(zip_column _ a b h).1, (zip_column _ a b h).2, ok_bind, ok_bind, (zip_column _ _ _ rfl).1, (zip_column _ _ _ rfl).2, ok_bind, ok_bind]
  unfold Mat.sum
  rw [flatten_column]
  simp [oneColumn]

theorem map_column (f : ℝ → ℝ) (a : List ℝ) : (oneColumn a).map f = oneColumn (a.map f) := by
  unfold oneColumn Mat.map
  simp

theorem ceCost_column (a b : List ℝ) (h : a.length = b.length) : ceCost (oneColumn a) (oneColumn b) = ceCostVec a b := by
  unfold ceCost ceCostVec
  simp only [map_column]
  rw [(zip_column _ _ _ (by simp [h])).1, (zip_column _ _ _ (by simp [h])).2, ok_bind, ok_bind,
    (zip_column _ _ _ (by simp [h])).1, (zip_column _ _ _ (by simp [h])).2, ok_bind, ok_bind,
    (zip_column _ _ _ (by simp [h])).1, (zip_column _ _ _ (by simp [h])).2, ok_bind, ok_bind]
  unfold Mat.sum
  rw [flatten_column]
  simp [oneColumn]

theorem shape_column {y : List ℝ} {n : ℕ} (h : y.length = n) : HasShape (oneColumn y) n 1 := by
  refine ⟨by simp [oneColumn, h], rfl, ?_⟩
  intro r hr
  obtain ⟨t, _, rfl⟩ := List.mem_map.1 hr
  rfl

/-- From the two gradients to the relation between them. -/
theorem same_gradient {L : ℕ} {a : ℝ} {f f' : List ℝ → Outcome ℝ} {g g' w : List ℝ} (hw : w.length = L)
    (hf : ∀ v : List ℝ, v.length = L → ∃ c, f v = ok c ∧ f' v = ok (a * c)) (h : ListGradientAt f g w) (h' : ListGradientAt f' g' w) :
    g' = g.map fun x => a * x := by
  obtain ⟨l, c, c1, c2⟩ := h
  obtain ⟨l', c', c1', c2'⟩ := h'
  have e : c' = fun v => a * c v := by
    funext v
    obtain ⟨q, q1, q2⟩ := hf (List.ofFn v) (by simp [hw])
    rw [c1] at q1
    rw [c1'] at q2
    injection q1 with q1
    injection q2 with q2
    rw [q2, q1]
  rw [e] at c2'
  have := gradient_unique c2' (gradient_scale c2 a)
  apply ext_getD (by rw [List.length_map, l, l'])
  intro j hj
  have hj' : j < w.length := by omega
  have := congrFun this ⟨j, hj'⟩
  simp only at this
  rw [this, getD_lt 0 (by omega), getD_lt 0 (by rw [List.length_map]; omega), List.getElem_map]

/-- **C102 (gradients, linear).** On any data and at any weights, the network with one linear layer and the mean squared error reports the
cost that linear regression reports, and a gradient that is `n` times as long, with `n` the number of samples. -/
theorem C102_linear_gradient (q : List ℝ) (X : Mat ℝ) (hX : X.WF) (y : List ℝ) (hy : y.length = X.rows.length) (hn : X.rows ≠ []) (w : List ℝ)
    (hw : w.length = X.cols + 1) : ∃ full c g, withOnes X = ok full ∧ linComputeGrad w full y = ok (c, g) ∧ g.length = w.length ∧
      (⟨[.new X.cols 1], q, ⟨.mse, .none⟩⟩ : BaseNet ℝ).computeGrad w X (oneColumn y) = ok (c, g.map fun x => (X.rows.length : ℝ) * x) := by
  have hS := withOnes_shape hX
  have hF : (⟨X.cols + 1, X.rows.map ((1 : ℝ) :: ·)⟩ : Mat ℝ).WF := by intro r hr; exact hS.2.2 r hr
  have hyF : y.length = (X.rows.map ((1 : ℝ) :: ·)).length := by simpa using hy
  have cost : ∀ v : List ℝ, v.length = X.cols + 1 →
      costOfWeights ⟨[.new X.cols 1], q, ⟨.mse, .none⟩⟩ X (oneColumn y) v = ok (halfMeanSquares ⟨X.cols + 1, X.rows.map ((1 : ℝ) :: ·)⟩ y v) := by
    intro v hv
    obtain ⟨p, p1, p2⟩ := C102_linear_predict (⟨.mse, .none⟩ : Criterion ℝ) X hX v hv
    unfold costOfWeights withWeights
    simp only [p2, ok_bind]
    have hp : p.length = y.length := by
      rw [C48_predict v X hv] at p1
      injection p1 with p1
      rw [← p1, List.length_map, hy]
    rw [mseCost_column p y hp]
    obtain ⟨g, g1, -⟩ := C49_linear _ hF y v hyF hv
    unfold linComputeGrad at g1
    unfold LinReg.predict at p1
    simp only [withOnes_ok, ok_bind] at p1
    rw [p1, ok_bind] at g1
    obtain ⟨c, hc, g1⟩ := bind_eq_ok.1 g1
    obtain ⟨_, -, g1⟩ := bind_eq_ok.1 g1
    obtain ⟨_, -, g1⟩ := bind_eq_ok.1 g1
    injection g1 with g1
    rw [hc, (Prod.mk.inj g1).1]
  obtain ⟨g, g1, g2⟩ := C49_linear _ hF y w hyF hw
  obtain ⟨c', g', h1, h2, h3⟩ := C40_backprop ⟨[.new X.cols 1], q, ⟨.mse, .none⟩⟩ rfl (n := X.rows.length) (List.length_pos_iff.2 hn) X (oneColumn y) ⟨rfl, rfl, hX⟩
    (shape_column hy) (by simp) (linesUp_single X.cols) (by intro A hA; simp [NetLayer.new] at hA) w (by rw [totalParams_single]; exact hw)
    (by intro h; cases h)
  refine ⟨_, _, g, withOnes_ok X, g1, g2.1, ?_⟩
  rw [cost w hw] at h2
  injection h2 with h2
  rw [h1, ← h2]
  congr 2
  exact same_gradient hw (fun v hv => ⟨_, rfl, by unfold scaledCost; rw [cost v hv]; rfl⟩) g2 h3

/-- **C102 (gradients, logistic).** The network with one linear layer, the sigmoid and the cross entropy reports the cost that logistic
regression reports, and a gradient that is `n` times as long. -/
theorem C102_logistic_gradient (q : List ℝ) (X : Mat ℝ) (hX : X.WF) (y : List ℝ) (hy : y.length = X.rows.length) (hn : X.rows ≠ []) (w : List ℝ)
    (hw : w.length = X.cols + 1) : ∃ full c g, withOnes X = ok full ∧ logComputeGrad w full y = ok (c, g) ∧ g.length = w.length ∧
      (⟨[.new X.cols 1, .activ sigmoid], q, ⟨.bce, .none⟩⟩ : BaseNet ℝ).computeGrad w X (oneColumn y) = ok (c, g.map fun x => (X.rows.length : ℝ) * x) := by
  have hS := withOnes_shape hX
  have hF : (⟨X.cols + 1, X.rows.map ((1 : ℝ) :: ·)⟩ : Mat ℝ).WF := by intro r hr; exact hS.2.2 r hr
  have hyF : y.length = (X.rows.map ((1 : ℝ) :: ·)).length := by simpa using hy
  have cost : ∀ v : List ℝ, v.length = X.cols + 1 →
      costOfWeights ⟨[.new X.cols 1, .activ sigmoid], q, ⟨.bce, .none⟩⟩ X (oneColumn y) v =
        ok (meanCrossEntropy ⟨X.cols + 1, X.rows.map ((1 : ℝ) :: ·)⟩ y v) := by
    intro v hv
    obtain ⟨p, p1, p2⟩ := C102_logistic_predict (⟨.bce, .none⟩ : Criterion ℝ) X hX v hv
    unfold costOfWeights withWeights
    simp only [p2, ok_bind]
    unfold LogReg.predict at p1
    simp only [withOnes_ok, ok_bind] at p1
    obtain ⟨s, s1, p1⟩ := bind_eq_ok.1 p1
    injection p1 with p1
    have hp : p.length = y.length := by
      rw [← p1, List.length_map]
      have : LinReg.predict ⟨some v⟩ X = ok s := by unfold LinReg.predict; simp only [withOnes_ok, ok_bind]; exact s1
      rw [C48_predict v X hv] at this
      injection this with this
      rw [← this, List.length_map, hy]
    rw [ceCost_column p y hp]
    obtain ⟨g, g1, -⟩ := C49_logistic _ hF y v hyF hv
    unfold logComputeGrad at g1
    rw [s1, ok_bind] at g1
    simp only at g1
    rw [p1] at g1
    obtain ⟨c, hc, g1⟩ := bind_eq_ok.1 g1
    obtain ⟨_, -, g1⟩ := bind_eq_ok.1 g1
    obtain ⟨_, -, g1⟩ := bind_eq_ok.1 g1
    injection g1 with g1
    rw [hc, (Prod.mk.inj g1).1]
  obtain ⟨g, g1, g2⟩ := C49_logistic _ hF y w hyF hw
  obtain ⟨c', g', h1, h2, h3⟩ := C40_backprop ⟨[.new X.cols 1, .activ sigmoid], q, ⟨.bce, .none⟩⟩ rfl (n := X.rows.length) (List.length_pos_iff.2 hn) X
    (oneColumn y) ⟨rfl, rfl, hX⟩ (shape_column hy) (by simp) (linesUp_single_activ X.cols sigmoid)
    (by
      intro A hA x
      simp [NetLayer.new] at hA
      subst hA
      exact C41_sigmoid.deriv x)
    w (by rw [totalParams_single_activ]; exact hw)
    (by
      intro _ x hx z hz
      rw [netRow_single _ hw] at hz
      simp only [netRow, List.map_cons, List.map_nil, List.mem_singleton] at hz
      rw [hz]
      exact ⟨sigmoid_pos _, sigmoid_lt_one _⟩)
  refine ⟨_, _, g, withOnes_ok X, g1, g2.1, ?_⟩
  rw [cost w hw] at h2
  injection h2 with h2
  rw [h1, ← h2]
  congr 2
  exact same_gradient hw (fun v hv => ⟨_, rfl, by unfold scaledCost; rw [cost v hv]; rfl⟩) g2 h3

/-! ### Training by gradient descent -/

theorem gdLoop_scaled {a b : ℝ} {L : ℕ} {n : ℝ} (hab : n * b = a) {g g' : List ℝ → Outcome (ℝ × List ℝ)}
    (hg : ∀ w : List ℝ, w.length = L → ∃ c d, g w = ok (c, d) ∧ d.length = L ∧ g' w = ok (c, d.map fun x => n * x)) :
    ∀ (k : ℕ) (w : List ℝ) (prev : ℝ), w.length = L → gdLoop b g' k w prev = gdLoop a g k w prev
  | 0, _, _, _ => rfl
  | k + 1, w, prev, hw => by
    obtain ⟨c, d, h1, h2, h3⟩ := hg w hw
    unfold gdLoop
    simp only [h1, h3]
    have e : vecScale (d.map fun x => n * x) b = vecScale d a := by
      unfold vecScale
      rw [List.map_map]
      apply List.map_congr_left
      intro x _
      simp only [Function.comp, real_mul]
      rw [← hab]
      ring
    have e2 : vecZip Scalar.sub w (vecScale d a) = ok (List.zipWith Scalar.sub w (vecScale d a)) := by
      unfold vecZip
      rw [if_pos (by simp [vecScale, h2, hw])]
    rw [Logged.call_ok_bind, Logged.call_ok_bind]
    simp only [e, e2, Logged.lift_ok_bind]
    rw [gdLoop_scaled hab hg k _ c (by simp [vecScale, h2, hw])]

/-- Gradient descent as the optimiser of a network. -/
noncomputable def netDescent (o : GradientDesc ℝ) (g : ComputeGrad ℝ) (w : List ℝ) (X T : Mat ℝ) : Outcome (List ℝ) := (o.optimize (fun w => g w X T) w).out

/-- **C102 (training, logistic).** Training that network by gradient descent with the step `a / n`, from the weights 1/2, ends with the
parameters that logistic regression finds by gradient descent with the step `a`. -/
theorem C102_logistic_train (a : ℝ) (iters : ℕ) (X : Mat ℝ) (hX : X.WF) (y : List ℝ) (hy : y.length = X.rows.length) (hn : X.rows ≠ []) :
    ∃ β, LogReg.train (fun g w => ((GradientDesc.mk a iters).optimize g w).out) X y = ok ⟨some β⟩ ∧
      BaseNet.train (netDescent ⟨a / X.rows.length, iters⟩) ⟨[.new X.cols 1, .activ sigmoid], List.replicate (X.cols + 1) (1 / 2), ⟨.bce, .none⟩⟩
        X (oneColumn y) = ok ⟨[.new X.cols 1, .activ sigmoid], β, ⟨.bce, .none⟩⟩ := by
  have hn0 : (X.rows.length : ℝ) ≠ 0 := by
    have := List.length_pos_iff.2 hn
    exact_mod_cast this.ne'
  have hg : ∀ w : List ℝ, w.length = X.cols + 1 → ∃ c d, logComputeGrad w ⟨X.cols + 1, X.rows.map ((1 : ℝ) :: ·)⟩ y = ok (c, d) ∧ d.length = X.cols + 1 ∧
      (⟨[.new X.cols 1, .activ sigmoid], List.replicate (X.cols + 1) (1 / 2), ⟨.bce, .none⟩⟩ : BaseNet ℝ).computeGrad w X (oneColumn y) =
        ok (c, d.map fun x => (X.rows.length : ℝ) * x) := by
    intro w hw
    obtain ⟨full, c, g, h1, h2, h3, h4⟩ := C102_logistic_gradient (List.replicate (X.cols + 1) (1 / 2)) X hX y hy hn w hw
    rw [withOnes_ok] at h1
    injection h1 with h1
    subst h1
    exact ⟨c, g, h2, by rw [h3, hw], h4⟩
  have e := gdLoop_scaled (a := a) (b := a / X.rows.length) (n := X.rows.length) (by field_simp) hg iters (List.replicate (X.cols + 1) (1 / 2)) 0 (by simp)
  obtain ⟨β, hb⟩ : ∃ β, (gdLoop a (fun w => logComputeGrad w ⟨X.cols + 1, X.rows.map ((1 : ℝ) :: ·)⟩ y) iters (List.replicate (X.cols + 1) (1 / 2)) 0).out = ok β := by
    obtain ⟨β, h, -⟩ := gdLoop_inv a (P := fun w => w.length = X.cols + 1) (by
      intro w hw
      obtain ⟨c, d, h1, h2, -⟩ := hg w hw
      refine ⟨c, d, List.zipWith Scalar.sub w (vecScale d a), h1, ?_, by simp [vecScale, h2, hw]⟩
      unfold vecZip
      rw [if_pos (by simp [vecScale, h2, hw])]) iters (List.replicate (X.cols + 1) (1 / 2)) 0 (by simp)
    exact ⟨β, h⟩
  refine ⟨β, ?_, ?_⟩
  · unfold LogReg.train GradientDesc.optimize
    simp only [withOnes_ok, ok_bind, real_zero, real_ofRat]
    norm_num
    norm_num at hb
    rw [hb]
    rfl
  · unfold BaseNet.train netDescent GradientDesc.optimize
    simp only [real_zero]
    rw [e, hb]
    rfl

/-- **C102 (training, linear).** Training the network with one linear layer by gradient descent with the default step divided by `n`, from
the weights 0, ends with the parameters that `train_with_optimization` finds. -/
theorem C102_linear_train (X : Mat ℝ) (hX : X.WF) (y : List ℝ) (hy : y.length = X.rows.length) (hn : X.rows ≠ []) :
    ∃ β, LinReg.trainWithOptimization X y = ok ⟨some β⟩ ∧
      BaseNet.train (netDescent ⟨3 / 10 / X.rows.length, 100⟩) ⟨[.new X.cols 1], List.replicate (X.cols + 1) 0, ⟨.mse, .none⟩⟩
        X (oneColumn y) = ok ⟨[.new X.cols 1], β, ⟨.mse, .none⟩⟩ := by
  have hn0 : (X.rows.length : ℝ) ≠ 0 := by
    have := List.length_pos_iff.2 hn
    exact_mod_cast this.ne'
  have hg : ∀ w : List ℝ, w.length = X.cols + 1 → ∃ c d, linComputeGrad w ⟨X.cols + 1, X.rows.map ((1 : ℝ) :: ·)⟩ y = ok (c, d) ∧ d.length = X.cols + 1 ∧
      (⟨[.new X.cols 1], List.replicate (X.cols + 1) 0, ⟨.mse, .none⟩⟩ : BaseNet ℝ).computeGrad w X (oneColumn y) =
        ok (c, d.map fun x => (X.rows.length : ℝ) * x) := by
    intro w hw
    obtain ⟨full, c, g, h1, h2, h3, h4⟩ := C102_linear_gradient (List.replicate (X.cols + 1) 0) X hX y hy hn w hw
    rw [withOnes_ok] at h1
    injection h1 with h1
    subst h1
    exact ⟨c, g, h2, by rw [h3, hw], h4⟩
  have e := gdLoop_scaled (a := (3 / 10 : ℝ)) (b := 3 / 10 / X.rows.length) (n := X.rows.length) (by field_simp) hg 100 (List.replicate (X.cols + 1) 0) 0
    (by simp)
  obtain ⟨β, hb⟩ : ∃ β, (gdLoop (3 / 10 : ℝ) (fun w => linComputeGrad w ⟨X.cols + 1, X.rows.map ((1 : ℝ) :: ·)⟩ y) 100 (List.replicate (X.cols + 1) 0) 0).out = ok β := by
    obtain ⟨β, h, -⟩ := gdLoop_inv (3 / 10 : ℝ) (P := fun w => w.length = X.cols + 1) (by
      intro w hw
      obtain ⟨c, d, h1, h2, -⟩ := hg w hw
      refine ⟨c, d, List.zipWith Scalar.sub w (vecScale d (3 / 10)), h1, ?_, by simp [vecScale, h2, hw]⟩
      unfold vecZip
      rw [if_pos (by simp [vecScale, h2, hw])]) 100 (List.replicate (X.cols + 1) 0) 0 (by simp)
    exact ⟨β, h⟩
  refine ⟨β, ?_, ?_⟩
  · unfold LinReg.trainWithOptimization GradientDesc.optimize GradientDesc.default
    simp only [withOnes_ok, ok_bind, real_zero, real_ofRat]
    norm_num
    norm_num at hb
    rw [hb]
    rfl
  · unfold BaseNet.train netDescent GradientDesc.optimize
    simp only [real_zero]
    rw [e, hb]
    rfl

/-! ### Generalized linear models -/

theorem inner_ones (x β : List ℝ) (h : β ≠ []) : Spec.inner (1 :: x) β = affine β x := by
  cases β with
  | nil => exact absurd rfl h
  | cons b w => simp [Spec.inner, affine]

/-- **C102 (normal outcomes).** When both trainings succeed, the generalized linear model with normal outcomes has found the parameters of
linear regression, so all its predictions are the same. -/
theorem C102_normal_train {solve : Mat ℝ → List ℝ → Outcome (List ℝ)} (hs : SolvesExactly solve) {inverse : Mat ℝ → Outcome (Mat ℝ)}
    (hi : InvertsExactly inverse) (X : Mat ℝ) (hX : X.WF) (y : List ℝ) (q : Option (List ℝ)) (m : LinReg ℝ) (m' : Glm ℝ)
    (h : LinReg.train solve X y = ok m) (h' : Glm.train inverse ⟨.normal, q⟩ X y = ok m') :
    m'.parameters = m.parameters ∧ ∀ Z, m'.predict Z = m.predict Z := by
  obtain ⟨β, rfl, hy, hb, h1, h2⟩ := linTrain_normal hs hX h
  obtain ⟨γ, rfl, -, hc, g1, -⟩ := normal_train hi hX h'
  have : γ = β := toV_inj hc hb (h2 _ g1)
  subst this
  exact ⟨rfl, fun Z => (C102_glm_predict (some γ) [] Z).2.2⟩

theorem logGrad_shape {A : Mat ℝ} {n m : ℕ} (hA : HasShape A n m) (y w : List ℝ) : logGrad A y w =
    List.ofFn fun k : Fin m => (toM n m A)ᵀ.mulVec (fun i => logistic ((toM n m A).mulVec (toV _ w) i) - toV _ y i) k / n := by
  obtain ⟨h1, h2, -⟩ := hA
  subst h1 h2
  rfl

/-- **C102 (Bernoulli outcomes).** The log-likelihood that the Bernoulli model maximises is `-n` times the cost that logistic regression
minimises, so they look for the same parameters: the likelihood is maximal exactly where the gradient of logistic regression
vanishes. -/
theorem C102_bernoulli_cost (X : Mat ℝ) (hX : X.WF) (y : List ℝ) (hy : y.length = X.rows.length) (hn : X.rows ≠ []) (β : List ℝ) (hb : β.length = X.cols + 1) :
    ∃ full c g, withOnes X = ok full ∧ logComputeGrad β full y = ok (c, g) ∧ logLik .bernoulli X y β = -(X.rows.length * c) ∧
      (MaxLikelihood .bernoulli X y β ↔ g = List.replicate (X.cols + 1) 0) := by
  have hne : ∀ v : List ℝ, v.length = X.cols + 1 → v ≠ [] := by intro v hv h; rw [h] at hv; simp at hv
  have hn0 : (X.rows.length : ℝ) ≠ 0 := by
    have := List.length_pos_iff.2 hn
    exact_mod_cast this.ne'
  have hS := withOnes_shape hX
  have hF : (⟨X.cols + 1, X.rows.map ((1 : ℝ) :: ·)⟩ : Mat ℝ).WF := by intro r hr; exact hS.2.2 r hr
  have hyF : y.length = (X.rows.map ((1 : ℝ) :: ·)).length := by simpa using hy
  have g1 := logComputeGrad_eq _ hF y β hyF hb
  have hl : logLik .bernoulli X y β = -(X.rows.length * meanCrossEntropy ⟨X.cols + 1, X.rows.map ((1 : ℝ) :: ·)⟩ y β) := by
    unfold logLik meanCrossEntropy
    simp only [List.length_map, List.zipWith_map_left]
    rw [mul_div_cancel₀ _ hn0]
    have : ∀ (l : List (List ℝ)) (t : List ℝ), (List.zipWith (fun x t => sampleLogLik .bernoulli t (affine β x)) l t).sum =
        -(List.zipWith (fun x t => -(t * Real.log (logistic (Spec.inner (1 :: x) β)) + (1 - t) * Real.log (1 - logistic (Spec.inner (1 :: x) β)))) l t).sum := by
      intro l
      induction l with
      | nil => simp
      | cons x l ih =>
        intro t
        cases t with
        | nil => simp
        | cons t ts =>
          have e : sampleLogLik .bernoulli t (affine β x) = t * Real.log (logistic (affine β x)) + (1 - t) * Real.log (1 - logistic (affine β x)) := rfl
          rw [List.zipWith_cons_cons, List.zipWith_cons_cons, List.sum_cons, List.sum_cons, ih, e, inner_ones _ _ (hne β hb)]
          ring
    exact this _ _
  refine ⟨_, _, _, withOnes_ok X, g1, hl, ?_⟩
  rw [maxLikelihood_iff hX _ hy hb]
  have hz : (List.replicate (X.cols + 1) 0 : List ℝ) = List.ofFn fun _ : Fin (X.cols + 1) => (0 : ℝ) := (List.ofFn_const _ _).symm
  rw [hz, logGrad_shape hS, List.ofFn_inj]
  change _ ↔ (fun k => (toM X.rows.length (X.cols + 1) (fullOf X))ᵀ.mulVec
    (fun i => logistic ((toM X.rows.length (X.cols + 1) (fullOf X)).mulVec (toV _ β) i) - toV _ y i) k / (X.rows.length : ℝ)) = _
  set A := toM X.rows.length (X.cols + 1) (fullOf X) with hA
  have e : ∀ k, Aᵀ.mulVec (fun i => toV _ y i - (Family.bernoulli : Family ℝ).link.funcInv (A.mulVec (toV _ β) i)) k =
      -Aᵀ.mulVec (fun i => logistic (A.mulVec (toV _ β) i) - toV _ y i) k := by
    intro k
    rw [← Pi.neg_apply, ← Matrix.mulVec_neg]
    congr 2
    funext i
    rw [Pi.neg_apply, neg_sub]
    rfl
  constructor
  · intro h
    funext k
    have := e k
    rw [h, Pi.zero_apply] at this
    rw [neg_eq_zero.1 this.symm, zero_div]
  · intro h
    funext k
    have := congrFun h k
    rw [e k, Pi.zero_apply, neg_eq_zero]
    exact (div_eq_zero_iff.1 this).resolve_right hn0

/-! ### The hypotheses can be met -/

/-- The networks are those that the constructors build. -/
example (d : ℕ) (r : ℕ → ℕ → ℝ) : ∃ net, BaseNet.mlp [d, 1] ⟨.bce, .none⟩ sigmoid r = ok net ∧ net.layers = [.new d 1, .activ sigmoid] := ⟨_, rfl, rfl⟩
example (d : ℕ) (r : ℕ → ℝ) : ((BaseNet.new ⟨.mse, .none⟩).add (.new d 1) r : BaseNet ℝ).layers = [.new d 1] := rfl

/-- Three samples of two features. -/
example (a : ℝ) (iters : ℕ) : ∃ β, LogReg.train (fun g w => ((GradientDesc.mk a iters).optimize g w).out) ⟨2, [[1, 2], [3, 4], [0, -1]]⟩ [1, 0, 1] = ok ⟨some β⟩ := by
  obtain ⟨β, h, -⟩ := C102_logistic_train a iters ⟨2, [[1, 2], [3, 4], [0, -1]]⟩ (by simp [Mat.WF]) [1, 0, 1] rfl (by simp)
  exact ⟨β, h⟩

/-- Both trainings of normal outcomes succeed. -/
example : ∃ m m', LinReg.train (gaussSolve 0) ⟨1, [[0], [1], [(3 : ℝ)]]⟩ [1, 2, 5] = ok m ∧
    Glm.train (gaussInverse 0) ⟨.normal, none⟩ ⟨1, [[0], [1], [(3 : ℝ)]]⟩ [1, 2, 5] = ok m' := by
  have hX : (⟨1, [[0], [1], [3]]⟩ : Mat ℝ).WF := by simp [Mat.WF]
  obtain ⟨m, hm⟩ := (C48_succeeds_iff (gaussSolve_exact 0 le_rfl) gaussSolve_regular _ hX [1, 2, 5] rfl).2 three_independent
  obtain ⟨β, hb, -⟩ := C52_train (gaussInverse_exact 0 le_rfl) gaussInverse_regular ⟨.normal, none⟩ _ hX three_independent [1, 2, 5] rfl trivial
  exact ⟨m, _, hm, hb⟩

end RM
