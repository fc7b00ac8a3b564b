import Verif.Model.Examples
import Verif.Props.RegNet
import Verif.Props.SameFunction

/-! C119: the example programs run to the end. This file: examples/nnet-and_gate.rs; and the training of networks with an L2 penalty. -/

namespace RM
open Outcome Scalar Spec

/-- On single samples a network without an L1 penalty computes a cost and a gradient: the gradient of the cost plus the textbook penalty. -/
theorem net_computes_penalised (net : BaseNet ℝ) (hreg : ¬ HasL1 net.criterion.reg) {c d : ℕ} (hne : net.layers ≠ [])
    (hl : LinesUp net.layers c d) (hA : GoodActivations net) (hb : net.criterion.kind = .bce → ∀ X w, OutputsInside net X w)
    (X T : Mat ℝ) (hXc : X.cols = c) (hTc : T.cols = d) (hX : X.WF) (hT : T.WF) :
    ∃ (f : List ℝ → Sample ℝ → ℝ) (df : List ℝ → Sample ℝ → List ℝ),
      (∀ (w : List ℝ) (x : Sample ℝ), w.length = totalParams net.layers → x.1.length = c → x.2.length = d →
        reportedCost net (oneRow c x.1) (oneRow d x.2) w = ok (f w x) ∧
        ListGradientAt (penalisedCost 1 net (oneRow c x.1) (oneRow d x.2)) (df w x) w) ∧
      Computes net.computeGrad f df X T (totalParams net.layers) := by
  classical
  have key : ∀ (w : List ℝ) (x : Sample ℝ), ∃ p : ℝ × List ℝ, (w.length = totalParams net.layers → p.2.length = w.length) ∧
      (w.length = totalParams net.layers → x.1.length = c → x.2.length = d →
        net.computeGrad w (oneRow c x.1) (oneRow d x.2) = ok p ∧ reportedCost net (oneRow c x.1) (oneRow d x.2) w = ok p.1 ∧
        ListGradientAt (penalisedCost 1 net (oneRow c x.1) (oneRow d x.2)) p.2 w) := by
    intro w x
    by_cases h : w.length = totalParams net.layers ∧ x.1.length = c ∧ x.2.length = d
    · obtain ⟨h1, h2, h3⟩ := h
      obtain ⟨cost, grad, a, b, e⟩ := C74_partial net one_pos (oneRow c x.1) (oneRow d x.2)
        ⟨rfl, rfl, by intro r hr; simp only [oneRow, List.mem_singleton] at hr; rw [hr, h2]; rfl⟩
        ⟨rfl, rfl, by intro r hr; simp only [oneRow, List.mem_singleton] at hr; rw [hr, h3]; rfl⟩ hne hl hA w h1 (fun hk => hb hk _ _) (fun h => absurd h hreg)
      rw [Nat.cast_one] at e
      exact ⟨(cost, grad), fun _ => e.1, fun _ _ _ => ⟨a, b, e⟩⟩
    · exact ⟨(0, List.replicate w.length 0), fun _ => by simp, fun h1 h2 h3 => absurd ⟨h1, h2, h3⟩ h⟩
  choose p hp1 hp2 using key
  refine ⟨fun w x => (p w x).1, fun w x => (p w x).2, fun w x h1 h2 h3 => (hp2 w x h1 h2 h3).2, ?_⟩
  intro w hw
  refine ⟨fun x => by rw [hp1 w x hw, hw], ?_⟩
  intro i hi hi'
  have e1 : (X.rows.getD i []).length = c := by
    rw [List.getD_eq_getElem?_getD, List.getElem?_eq_getElem hi, Option.getD_some, hX _ (List.getElem_mem hi), hXc]
  have e2 : (T.rows.getD i []).length = d := by
    rw [List.getD_eq_getElem?_getD, List.getElem?_eq_getElem hi', Option.getD_some, hT _ (List.getElem_mem hi'), hTc]
  have := (hp2 w (sampleAt X T i) hw e1 e2).1
  rw [hXc, hTc]
  exact this

/-- **C74 (training).** Training a network without an L1 penalty with stochastic gradient descent, AdaGrad or RMSProp succeeds, keeps the
layers and the number of weights, and the weights are those of the optimiser (C45) run, sample by sample, on the gradients of the sample's cost plus
the textbook penalty. -/
theorem C74_training (net : BaseNet ℝ) (hw : net.weights.length = totalParams net.layers) (hreg : ¬ HasL1 net.criterion.reg) {c d : ℕ}
    (hne : net.layers ≠ []) (hl : LinesUp net.layers c d) (hA : GoodActivations net)
    (hb : net.criterion.kind = .bce → ∀ X w, OutputsInside net X w)
    (X T : Mat ℝ) (hXc : X.cols = c) (hTc : T.cols = d) (hX : X.WF) (hT : T.WF) (hrows : X.rows.length ≤ T.rows.length) (r : ℕ → ℕ → ℕ) :
    ∃ (f : List ℝ → Sample ℝ → ℝ) (df : List ℝ → Sample ℝ → List ℝ),
      (∀ (w : List ℝ) (x : Sample ℝ), w.length = totalParams net.layers → x.1.length = c → x.2.length = d →
        reportedCost net (oneRow c x.1) (oneRow d x.2) w = ok (f w x) ∧
        ListGradientAt (penalisedCost 1 net (oneRow c x.1) (oneRow d x.2)) (df w x) w) ∧
      (∀ o : StochasticGD ℝ, ∃ w run, net.train (fun g s X T => (o.optimize g r s X T).out) X T = ok (withWeights net w) ∧
        w.length = totalParams net.layers ∧ run.out = ok w ∧ StochRun (sgdRule o.alpha o.mu) o.iters f df r net.weights X T run) ∧
      (∀ o : AdaGrad ℝ, ∃ w run, net.train (fun g s X T => (o.optimize g r s X T).out) X T = ok (withWeights net w) ∧
        w.length = totalParams net.layers ∧ run.out = ok w ∧ StochRun (adaRule o.alpha o.tau) o.iters f df r net.weights X T run) ∧
      (∀ o : RMSProp ℝ, ∃ w run, net.train (fun g s X T => (o.optimize g r s X T).out) X T = ok (withWeights net w) ∧
        w.length = totalParams net.layers ∧ run.out = ok w ∧
        StochRun (rmsRule o.learningRate o.decayRate o.epsilon) o.iters f df r net.weights X T run) := by
  obtain ⟨f, df, h1, h2⟩ := net_computes_penalised net hreg hne hl hA hb X T hXc hTc hX hT
  have hlen : ∀ (w : List ℝ) (x : Sample ℝ), w.length = net.weights.length → (df w x).length = net.weights.length := by
    intro w x hwl
    rw [hw] at hwl ⊢
    exact (h2 w hwl).1 x
  rw [← hw] at h2
  refine ⟨f, df, h1, ?_, ?_, ?_⟩
  · intro o
    have hrun := C45_sgd o net.computeGrad f df r net.weights X T hrows h2
    obtain ⟨w, hout, hwl⟩ := C45_length hrun hlen
    exact ⟨w, _, by simp only [BaseNet.train, hout, ok_bind, withWeights], by rw [hwl, hw], hout, hrun⟩
  · intro o
    have hrun := C45_adagrad o net.computeGrad f df r net.weights X T hrows h2
    obtain ⟨w, hout, hwl⟩ := C45_length hrun hlen
    exact ⟨w, _, by simp only [BaseNet.train, hout, ok_bind, withWeights], by rw [hwl, hw], hout, hrun⟩
  · intro o
    have hrun := C45_rmsprop o net.computeGrad f df r net.weights X T hrows h2
    obtain ⟨w, hout, hwl⟩ := C45_length hrun hlen
    exact ⟨w, _, by simp only [BaseNet.train, hout, ok_bind, withWeights], by rw [hwl, hw], hout, hrun⟩

/-- Concrete instances of `C74_training`: every network of linear layers and sigmoids, with any L2 penalty. -/
example (x : ℝ) (a b : ℕ) (w : List ℝ) (hw : w.length = (a + 1) * b) (X T : Mat ℝ) (hXc : X.cols = a) (hTc : T.cols = b) (hX : X.WF) (hT : T.WF)
    (hrows : X.rows.length ≤ T.rows.length) (r : ℕ → ℕ → ℕ) :=
  C74_training ⟨[.new a b, .activ sigmoid], w, ⟨.bce, .l2 x⟩⟩ (by rw [hw]; rfl) (fun h => h)
    (c := a) (d := b) (by simp) (.linear true rfl (.activ _ (.nil _)))
    (C40_activations _ (by intro A hA; simp [NetLayer.new] at hA; exact .inl hA)) (fun _ X w => C40_sigmoid_outputs _ [.new a b] rfl X w) X T hXc hTc hX hT hrows r

/-! ### The example -/

/-- The rows of inputs that the example trains on. -/
def Spec.andRows (left right : ℕ → ℝ) (n : ℕ) : Mat ℝ := ⟨2, (List.range n).map fun i => [left i, right i]⟩

/-- The targets: 1 where both signals are above 0.7, otherwise 0. -/
noncomputable def Spec.andTargets (left right : ℕ → ℝ) (n : ℕ) : Mat ℝ :=
  ⟨1, (List.range n).map fun i => [if 7 / 10 < left i ∧ 7 / 10 < right i then 1 else 0]⟩

open Classical in
/-- The number of the four cases in which the unit with bias `b` and weights `u`, `v` is on the right side. -/
noncomputable def Spec.andRight (b u v : ℝ) : ℕ :=
  ([(0, 0), (0, 1), (1, 1), (1, 0)] : List (ℝ × ℝ)).countP fun c =>
    decide (if c.1 = 1 ∧ c.2 = 1 then 0 < b + u * c.1 + v * c.2 else b + u * c.1 + v * c.2 < 0)

theorem sigmoid_half (x : ℝ) : (0 < (sigmoid : Activ ℝ).func x - 1 / 2 ↔ 0 < x) ∧ ((sigmoid : Activ ℝ).func x - 1 / 2 < 0 ↔ x < 0) := by
  have hd : (0 : ℝ) < 1 + Real.exp (-x) := by positivity
  have e : (sigmoid : Activ ℝ).func x = 1 / (1 + Real.exp (-x)) := rfl
  rw [e]
  constructor
  · rw [sub_pos, div_lt_div_iff₀ (by norm_num) hd]
    rw [show (1 * (1 + Real.exp (-x)) < 1 * 2) ↔ Real.exp (-x) < 1 by constructor <;> intro h <;> linarith, Real.exp_lt_one_iff]
    constructor <;> intro h <;> linarith
  · rw [sub_neg, div_lt_div_iff₀ hd (by norm_num)]
    rw [show (1 * 2 < 1 * (1 + Real.exp (-x))) ↔ 1 < Real.exp (-x) by constructor <;> intro h <;> linarith, Real.one_lt_exp_iff]
    constructor <;> intro h <;> linarith

theorem sigmoid_gate (x : ℝ) : (0 < ((sigmoid : Activ ℝ).func x - 1 / 2) * (1 - 1 / 2) ↔ 0 < x) ∧
    (0 < ((sigmoid : Activ ℝ).func x - 1 / 2) * (0 - 1 / 2) ↔ x < 0) := by
  obtain ⟨h1, h2⟩ := sigmoid_half x
  rw [← h1, ← h2]
  constructor <;> constructor <;> intro h <;> linarith

theorem andEvaluate_step {expected : List ℝ} {idx : ℕ} {e : ℝ} (h : expected[idx]? = some e) {p : ℝ} {ps : List ℝ} {a b : ℕ} :
    andEvaluate expected idx (p :: ps) (a, b) =
      if 0 < (p - 1 / 2) * (e - 1 / 2) then andEvaluate expected (idx + 1) ps (a + 1, b) else andEvaluate expected (idx + 1) ps (a, b + 1) := by
  rw [andEvaluate, getAt, h]
  simp [ofOption]

/-- **C119 (the neural network example).** For all signals, all starting weights and all shuffles the program ends. Training on the generated rows
gives a bias `b` and weights `u`, `v`; the hits are the cases of the four that lie on the right side of the line `b + u x + v y = 0`, and hits and
misses add up to four. -/
theorem C119_and_gate (left right : ℕ → ℝ) (init : ℕ → ℕ → ℝ) (r : ℕ → ℕ → ℕ) (n : ℕ) :
    ∃ net b u v, BaseNet.mlp [2, 1] ⟨.bce, .l2 0⟩ sigmoid init = ok net ∧
      net.train (fun g s X T => ((⟨1 / 10, 1 / 10, 20⟩ : StochasticGD ℝ).optimize g r s X T).out) (andRows left right n) (andTargets left right n) =
        ok (withWeights net [b, u, v]) ∧
      andExample left right init r n = ok (andRight b u v, 4 - andRight b u v) ∧ andRight b u v ≤ 4 := by
  have hX : (andRows left right n).WF := by
    intro row hrow
    simp only [andRows, List.mem_map] at hrow
    obtain ⟨i, -, rfl⟩ := hrow
    rfl
  have hT : (andTargets left right n).WF := by
    intro row hrow
    simp only [andTargets, List.mem_map] at hrow
    obtain ⟨i, -, rfl⟩ := hrow
    rfl
  obtain ⟨net, hnet, hlayers, hcrit, hwl⟩ : ∃ net : BaseNet ℝ, BaseNet.mlp [2, 1] ⟨.bce, .l2 0⟩ sigmoid init = ok net ∧
      net.layers = [.new 2 1, .activ sigmoid] ∧ net.criterion = ⟨.bce, .l2 0⟩ ∧ net.weights.length = 3 := by
    refine ⟨_, rfl, rfl, rfl, ?_⟩
    simp [mlpLoop, BaseNet.add, BaseNet.new, NetLayer.defaultParams, NetLayer.new]
  have htp : totalParams net.layers = 3 := by rw [hlayers]; rfl
  obtain ⟨f, df, -, hs, -, -⟩ := C74_training net (by rw [hwl, htp]) (by rw [hcrit]; exact fun h => h) (c := 2) (d := 1) (by rw [hlayers]; simp)
    (by rw [hlayers]; exact .linear true rfl (.activ _ (.nil _)))
    (C40_activations _ (by intro A hA; rw [hlayers] at hA; simp [NetLayer.new] at hA; exact .inl hA))
    (fun _ X w => C40_sigmoid_outputs _ [.new 2 1] hlayers X w) (andRows left right n) (andTargets left right n) rfl rfl hX hT
    (by simp [andRows, andTargets]) r
  obtain ⟨w, -, htrain, hw3, -, -⟩ := hs ⟨1 / 10, 1 / 10, 20⟩
  rw [htp] at hw3
  obtain ⟨b, u, v, rfl⟩ : ∃ b u v, w = [b, u, v] := by
    match w, hw3 with
    | [b, u, v], _ => exact ⟨b, u, v, rfl⟩
  refine ⟨net, b, u, v, hnet, htrain, ?_, List.countP_le_length⟩
  have e1 : Mat.new n 2 (andInputs left right n) = ok (andRows left right n) := by
    have := Mat.new_flatten (k := n) (c := 2) (rows := (andRows left right n).rows) (by simp [andRows]) hX
    unfold andInputs
    rw [List.flatMap_def]
    exact this
  have e2 : Mat.new n 1 (andLabels left right n) = ok (andTargets left right n) := by
    have := Mat.new_flatten (k := n) (c := 1) (rows := (andTargets left right n).rows) (by simp [andTargets]) hT
    have h : andLabels left right n = (andTargets left right n).rows.flatten := by
      simp only [andLabels, andTargets]
      rw [← List.flatMap_def, List.map_eq_flatMap]
      congr 1
      funext i
      by_cases h1 : 7 / 10 < left i <;> by_cases h2 : 7 / 10 < right i <;> simp [h1, h2]
    rw [h]
    exact this
  have e3 : (StochasticGD.default : StochasticGD ℝ) = ⟨1 / 10, 1 / 10, 20⟩ := by simp [StochasticGD.default]
  unfold andExample
  rw [e1, e2]
  simp only [ok_bind, real_zero, real_one]
  rw [hnet]
  simp only [ok_bind, e3]
  rw [htrain]
  simp only [expectOk, ok_bind]
  have e4 : (Mat.new 4 2 [0, 0, 0, 1, 1, 1, 1, 0] : Outcome (Mat ℝ)) = ok ⟨2, [[0, 0], [0, 1], [1, 1], [1, 0]]⟩ := by simp [Mat.new, chunk]
  have e5 : (withWeights net [b, u, v]).forwardProp ⟨2, [[0, 0], [0, 1], [1, 1], [1, 0]]⟩ = ok ⟨1,
      [[(sigmoid : Activ ℝ).func b], [(sigmoid : Activ ℝ).func (b + v)], [(sigmoid : Activ ℝ).func (b + u + v)], [(sigmoid : Activ ℝ).func (b + u)]]⟩ := by
    rw [forwardProp_ok (n := 4) (c := 2) (d := 1) ⟨rfl, rfl, by intro row hrow; simp at hrow; rcases hrow with rfl | rfl | rfl | rfl <;> rfl⟩
      (by show LinesUp net.layers 2 1; rw [hlayers]; exact .linear true rfl (.activ _ (.nil _))) (by show _ = totalParams net.layers; rw [htp]; rfl)]
    have key : ∀ x y : ℝ, netRow (withWeights net [b, u, v]).layers (withWeights net [b, u, v]).weights [x, y] = [(sigmoid : Activ ℝ).func (b + u * x + v * y)] := by
      intro x y
      show netRow net.layers [b, u, v] [x, y] = _
      rw [hlayers, netRow_single _ (d := 2) rfl]
      simp only [netRow, List.map_cons, List.map_nil]
      congr 2
      simp [dot]
      ring
    simp only [List.map_cons, List.map_nil, key]
    simp
  rw [e4]
  simp only [ok_bind, e5]
  have hit := fun x : ℝ => (sigmoid_gate x).1
  have miss := fun x : ℝ => (sigmoid_gate x).2
  simp only [Mat.data, List.flatten_cons, List.flatten_nil, List.cons_append, List.nil_append]
  rw [andEvaluate_step rfl, andEvaluate_step rfl, andEvaluate_step rfl, andEvaluate_step rfl, andEvaluate_step rfl, andEvaluate_step rfl, andEvaluate_step rfl,
    andEvaluate_step rfl, andEvaluate_step rfl, andEvaluate_step rfl, andEvaluate_step rfl, andEvaluate_step rfl, andEvaluate_step rfl,
    andEvaluate_step rfl, andEvaluate_step rfl]
  simp only [hit, miss, andRight, List.countP_cons, List.countP_nil, andEvaluate]
  by_cases h1 : b < 0 <;> by_cases h2 : b + v < 0 <;> by_cases h3 : 0 < b + u + v <;> by_cases h4 : b + u < 0 <;> simp [h1, h2, h3, h4]

end RM
