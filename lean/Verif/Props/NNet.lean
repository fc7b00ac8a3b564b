import Verif.Proofs.NNet

/-!
# C38, C39: weights and forward pass of a neural network
-/

namespace RM
open Outcome Scalar Spec
variable {F : Type} [Scalar F]

set_option linter.unusedSectionVars false

/-- Where the block of layer `i` starts. -/
def Spec.blockStart (ls : List (NetLayer F)) (i : ℕ) : ℕ := totalParams (ls.take i)

theorem add_inv (net : BaseNet F) (l : NetLayer F) (r : ℕ → F) (h : net.weights.length = totalParams net.layers) :
    (net.add l r).weights.length = totalParams (net.add l r).layers := by
  simp only [BaseNet.add, List.length_append, totalParams_append, totalParams_cons, totalParams_nil, h]
  cases l <;> simp [NetLayer.defaultParams, NetLayer.numParams, NetLayer.paramShape]

theorem addLayers_inv : ∀ (adds : List (NetLayer F × (ℕ → F))) (net : BaseNet F), net.weights.length = totalParams net.layers →
    (net.addLayers adds).layers = net.layers ++ adds.map Prod.fst ∧ (net.addLayers adds).weights.length = totalParams (net.addLayers adds).layers
  | [], net, h => ⟨by simp [BaseNet.addLayers], h⟩
  | (l, r) :: adds, net, h => by
    obtain ⟨h1, h2⟩ := addLayers_inv adds (net.add l r) (add_inv net l r h)
    refine ⟨?_, h2⟩
    rw [BaseNet.addLayers, h1]
    simp [BaseNet.add]

/-- **C38 (length).** A network built by any sequence of `add` calls has exactly the added layers, in order, and as many
weights as the layers have parameters; `add` keeps that for any network. -/
theorem C38_length (c : Criterion F) (adds : List (NetLayer F × (ℕ → F))) :
    ((BaseNet.new c).addLayers adds).layers = adds.map Prod.fst ∧
    ((BaseNet.new c).addLayers adds).weights.length = totalParams (adds.map Prod.fst) := by
  obtain ⟨h1, h2⟩ := addLayers_inv adds (BaseNet.new c) rfl
  rw [h1] at h2
  exact ⟨h1, h2⟩

theorem blockStart_succ (ls : List (NetLayer F)) (i : ℕ) (hi : i < ls.length) : blockStart ls (i + 1) = blockStart ls i + ls[i].numParams := by
  unfold blockStart
  rw [List.take_add_one, List.getElem?_eq_getElem hi, totalParams_append]
  simp [totalParams_cons, totalParams_nil]

theorem blockStart_mono (ls : List (NetLayer F)) {i j : ℕ} (h : i ≤ j) : blockStart ls i ≤ blockStart ls j := by
  unfold blockStart
  have : ls.take j = ls.take i ++ (ls.take j).drop i := by
    have := List.take_append_drop i (ls.take j)
    rw [List.take_take, Nat.min_eq_left h] at this
    exact this.symm
  rw [this, totalParams_append]
  omega

theorem blockStart_le (ls : List (NetLayer F)) (i : ℕ) : blockStart ls i ≤ totalParams ls := by
  unfold blockStart
  conv_rhs => rw [← List.take_append_drop i ls, totalParams_append]
  omega

/-- **C38 (blocks).** `get_net_weights(i)` is the matrix of the layer's parameter shape whose row-major data are the
consecutive weights from the start of block `i` (the parameters of the layers before it); its entry `(a, b)` is weight
`start + a * width + b`. An index that is no layer panics. -/
theorem C38_blocks (net : BaseNet F) (hw : net.weights.length = totalParams net.layers) :
    (∀ (i : ℕ) (hi : i < net.layers.length), ∃ M, net.netWeights i = ok M ∧
      HasShape M net.layers[i].paramShape.1 net.layers[i].paramShape.2 ∧
      M.data = (net.weights.drop (blockStart net.layers i)).take (blockStart net.layers (i + 1) - blockStart net.layers i) ∧
      ∀ a b : ℕ, a < net.layers[i].paramShape.1 → b < net.layers[i].paramShape.2 →
        ∃ row, M.rows[a]? = some row ∧ row[b]? = net.weights[blockStart net.layers i + a * net.layers[i].paramShape.2 + b]?) ∧
    ∀ i : ℕ, net.layers.length ≤ i → net.netWeights i = Outcome.panic := by
  constructor
  · intro i hi
    have h1 := blockStart_le net.layers (i + 1)
    rw [blockStart_succ _ _ hi] at h1
    have hle : blockStart net.layers i + net.layers[i].paramShape.1 * net.layers[i].paramShape.2 ≤ net.weights.length := by
      rw [hw]; exact h1
    obtain ⟨M, hM, hs, hd⟩ := slice_shape hle
    refine ⟨M, ?_, hs, ?_, ?_⟩
    · unfold BaseNet.netWeights BaseNet.layerWeights
      rw [sum_numParams]
      simp only [getAt, List.getElem?_eq_getElem hi, ofOption_some, ok_bind]
      exact hM
    · rw [hd, blockStart_succ _ _ hi, Nat.add_sub_cancel_left]
      rfl
    · intro a b ha hb
      have hrow : M.rows[a]? = some (M.rows[a]'(by rw [hs.1]; exact ha)) := List.getElem?_eq_getElem _
      refine ⟨_, hrow, ?_⟩
      unfold sliceAt at hM
      rw [if_pos hle] at hM
      injection hM with hM
      have key : ∀ (o : ℕ) (k a b : ℕ) (w : List F), k * o ≤ w.length → a < k → b < o → ∀ row, (chunk o k w)[a]? = some row → row[b]? = w[a * o + b]? := by
        intro o k
        induction k with
        | zero => intro a b w _ ha; omega
        | succ k ih =>
          intro a b w hw ha hb row hrow
          cases a with
          | zero =>
            simp only [chunk, List.getElem?_cons_zero, Option.some.injEq] at hrow
            rw [← hrow, List.getElem?_take_of_lt hb]
            simp
          | succ a =>
            simp only [chunk, List.getElem?_cons_succ] at hrow
            rw [Nat.succ_mul] at hw
            have := ih a b (w.drop o) (by rw [List.length_drop]; omega) (by omega) hb row hrow
            rw [this, List.getElem?_drop]
            congr 1
            rw [Nat.succ_mul]; omega
      have := key _ _ a b (net.weights.drop (blockStart net.layers i)) (by rw [List.length_drop]; omega) ha hb _ (by rw [← hrow, ← hM])
      rw [this, List.getElem?_drop, Nat.add_assoc]
  · intro i hi
    unfold BaseNet.netWeights BaseNet.layerWeights
    simp [getAt, List.getElem?_eq_none hi]

/-- **C38 (partition).** The blocks are disjoint and cover the weights: every weight index lies in the block of exactly one
layer. -/
theorem C38_partition (net : BaseNet F) (hw : net.weights.length = totalParams net.layers) (k : ℕ) (hk : k < net.weights.length) :
    ∃! i, i < net.layers.length ∧ blockStart net.layers i ≤ k ∧ k < blockStart net.layers (i + 1) := by
  have hex : ∀ m, m ≤ net.layers.length → k < blockStart net.layers m → ∃ i, i < m ∧ blockStart net.layers i ≤ k ∧ k < blockStart net.layers (i + 1) := by
    intro m
    induction m with
    | zero => intro _ h; simp [blockStart, totalParams] at h
    | succ m ih =>
      intro hm h
      by_cases h' : k < blockStart net.layers m
      · obtain ⟨i, hi, h1⟩ := ih (by omega) h'
        exact ⟨i, by omega, h1⟩
      · exact ⟨m, by omega, by omega, h⟩
  obtain ⟨i, hi, h1, h2⟩ := hex net.layers.length le_rfl (by unfold blockStart; rw [List.take_length, ← hw]; exact hk)
  refine ⟨i, ⟨hi, h1, h2⟩, ?_⟩
  rintro j ⟨hj, h3, h4⟩
  rcases Nat.lt_trichotomy j i with h | h | h
  · have := blockStart_mono net.layers (i := j + 1) (j := i) h; omega
  · exact h
  · have := blockStart_mono net.layers (i := i + 1) (j := j) h; omega

/-- The network with weight `k` replaced. -/
def Spec.setWeight (net : BaseNet F) (k : ℕ) (x : F) : BaseNet F := ⟨net.layers, net.weights.set k x, net.criterion⟩

/-- **C38 (independence).** Changing a weight outside the block of layer `i` leaves `get_net_weights(i)` unchanged. -/
theorem C38_independent (net : BaseNet F) (hw : net.weights.length = totalParams net.layers) (i k : ℕ) (hi : i < net.layers.length) (x : F)
    (hk : k < blockStart net.layers i ∨ blockStart net.layers (i + 1) ≤ k) :
    (setWeight net k x).netWeights i = net.netWeights i := by
  have h1 := blockStart_le net.layers (i + 1)
  obtain ⟨M, hM, hs, hd, -⟩ := (C38_blocks net hw).1 i hi
  obtain ⟨M', hM', hs', hd', -⟩ := (C38_blocks (setWeight net k x) (by simpa [setWeight] using hw)).1 i hi
  rw [hM, hM']
  congr 1
  simp only [setWeight] at hs' hd'
  have hdata : M'.data = M.data := by
    rw [hd, hd']
    have hm := blockStart_mono net.layers (Nat.le_succ i)
    apply List.ext_getElem?
    intro j
    by_cases hj : j < blockStart net.layers (i + 1) - blockStart net.layers i
    · rw [List.getElem?_take_of_lt hj, List.getElem?_take_of_lt hj, List.getElem?_drop, List.getElem?_drop, List.getElem?_set_ne (by omega)]
    · rw [List.getElem?_eq_none (by simp; omega), List.getElem?_eq_none (by simp; omega)]
  have e1 := chunk_flatten _ M.rows hs.2.2
  have e2 := chunk_flatten _ M'.rows hs'.2.2
  obtain ⟨c1, r1⟩ := M
  obtain ⟨c2, r2⟩ := M'
  simp only [Mat.data] at hdata
  have hc1 := hs.2.1
  have hc2 := hs'.2.1
  have hl1 := hs.1
  have hl2 := hs'.1
  simp only at hc1 hc2 hl1 hl2 e1 e2
  rw [hl1] at e1
  rw [hl2, hdata, e1] at e2
  rw [hc1, hc2, e2]

/-- **C38 (add).** Adding a layer leaves the weights of the layers already there unchanged; the new layer's weights are its
freshly drawn ones: the raw draws times the square root of 2 over the sum of the layer's sizes. -/
theorem C38_add (net : BaseNet F) (hw : net.weights.length = totalParams net.layers) (l : NetLayer F) (r : ℕ → F) :
    (∀ i < net.layers.length, (net.add l r).netWeights i = net.netWeights i) ∧
    ∃ M, (net.add l r).netWeights net.layers.length = ok M ∧ M.data = (List.range l.numParams).map fun j =>
      Scalar.zero +. (Scalar.sqrt (Scalar.ofRat 2 /. Scalar.ofNat (l.paramShape.1 + l.paramShape.2)) *. r j) := by
  constructor
  · intro i hi
    unfold BaseNet.netWeights BaseNet.layerWeights
    simp only [sum_numParams, BaseNet.add, getAt, List.getElem?_append_left hi]
    rw [List.take_append_of_le_length (by omega), List.getElem?_eq_getElem hi]
    simp only [ofOption_some, ok_bind]
    have h1 := blockStart_le net.layers (i + 1)
    rw [blockStart_succ _ _ hi] at h1
    have hle : totalParams (net.layers.take i) + net.layers[i].paramShape.1 * net.layers[i].paramShape.2 ≤ net.weights.length := by
      rw [hw]; exact h1
    unfold sliceAt
    rw [if_pos hle, if_pos (by rw [List.length_append]; omega)]
    congr 2
    have e : ∀ (o k : ℕ) (a b : List F), k * o ≤ a.length → chunk o k (a ++ b) = chunk o k a := by
      intro o k
      induction k with
      | zero => intros; rfl
      | succ k ih =>
        intro a b h
        rw [Nat.succ_mul] at h
        rw [chunk, chunk, List.take_append_of_le_length (by omega), List.drop_append_of_le_length (by omega), ih _ _ (by rw [List.length_drop]; omega)]
    rw [List.drop_append_of_le_length (by omega), e _ _ _ _ (by rw [List.length_drop]; omega)]
  · obtain ⟨M, hM, hs, hd, -⟩ := (C38_blocks (net.add l r) (add_inv net l r hw)).1 net.layers.length (by simp [BaseNet.add])
    refine ⟨M, hM, ?_⟩
    rw [hd, blockStart_succ _ _ (by simp [BaseNet.add]), Nat.add_sub_cancel_left]
    simp only [blockStart, BaseNet.add, List.take_left', List.getElem_concat_length]
    rw [← hw, List.drop_left']
    · cases l <;> simp [NetLayer.defaultParams, NetLayer.numParams, NetLayer.paramShape, List.take_of_length_le]
    · rfl

theorem mlpLoop_spec (A : Activ F) (r : ℕ → ℕ → F) : ∀ (sizes : List ℕ) (net : BaseNet F) (i : ℕ),
    (mlpLoop A r net i sizes).layers = net.layers ++ (List.zip sizes sizes.tail).flatMap (fun p => [NetLayer.linear (p.1 + 1) p.2 true, .activ A]) ∧
    (mlpLoop A r net i sizes).criterion = net.criterion ∧
    (net.weights.length = totalParams net.layers → (mlpLoop A r net i sizes).weights.length = totalParams (mlpLoop A r net i sizes).layers)
  | [], net, i => by simp [mlpLoop]
  | [a], net, i => by simp [mlpLoop]
  | a :: b :: rest, net, i => by
    obtain ⟨h1, h2, h3⟩ := mlpLoop_spec A r (b :: rest) ((net.add (.new a b) (r i)).add (.activ A) (r i)) (i + 1)
    refine ⟨?_, ?_, ?_⟩
    · rw [mlpLoop, h1]
      simp [BaseNet.add, NetLayer.new]
    · rw [mlpLoop, h2]; rfl
    · intro h
      rw [mlpLoop]
      exact h3 (add_inv _ _ _ (add_inv _ _ _ h))

theorem LinesUp_mlp (A : Activ F) : ∀ (sizes : List ℕ) (a : ℕ),
    LinesUp ((List.zip (a :: sizes) sizes).flatMap (fun p => [NetLayer.linear (p.1 + 1) p.2 true, .activ A])) a ((a :: sizes).getLast (by simp))
  | [], a => .nil a
  | b :: rest, a => by
    rw [List.zip_cons_cons, List.flatMap_cons, List.getLast_cons (by simp)]
    exact .linear true rfl (.activ A (LinesUp_mlp A rest b))

/-- **C38 (mlp).** `mlp` with sizes `s₀, s₁, …` builds, for every pair of consecutive sizes, a linear layer with bias from
the first to the second followed by the activation; the layers line up from the first size to the last, and the weights
have the right length. No sizes at all panic. -/
theorem C38_mlp (s₀ : ℕ) (sizes : List ℕ) (c : Criterion F) (A : Activ F) (r : ℕ → ℕ → F) :
    (BaseNet.mlp [] c A r = Outcome.panic) ∧
    ∃ net, BaseNet.mlp (s₀ :: sizes) c A r = ok net ∧ net.criterion = c ∧
      net.layers = (List.zip (s₀ :: sizes) sizes).flatMap (fun p => [NetLayer.new p.1 p.2, .activ A]) ∧
      LinesUp net.layers s₀ ((s₀ :: sizes).getLast (by simp)) ∧
      net.weights.length = totalParams net.layers ∧
      totalParams net.layers = ((List.zip (s₀ :: sizes) sizes).map fun p => (p.1 + 1) * p.2).sum := by
  refine ⟨rfl, _, rfl, ?_⟩
  obtain ⟨h1, h2, h3⟩ := mlpLoop_spec A r (s₀ :: sizes) (BaseNet.new c) 0
  simp only [BaseNet.new, List.nil_append, List.tail_cons] at h1 h2 h3
  refine ⟨h2, h1, ?_, h3 rfl, ?_⟩
  · show LinesUp (mlpLoop A r (BaseNet.new c) 0 (s₀ :: sizes)).layers _ _
    simp only [BaseNet.new]
    rw [h1]
    exact LinesUp_mlp A sizes s₀
  · show totalParams (mlpLoop A r (BaseNet.new c) 0 (s₀ :: sizes)).layers = _
    simp only [BaseNet.new]
    rw [h1]
    generalize List.zip (s₀ :: sizes) sizes = l
    induction l with
    | nil => rfl
    | cons p l ih =>
      rw [List.flatMap_cons, totalParams_append, ih]
      simp [totalParams]

/-- A concrete network: three layers, blocks of 6, 0 and 2 weights. -/
example : ∃ net : BaseNet F, ∃ c : Criterion F, net = (BaseNet.new c).addLayers
    [(.new 2 2, fun _ => Scalar.one), (.activ sigmoid, fun _ => Scalar.one), (.withoutBias 2 1, fun _ => Scalar.zero)] ∧ net.weights.length = 8 :=
  ⟨_, ⟨.mse, .none⟩, rfl, rfl⟩

/-- **C39 (forward pass).** If the layers line up from width `c` to width `d`, `predict` on `n` rows of width `c` returns `n`
rows of width `d`: row `i` of the output is the network applied to row `i` of the input (so it depends on that row only). -/
theorem C39_forward (net : BaseNet F) {n c d : ℕ} (X : Mat F) (hX : HasShape X n c) (h : LinesUp net.layers c d)
    (hw : net.weights.length = totalParams net.layers) :
    ∃ Y, net.forwardProp X = ok Y ∧ HasShape Y n d ∧ Y.rows = X.rows.map (netRow net.layers net.weights) :=
  ⟨_, forwardProp_ok hX h hw, map_shape hX _ fun x hx => netRow_length h _ x hx, rfl⟩

/-- **C39 (errors).** Whatever the layers: the inputs are returned unchanged by the empty network; a first layer that does
not take the width of the inputs gives `InvalidData`; a later layer that does not take the width produced by the layers
before it gives `InvalidParameters`; and these and the successful case are the only possibilities. -/
theorem C39_errors (net : BaseNet F) {n c : ℕ} (X : Mat F) (hX : HasShape X n c) (hw : net.weights.length = totalParams net.layers) :
    (net.layers = [] → net.forwardProp X = ok X) ∧
    (∀ k o bias rest, net.layers = .linear k o bias :: rest → (if bias then c + 1 else c) ≠ k → net.forwardProp X = err .InvalidData) ∧
    (∀ pre k o bias rest d, net.layers = pre ++ .linear k o bias :: rest → pre ≠ [] → LinesUp pre c d → (if bias then d + 1 else d) ≠ k →
      net.forwardProp X = err .InvalidParameters) ∧
    ((∃ d, LinesUp net.layers c d) ∨
      ∃ pre k o bias rest d, net.layers = pre ++ .linear k o bias :: rest ∧ LinesUp pre c d ∧ (if bias then d + 1 else d) ≠ k) := by
  refine ⟨?_, ?_, ?_, ?_⟩
  · intro h
    unfold BaseNet.forwardProp
    rw [h]
  · intro k o bias rest h hne
    rw [h, totalParams_cons] at hw
    obtain ⟨P, hP⟩ := slice_exists (w := net.weights) (start := 0) (l := .linear k o bias) (by omega)
    unfold BaseNet.forwardProp
    rw [h]
    simp only [hP, ok_bind]
    rw [forward_misfit hX hP hne]
    rfl
  · intro pre k o bias rest d h hpre hl hne
    cases pre with
    | nil => exact absurd rfl hpre
    | cons l pre =>
      rw [h, List.cons_append, totalParams_cons] at hw
      obtain ⟨h1, h2⟩ := LinesUp_cons.mp hl
      obtain ⟨P, hP⟩ := slice_exists (w := net.weights) (start := 0) (l := l) (by omega)
      unfold BaseNet.forwardProp
      rw [h]
      simp only [List.cons_append, hP, ok_bind, forward_ok hX hP h1]
      exact forwardRest_misfit pre _ n _ d _ (map_shape hX _ fun x hx => layerRow_length hx) h2 hne (by omega)
  · generalize net.layers = ls
    clear hw hX
    induction ls generalizing c with
    | nil => exact Or.inl ⟨c, .nil c⟩
    | cons l ls ih =>
      by_cases hf : layerFits l c
      · rcases ih (c := layerOut l c) with ⟨d, hd⟩ | ⟨pre, k, o, bias, rest, d, h1, h2, h3⟩
        · exact Or.inl ⟨d, LinesUp_cons.mpr ⟨hf, hd⟩⟩
        · exact Or.inr ⟨l :: pre, k, o, bias, rest, d, by rw [h1]; rfl, LinesUp_cons.mpr ⟨hf, h2⟩, h3⟩
      · cases l with
        | activ A => exact absurd trivial hf
        | linear k o bias => exact Or.inr ⟨[], k, o, bias, ls, c, rfl, .nil c, hf⟩

/-- A network of two layers on one row over the reals: `x ↦ exp (1 + 2 x)`. -/
example : ∃ net : BaseNet ℝ, LinesUp net.layers 1 1 ∧ net.weights.length = totalParams net.layers ∧
    netRow net.layers net.weights [3] = [Real.exp 7] := by
  refine ⟨⟨[.new 1 1, .activ expActiv], [1, 2], ⟨.mse, .none⟩⟩, .linear true rfl (.activ _ (.nil _)), rfl, ?_⟩
  simp [netRow, NetLayer.new, dot, fsum, expActiv, List.range_succ]
  norm_num

/-- A first layer for width 2 on an input of width 1, and layers that do not fit each other. -/
example : (⟨[.new 2 1], [Scalar.one, Scalar.one, Scalar.one], ⟨.mse, .none⟩⟩ : BaseNet F).forwardProp ⟨1, [[Scalar.one]]⟩ = err .InvalidData ∧
    (⟨[.withoutBias 1 1, .withoutBias 2 1], [Scalar.one, Scalar.one, Scalar.one], ⟨.mse, .none⟩⟩ : BaseNet F).forwardProp ⟨1, [[Scalar.one]]⟩ = err .InvalidParameters :=
  ⟨rfl, rfl⟩

end RM
