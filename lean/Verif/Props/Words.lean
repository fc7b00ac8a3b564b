import Verif.Model.Words

/-! C132: sizes that do not fit the machine. -/

namespace RM
open Outcome Scalar
variable {F : Type} [Scalar F]

/-- The numbers of rows and columns of a layer's weights can be added, and together with the weights already there the weights are
fewer than `isize::MAX` bytes. -/
def LayerFits (have_ : ℕ) (l : NetLayer F) : Prop := l.paramShape.1 + l.paramShape.2 < 2 ^ 64 ∧ have_ + l.paramShape.1 * l.paramShape.2 < 2 ^ 60

omit [Scalar F] in
theorem wmul_exact {B : Build} {a b : ℕ} (h : a * b < 2 ^ 64) : wmul B a b = ok (a * b) := by
  unfold wmul; rw [if_pos h]

omit [Scalar F] in
theorem wadd_exact {B : Build} {a b : ℕ} (h : a + b < 2 ^ 64) : wadd B a b = ok (a + b) := by
  unfold wadd; rw [if_pos h]

theorem reserve_ok {n : ℕ} (h : n < 2 ^ 60) : reserve 8 n = ok () := by
  unfold reserve; rw [if_pos (by omega)]

theorem reserve_panic {n : ℕ} (h : 2 ^ 60 ≤ n) : reserve 8 n = panic := by
  unfold reserve; rw [if_neg (by omega)]

/-- C132: adding a layer whose sizes fit does the same in both builds as the model that computes with natural numbers. -/
theorem C132_add (B : Build) (net : BaseNet F) (l : NetLayer F) (r : ℕ → F) (h : LayerFits net.weights.length l) :
    net.addW B l r = ok (net.add l r) := by
  obtain ⟨h1, h2⟩ := h
  cases l with
  | linear i o b =>
    simp only [NetLayer.paramShape] at h1 h2
    simp only [BaseNet.addW, NetLayer.defaultParamsW, wadd_exact h1, wmul_exact (B := B) (a := i) (b := o) (by omega), ok_bind,
      reserve_ok (n := i * o) (by omega), List.length_map, List.length_range, reserve_ok h2]
    rfl
  | activ A =>
    simp only [NetLayer.paramShape] at h2
    simp only [BaseNet.addW, NetLayer.defaultParamsW, ok_bind, List.length_nil, reserve_ok (n := net.weights.length + 0) (by omega)]
    rfl

/-- C132: in a debug build adding a layer whose sizes do not fit panics. -/
theorem C132_add_debug (net : BaseNet F) (i o : ℕ) (b : Bool) (r : ℕ → F) (h : ¬ LayerFits net.weights.length (.linear i o b : NetLayer F)) :
    net.addW .debug (.linear i o b) r = panic := by
  simp only [BaseNet.addW, NetLayer.defaultParamsW]
  by_cases h1 : i + o < 2 ^ 64
  · rw [wadd_exact h1, ok_bind]
    by_cases h2 : i * o < 2 ^ 64
    · rw [wmul_exact h2, ok_bind]
      by_cases h3 : i * o < 2 ^ 60
      · rw [reserve_ok h3, ok_bind, ok_bind]
        simp only [List.length_map, List.length_range]
        rw [reserve_panic, panic_bind]
        by_contra hc
        exact h ⟨h1, by simp only [NetLayer.paramShape]; omega⟩
      · rw [reserve_panic (by omega)]; rfl
    · unfold wmul; rw [if_neg h2]; rfl
  · unfold wadd; rw [if_neg h1]; rfl

/-- C132: in both builds adding a layer with fewer than 2^64 weights that do not fit into memory panics. -/
theorem C132_add_too_many (B : Build) (net : BaseNet F) (i o : ℕ) (b : Bool) (r : ℕ → F) (h1 : i + o < 2 ^ 64) (h2 : i * o < 2 ^ 64)
    (h : 2 ^ 60 ≤ net.weights.length + i * o) : net.addW B (.linear i o b) r = panic := by
  simp only [BaseNet.addW, NetLayer.defaultParamsW]
  rw [wadd_exact h1, ok_bind, wmul_exact h2, ok_bind]
  by_cases h3 : i * o < 2 ^ 60
  · rw [reserve_ok h3, ok_bind, ok_bind]
    simp only [List.length_map, List.length_range]
    rw [reserve_panic h, panic_bind]
  · rw [reserve_panic (by omega)]; rfl

/-- The sizes given to `mlp` fit: every layer does, after those before it. -/
def SizesFit : ℕ → List ℕ → Prop
  | n, a :: b :: rest => a + 1 + b < 2 ^ 64 ∧ n + (a + 1) * b < 2 ^ 60 ∧ SizesFit (n + (a + 1) * b) (b :: rest)
  | _, _ => True

theorem mlpLoopW_exact (B : Build) (A : Activ F) (r : ℕ → ℕ → F) : ∀ (sizes : List ℕ) (net : BaseNet F) (i : ℕ),
    SizesFit net.weights.length sizes → net.weights.length < 2 ^ 60 → mlpLoopW B A r net i sizes = ok (mlpLoop A r net i sizes)
  | [], _, _, _, _ => rfl
  | [_], _, _, _, _ => rfl
  | a :: b :: rest, net, i, h, h0 => by
    obtain ⟨h1, h2, h3⟩ := h
    have hf : LayerFits net.weights.length (.linear (a + 1) b true : NetLayer F) := ⟨h1, h2⟩
    have hl : (net.add (.linear (a + 1) b true) (r i)).weights.length = net.weights.length + (a + 1) * b := by
      simp [BaseNet.add, NetLayer.defaultParams]
    have hl2 : ((net.add (.linear (a + 1) b true) (r i)).add (.activ A) (r i)).weights.length = net.weights.length + (a + 1) * b := by
      rw [← hl]; simp [BaseNet.add, NetLayer.defaultParams]
    have hf2 : LayerFits (net.add (.linear (a + 1) b true) (r i)).weights.length (.activ A) := by
      rw [hl]; exact ⟨by simp [NetLayer.paramShape], by simpa [NetLayer.paramShape] using h2⟩
    rw [mlpLoopW, NetLayer.newW, wadd_exact (by omega)]
    simp only [ok_bind]
    rw [C132_add B _ _ _ hf, ok_bind, C132_add B _ _ _ hf2, ok_bind]
    rw [mlpLoopW_exact B A r (b :: rest) _ (i + 1) (by rw [hl2]; exact h3) (by rw [hl2]; exact h2)]
    rfl

/-- C132: `mlp` on sizes that fit gives the network of the other properties, in both builds. -/
theorem C132_mlp (B : Build) (sizes : List ℕ) (c : Criterion F) (A : Activ F) (r : ℕ → ℕ → F) (hs : SizesFit 0 sizes)
    (hl : sizes.length < 2 ^ 58) : BaseNet.mlpW B sizes c A r = BaseNet.mlp sizes c A r := by
  unfold BaseNet.mlpW BaseNet.mlp
  by_cases h0 : sizes.length = 0
  · rw [if_pos h0, h0]
    cases B with
    | debug => rfl
    | release =>
      have e : reserve 16 (2 ^ 64 - 2) = panic := by unfold reserve; rw [if_neg (by omega)]
      have e1 : wsub .release 0 1 = ok (2 ^ 64 - 1) := by unfold wsub; rw [if_neg (by omega)]; simp
      have e2 : wmul .release 2 (2 ^ 64 - 1) = ok (2 ^ 64 - 2) := by
        have e3 : 2 * (2 ^ 64 - 1) % 2 ^ 64 = 2 ^ 64 - 2 := by norm_num
        unfold wmul; rw [if_neg (by omega)]; simp only [e3]
      rw [e1, ok_bind, e2, ok_bind, e]; rfl
  · rw [if_neg h0]
    have e1 : wsub B sizes.length 1 = ok (sizes.length - 1) := by unfold wsub; rw [if_pos (by omega)]
    have e2 : wmul B 2 (sizes.length - 1) = ok (2 * (sizes.length - 1)) := wmul_exact (by omega)
    have e3 : reserve 16 (2 * (sizes.length - 1)) = ok () := by unfold reserve; rw [if_pos (by omega)]
    rw [e1, ok_bind, e2, ok_bind, e3, ok_bind]
    exact mlpLoopW_exact B A r sizes _ 0 hs (by simp [BaseNet.new])

/-- `mlp` without any size panics in both builds. -/
theorem C132_mlp_no_sizes (B : Build) (c : Criterion F) (A : Activ F) (r : ℕ → ℕ → F) : BaseNet.mlpW B [] c A r = panic := by
  rw [C132_mlp B [] c A r trivial (by simp)]; rfl

/-! ### Reading the weights -/

/-- As many weights as the layers need, counted without overflow, and a number of them that can exist. -/
def Packed (net : BaseNet F) : Prop := net.weights.length = (net.layers.map NetLayer.numParams).sum ∧ net.weights.length < 2 ^ 60

omit [Scalar F] in
theorem sumParamsW_exact (B : Build) : ∀ (ls : List (NetLayer F)) (acc : ℕ), acc + (ls.map NetLayer.numParams).sum < 2 ^ 64 →
    sumParamsW B acc ls = ok (acc + (ls.map NetLayer.numParams).sum)
  | [], acc, _ => by simp [sumParamsW]
  | l :: ls, acc, h => by
    rw [List.map_cons, List.sum_cons] at h ⊢
    have e : l.numParamsW B = ok l.numParams := by
      unfold NetLayer.numParamsW NetLayer.numParams
      exact wmul_exact (by unfold NetLayer.numParams at h; omega)
    rw [sumParamsW, e, ok_bind, wadd_exact (by omega), ok_bind, sumParamsW_exact B ls _ (by omega), Nat.add_assoc]

omit [Scalar F] in
theorem sum_take_le (ls : List (NetLayer F)) (idx : ℕ) : ((ls.take idx).map NetLayer.numParams).sum ≤ (ls.map NetLayer.numParams).sum := by
  conv_rhs => rw [← List.take_append_drop idx ls]
  rw [List.map_append, List.sum_append]
  exact Nat.le_add_right _ _

omit [Scalar F] in
/-- C132: reading the weights of a layer of a network whose weights are as many as its layers need is the same in both builds. -/
theorem C132_weights (B : Build) (net : BaseNet F) (h : Packed net) (idx : ℕ) : net.netWeightsW B idx = net.netWeights idx := by
  obtain ⟨h1, h2⟩ := h
  unfold BaseNet.netWeightsW BaseNet.netWeights BaseNet.layerWeightsW BaseNet.layerWeights
  have hs := sum_take_le net.layers idx
  rw [sumParamsW_exact B net.layers 0 (by omega), sumParamsW_exact B (net.layers.take idx) 0 (by omega)]
  simp only [ok_bind, Nat.zero_add]
  cases B with
  | release => rfl
  | debug =>
    by_cases hi : idx < net.layers.length
    · simp [debugAssert, hi, h1]
    · have : getAt net.layers idx = panic := by
        unfold getAt; rw [List.getElem?_eq_none (by omega)]; rfl
      simp [debugAssert, hi, this]

theorem forwardRestW_exact (B : Build) (w : List F) : ∀ (ls : List (NetLayer F)) (index : ℕ) (X : Mat F),
    index + (ls.map NetLayer.numParams).sum < 2 ^ 64 → forwardRestW B w ls index X = forwardRest w ls index X
  | [], _, _, _ => rfl
  | l :: ls, index, X, h => by
    rw [List.map_cons, List.sum_cons] at h
    have e : l.numParamsW B = ok l.numParams := by
      unfold NetLayer.numParamsW NetLayer.numParams
      exact wmul_exact (by unfold NetLayer.numParams at h; omega)
    unfold forwardRestW forwardRest
    congr 1
    funext slice
    cases l.forward X slice with
    | ok act =>
      simp only [e, ok_bind, wadd_exact (B := B) (a := index) (b := l.numParams) (by omega)]
      exact forwardRestW_exact B w ls _ act (by omega)
    | err => rfl
    | panic => rfl
    | ub => rfl

/-- C132: so are predictions. -/
theorem C132_predict (B : Build) (net : BaseNet F) (h : Packed net) (X : Mat F) : net.forwardPropW B X = net.forwardProp X := by
  obtain ⟨h1, h2⟩ := h
  unfold BaseNet.forwardPropW BaseNet.forwardProp
  cases hl : net.layers with
  | nil => rfl
  | cons l ls =>
    rw [hl, List.map_cons, List.sum_cons] at h1
    have e : l.numParamsW B = ok l.numParams := by
      unfold NetLayer.numParamsW NetLayer.numParams
      exact wmul_exact (by unfold NetLayer.numParams at h1; omega)
    simp only [e, ok_bind]
    congr 1
    funext slice
    congr 1
    funext out
    exact forwardRestW_exact B _ ls _ out (by omega)

theorem netForwardW_exact (B : Build) (w : List F) (X : Mat F) : ∀ (ls : List (NetLayer F)) (index : ℕ) (acts ps : List (Mat F)),
    index + (ls.map NetLayer.numParams).sum < 2 ^ 64 → netForwardW B w X ls index acts ps = netForward w X ls index acts ps
  | [], _, _, _, _ => rfl
  | l :: ls, index, acts, ps, h => by
    rw [List.map_cons, List.sum_cons] at h
    have e : l.numParamsW B = ok l.numParams := by
      unfold NetLayer.numParamsW NetLayer.numParams
      exact wmul_exact (by unfold NetLayer.numParams at h; omega)
    unfold netForwardW netForward
    congr 1
    funext slice
    congr 1
    funext out
    rw [e, ok_bind, wadd_exact (by omega), ok_bind]
    exact netForwardW_exact B w X ls _ _ _ (by omega)

theorem netForward_index (w : List F) (X : Mat F) : ∀ (ls : List (NetLayer F)) (index : ℕ) (acts ps : List (Mat F))
    (r : ℕ × List (Mat F) × List (Mat F)), netForward w X ls index acts ps = ok r → r.1 = index + (ls.map NetLayer.numParams).sum
  | [], index, acts, ps, r, h => by
    simp only [netForward] at h
    injection h with h
    subst h
    simp
  | l :: ls, index, acts, ps, r, h => by
    unfold netForward at h
    obtain ⟨slice, -, h⟩ := bind_eq_ok.1 h
    obtain ⟨out, -, h⟩ := bind_eq_ok.1 h
    rw [netForward_index w X ls _ _ _ r h, List.map_cons, List.sum_cons, Nat.add_assoc]

theorem netBackwardW_exact (B : Build) (X : Mat F) (acts params : List (Mat F)) : ∀ (ls : List (NetLayer F × ℕ)) (index : ℕ) (og : Mat F)
    (g : List (Option F)), (ls.map fun p => p.1.numParams).sum ≤ index → index < 2 ^ 64 →
    netBackwardW B X acts params ls index og g = netBackward X acts params ls index og g
  | [], _, _, _, _, _ => rfl
  | (l, i) :: ls, index, og, g, h, h2 => by
    have h : l.numParams + (ls.map fun p => p.1.numParams).sum ≤ index := by simpa using h
    have e : l.numParamsW B = ok l.numParams := by
      unfold NetLayer.numParamsW NetLayer.numParams
      exact wmul_exact (by unfold NetLayer.numParams at h; omega)
    have e2 : wsub B index l.numParams = ok (index - l.numParams) := by
      unfold wsub; rw [if_pos (by omega)]
    unfold netBackwardW netBackward
    congr 1
    funext a
    congr 1
    funext b
    rw [e, ok_bind, e2, ok_bind, wadd_exact (by omega), ok_bind]
    congr 1
    funext p
    congr 1
    funext gp
    rw [if_neg (by omega), Nat.add_sub_cancel_left]
    refine congrArg _ (funext fun g' => ?_)
    refine congrArg _ (funext fun og' => ?_)
    exact netBackwardW_exact B X acts params ls _ _ _ (by omega) (by omega)

/-- C132: so are the gradients, for weights of any number, as long as the layers' numbers of weights can be added up. -/
theorem C132_gradient (B : Build) (net : BaseNet F) (h : (net.layers.map NetLayer.numParams).sum < 2 ^ 64) (w : List F) (X Y : Mat F) :
    net.computeGradW B w X Y = net.computeGrad w X Y := by
  unfold BaseNet.computeGradW BaseNet.computeGrad
  rw [netForwardW_exact B w X net.layers 0 [] [] (by omega)]
  cases hfw : netForward w X net.layers 0 [] [] with
  | err => rfl
  | panic => rfl
  | ub => rfl
  | ok fw =>
    have hi := netForward_index w X _ _ _ _ _ hfw
    rw [Nat.zero_add] at hi
    simp only [ok_bind]
    congr 1
    funext out
    congr 1
    funext og
    rw [netBackwardW_exact B X fw.2.1 fw.2.2 _ fw.1 og _ _ (by omega)]
    rw [hi, List.map_reverse, List.sum_reverse]
    have : net.layers.zipIdx.map (fun p => p.1.numParams) = net.layers.map NetLayer.numParams := by
      conv_rhs => rw [← List.zipIdx_map_fst 0 net.layers]
      rw [List.map_map]
      rfl
    rw [this]

/-- Networks to which only layers with fitting sizes have been added are of that kind. -/
theorem packed_add (B : Build) (net net' : BaseNet F) (h : Packed net) (l : NetLayer F) (r : ℕ → F) (hf : LayerFits net.weights.length l)
    (ha : net.addW B l r = ok net') : Packed net' := by
  rw [C132_add B net l r hf] at ha
  injection ha with ha
  subst ha
  obtain ⟨h1, h2⟩ := h
  have e : (l.defaultParams r).length = l.numParams := by
    cases l <;> simp [NetLayer.defaultParams, NetLayer.numParams, NetLayer.paramShape]
  constructor
  · simp [BaseNet.add, e, h1]
  · have := hf.2
    simp only [BaseNet.add, List.length_append, e]
    exact this

/-- C132: in a debug build every network, however its layers were added, has exactly the weights its layers need: the calls that would give another
one panic. -/
theorem C132_debug_packed : ∀ (ls : List (NetLayer F × (ℕ → F))) (net net' : BaseNet F), Packed net →
    ls.foldlM (fun n p => n.addW .debug p.1 p.2) net = ok net' → Packed net' ∧ net' = net.addLayers ls
  | [], net, net', h, he => by
    simp only [List.foldlM_nil, pure_eq] at he
    injection he with he
    subst he
    exact ⟨h, rfl⟩
  | (l, r) :: ls, net, net', h, he => by
    rw [List.foldlM_cons] at he
    obtain ⟨m, hm, hrest⟩ := bind_eq_ok.1 he
    have hf : LayerFits net.weights.length l := by
      cases l with
      | activ A => exact ⟨by simp [NetLayer.paramShape], by simpa [NetLayer.paramShape] using h.2⟩
      | linear i o b =>
        by_contra hc
        rw [C132_add_debug net i o b r hc] at hm
        simp at hm
    have hp := packed_add .debug net m h l r hf hm
    rw [C132_add .debug net l r hf] at hm
    injection hm with hm
    obtain ⟨h1, h2⟩ := C132_debug_packed ls m net' hp hrest
    refine ⟨h1, ?_⟩
    rw [h2, ← hm]
    rfl

/-! ### The release build -/

/-- C132: a release build takes a layer with 2^64 weights or more, and stores only the remainder. -/
theorem C132_release_add (net : BaseNet F) (i o : ℕ) (b : Bool) (r : ℕ → F) (h : 2 ^ 64 ≤ i * o)
    (hr : net.weights.length + (i * o) % 2 ^ 64 < 2 ^ 60) :
    ∃ net', net.addW .release (.linear i o b) r = ok net' ∧ net'.layers = net.layers ++ [.linear i o b] ∧
      net'.weights.length = net.weights.length + (i * o) % 2 ^ 64 := by
  obtain ⟨s, hs⟩ : ∃ s, wadd .release i o = ok s := by unfold wadd; split <;> exact ⟨_, rfl⟩
  have hm : wmul .release i o = ok ((i * o) % 2 ^ 64) := by unfold wmul; rw [if_neg (by omega)]
  simp only [BaseNet.addW, NetLayer.defaultParamsW, hs, hm, ok_bind, reserve_ok (n := (i * o) % 2 ^ 64) (by omega), List.length_map,
    List.length_range, reserve_ok hr]
  exact ⟨_, rfl, rfl, by simp⟩

omit [Scalar F] in
/-- C132: in the release build, reading the weights of such a layer, wherever it stands in whatever network, reaches beyond the weights:
undefined behaviour by a call of a safe function. -/
theorem C132_release_weights (net : BaseNet F) (hw : net.weights.length < 2 ^ 60) (idx i o : ℕ) (b : Bool)
    (hl : net.layers[idx]? = some (.linear i o b)) (h : 2 ^ 64 ≤ i * o) : net.netWeightsW .release idx = ub := by
  have hsum : ∀ (ls : List (NetLayer F)) (acc : ℕ), ∃ n, sumParamsW .release acc ls = ok n := by
    intro ls
    induction ls with
    | nil => intro acc; exact ⟨acc, rfl⟩
    | cons l ls ih =>
      intro acc
      obtain ⟨n, hn⟩ : ∃ n, l.numParamsW .release = ok n := by unfold NetLayer.numParamsW wmul; split <;> exact ⟨_, rfl⟩
      obtain ⟨a, ha⟩ : ∃ a, wadd .release acc n = ok a := by unfold wadd; split <;> exact ⟨_, rfl⟩
      rw [sumParamsW, hn, ok_bind, ha, ok_bind]
      exact ih a
  obtain ⟨f, hf⟩ := hsum net.layers 0
  obtain ⟨s, hs⟩ := hsum (net.layers.take idx) 0
  have hg : getAt net.layers idx = ok (.linear i o b) := by unfold getAt; rw [hl]; rfl
  unfold BaseNet.netWeightsW BaseNet.layerWeightsW
  rw [hf, hs, hg]
  have hsl : sliceAt net.weights s (NetLayer.linear i o b : NetLayer F).paramShape = ub := by
    unfold sliceAt
    exact if_neg (by show ¬ s + i * o ≤ _; omega)
  simp only [debugAssert, ok_bind, hsl]

/-- C132: so does a prediction, when the layer is the first. -/
theorem C132_release_predict (net : BaseNet F) (hw : net.weights.length < 2 ^ 60) (i o : ℕ) (b : Bool) (X : Mat F)
    (hl : net.layers[0]? = some (.linear i o b)) (h : 2 ^ 64 ≤ i * o) : net.forwardPropW .release X = ub := by
  unfold BaseNet.forwardPropW
  cases hn : net.layers with
  | nil => rw [hn] at hl; simp at hl
  | cons l ls =>
    rw [hn] at hl
    simp only [List.getElem?_cons_zero, Option.some.injEq] at hl
    subst hl
    have hsl : sliceAt net.weights 0 (NetLayer.linear i o b : NetLayer F).paramShape = ub := by
      unfold sliceAt
      exact if_neg (by show ¬ 0 + i * o ≤ _; omega)
    simp only [hsl]
    rfl

/-- C132: and so does computing the gradient at the network's weights, the first thing training does. -/
theorem C132_release_gradient (net : BaseNet F) (hw : net.weights.length < 2 ^ 60) (i o : ℕ) (b : Bool) (X Y : Mat F)
    (hl : net.layers[0]? = some (.linear i o b)) (h : 2 ^ 64 ≤ i * o) : net.computeGradW .release net.weights X Y = ub := by
  unfold BaseNet.computeGradW
  cases hn : net.layers with
  | nil => rw [hn] at hl; simp at hl
  | cons l ls =>
    rw [hn] at hl
    simp only [List.getElem?_cons_zero, Option.some.injEq] at hl
    subst hl
    have hsl : sliceAt net.weights 0 (NetLayer.linear i o b : NetLayer F).paramShape = ub := by
      unfold sliceAt
      exact if_neg (by show ¬ 0 + i * o ≤ _; omega)
    unfold netForwardW
    rw [hsl]
    rfl

theorem square_wraps (c : Criterion F) (r : ℕ → F) (n : ℕ) (hn : n * n = 2 ^ 64) :
    (BaseNet.new c).addW .debug (NetLayer.withoutBias n n) r = panic ∧
    ∃ net, (BaseNet.new c).addW .release (NetLayer.withoutBias n n) r = ok net ∧ net.weights = [] ∧
      net.netWeightsW .release 0 = ub ∧ ∀ X, net.forwardPropW .release X = ub := by
  constructor
  · refine C132_add_debug (BaseNet.new c) n n false r ?_
    rintro ⟨-, h⟩
    simp only [NetLayer.paramShape, hn] at h
    omega
  · have h0 : (BaseNet.new c).weights.length = 0 := rfl
    obtain ⟨net, h1, h2, h3⟩ := C132_release_add (BaseNet.new c) n n false r (by omega) (by rw [hn, h0]; norm_num)
    have h4 : net.weights.length = 0 := by rw [h3, hn, h0]; norm_num
    have h5 : net.layers[0]? = some (.linear n n false) := by rw [h2]; rfl
    exact ⟨net, h1, List.length_eq_zero_iff.1 h4, C132_release_weights net (by omega) 0 _ _ _ h5 (by omega),
      fun X => C132_release_predict net (by omega) _ _ _ X h5 (by omega)⟩

/-- C132, `Linear::without_bias(1 << 32, 1 << 32)`: a network with this layer has no weights at all in a release build, and reading them
is undefined behaviour; a debug build panics when the layer is added. -/
theorem C132_two_to_the_32 (c : Criterion F) (r : ℕ → F) :
    (BaseNet.new c).addW .debug (NetLayer.withoutBias (2 ^ 32) (2 ^ 32)) r = panic ∧
    ∃ net, (BaseNet.new c).addW .release (NetLayer.withoutBias (2 ^ 32) (2 ^ 32)) r = ok net ∧ net.weights = [] ∧
      net.netWeightsW .release 0 = ub ∧ ∀ X, net.forwardPropW .release X = ub :=
  square_wraps c r (2 ^ 32) (by norm_num)

/-- C132: `Linear::new` with the largest size: a debug build panics, a release build makes a layer without any row, which then refuses
all data. -/
theorem C132_largest_size (n o : ℕ) (hn : n + 1 = 2 ^ 64) :
    (NetLayer.newW .debug n o : Outcome (NetLayer F)) = panic ∧
    (NetLayer.newW .release n o : Outcome (NetLayer F)) = ok (.linear 0 o true) ∧
    ∀ X p : Mat F, p.rows.length = 0 → (NetLayer.linear 0 o true).forward X p = err .InvalidData := by
  have h1 : ¬ n + 1 < 2 ^ 64 := by omega
  have h2 : (n + 1) % 2 ^ 64 = 0 := by omega
  refine ⟨?_, ?_, ?_⟩
  · unfold NetLayer.newW wadd; rw [if_neg h1]; rfl
  · unfold NetLayer.newW wadd; rw [if_neg h1, h2]; rfl
  · intro X p hp
    simp [NetLayer.forward, hp]

/-! ### Searching -/

/-- C132: asking a kd-tree or ball tree for fewer than 2^60 neighbours is what the other properties describe, also when there are fewer
samples; asking for more panics although the answer has been found. -/
theorem C132_search {S : Type} (K : SplitKind F S) (t : BinaryTree F S) (point : List F) (k : ℕ) :
    (k < 2 ^ 60 → treeSearchW K t point k = treeSearch K t point k) ∧
    (2 ^ 60 ≤ k → ∀ r, treeSearch K t point k = ok r → treeSearchW K t point k = panic) := by
  constructor
  · intro h
    unfold treeSearchW treeSearch
    rw [reserve_ok h]
    rfl
  · intro h r hr
    unfold treeSearch at hr
    unfold treeSearchW
    rw [reserve_panic h]
    split at hr
    · rename_i data root hd ht
      rw [hd, ht]
      simp only
      obtain ⟨⟨q, u⟩, h1, h2⟩ := bind_eq_ok.1 hr
      obtain ⟨p, h3, -⟩ := bind_eq_ok.1 h2
      rw [h1, ok_bind]
      simp only
      rw [h3]
      rfl
    · simp at hr

/-- An ordinary network fits. -/
example : SizesFit 0 [4, 16, 8, 3] := by simp [SizesFit]

/-- The empty network has the weights it needs. -/
example (c : Criterion F) : Packed (BaseNet.new c) := ⟨rfl, by simp [BaseNet.new]⟩

/-- A layer of 2^33 × (2^31 + 1): the release build keeps 2^33 of its weights. -/
example : 2 ^ 64 ≤ 2 ^ 33 * (2 ^ 31 + 1) ∧ (2 ^ 33 * (2 ^ 31 + 1)) % 2 ^ 64 = 2 ^ 33 := by norm_num

end RM
