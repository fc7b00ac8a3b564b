import Verif.Proofs.Defined

/-! Networks and optimisers stay clear of undefined behaviour. -/

set_option linter.unusedSectionVars false

namespace RM
open Outcome Scalar Spec

variable {α β F : Type} [Scalar F]

/-! ### Optimisers -/

/-- A model whose gradient can be asked for at every parameter vector of length `d`. -/
def DefGrad (d : ℕ) (g : List F → Outcome (F × List F)) : Prop := ∀ w : List F, w.length = d → g w ≠ Outcome.ub

theorem defined_gdLoop (alpha : F) {d : ℕ} {g : List F → Outcome (F × List F)} (hg : DefGrad d g) : ∀ (iters : ℕ) (w : List F) (prev : F), w.length = d →
    Defined (fun w => w.length = d) (gdLoop alpha g iters w prev).out
  | 0, w, _, hw => hw
  | iters + 1, w, prev, hw => by
    rw [gdLoop]
    refine DefLog.bind (P := fun _ => True) (Defined.of_ne (hg w hw)) fun r _ => ?_
    split
    · exact hw
    · exact DefLog.bind (P := fun w' : List F => w'.length = w.length) (Defined.vecZip _ _ _) fun w' hw' =>
        defined_gdLoop alpha hg iters w' _ (hw'.trans hw)

theorem defined_stepAlong (x s : List F) (z : F) : Defined (fun r => r.length = x.length) (stepAlong x s z) := Defined.vecZip _ _ _

theorem defined_lineSearch (o : ConjugateGD F) {d : ℕ} {g : List F → Outcome (F × List F)} (hg : DefGrad d g) (f1 d1 : F) (s : List F) :
    ∀ (m : ℕ) (st : LineState F), st.x.length = d → Defined (fun r => r.1.x.length = d) (lineSearch o g f1 d1 s m st).out
  | 0, st, hx => by
    rw [lineSearch]
    split
    · exact hx
    · split
      · exact hx
      · exact hx
  | m + 1, st, hx => by
    rw [lineSearch]
    split
    · exact DefLog.bind (P := fun w : List F => w.length = st.x.length) (defined_stepAlong _ _ _) fun x hx' =>
        DefLog.bind (P := fun _ => True) (Defined.of_ne (hg x (hx'.trans hx))) fun r _ => defined_lineSearch o hg f1 d1 s m _ (hx'.trans hx)
    · split
      · exact hx
      · exact DefLog.bind (P := fun w : List F => w.length = st.x.length) (defined_stepAlong _ _ _) fun x hx' =>
          DefLog.bind (P := fun _ => True) (Defined.of_ne (hg x (hx'.trans hx))) fun r _ => defined_lineSearch o hg f1 d1 s m _ (hx'.trans hx)

theorem defined_cgLoop (o : ConjugateGD F) {d : ℕ} {g : List F → Outcome (F × List F)} (hg : DefGrad d g) : ∀ (n : ℕ) (c : CGState F),
    c.x.length = d → Defined (fun w => w.length = d) (cgLoop o g n c).out
  | 0, c, hx => hx
  | n + 1, c, hx => by
    rw [cgLoop]
    refine DefLog.bind (P := fun w : List F => w.length = c.x.length) (defined_stepAlong _ _ _) fun x hx' =>
      DefLog.bind (P := fun _ => True) (Defined.of_ne (hg x (hx'.trans hx))) fun r _ =>
      DefLog.bind (defined_lineSearch o hg c.f1 c.d1 c.s o.max _ (hx'.trans hx)) fun res hres => ?_
    split
    · refine DefLog.bind (P := fun c : CGState F => c.x.length = d) ?_ fun c' hc' => defined_cgLoop o hg n c' hc'
      exact Defined.bind (Defined.vecZip _ _ _) fun _ _ => Defined.bind (Defined.vecZip _ _ _) fun _ _ => hres
    · split
      · exact hx
      · exact defined_cgLoop o hg n _ hx

/-- An update rule that stays clear of undefined behaviour and keeps the number of parameters. -/
def DefUpd (upd : List F → List F → List F → Outcome (List F × List F)) : Prop :=
  ∀ w a g : List F, Defined (fun r => r.1.length = w.length) (upd w a g)

theorem defined_swapAt (l : List α) (i j : ℕ) : Defined (fun _ => True) (swapAt l i j) := by
  unfold swapAt
  split <;> trivial

theorem defined_foldlM {f : β → α → Outcome β} (h : ∀ b a, Defined (fun _ => True) (f b a)) : ∀ (l : List α) (b : β), Defined (fun _ => True) (l.foldlM f b)
  | [], _ => trivial
  | a :: l, b => by
    rw [List.foldlM_cons]
    exact Defined.bind (h b a) fun _ _ => defined_foldlM h l _

theorem defined_inPlace (r : ℕ → ℕ) (l : List α) : Defined (fun _ => True) (inPlaceFisherYates r l) :=
  defined_foldlM (fun _ _ => Defined.bind (Defined.genRange _ _) fun _ _ => defined_swapAt _ _ _) _ _

theorem defined_stochPass {upd : List F → List F → List F → Outcome (List F × List F)} (hu : DefUpd upd) {d : ℕ} {g : ComputeGrad F}
    (hg : ∀ X Y, DefGrad d fun w => g w X Y) (X Y : Mat F) : ∀ (is : List ℕ) (s : List F × List F × F), s.1.length = d →
      Defined (fun s => s.1.length = d) (stochPass upd g X Y is s).out
  | [], s, h => h
  | i :: is, s, h => by
    rw [stochPass]
    exact DefLog.bind (P := fun _ => True) (Defined.selectRows _ _) fun x _ => DefLog.bind (P := fun _ => True) (Defined.selectRows _ _) fun y _ =>
      DefLog.bind (P := fun _ => True) (Defined.of_ne (hg x y _ h)) fun r _ =>
      DefLog.bind (P := fun r : List F × List F => r.1.length = s.1.length) (hu _ _ _) fun u hu' =>
      defined_stochPass hu hg X Y is _ (hu'.trans h)

theorem defined_stochLoop {upd : List F → List F → List F → Outcome (List F × List F)} (hu : DefUpd upd) {d : ℕ} {g : ComputeGrad F}
    (hg : ∀ X Y, DefGrad d fun w => g w X Y) (X Y : Mat F) (r : ℕ → ℕ → ℕ) : ∀ (iters e : ℕ) (perm : List ℕ) (w aux : List F) (prev : F), w.length = d →
      Defined (fun w => w.length = d) (stochLoop upd g X Y r iters e perm w aux prev).out
  | 0, _, _, w, _, _, hw => hw
  | iters + 1, e, perm, w, aux, prev, hw => by
    rw [stochLoop]
    refine DefLog.bind (P := fun _ => True) (defined_inPlace _ _) fun p _ =>
      DefLog.bind (defined_stochPass hu hg X Y p (w, aux, Scalar.zero) hw) fun s hs => ?_
    dsimp only
    split
    · exact hs
    · exact defined_stochLoop hu hg X Y r iters _ p _ _ _ hs

theorem defUpd_sgd (alpha mu : F) : DefUpd (sgdUpdate alpha mu) := fun w _ _ =>
  Defined.bind (Defined.vecZip _ _ _) fun _ _ => Defined.bind (Defined.vecZip _ _ _) fun _ _ => Defined.bind (Defined.vecZip _ w _) fun _ h => h

theorem defUpd_ada (alpha tau : F) : DefUpd (adaUpdate alpha tau) := fun w _ _ => Defined.bind (Defined.vecZip _ w _) fun _ h => h

theorem defUpd_rms (lr decay eps : F) : DefUpd (rmsUpdate lr decay eps) := fun w _ _ =>
  Defined.bind (Defined.vecZip _ _ _) fun _ _ => Defined.bind (Defined.vecZip _ w _) fun _ h => h

theorem defined_libOpt (o : LibOpt F) {g : ComputeGrad F} {d : ℕ} (hg : ∀ X Y, DefGrad d fun w => g w X Y) (start : List F) (hs : start.length = d)
    (X Y : Mat F) : Defined (fun w => w.length = d) (o.run g start X Y) := by
  cases o with
  | gradientDesc o => exact defined_gdLoop _ (hg X Y) _ _ _ hs
  | conjugateGD o =>
    exact DefLog.bind (P := fun _ => True) (Defined.of_ne (hg X Y start hs)) fun r _ => defined_cgLoop o (hg X Y) _ _ hs
  | stochasticGD o r => exact defined_stochLoop (defUpd_sgd _ _) hg X Y r _ _ _ _ _ _ hs
  | adaGrad o r => exact defined_stochLoop (defUpd_ada _ _) hg X Y r _ _ _ _ _ _ hs
  | rmsProp o r => exact defined_stochLoop (defUpd_rms _ _ _) hg X Y r _ _ _ _ _ _ hs

/-! ### Networks -/

theorem defined_hcat (a b : Mat F) : Defined (fun _ => True) (a.hcat b) := by
  unfold Mat.hcat
  exact Defined.ite (fun _ => trivial) fun _ => trivial

theorem defined_forward (l : NetLayer F) (X P : Mat F) : Defined (fun _ => True) (l.forward X P) := by
  unfold NetLayer.forward
  cases l with
  | linear i o b =>
    dsimp only
    refine Defined.ite (fun _ => Defined.ite (fun _ => trivial) fun _ => Defined.bind (defined_hcat _ _) fun _ _ => Defined.mul _ _) fun _ =>
      Defined.ite (fun _ => trivial) fun _ => Defined.mul _ _
  | activ A => exact Defined.new _ _ _

theorem defined_removeLoop (c : ℕ) : ∀ (is : List ℕ) (v : List F) (del : ℕ), Defined (fun _ => True) (removeLoop c is v del)
  | [], _, _ => trivial
  | i :: is, v, del => by
    unfold removeLoop
    refine Defined.ite (fun _ => defined_removeLoop c is v _) fun _ => Defined.ite (fun _ => ?_) fun _ => defined_removeLoop c is v _
    exact Defined.bind (Defined.getAt _ _) fun _ _ => Defined.bind (Defined.setAt _ _ _) fun _ _ => defined_removeLoop c is _ _

theorem defined_backInput (l : NetLayer F) (g o P : Mat F) : Defined (fun _ => True) (l.backInput g o P) := by
  unfold NetLayer.backInput
  cases l with
  | linear i n b =>
    refine Defined.bind (Defined.mul _ _) fun _ _ => Defined.ite (fun _ => ?_) fun _ => trivial
    exact Defined.bind (defined_removeLoop _ _ _ _) fun _ _ => Defined.new _ _ _
  | activ A => exact Defined.new _ _ _

theorem defined_backParams (l : NetLayer F) (g X : Mat F) : Defined (fun _ => True) (l.backParams g X) := by
  unfold NetLayer.backParams
  cases l with
  | linear i n b => exact Defined.ite (fun _ => Defined.bind (defined_hcat _ _) fun _ _ => Defined.mul _ _) fun _ => Defined.mul _ _
  | activ A => exact Defined.new _ _ _

theorem defined_cost (c : Criterion F) (o t : Mat F) : Defined (fun _ => True) (c.cost o t) := by
  unfold Criterion.cost
  cases c.kind with
  | bce => exact Defined.bind (Defined.zip _ _ _) fun _ _ => Defined.bind (Defined.zip _ _ _) fun _ _ => Defined.bind (Defined.zip _ _ _) fun _ _ => trivial
  | mse => exact Defined.bind (Defined.zip _ _ _) fun _ _ => Defined.bind (Defined.zip _ _ _) fun _ _ => trivial

theorem defined_costGrad (c : Criterion F) (o t : Mat F) : Defined (fun _ => True) (c.costGrad o t) := by
  unfold Criterion.costGrad
  cases c.kind with
  | bce => exact Defined.bind (Defined.zip _ _ _) fun _ _ => Defined.bind (Defined.zip _ _ _) fun _ _ => Defined.zip _ _ _
  | mse => exact Defined.zip _ _ _

theorem defined_regGrad (r : Reg F) (m : Mat F) : Defined (fun _ => True) (regGrad r m) := by
  unfold regGrad
  cases r <;> first | trivial | exact Defined.zip _ _ _

theorem defined_sliceAt {w : List F} {start : ℕ} {l : NetLayer F} (h : start + l.numParams ≤ w.length) :
    Defined (fun _ => True) (sliceAt w start l.paramShape) := by
  unfold sliceAt
  exact Defined.ite (fun _ => trivial) fun hn => absurd h hn

theorem defined_netForward (w : List F) (X : Mat F) : ∀ (ls : List (NetLayer F)) (index : ℕ) (acts ps : List (Mat F)),
    index + totalParams ls ≤ w.length → Defined (fun r => r.1 = index + totalParams ls) (netForward w X ls index acts ps)
  | [], index, acts, ps, h => by
    unfold netForward
    show index = _
    simp [totalParams_nil]
  | l :: ls, index, acts, ps, h => by
    unfold netForward
    rw [totalParams_cons] at h
    refine Defined.bind (defined_sliceAt (by omega)) fun P _ => Defined.bind (Defined.unwrap (defined_forward _ _ _)) fun o _ =>
      (defined_netForward w X ls _ _ _ (by omega)).mono fun r hr => ?_
    rw [hr, totalParams_cons]; omega

/-- Everything from `index` on has been written. -/
def WrittenFrom (index : ℕ) (g : List (Option F)) : Prop := ∀ i, index ≤ i → g[i]? ≠ some none

theorem defined_copyInto (g : List (Option F)) (start n : ℕ) (src : List F) (h : WrittenFrom (start + n) g) :
    Defined (fun r => r.length = g.length ∧ WrittenFrom start r) (copyInto g start n src) := by
  unfold copyInto
  refine Defined.ite (fun hc => ⟨?_, ?_⟩) fun _ => trivial
  · simp; omega
  · intro i hi
    have hs : (g.take start).length = start := by simp; omega
    rw [List.append_assoc, List.getElem?_append_right (by omega), hs]
    by_cases h2 : i - start < n
    · rw [List.getElem?_append_left (by simp; omega)]
      simp
    · rw [List.getElem?_append_right (by simp; omega)]
      simp only [List.length_map, hc.2, List.getElem?_drop]
      have : start + n + (i - start - n) = i := by omega
      rw [this]
      exact h i (by omega)

theorem defined_netBackward (X : Mat F) (acts ps : List (Mat F)) : ∀ (ls : List (NetLayer F × ℕ)) (index : ℕ) (og : Mat F) (g : List (Option F)),
    index = totalParams (ls.map Prod.fst) → WrittenFrom index g →
    Defined (fun r => r.length = g.length ∧ WrittenFrom 0 r) (netBackward X acts ps ls index og g)
  | [], index, og, g, h, hw => by
    unfold netBackward
    rw [List.map_nil, totalParams_nil] at h
    subst h
    exact ⟨rfl, hw⟩
  | (l, i) :: ls, index, og, g, h, hw => by
    unfold netBackward
    rw [List.map_cons, totalParams_cons] at h
    simp only at h
    refine Defined.bind (P := fun _ => True) ?_ fun a _ => Defined.bind (Defined.getAt _ _) fun res _ => Defined.bind (Defined.getAt _ _) fun p _ =>
      Defined.bind (defined_backParams _ _ _) fun gp _ => Defined.bind (defined_copyInto g (index - l.numParams) l.numParams gp.data ?_) fun g' hg' =>
      Defined.bind (defined_backInput _ _ _ _) fun og' _ =>
      (defined_netBackward X acts ps ls _ og' g' (by omega) hg'.2).mono fun r hr => ⟨hr.1.trans hg'.1, hr.2⟩
    · unfold layerInput
      exact Defined.ite (fun _ => trivial) fun _ => (Defined.getAt _ _).mono fun _ _ => trivial
    · rw [Nat.sub_add_cancel (by omega)]
      exact hw

theorem defined_allInit : ∀ g : List (Option F), WrittenFrom 0 g → Defined (fun r => r.length = g.length) (allInit g)
  | [], _ => rfl
  | none :: g, h => absurd rfl (h 0 (le_refl _))
  | some x :: g, h => by
    unfold allInit
    refine Defined.bind (defined_allInit g fun i _ => h (i + 1) (Nat.zero_le _)) fun r hr => ?_
    show (x :: r).length = _
    simp [hr]

theorem totalParams_reverse (ls : List (NetLayer F)) : totalParams ls.reverse = totalParams ls := by
  induction ls with
  | nil => rfl
  | cons l ls ih => rw [List.reverse_cons, totalParams_append, ih, totalParams_cons, totalParams_cons, totalParams_nil]; omega

theorem defined_computeGrad (net : BaseNet F) (w : List F) (hw : w.length = totalParams net.layers) (X Y : Mat F) :
    Defined (fun _ => True) (net.computeGrad w X Y) := by
  unfold BaseNet.computeGrad
  refine Defined.bind (defined_netForward w X net.layers 0 [] [] (by omega)) fun fw hfw => Defined.bind (Defined.ofOption _) fun out _ =>
    Defined.bind (defined_costGrad _ _ _) fun og _ => Defined.bind
      (defined_netBackward X fw.2.1 fw.2.2 net.layers.zipIdx.reverse fw.1 og (List.replicate w.length none) ?_ ?_) fun g hg =>
    Defined.bind (defined_cost _ _ _) fun c _ => Defined.bind (defined_allInit g hg.2) fun g' _ => Defined.ite (fun _ => ?_) fun _ => trivial
  · rw [List.map_reverse, totalParams_reverse, List.zipIdx_map_fst, hfw, Nat.zero_add]
  · intro i hi
    rw [List.getElem?_eq_none (by simp; omega)]
    simp
  · exact Defined.bind (defined_regGrad _ _) fun _ _ => trivial

theorem defined_forwardRest (w : List F) : ∀ (ls : List (NetLayer F)) (index : ℕ) (o : Mat F), index + totalParams ls ≤ w.length →
    Defined (fun _ => True) (forwardRest w ls index o)
  | [], _, _, _ => trivial
  | l :: ls, index, o, h => by
    unfold forwardRest
    rw [totalParams_cons] at h
    refine Defined.bind (defined_sliceAt (by omega)) fun P _ => ?_
    have hf := defined_forward l o P
    cases e : l.forward o P with
    | ok a => exact defined_forwardRest w ls _ a (by omega)
    | err k => trivial
    | panic => trivial
    | ub => rw [e] at hf; exact hf.elim

theorem defined_forwardProp (net : BaseNet F) (hw : net.weights.length = totalParams net.layers) (X : Mat F) :
    Defined (fun _ => True) (net.forwardProp X) := by
  unfold BaseNet.forwardProp
  split
  · trivial
  · rename_i l ls hl
    rw [hl, totalParams_cons] at hw
    exact Defined.bind (defined_sliceAt (by omega)) fun P _ => Defined.bind (defined_forward _ _ _) fun o _ => defined_forwardRest _ ls _ o (by omega)

theorem totalParams_take_le (ls : List (NetLayer F)) (i : ℕ) (l : NetLayer F) (h : ls[i]? = some l) :
    totalParams (ls.take i) + l.numParams ≤ totalParams ls := by
  obtain ⟨hi, rfl⟩ := List.getElem?_eq_some_iff.mp h
  conv_rhs => rw [← List.take_append_drop i ls, List.drop_eq_getElem_cons hi, totalParams_append, totalParams_cons]
  omega

theorem defined_netWeights (net : BaseNet F) (hw : net.weights.length = totalParams net.layers) (i : ℕ) :
    Defined (fun _ => True) (net.netWeights i) := by
  unfold BaseNet.netWeights BaseNet.layerWeights
  refine Defined.bind (Defined.getAt _ _) fun l hl => defined_sliceAt ?_
  rw [sum_numParams, hw]
  exact totalParams_take_le _ _ _ hl

theorem defaultParams_length (r : ℕ → F) (l : NetLayer F) : (l.defaultParams r).length = l.numParams := by
  cases l <;> simp [NetLayer.defaultParams, NetLayer.numParams, NetLayer.paramShape]

theorem weights_add {net : BaseNet F} (h : net.weights.length = totalParams net.layers) (l : NetLayer F) (r : ℕ → F) :
    (net.add l r).weights.length = totalParams (net.add l r).layers := by
  simp [BaseNet.add, totalParams_append, totalParams_cons, totalParams_nil, defaultParams_length, h]

theorem weights_addLayers : ∀ (ls : List (NetLayer F × (ℕ → F))) (net : BaseNet F), net.weights.length = totalParams net.layers →
    (net.addLayers ls).weights.length = totalParams (net.addLayers ls).layers
  | [], _, h => h
  | (l, r) :: ls, net, h => weights_addLayers ls _ (weights_add h l r)

theorem weights_mlpLoop (A : Activ F) (r : ℕ → ℕ → F) : ∀ (sizes : List ℕ) (net : BaseNet F) (i : ℕ), net.weights.length = totalParams net.layers →
    (mlpLoop A r net i sizes).weights.length = totalParams (mlpLoop A r net i sizes).layers
  | [], _, _, h => h
  | [_], _, _, h => h
  | a :: b :: rest, net, i, h => weights_mlpLoop A r (b :: rest) _ _ (weights_add (weights_add h _ _) _ _)

theorem weights_made {net : BaseNet F} (h : NetMade net) : net.weights.length = totalParams net.layers := by
  induction h with
  | new c => rfl
  | mlp sizes c A r net hn =>
    unfold BaseNet.mlp at hn
    split at hn
    · cases hn
    · cases hn
      exact weights_mlpLoop A r sizes _ 0 rfl
  | add net l r _ ih => exact weights_add ih l r
  | addLayers net ls _ ih => exact weights_addLayers ls net ih
  | trained net net' o X Y _ ht ih =>
    unfold BaseNet.train at ht
    obtain ⟨w, hw, hn⟩ := bind_eq_ok.mp ht
    cases hn
    exact (defined_libOpt o (g := net.computeGrad) (d := totalParams net.layers)
      (fun X Y w hw => (defined_computeGrad net w hw X Y).ne_ub) _ ih X Y).of_ok hw

end RM
