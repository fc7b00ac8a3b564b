import Verif.Spec.UserNet
import Mathlib.Analysis.Calculus.Deriv.Prod
import Verif.Props.Backprop
import Verif.Proofs.Defined

/-!
# C128: layers and criteria of the user's own
-/

namespace RM
open Outcome Scalar Spec
variable {F : Type} [Scalar F]

/-! ### The layers of the crate are a special case -/

theorem user_forward_eq (w : List F) (X : Mat F) : ∀ (ls : List (NetLayer F)) (i : ℕ) (acts ps : List (Mat F)),
    userForward w X (ls.map NetLayer.toUser) i acts ps = netForward w X ls i acts ps
  | [], _, _, _ => rfl
  | l :: ls, i, acts, ps => by
    rw [List.map_cons, userForward, netForward]
    simp only [user_forward_eq w X ls]
    rfl

theorem user_backward_eq (X : Mat F) (acts ps : List (Mat F)) : ∀ (ls : List (NetLayer F × ℕ)) (i : ℕ) (G : Mat F) (g : List (Option F)),
    (do let r ← userBackward X acts ps (ls.map (Prod.map NetLayer.toUser id)) i G g; ok r.2.2) = netBackward X acts ps ls i G g
  | [], _, _, _ => rfl
  | (l, k) :: ls, i, G, g => by
    rw [List.map_cons, Prod.map, userBackward, netBackward]
    simp only [bind_assoc, ← user_backward_eq X acts ps ls, id]
    rfl

theorem user_rest_eq (w : List F) : ∀ (ls : List (NetLayer F)) (i : ℕ) (Z : Mat F), userRest w (ls.map NetLayer.toUser) i Z = forwardRest w ls i Z
  | [], _, _ => rfl
  | l :: ls, i, Z => by
    rw [List.map_cons, userRest, forwardRest]
    simp only [user_rest_eq w ls]
    rfl

theorem user_computeGrad_eq (net : BaseNet F) (w : List F) (X T : Mat F) : net.toUser.computeGrad w X T = net.computeGrad w X T := by
  unfold UserNet.computeGrad BaseNet.computeGrad
  have hz : (net.layers.map NetLayer.toUser).zipIdx.reverse = net.layers.zipIdx.reverse.map (Prod.map NetLayer.toUser id) := by
    rw [List.zipIdx_map, List.map_reverse]
  simp only [BaseNet.toUser, user_forward_eq, hz, ← user_backward_eq, bind_assoc, ok_bind]
  rfl

/-- A network of the crate's own layers and criterion does the same whether its layers are known or seen only through the
`NetLayer` and `Criterion` traits: adding layers, predicting, `compute_grad`, training with any optimiser, reading weights. -/
theorem C128_builtin (net : BaseNet F) (l : NetLayer F) (r : ℕ → F) (w : List F) (X T : Mat F) (k : ℕ)
    (opt : ComputeGrad F → List F → Mat F → Mat F → Outcome (List F)) :
    net.toUser.add l.toUser r = (net.add l r).toUser ∧
      net.toUser.forwardProp X = net.forwardProp X ∧
      net.toUser.computeGrad w X T = net.computeGrad w X T ∧
      net.toUser.train opt X T = (do let n ← net.train opt X T; ok n.toUser) ∧
      net.toUser.netWeights k = net.netWeights k := by
  refine ⟨?_, ?_, user_computeGrad_eq net w X T, ?_, ?_⟩
  · simp [BaseNet.toUser, UserNet.add, BaseNet.add, NetLayer.toUser]
  · unfold UserNet.forwardProp BaseNet.forwardProp BaseNet.toUser
    cases net.layers with
    | nil => rfl
    | cons a ls =>
      simp only [List.map_cons, user_rest_eq]
      rfl
  · unfold UserNet.train BaseNet.train
    have : net.toUser.computeGrad = net.computeGrad := by funext w X T; exact user_computeGrad_eq net w X T
    rw [this, bind_assoc]
    rfl
  · unfold UserNet.netWeights BaseNet.netWeights BaseNet.layerWeights BaseNet.toUser getAt
    simp only [← List.map_take, List.map_map, List.getElem?_map]
    cases net.layers[k]? <;> rfl

/-! ### Back-propagation through layers of the user's own -/

theorem ent_paramsAt (w : List ℝ) (start : ℕ) (s : ℕ × ℕ) {i j : ℕ} (hi : i < s.1) (hj : j < s.2) :
    ent (paramsAt w start s) i j = w.getD (start + i * s.2 + j) 0 := by
  unfold ent paramsAt
  dsimp only
  rw [getD_map_lt _ _ 0 _ _ (by simpa using hi), getD_map_lt _ _ 0 _ _ (by simpa using hj)]
  simp [List.getD_eq_getElem?_getD, hi, hj]

theorem paramsAt_shape (w : List ℝ) (start : ℕ) (s : ℕ × ℕ) : HasShape (paramsAt w start s) s.1 s.2 := by
  refine ⟨by simp [paramsAt], rfl, ?_⟩
  intro row hr
  simp only [paramsAt, List.mem_map] at hr
  obtain ⟨i, -, rfl⟩ := hr
  simp

theorem chunk_eq_map (c : ℕ) : ∀ (r : ℕ) (w : List ℝ), r * c ≤ w.length →
    chunk c r w = (List.range r).map fun i => (List.range c).map fun j => w.getD (i * c + j) 0
  | 0, w, _ => rfl
  | r + 1, w, h => by
    rw [Nat.succ_mul] at h
    rw [chunk, chunk_eq_map c r (w.drop c) (by rw [List.length_drop]; omega), List.range_succ_eq_map, List.map_cons, List.map_map]
    congr 1
    · apply List.ext_getElem
      · simp; omega
      · intro j h1 h2
        simp at h1 h2 ⊢
        rw [List.getElem?_eq_getElem (by omega)]; simp
    · apply List.map_congr_left
      intro i _
      apply List.map_congr_left
      intro j _
      simp only [List.getD_eq_getElem?_getD, List.getElem?_drop, Nat.succ_mul]
      congr 2
      omega

theorem sliceAt_paramsAt (w : List ℝ) (start : ℕ) (s : ℕ × ℕ) (h : start + s.1 * s.2 ≤ w.length) : sliceAt w start s = ok (paramsAt w start s) := by
  unfold sliceAt paramsAt
  rw [if_pos h, chunk_eq_map _ _ _ (by rw [List.length_drop]; omega)]
  simp only [List.getD_eq_getElem?_getD, List.getElem?_drop, Nat.add_assoc]

omit [Scalar F] in
theorem user_backward_append (X : Mat F) (acts ps : List (Mat F)) : ∀ (a b : List (UserLayer F × ℕ)) (i : ℕ) (G : Mat F) (g : List (Option F)),
    userBackward X acts ps (a ++ b) i G g = (do let s ← userBackward X acts ps a i G g; userBackward X acts ps b s.1 s.2.1 s.2.2)
  | [], _, _, _, _ => rfl
  | (l, k) :: a, b, i, G, g => by
    rw [List.cons_append, userBackward, userBackward]
    simp only [bind_assoc, user_backward_append X acts ps a b]

/-- All parameters of the layers. -/
def userTotal (ls : List (UserLayer F)) : ℕ := (ls.map UserLayer.numParams).sum

omit [Scalar F] in
theorem userTotal_cons (l : UserLayer F) (ls : List (UserLayer F)) : userTotal (l :: ls) = l.numParams + userTotal ls := by simp [userTotal]

theorem NetContract_shape {w : List ℝ} {n : ℕ} {ls : List (UserLayer ℝ)} {start c d : ℕ} {Z Y : Mat ℝ} (h : NetContract w n ls start c Z d Y) :
    HasShape Z n c := by cases h <;> assumption

theorem pairing_congr {r c : ℕ} {A B C D : ℕ → ℕ → ℝ} (h : ∀ i < r, ∀ j < c, A i j * C i j = B i j * D i j) : pairing r c A C = pairing r c B D := by
  unfold pairing
  apply Finset.sum_congr rfl
  intro i hi
  apply Finset.sum_congr rfl
  intro j hj
  exact h i (Finset.mem_range.mp hi) j (Finset.mem_range.mp hj)

theorem listCurve_params {W : ℝ → List ℝ} {N : ℕ} {W' : ℕ → ℝ} (h : ListCurve W N W') {start : ℕ} {s : ℕ × ℕ} (hs : start + s.1 * s.2 ≤ N) :
    MatCurve (fun t => paramsAt (W t) start s) s.1 s.2 fun i j => W' (start + i * s.2 + j) := by
  refine ⟨Filter.Eventually.of_forall fun t => paramsAt_shape _ _ _, ?_⟩
  intro i hi j hj
  have hlt : start + i * s.2 + j < N := by
    calc start + i * s.2 + j < start + (i * s.2 + s.2) := by omega
      _ = start + (i + 1) * s.2 := by rw [Nat.succ_mul]
      _ ≤ start + s.1 * s.2 := by have := Nat.mul_le_mul_right s.2 (Nat.succ_le_of_lt hi); simp only [Nat.succ_eq_add_one] at this; omega
      _ ≤ N := hs
  apply (h.2 _ hlt).congr_of_eventuallyEq
  filter_upwards with t
  exact ent_paramsAt _ _ _ hi hj

theorem flat_pairing (r c : ℕ) (b u : ℕ → ℝ) : pairing r c (fun i j => b (i * c + j)) (fun i j => u (i * c + j)) = ∑ t ∈ Finset.range (r * c), b t * u t := by
  unfold pairing
  rw [sum_range_blocks]

/-- The forward and the backward loop together. -/
theorem user_passes {n d N : ℕ} (X : Mat ℝ) (W : ℝ → List ℝ) (W' : ℕ → ℝ) (hW : ListCurve W N W') :
    ∀ (ls : List (UserLayer ℝ)) (start c : ℕ) (Z : ℝ → Mat ℝ) (Z' : ℕ → ℕ → ℝ) (Y₀ : Mat ℝ), MatCurve Z n c Z' →
      NetContract (W 0) n ls start c (Z 0) d Y₀ → start + userTotal ls ≤ N →
      ∃ Y Y', (∀ᶠ t in nhds 0, userRest (W t) ls start (Z t) = ok (Y t)) ∧ Y 0 = Y₀ ∧ MatCurve Y n d Y' ∧
        ∃ as ps, as.length = ls.length ∧ ps.length = ls.length ∧ as.getLast?.getD (Z 0) = Y₀ ∧
          ∀ acts qs, acts.getLast?.getD X = Z 0 → qs.length = acts.length →
            userForward (W 0) X ls start acts qs = ok (start + userTotal ls, acts ++ as, qs ++ ps) ∧
            ∀ G, HasShape G n d → ∀ g : List (Option ℝ), start + userTotal ls ≤ g.length →
              ∃ (A : Mat ℝ) (gr : List ℝ), userBackward X (acts ++ as) (qs ++ ps) (ls.zipIdx acts.length).reverse (start + userTotal ls) G g =
                  ok (start, A, g.take start ++ gr.map some ++ g.drop (start + userTotal ls)) ∧
                HasShape A n c ∧ gr.length = userTotal ls ∧
                pairing n d (ent G) Y' = pairing n c (ent A) Z' + ∑ t ∈ Finset.range (userTotal ls), gr.getD t 0 * W' (start + t)
  | [], start, c, Z, Z', Y₀, hZ, h, hN => by
    cases h with
    | nil hs =>
    refine ⟨Z, Z', Filter.Eventually.of_forall fun t => rfl, rfl, hZ, [], [], rfl, rfl, rfl, ?_⟩
    intro acts qs _ _
    refine ⟨by simp [userForward, userTotal], ?_⟩
    intro G hG g _
    exact ⟨G, [], by simp [userBackward, userTotal], hG, rfl, by simp [userTotal]⟩
  | l :: ls, start, c, Z, Z', Y₀, hZ, h, hN => by
    cases h with
    | @cons _ _ _ _ m _ _ V _ hnp hs hc hf hrest =>
    rw [userTotal_cons] at hN
    have hle : start + l.paramShape.1 * l.paramShape.2 ≤ N := by omega
    have hPc := listCurve_params hW hle
    obtain ⟨V', D', hfw, hV', hb⟩ := hc Z _ Z' _ hZ hPc rfl rfl
    have hV0 : V' 0 = V := by
      have := hfw.self_of_nhds
      rw [hf] at this
      injection this with h; exact h.symm
    obtain ⟨Y, Y', hY, hY0, hYc, as, ps, hal, hpl, hlast, hpass⟩ :=
      user_passes (n := n) (d := d) X W W' hW ls (start + l.numParams) m V' D' Y₀ hV' (by rw [hV0]; exact hrest) (by omega)
    have hlen0 : (W 0).length = N := hW.1.self_of_nhds
    have hsl : sliceAt (W 0) start l.paramShape = ok (paramsAt (W 0) start l.paramShape) := sliceAt_paramsAt _ _ _ (by omega)
    refine ⟨Y, Y', ?_, hY0, hYc, V :: as, paramsAt (W 0) start l.paramShape :: ps, by simp [hal], by simp [hpl], ?_, ?_⟩
    · filter_upwards [hY, hfw, hW.1] with t h1 h2 h3
      rw [userRest, sliceAt_paramsAt _ _ _ (by omega), ok_bind, h2]
      exact h1
    · rw [← hlast, hV0]
      cases as with
      | nil => rfl
      | cons a as => simp [List.getLast?_cons]
    · intro acts qs ha hq
      obtain ⟨hp1, hp2⟩ := hpass (acts ++ [V]) (qs ++ [paramsAt (W 0) start l.paramShape]) (by simp [hV0]) (by simp [hq])
      constructor
      · rw [userForward, hsl, ok_bind, ha, hf, unwrap_ok, ok_bind, hp1, userTotal_cons]
        simp [Nat.add_assoc]
      · intro G hG g hg
        rw [userTotal_cons] at hg ⊢
        obtain ⟨A, gr, e1, hA, hgr, hsum⟩ := hp2 G hG g (by omega)
        obtain ⟨A2, B, f1, hA2, f2, hB, fs⟩ := hb A hA
        refine ⟨A2, B.data ++ gr, ?_, hA2, by rw [List.length_append, hB, hgr, hnp], ?_⟩
        · rw [List.zipIdx_cons, List.reverse_cons, user_backward_append]
          rw [List.length_append, List.length_singleton, List.append_assoc, List.append_assoc, List.singleton_append, List.singleton_append, Nat.add_assoc] at e1
          rw [e1, ok_bind]
          dsimp only
          have hin : layerInput X (acts ++ V :: as) acts.length = ok (Z 0) := by
            rcases List.eq_nil_or_concat acts with hd | ⟨pre, b, hd⟩
            · subst hd
              rw [← ha]; rfl
            · rw [List.concat_eq_append] at hd
              subst hd
              rw [← ha]
              simp [layerInput, getAt]
          have hres : getAt (acts ++ V :: as) acts.length = ok V := by simp [getAt]
          have hpar : getAt (qs ++ paramsAt (W 0) start l.paramShape :: ps) acts.length = ok (paramsAt (W 0) start l.paramShape) := by
            rw [← hq]; simp [getAt]
          rw [hV0] at f1 f2
          rw [userBackward, hin, ok_bind, hres, ok_bind, hpar, ok_bind, f2, ok_bind, Nat.add_sub_cancel, copyInto,
            if_pos ⟨by simp; omega, by rw [hB, hnp]⟩, ok_bind, f1, ok_bind, userBackward]
          congr 3
          rw [List.map_append]
          have t1 : (g.take (start + l.numParams) ++ gr.map some ++ g.drop (start + (l.numParams + userTotal ls))).take start = g.take start := by
            rw [List.append_assoc, List.take_append_of_le_length (by rw [List.length_take]; omega), List.take_take]
            congr 1; omega
          have t2 : (g.take (start + l.numParams) ++ gr.map some ++ g.drop (start + (l.numParams + userTotal ls))).drop (start + l.numParams) =
              gr.map some ++ g.drop (start + (l.numParams + userTotal ls)) := by
            rw [List.append_assoc, List.drop_append_of_le_length (by rw [List.length_take]; omega), List.drop_eq_nil_of_le (by rw [List.length_take]; omega)]
            rfl
          rw [t1, t2]
          simp
        · rw [hsum, fs, Finset.sum_range_add, ← add_assoc]
          congr 1
          · congr 1
            have := flat_pairing l.paramShape.1 l.paramShape.2 (fun t => B.data.getD t 0) (fun t => W' (start + t))
            simp only [← Nat.add_assoc] at this
            rw [this, hnp]
            apply Finset.sum_congr rfl
            intro t ht
            rw [getD_append_lt _ _ _ (by rw [hB]; exact Finset.mem_range.mp ht)]
          · apply Finset.sum_congr rfl
            intro t ht
            rw [hnp, ← hB, getD_append_add, hB, Nat.add_assoc]

omit [Scalar F] in
theorem user_rest_prop {w : List F} {ls : List (UserLayer F)} {C : UserCriterion F} {X Y : Mat F} (h : userRest w ls 0 X = ok Y) :
    (⟨ls, w, C⟩ : UserNet F).forwardProp X = ok Y := by
  cases ls with
  | nil => exact h
  | cons l ls =>
    rw [userRest, bind_eq_ok] at h
    obtain ⟨s, hs, h⟩ := h
    unfold UserNet.forwardProp
    dsimp only
    rw [hs, ok_bind]
    cases hf : l.forward X s with
    | ok V => rw [hf] at h; rw [ok_bind]; simpa using h
    | err e => rw [hf] at h; cases h
    | panic => rw [hf] at h; cases h
    | ub => rw [hf] at h; cases h

theorem user_core (net : UserNet ℝ) {n c d : ℕ} (a : ℝ) (X T Y₀ : Mat ℝ) (w : List ℝ) (hne : net.layers ≠ [])
    (hw : w.length = (net.layers.map UserLayer.numParams).sum) (hnet : NetContract w n net.layers 0 c X d Y₀)
    (hC : CriterionContract net.criterion a n d T Y₀) :
    ∃ cost g, userCost net X T w = ok cost ∧ g.length = w.length ∧
      (∀ β (k : ℝ → List ℝ → Outcome β), (do
        let fw ← userForward w X net.layers 0 [] []
        let output ← ofOption fw.2.1.getLast?
        let outGrad ← net.criterion.costGrad output T
        let bw ← userBackward X fw.2.1 fw.2.2 net.layers.zipIdx.reverse fw.1 outGrad (List.replicate w.length none)
        let cost ← net.criterion.cost output T
        let g ← allInit bw.2.2
        k cost g) = k cost g) ∧
      ∀ W W', ListCurve W w.length W' → W 0 = w → ∃ v v', (∀ᶠ t in nhds 0, userCost net X T (W t) = ok (v t)) ∧
        HasDerivAt v v' 0 ∧ a * v' = ∑ k ∈ Finset.range w.length, g.getD k 0 * W' k := by
  have hX := NetContract_shape hnet
  have key : ∀ W W', ListCurve W w.length W' → W 0 = w → ∃ cost g, userCost net X T w = ok cost ∧ g.length = w.length ∧
      (∀ β (k : ℝ → List ℝ → Outcome β), (do
        let fw ← userForward w X net.layers 0 [] []
        let output ← ofOption fw.2.1.getLast?
        let outGrad ← net.criterion.costGrad output T
        let bw ← userBackward X fw.2.1 fw.2.2 net.layers.zipIdx.reverse fw.1 outGrad (List.replicate w.length none)
        let cost ← net.criterion.cost output T
        let g ← allInit bw.2.2
        k cost g) = k cost g) ∧
      ∃ v v', (∀ᶠ t in nhds 0, userCost net X T (W t) = ok (v t)) ∧
        HasDerivAt v v' 0 ∧ a * v' = ∑ k ∈ Finset.range w.length, g.getD k 0 * W' k := by
    intro W W' hW hW0
    have hXc : MatCurve (fun _ => X) n c fun _ _ => 0 := ⟨Filter.Eventually.of_forall fun _ => hX, fun i _ j _ => hasDerivAt_const _ _⟩
    have htot : userTotal net.layers = w.length := hw.symm
    obtain ⟨Y, Y', hY, hY0, hYc, as, ps, hal, hpl, hlast, hpass⟩ :=
      user_passes (n := n) (d := d) X W W' hW net.layers 0 c (fun _ => X) _ Y₀ hXc (by rw [hW0]; exact hnet) (by omega)
    obtain ⟨v, v', G, hv, hv', hG, hGs, hva⟩ := hC Y Y' hYc hY0
    obtain ⟨p1, p2⟩ := hpass [] [] rfl rfl
    obtain ⟨A, gr, e1, -, hgr, hsum⟩ := p2 G hGs (List.replicate w.length none) (by simp; omega)
    simp only [Nat.zero_add, List.nil_append, hW0, List.length_nil, List.take_zero, htot] at p1 e1 hgr hsum
    rw [List.drop_eq_nil_of_le (by simp), List.append_nil] at e1
    have hcost : ∀ᶠ t in nhds 0, userCost net X T (W t) = ok (v t) := by
      filter_upwards [hY, hv] with t h1 h2
      unfold userCost
      rw [user_rest_prop h1, ok_bind, h2]
    have hc0 := hcost.self_of_nhds
    rw [hW0] at hc0
    have hlast' : as.getLast? = some Y₀ := by
      cases as with
      | nil => exact absurd (List.length_eq_zero_iff.mp hal.symm) hne
      | cons b as =>
        rw [← hlast]
        simp [List.getLast?_cons]
    have hv0 := hv.self_of_nhds
    rw [hY0] at hv0
    refine ⟨v 0, gr, hc0, hgr, ?_, v, v', hcost, hv', ?_⟩
    · intro β k
      simp only [p1, ok_bind, hlast', ofOption_some, hG, e1, hv0, allInit_some]
    · rw [hva, hsum]
      simp [pairing]
  have hconst : ListCurve (fun _ => w) w.length fun _ => 0 := ⟨Filter.Eventually.of_forall fun _ => rfl, fun k _ => hasDerivAt_const _ _⟩
  obtain ⟨cost, g, h1, h2, h3, -⟩ := key _ _ hconst rfl
  refine ⟨cost, g, h1, h2, h3, ?_⟩
  intro W W' hW hW0
  obtain ⟨cost', g', -, -, h3', h4⟩ := key W W' hW hW0
  have := (h3 _ fun c g => ok (c, g)).symm.trans (h3' _ fun c g => ok (c, g))
  injection this with this
  injection this with _ this
  rw [this]
  exact h4

/-- Back-propagation is right for layers and criteria of the user's own: if on the way of the inputs through the network every
layer's backward functions give the gradient of its forward function, and the criterion's `cost_grad` is `a` times the gradient
of its cost, then `compute_grad` succeeds, returns the cost of the predictions, and its vector is `a` times the gradient of
that cost as a function of all weights. -/
theorem C128_gradient (net : UserNet ℝ) {n c d : ℕ} (a : ℝ) (X T Y₀ : Mat ℝ) (w : List ℝ) (hne : net.layers ≠ [])
    (hw : w.length = (net.layers.map UserLayer.numParams).sum) (hnet : NetContract w n net.layers 0 c X d Y₀)
    (hC : CriterionContract net.criterion a n d T Y₀) (hr : net.criterion.isRegularized = false) :
    ∃ cost g, net.computeGrad w X T = ok (cost, g) ∧ userCost net X T w = ok cost ∧ g.length = w.length ∧
      ∀ W W', ListCurve W w.length W' → W 0 = w → ∃ v v', (∀ᶠ t in nhds 0, userCost net X T (W t) = ok (v t)) ∧
        HasDerivAt v v' 0 ∧ a * v' = ∑ k ∈ Finset.range w.length, g.getD k 0 * W' k := by
  obtain ⟨cost, g, h1, h2, h3, h4⟩ := user_core net a X T Y₀ w hne hw hnet hC
  refine ⟨cost, g, ?_, h1, h2, h4⟩
  unfold UserNet.computeGrad
  rw [h3 _ fun cost g => if net.criterion.isRegularized then _ else _]
  rw [hr]
  rfl

/-- The same with a regularisation of the user's own: the cost returned is the cost of the predictions plus the penalty, and
the vector is `a` times the gradient of the one plus `b` times the gradient of the other. -/
theorem C128_gradient_regularized (net : UserNet ℝ) {n c d : ℕ} (a b : ℝ) (X T Y₀ : Mat ℝ) (w : List ℝ) (hne : net.layers ≠ [])
    (hw : w.length = (net.layers.map UserLayer.numParams).sum) (hnet : NetContract w n net.layers 0 c X d Y₀)
    (hC : CriterionContract net.criterion a n d T Y₀) (hr : net.criterion.isRegularized = true) (hP : PenaltyContract net.criterion b w) :
    ∃ cost pen g, net.computeGrad w X T = ok (cost + pen, g) ∧ userCost net X T w = ok cost ∧
      net.criterion.regCost ⟨1, w.map fun x => [x]⟩ = ok pen ∧ g.length = w.length ∧
      ∀ W W', ListCurve W w.length W' → W 0 = w → ∃ v v' ρ ρ', (∀ᶠ t in nhds 0, userCost net X T (W t) = ok (v t)) ∧ HasDerivAt v v' 0 ∧
        (∀ᶠ t in nhds 0, net.criterion.regCost ⟨1, (W t).map fun x => [x]⟩ = ok (ρ t)) ∧ HasDerivAt ρ ρ' 0 ∧
        a * v' + b * ρ' = ∑ k ∈ Finset.range w.length, g.getD k 0 * W' k := by
  obtain ⟨cost, g, h1, h2, h3, h4⟩ := user_core net a X T Y₀ w hne hw hnet hC
  have hconst : ListCurve (fun _ => w) w.length fun _ => 0 := ⟨Filter.Eventually.of_forall fun _ => rfl, fun k _ => hasDerivAt_const _ _⟩
  obtain ⟨ρ, ρ', R, hρ, -, hR, hRl, -⟩ := hP _ _ hconst rfl
  have hρ0 := hρ.self_of_nhds
  refine ⟨cost, ρ 0, inPlaceBin Scalar.add g R.data, ?_, h1, hρ0, ?_, ?_⟩
  · unfold UserNet.computeGrad
    rw [h3 _ fun cost g => if net.criterion.isRegularized then _ else _]
    rw [if_pos hr]
    dsimp only
    rw [hR, ok_bind, hρ0, ok_bind]
    rfl
  · simp [inPlaceBin, hRl, h2]
  · intro W W' hW hW0
    obtain ⟨v, v', e1, e2, e3⟩ := h4 W W' hW hW0
    obtain ⟨σ, σ', R', f1, f2, f3, f4, f5⟩ := hP W W' hW hW0
    rw [hR] at f3
    injection f3 with f3
    subst f3
    refine ⟨v, v', σ, σ', e1, e2, f1, f2, ?_⟩
    rw [e3, f5, ← Finset.sum_add_distrib]
    apply Finset.sum_congr rfl
    intro k hk
    have hk := Finset.mem_range.mp hk
    rw [← add_mul]
    congr 1
    have hkg : k < g.length := by omega
    have hkr : k < R.data.length := by omega
    have hz : k < (List.zipWith Scalar.add g R.data).length := by simp; omega
    simp only [inPlaceBin, List.getD_eq_getElem?_getD]
    rw [List.getElem?_append_left hz, List.getElem?_eq_getElem hz, List.getElem?_eq_getElem hkg, List.getElem?_eq_getElem hkr]
    simp

/-! ### The layers of the crate meet the contract -/

theorem sliceAt_data {M : Mat ℝ} {r c : ℕ} (h : HasShape M r c) : sliceAt M.data 0 (r, c) = ok M := by
  have hl := data_length h
  unfold sliceAt
  rw [if_pos (by rw [hl]; simp)]
  have := chunk_flatten c M.rows h.2.2
  rw [h.1] at this
  simp only [List.drop_zero, Mat.data, this]
  rw [← h.2.1]

theorem builtin_contract (l : NetLayer ℝ) (hok : GradOK l) {n c : ℕ} (hfit : layerFits l c) (Z₀ P₀ : Mat ℝ) :
    LayerContract l.toUser n c (layerOut l c) Z₀ P₀ := by
  intro Z P Z' P' hZ hP hZ0 hP0
  have hp : l.toUser.paramShape = l.paramShape := rfl
  rw [hp] at hP ⊢
  set r := l.paramShape.1 with hr
  set k := l.paramShape.2 with hk
  have hnp : l.numParams = r * k := rfl
  let u : ℝ → List ℝ := fun t => (P t).data
  let z : ℕ → ℝ → List ℝ := fun i t => (List.range c).map fun j => ent (Z t) i j
  let dir : ℝ → ℝ →L[ℝ] ℝ := fun x => ContinuousLinearMap.toSpanSingleton ℝ x
  have hdz : ∀ i < n, ∀ m < c, HasFDerivAt (fun t => (z i t).getD m 0) (dir (Z' i m)) 0 := by
    intro i hi m hm
    have := (hZ.2 i hi m hm).hasFDerivAt
    apply this.congr_of_eventuallyEq
    filter_upwards with t
    simp [z, List.getD_eq_getElem?_getD, hm]
  have hdu : ∀ t < l.numParams, HasFDerivAt (fun e => (u e).getD t 0) (dir (P' (t / k) (t % k))) 0 := by
    intro t ht
    rw [hnp] at ht
    have hk0 : 0 < k := by
      rcases Nat.eq_zero_or_pos k with h | h
      · rw [h] at ht; omega
      · exact h
    have h1 : t / k < r := Nat.div_lt_of_lt_mul (by rw [Nat.mul_comm]; exact ht)
    have h2 : t % k < k := Nat.mod_lt _ hk0
    have := (hP.2 _ h1 _ h2).hasFDerivAt
    apply this.congr_of_eventuallyEq
    filter_upwards [hP.1] with e he
    have := data_ent he h1 h2
    rw [Nat.div_add_mod'] at this
    exact this
  have hrow : ∀ t, HasShape (Z t) n c → ∀ i < n, (Z t).rows.getD i [] = z i t := by
    intro t ht i hi
    apply List.ext_getElem
    · rw [shape_row_length ht hi]; simp [z]
    · intro j h1 h2
      simp only [z, List.getElem_map, List.getElem_range, ent]
      rw [List.getD_eq_getElem?_getD (l := (Z t).rows.getD i []), List.getElem?_eq_getElem h1]
      rfl
  have hlayer : ∀ i, ∃ y' : ℕ → ℝ →L[ℝ] ℝ, i < n →
      (∀ j < layerOut l c, HasFDerivAt (fun e => (layerRow l (u e) (z i e)).getD j 0) (y' j) 0) ∧
      ∀ γ : ℕ → ℝ, ∑ j ∈ Finset.range (layerOut l c), γ j • y' j =
        ∑ t ∈ Finset.range l.numParams, rowParamGrad l (z i 0) γ t • dir (P' (t / k) (t % k)) +
        ∑ m ∈ Finset.range c, rowInGrad l (u 0) (layerRow l (u 0) (z i 0)) γ m • dir (Z' i m) := by
    intro i
    by_cases hi : i < n
    · obtain ⟨y', h1, h2⟩ := layerRow_deriv l hok (0 : ℝ) c hfit (z i) (fun e => by simp [z]) (fun m => dir (Z' i m)) (hdz i hi) u _ hdu
      exact ⟨y', fun _ => ⟨h1, h2⟩⟩
    · exact ⟨fun _ => 0, fun h => absurd h hi⟩
  choose y' hy' using hlayer
  have hZ0s := hZ.1.self_of_nhds
  have hP0s := hP.1.self_of_nhds
  refine ⟨fun t => ⟨layerOut l c, (Z t).rows.map (layerRow l (u t))⟩, fun i j => y' i j 1, ?_, ⟨?_, ?_⟩, ?_⟩
  · filter_upwards [hZ.1, hP.1] with t h1 h2
    exact forward_ok (w := (P t).data) (start := 0) h1 (sliceAt_data h2) hfit
  · filter_upwards [hZ.1] with t h1
    exact map_shape h1 _ fun x hx => by
      have := layerRow_length (l := l) (w := u t) hx
      exact this
  · intro i hi j hj
    have := ((hy' i hi).1 j hj).hasDerivAt
    apply this.congr_of_eventuallyEq
    filter_upwards [hZ.1] with t h1
    rw [ent_of_rows, getD_map_lt _ _ [] _ _ (by rw [h1.1]; exact hi), hrow t h1 i hi]
  · intro G hG
    obtain ⟨B, hB, hBl, hBe⟩ := backParams_ent l hZ0s hG hfit
    obtain ⟨A, hA, hAs, hAe⟩ := backInput_ent l hZ0s hG hfit (w := u 0) (start := 0) (sliceAt_data hP0s)
    refine ⟨A, B, ?_, hAs, ?_, by rw [hBl, hnp], ?_⟩
    · rw [← hP0]
      exact hA
    · rw [← hZ0]; exact hB
    · have hflat : pairing r k (fun i j => B.data.getD (i * k + j) 0) P' = ∑ t ∈ Finset.range l.numParams, B.data.getD t 0 * P' (t / k) (t % k) := by
        rw [hnp, ← flat_pairing r k (fun t => B.data.getD t 0) fun t => P' (t / k) (t % k)]
        apply pairing_congr
        intro i hi j hj
        have e1 : (i * k + j) / k = i := by
          apply Nat.div_eq_of_lt_le
          · omega
          · rw [Nat.succ_mul]; omega
        have e2 : (i * k + j) % k = j := by rw [Nat.mul_comm, Nat.mul_add_mod]; exact Nat.mod_eq_of_lt hj
        simp only [e1, e2]
      rw [hflat]
      unfold pairing
      have hG' : ∀ i ∈ Finset.range n, ∑ j ∈ Finset.range (layerOut l c), ent G i j * y' i j 1 =
          ∑ t ∈ Finset.range l.numParams, rowParamGrad l (z i 0) (ent G i) t * P' (t / k) (t % k) +
          ∑ m ∈ Finset.range c, ent A i m * Z' i m := by
        intro i hi
        have hi' := Finset.mem_range.mp hi
        have := congrArg (fun L : ℝ →L[ℝ] ℝ => L 1) ((hy' i hi').2 (ent G i))
        simp only [_root_.sum_apply, _root_.add_apply, _root_.smul_apply, smul_eq_mul, dir,
          ContinuousLinearMap.toSpanSingleton_apply, one_mul] at this
        rw [this]
        congr 1
        apply Finset.sum_congr rfl
        intro m hm
        rw [hAe i m hi' (Finset.mem_range.mp hm), hrow 0 hZ0s i hi']
        rfl
      rw [Finset.sum_congr rfl hG', Finset.sum_add_distrib, add_comm]
      congr 1
      rw [Finset.sum_comm]
      apply Finset.sum_congr rfl
      intro t ht
      rw [hBe t (Finset.mem_range.mp ht), Finset.sum_mul]
      apply Finset.sum_congr rfl
      intro i hi
      rw [hrow 0 hZ0s i (Finset.mem_range.mp hi)]

/-- An activation layer meets the contract at every input if `func_grad_from_output` is right. -/
theorem C128_activation_contract (A : Activ ℝ) (hA : ∀ x, HasDerivAt A.func (A.gradFromOutput (A.func x)) x) (n c : ℕ) (Z₀ P₀ : Mat ℝ) :
    LayerContract (NetLayer.activ A).toUser n c c Z₀ P₀ := builtin_contract (.activ A) hA trivial Z₀ P₀

/-- A linear layer meets the contract at every input of its width. -/
theorem C128_linear_contract (k o : ℕ) (bias : Bool) (n c : ℕ) (h : (if bias then c + 1 else c) = k) (Z₀ P₀ : Mat ℝ) :
    LayerContract (NetLayer.linear k o bias).toUser n c o Z₀ P₀ := builtin_contract (.linear k o bias) trivial h Z₀ P₀

/-- The criteria of the crate meet theirs, with `a` the number of rows. -/
theorem C128_criterion_contract (C : Criterion ℝ) {n d : ℕ} (hn : 0 < n) (T Y₀ : Mat ℝ) (hT : HasShape T n d)
    (h : C.kind = .bce → ∀ i < n, ∀ j < d, 0 < ent Y₀ i j ∧ ent Y₀ i j < 1) : CriterionContract C.toUser n n d T Y₀ := by
  intro Y Y' hY hY0
  have hs : HasShape Y₀ n d := by rw [← hY0]; exact hY.1.self_of_nhds
  obtain ⟨G, hG, hGs, φ, hφ, hgrad⟩ := crit_gradient C.kind hn Y₀ T hs hT (fun hk i j => h hk i i.2 j j.2) C.reg
  have hn0 : (n : ℝ) ≠ 0 := by exact_mod_cast hn.ne'
  let y : ℝ → Fin n × Fin d → ℝ := fun t k => ent (Y t) k.1 k.2
  have hy : HasDerivAt y (fun k => Y' k.1 k.2) 0 := by
    rw [hasDerivAt_pi]
    intro k
    exact hY.2 k.1 k.1.2 k.2 k.2.2
  have hy0 : y 0 = fun k => ent Y₀ k.1 k.2 := by funext k; simp only [y, hY0]
  have hg : HasFDerivAt (fun v => (n : ℝ) * φ v) (∑ k, ent G k.1 k.2 • (ContinuousLinearMap.proj k : (Fin n × Fin d → ℝ) →L[ℝ] ℝ)) (y 0) := by
    rw [hy0]; exact hgrad
  have hcomp := hg.comp_hasDerivAt 0 hy
  have hv := hcomp.const_mul (n : ℝ)⁻¹
  refine ⟨fun t => φ (y t), (n : ℝ)⁻¹ * (∑ k, ent G k.1 k.2 • (ContinuousLinearMap.proj k : (Fin n × Fin d → ℝ) →L[ℝ] ℝ)) fun k => Y' k.1 k.2, G, ?_, ?_, hG, hGs, ?_⟩
  · filter_upwards [hY.1] with t ht
    have := hφ (y t)
    rw [← eq_matOf ht] at this
    exact this
  · apply hv.congr_of_eventuallyEq
    filter_upwards with t
    simp only [Function.comp_apply]
    field_simp
  · rw [← mul_assoc, mul_inv_cancel₀ hn0, one_mul]
    simp only [_root_.sum_apply, _root_.smul_apply, ContinuousLinearMap.proj_apply, smul_eq_mul]
    rw [Fintype.sum_prod_type]
    simp only [pairing, Finset.sum_range]

/-! ### What keeps the network's raw slices inside the weights -/

omit [Scalar F] in
theorem defined_userForward {w : List F} {X : Mat F} : ∀ (ls : List (UserLayer F)) (i : ℕ) (acts ps : List (Mat F)),
    (∀ l ∈ ls, l.numParams = l.paramShape.1 * l.paramShape.2 ∧ LayerSafe l) → i + userTotal ls ≤ w.length →
    Defined (fun r => r.1 = i + userTotal ls) (userForward w X ls i acts ps)
  | [], _, _, _, _, _ => rfl
  | l :: ls, i, acts, ps, h, hw => by
    have hl := h l (by simp)
    rw [userTotal_cons] at hw ⊢
    rw [userForward]
    have hsl : sliceAt w i l.paramShape ≠ ub := by
      unfold sliceAt
      have := hl.1
      rw [if_pos (by omega)]
      exact fun h => nomatch h
    refine Defined.bind' hsl fun P hP => Defined.bind' ?_ fun V hV => ?_
    · have := hl.2.1 (acts.getLast?.getD X) P
      cases hf : l.forward (acts.getLast?.getD X) P with
      | ub => exact absurd hf this
      | _ => exact fun h => nomatch h
    · have := defined_userForward (w := w) (X := X) ls (i + l.numParams) (acts ++ [V]) (ps ++ [P]) (fun l' hl' => h l' (by simp [hl'])) (by omega)
      rw [Nat.add_assoc] at this
      exact this

omit [Scalar F] in
theorem defined_userBackward {X : Mat F} {acts ps : List (Mat F)} : ∀ (ls : List (UserLayer F × ℕ)) (i : ℕ) (G : Mat F) (g : List (Option F)),
    (∀ l ∈ ls, LayerSafe l.1) → i = (ls.map fun l => l.1.numParams).sum → (∀ k : ℕ, i ≤ k → g[k]? ≠ some none) →
    Defined (fun r => ∀ k : ℕ, r.2.2[k]? ≠ some none) (userBackward X acts ps ls i G g)
  | [], i, G, g, _, hi, hg => by
    intro k
    exact hg k (by simp at hi; omega)
  | (l, j) :: ls, i, G, g, h, hi, hg => by
    have hl := h (l, j) (by simp)
    rw [List.map_cons, List.sum_cons] at hi
    dsimp only at hi
    rw [userBackward]
    have hget : ∀ {β : Type} (l : List β) (k : ℕ), getAt l k ≠ ub := by
      intro β l k
      unfold getAt
      cases l[k]? <;> exact fun h => nomatch h
    have hin : layerInput X acts j ≠ ub := by
      unfold layerInput
      split
      · exact fun h => nomatch h
      · exact hget _ _
    refine Defined.bind' hin fun Z _ => Defined.bind' (hget _ _) fun V _ => Defined.bind' (hget _ _) fun P _ =>
      Defined.bind' (hl.2.2 _ _ _ _) fun B _ => Defined.bind' ?_ fun g' hg' => Defined.bind' (hl.2.1 _ _ _ _) fun A _ => ?_
    · unfold copyInto
      split <;> exact fun h => nomatch h
    · apply defined_userBackward ls _ _ _ (fun l' hl' => h l' (by simp [hl'])) (by omega)
      intro k hk
      unfold copyInto at hg'
      split at hg'
      case isFalse => cases hg'
      rename_i hc
      injection hg' with hg'
      subst hg'
      obtain ⟨h1, h2⟩ := hc
      have hst : (g.take (i - l.numParams)).length = i - l.numParams := by rw [List.length_take]; omega
      rcases Nat.lt_or_ge k i with hki | hki
      · rw [List.append_assoc, List.getElem?_append_right (by omega), List.getElem?_append_left (by rw [hst, List.length_map]; omega), List.getElem?_map]
        cases B.data[k - (g.take (i - l.numParams)).length]? <;> simp
      · rw [List.getElem?_append_right (by rw [List.length_append, hst, List.length_map]; omega), List.getElem?_drop, List.length_append, hst, List.length_map]
        have e : i - l.numParams + l.numParams + (k - (i - l.numParams + B.data.length)) = k := by omega
        rw [e]
        exact hg k hki

omit [Scalar F] in
theorem allInit_ne_ub : ∀ (g : List (Option F)), (∀ k : ℕ, g[k]? ≠ some none) → allInit g ≠ ub
  | [], _ => fun h => nomatch h
  | none :: g, h => absurd rfl (h 0)
  | some x :: g, h => by
    have := allInit_ne_ub g fun k => by simpa using h (k + 1)
    rw [allInit]
    cases hg : allInit g with
    | ub => exact absurd hg this
    | _ => exact fun h => nomatch h

omit [Scalar F] in
theorem userRest_ne_ub {w : List F} : ∀ (ls : List (UserLayer F)) (i : ℕ) (Z : Mat F),
    (∀ l ∈ ls, l.numParams = l.paramShape.1 * l.paramShape.2 ∧ LayerSafe l) → i + userTotal ls ≤ w.length → userRest w ls i Z ≠ ub
  | [], _, _, _, _ => fun h => nomatch h
  | l :: ls, i, Z, h, hw => by
    have hl := h l (by simp)
    rw [userTotal_cons] at hw
    rw [userRest]
    unfold sliceAt
    rw [if_pos (by omega), ok_bind]
    have := hl.2.1 Z ⟨l.paramShape.2, chunk l.paramShape.2 l.paramShape.1 (w.drop i)⟩
    cases hf : l.forward Z ⟨l.paramShape.2, chunk l.paramShape.2 l.paramShape.1 (w.drop i)⟩ with
    | ub => exact absurd hf this
    | ok V => exact userRest_ne_ub ls _ V (fun l' hl' => h l' (by simp [hl'])) (by omega)
    | err e => exact fun h => nomatch h
    | panic => exact fun h => nomatch h

omit [Scalar F] in
theorem addLayers_layers (net : UserNet F) : ∀ (ls : List (UserLayer F × (ℕ → F))),
    (net.addLayers ls).layers = net.layers ++ ls.map Prod.fst ∧ (net.addLayers ls).criterion = net.criterion ∧
      ((∀ l ∈ ls, CountsAgree l.1) → net.weights.length = userTotal net.layers → (net.addLayers ls).weights.length = userTotal (net.addLayers ls).layers) := by
  intro ls
  induction ls generalizing net with
  | nil => simp [UserNet.addLayers]
  | cons a ls ih =>
    obtain ⟨l, r⟩ := a
    obtain ⟨h1, h2, h3⟩ := ih (net.add l r)
    rw [UserNet.addLayers]
    refine ⟨by rw [h1]; simp [UserNet.add], by rw [h2]; rfl, ?_⟩
    intro hc hw
    apply h3 (fun l' hl' => hc l' (by simp [hl']))
    have := (hc (l, r) (by simp)).2 r
    dsimp only at this
    simp [UserNet.add, userTotal, this] at hw ⊢
    omega

/-- If every layer says the same about its number of parameters in `param_shape`, `num_params` and `default_params`, and no
method of theirs or of the criterion has undefined behaviour of its own, then a network built of them has none: not in
`predict`, not in `get_net_weights`, not in `compute_grad` at any weights of the length of the network's. -/
theorem C128_defined (C : UserCriterion F) (hC : CriterionSafe C) (ls : List (UserLayer F × (ℕ → F)))
    (h : ∀ l ∈ ls, CountsAgree l.1 ∧ LayerSafe l.1) (w : List F) (hw : w.length = ((UserNet.new C).addLayers ls).weights.length) (X T : Mat F) (k : ℕ) :
    ((UserNet.new C).addLayers ls).forwardProp X ≠ ub ∧ ((UserNet.new C).addLayers ls).netWeights k ≠ ub ∧
      ((UserNet.new C).addLayers ls).computeGrad w X T ≠ ub := by
  obtain ⟨h1, h2, h3⟩ := addLayers_layers (UserNet.new C) ls
  replace h3 := h3 (fun l hl => (h l hl).1) (by simp [UserNet.new, userTotal])
  set net := (UserNet.new C).addLayers ls
  have hall : ∀ l ∈ net.layers, l.numParams = l.paramShape.1 * l.paramShape.2 ∧ LayerSafe l := by
    intro l hl
    rw [h1] at hl
    simp only [UserNet.new, List.nil_append, List.mem_map] at hl
    obtain ⟨p, hp, rfl⟩ := hl
    exact ⟨(h p hp).1.1, (h p hp).2⟩
  have hcr : net.criterion = C := h2
  refine ⟨?_, ?_, ?_⟩
  · unfold UserNet.forwardProp
    cases hls : net.layers with
    | nil => exact fun h => nomatch h
    | cons l ls' =>
      dsimp only
      rw [hls] at hall h3
      rw [userTotal_cons] at h3
      have hl := hall l (by simp)
      unfold sliceAt
      rw [if_pos (by omega), ok_bind]
      have := hl.2.1 X ⟨l.paramShape.2, chunk l.paramShape.2 l.paramShape.1 (net.weights.drop 0)⟩
      cases hf : l.forward X ⟨l.paramShape.2, chunk l.paramShape.2 l.paramShape.1 (net.weights.drop 0)⟩ with
      | ub => exact absurd hf this
      | ok V => exact userRest_ne_ub ls' _ V (fun l' hl' => hall l' (by simp [hl'])) (by omega)
      | err e => exact fun h => nomatch h
      | panic => exact fun h => nomatch h
  · unfold UserNet.netWeights getAt
    cases hk : net.layers[k]? with
    | none => exact fun h => nomatch h
    | some l =>
      simp only [ofOption_some, ok_bind]
      have hlt := (List.getElem?_eq_some_iff.mp hk).1
      have hge := (List.getElem?_eq_some_iff.mp hk).2
      have hsum : userTotal net.layers = ((net.layers.take k).map UserLayer.numParams).sum + (l.numParams + ((net.layers.drop (k + 1)).map UserLayer.numParams).sum) := by
        conv_lhs => rw [← List.take_append_drop k net.layers, List.drop_eq_getElem_cons hlt, hge]
        simp [userTotal]
      have hl := (hall l (by rw [← hge]; exact List.getElem_mem hlt)).1
      unfold sliceAt
      rw [if_pos (by omega)]
      exact fun h => nomatch h
  · rw [h3] at hw
    have hf := defined_userForward (w := w) (X := X) net.layers 0 [] [] hall (by omega)
    unfold UserNet.computeGrad
    rw [hcr]
    refine Defined.ne_ub (P := fun _ => True) (hf.bind fun fw hfw => Defined.bind' ?_ fun Y _ => Defined.bind' (hC.2.1 _ _) fun G _ =>
      (defined_userBackward (X := X) (acts := fw.2.1) (ps := fw.2.2) net.layers.zipIdx.reverse fw.1 G (List.replicate w.length none) ?_ ?_ ?_).bind fun bw hbw =>
        Defined.bind' (hC.1 _ _) fun c _ => Defined.bind' (allInit_ne_ub _ hbw) fun g _ => ?_)
    · cases fw.2.1.getLast? <;> exact fun h => nomatch h
    · intro l hl
      rw [List.mem_reverse] at hl
      exact (hall l.1 (List.fst_mem_of_mem_zipIdx hl)).2
    · rw [hfw, List.map_reverse, List.sum_reverse, Nat.zero_add]
      have : (net.layers.zipIdx.map fun l => l.1.numParams) = net.layers.map UserLayer.numParams := by
        rw [show (fun l : UserLayer F × ℕ => l.1.numParams) = UserLayer.numParams ∘ Prod.fst from rfl, ← List.map_map, List.zipIdx_map_fst]
      rw [this]
      rfl
    · intro k hk
      rw [hfw] at hk
      rw [List.getElem?_eq_none (by simp; omega)]
      simp
    · split
      · exact Defined.bind' (hC.2.2.2 _) fun _ _ => Defined.bind' (hC.2.2.1 _) fun _ _ => trivial
      · trivial

/-- VIOLATION: nothing checks what a layer says. A layer of safe code whose `default_params` gives fewer numbers than its
`param_shape` needs makes `predict`, `get_net_weights` and `compute_grad` read beyond the end of the weights. -/
theorem C128_short_params_violation (C : UserCriterion F) (l : UserLayer F) (r : ℕ → F) (X T : Mat F)
    (h : (l.defaultParams r).length < l.paramShape.1 * l.paramShape.2) :
    ((UserNet.new C).add l r).forwardProp X = ub ∧ ((UserNet.new C).add l r).netWeights 0 = ub ∧
      ((UserNet.new C).add l r).computeGrad ((UserNet.new C).add l r).weights X T = ub := by
  have hs : sliceAt (l.defaultParams r) 0 l.paramShape = ub := by
    unfold sliceAt
    rw [if_neg (by omega)]
  refine ⟨?_, ?_, ?_⟩
  · simp [UserNet.forwardProp, UserNet.add, UserNet.new, hs]
  · simp [UserNet.netWeights, UserNet.add, UserNet.new, getAt, hs]
  · simp [UserNet.computeGrad, UserNet.add, UserNet.new, userForward, hs]

/-- VIOLATION: with more numbers in `default_params` than `num_params` says, the gradient has entries nobody has written, and
`compute_grad` hands out uninitialised memory. -/
theorem C128_long_params_violation (C : UserCriterion F) (l : UserLayer F) (r : ℕ → F) (X T Y G A B : Mat F) (v : F)
    (hn : l.numParams = l.paramShape.1 * l.paramShape.2) (h : l.numParams < (l.defaultParams r).length)
    (hf : ∀ P, l.forward X P = ok Y) (hG : C.costGrad Y T = ok G) (hc : C.cost Y T = ok v) (hA : ∀ P, l.backInput G X Y P = ok A)
    (hB : ∀ P, l.backParams G X Y P = ok B) (hBl : B.data.length = l.numParams) :
    ((UserNet.new C).add l r).computeGrad ((UserNet.new C).add l r).weights X T = ub := by
  have hs : sliceAt (l.defaultParams r) 0 l.paramShape = ok ⟨l.paramShape.2, chunk l.paramShape.2 l.paramShape.1 ((l.defaultParams r).drop 0)⟩ := by
    unfold sliceAt
    rw [if_pos (by omega)]
  have hub : ∀ (b : List F) (g : List (Option F)), none ∈ g → allInit (b.map some ++ g) = ub := by
    intro b g hg
    induction b with
    | nil =>
      rw [List.map_nil, List.nil_append]
      induction g with
      | nil => cases hg
      | cons x g ih =>
        cases x with
        | none => rfl
        | some x => rw [allInit, ih (by simpa using hg)]; rfl
    | cons x b ih => rw [List.map_cons, List.cons_append, allInit, ih]; rfl
  have hdrop : none ∈ (List.replicate (l.defaultParams r).length (none : Option F)).drop l.numParams := by
    rw [List.drop_replicate]
    exact List.mem_replicate.mpr ⟨by omega, rfl⟩
  rw [List.drop_replicate] at hdrop
  simp [UserNet.computeGrad, UserNet.add, UserNet.new, userForward, hs, hf, hG, hc, unwrap_ok, userBackward, layerInput, getAt, hA, hB, copyInto, hBl,
    h.le, hub _ _ hdrop]

/-! ### What is checked -/

omit [Scalar F] in
theorem userBackward_count {X : Mat F} {acts ps : List (Mat F)} (l : UserLayer F)
    (hl : ∀ G Z Y P B, l.backParams G Z Y P = ok B → B.data.length ≠ l.numParams) : ∀ (ls : List (UserLayer F × ℕ)) (i : ℕ) (G : Mat F) (g : List (Option F)) s,
    l ∈ ls.map Prod.fst → userBackward X acts ps ls i G g ≠ ok s
  | (l', j) :: ls, i, G, g, s, hm, h => by
    rw [userBackward] at h
    obtain ⟨Z, -, h⟩ := bind_eq_ok.mp h
    obtain ⟨V, -, h⟩ := bind_eq_ok.mp h
    obtain ⟨P, -, h⟩ := bind_eq_ok.mp h
    obtain ⟨B, hB, h⟩ := bind_eq_ok.mp h
    obtain ⟨g', hg', h⟩ := bind_eq_ok.mp h
    obtain ⟨A, -, h⟩ := bind_eq_ok.mp h
    rcases List.mem_cons.mp hm with e | hm
    · dsimp only at e
      subst e
      unfold copyInto at hg'
      split at hg'
      · rename_i hc
        exact hl _ _ _ _ _ hB hc.2
      · cases hg'
    · exact userBackward_count l hl ls _ _ _ s hm h

/-- A layer whose `back_params` does not give as many numbers as `num_params` says is never trained on: `compute_grad` does not
return. -/
theorem C128_count_checked (net : UserNet F) (l : UserLayer F) (hm : l ∈ net.layers)
    (hl : ∀ G Z Y P B, l.backParams G Z Y P = ok B → B.data.length ≠ l.numParams) (w : List F) (X T : Mat F) (r : F × List F) :
    net.computeGrad w X T ≠ ok r := by
  intro h
  unfold UserNet.computeGrad at h
  obtain ⟨fw, -, h⟩ := bind_eq_ok.mp h
  obtain ⟨Y, -, h⟩ := bind_eq_ok.mp h
  obtain ⟨G, -, h⟩ := bind_eq_ok.mp h
  obtain ⟨bw, hb, h⟩ := bind_eq_ok.mp h
  refine userBackward_count l hl _ _ _ _ _ ?_ hb
  rw [List.map_reverse, List.mem_reverse, List.zipIdx_map_fst]
  exact hm

omit [Scalar F] in
theorem userRest_append {w : List F} : ∀ (a b : List (UserLayer F)) (i : ℕ) (Z V : Mat F), userRest w a i Z = ok V →
    userRest w (a ++ b) i Z = userRest w b (i + userTotal a) V
  | [], b, i, Z, V, h => by
    cases h
    simp [userTotal]
  | l :: a, b, i, Z, V, h => by
    rw [userRest] at h
    obtain ⟨P, hP, h⟩ := bind_eq_ok.mp h
    rw [List.cons_append, userRest, hP, ok_bind]
    cases hf : l.forward Z P with
    | ok Q =>
      rw [hf] at h
      rw [userTotal_cons, ← Nat.add_assoc]
      exact userRest_append a b _ Q V h
    | err e => rw [hf] at h; cases h
    | panic => rw [hf] at h; cases h
    | ub => rw [hf] at h; cases h

omit [Scalar F] in
/-- A layer's refusal reaches the caller of `predict`: as it is when the layer is the first, as `InvalidParameters` when the
layers before it have run. -/
theorem C128_errors (C : UserCriterion F) (pre post : List (UserLayer F)) (l : UserLayer F) (w : List F) (X Z P : Mat F) (e : ErrorKind)
    (hpre : (⟨pre, w, C⟩ : UserNet F).forwardProp X = ok Z)
    (hP : (⟨pre ++ l :: post, w, C⟩ : UserNet F).netWeights pre.length = ok P) (hf : l.forward Z P = err e) :
    (⟨pre ++ l :: post, w, C⟩ : UserNet F).forwardProp X = if pre = [] then err e else err .InvalidParameters := by
  have hP' : sliceAt w (userTotal pre) l.paramShape = ok P := by
    simpa [UserNet.netWeights, getAt, userTotal] using hP
  cases pre with
  | nil =>
    cases hpre
    simp only [UserNet.forwardProp, List.nil_append, if_true]
    simp only [userTotal, List.map_nil, List.sum_nil] at hP'
    rw [hP', ok_bind, hf]
    rfl
  | cons a pre =>
    rw [if_neg (by simp)]
    simp only [UserNet.forwardProp] at hpre
    obtain ⟨Q, hQ, hpre⟩ := bind_eq_ok.mp hpre
    obtain ⟨V, hV, hpre⟩ := bind_eq_ok.mp hpre
    simp only [UserNet.forwardProp, List.cons_append]
    rw [hQ, ok_bind, hV, ok_bind, userRest_append pre (l :: post) _ V Z hpre, userRest]
    rw [userTotal_cons] at hP'
    rw [hP', ok_bind, hf]

/-! ### A layer of the user's own: one factor for all entries -/

/-- Every entry times the one parameter. -/
noncomputable def scaleLayer : UserLayer ℝ where
  forward := fun Z P => ok ⟨Z.cols, Z.rows.map fun x => x.map fun a => a * ent P 0 0⟩
  backInput := fun G _ _ P => ok ⟨G.cols, G.rows.map fun x => x.map fun a => a * ent P 0 0⟩
  backParams := fun G Z _ _ => ok ⟨1, [[pairing Z.rows.length Z.cols (ent G) (ent Z)]]⟩
  defaultParams := fun _ => [1]
  paramShape := (1, 1)
  numParams := 1

theorem scaled_shape {M : Mat ℝ} {n c : ℕ} (h : HasShape M n c) (s : ℝ) : HasShape (⟨M.cols, M.rows.map fun x => x.map fun a => a * s⟩ : Mat ℝ) n c := by
  refine ⟨by simp [h.1], h.2.1, ?_⟩
  intro row hr
  obtain ⟨x, hx, rfl⟩ := List.mem_map.mp hr
  rw [List.length_map]
  exact h.2.2 x hx

theorem scaled_ent (M : Mat ℝ) (s : ℝ) (i j : ℕ) : ent (⟨M.cols, M.rows.map fun x => x.map fun a => a * s⟩ : Mat ℝ) i j = ent M i j * s := by
  unfold ent
  simp only [List.getD_eq_getElem?_getD, List.getElem?_map]
  cases M.rows[i]? with
  | none => simp
  | some x =>
    simp only [Option.map_some, Option.getD_some, List.getElem?_map]
    cases x[j]? <;> simp

/-- It meets the contract. -/
theorem scaleLayer_contract (n c : ℕ) (Z₀ P₀ : Mat ℝ) : LayerContract scaleLayer n c c Z₀ P₀ := by
  intro Z P Z' P' hZ hP hZ0 hP0
  have hp := hP.2 0 (by decide) 0 (by decide)
  refine ⟨fun t => ⟨(Z t).cols, (Z t).rows.map fun x => x.map fun a => a * ent (P t) 0 0⟩, fun i j => Z' i j * ent P₀ 0 0 + ent Z₀ i j * P' 0 0,
    Filter.Eventually.of_forall fun t => rfl, ⟨?_, ?_⟩, ?_⟩
  · filter_upwards [hZ.1] with t ht
    exact scaled_shape ht _
  · intro i hi j hj
    simp only [scaled_ent]
    rw [← hZ0, ← hP0]
    exact (hZ.2 i hi j hj).mul hp
  · intro G hG
    have hs : HasShape Z₀ n c := by rw [← hZ0]; exact hZ.1.self_of_nhds
    refine ⟨_, _, rfl, scaled_shape hG _, rfl, rfl, ?_⟩
    rw [hs.1, hs.2.1]
    simp only [pairing, scaled_ent, scaleLayer, Finset.sum_range_one, Nat.zero_mul, Nat.zero_add, Mat.data, List.flatten_cons, List.flatten_nil,
      List.append_nil, List.getD_cons_zero, Finset.sum_mul, ← Finset.sum_add_distrib]
    apply Finset.sum_congr rfl
    intro i _
    apply Finset.sum_congr rfl
    intro j _
    ring

example : CountsAgree scaleLayer ∧ LayerSafe scaleLayer := by
  refine ⟨⟨rfl, fun _ => rfl⟩, ?_, ?_, ?_⟩ <;> intros <;> exact fun h => nomatch h

/-- A network of the crate's linear layer, the user's layer and an activation meets the hypotheses of `C128_gradient`, at any
weights, on two rows. -/
example (A : Activ ℝ) (hA : ∀ x, HasDerivAt A.func (A.gradFromOutput (A.func x)) x) (a b s : ℝ) (C : UserCriterion ℝ) :
    ∃ Y, NetContract [a, b, s] 2 [(NetLayer.new 1 1).toUser, scaleLayer, (NetLayer.activ A).toUser] 0 1 (⟨1, [[3], [4]]⟩ : Mat ℝ) 1 Y ∧
      [a, b, s].length = ((⟨[(NetLayer.new 1 1).toUser, scaleLayer, (NetLayer.activ A).toUser], [a, b, s], C⟩ : UserNet ℝ).layers.map UserLayer.numParams).sum := by
  have hX : HasShape (⟨1, [[3], [4]]⟩ : Mat ℝ) 2 1 := ⟨rfl, rfl, by simp⟩
  have h1 : ∃ V, (NetLayer.new 1 1 : NetLayer ℝ).toUser.forward ⟨1, [[3], [4]]⟩ (paramsAt [a, b, s] 0 (2, 1)) = ok V ∧ HasShape V 2 1 := by
    have := forward_ok (l := (NetLayer.new 1 1 : NetLayer ℝ)) (w := [a, b, s]) (start := 0) hX (sliceAt_paramsAt _ _ _ (by simp [NetLayer.new, NetLayer.paramShape])) rfl
    exact ⟨_, this, map_shape hX _ fun x hx => layerRow_length (l := (NetLayer.new 1 1 : NetLayer ℝ)) hx⟩
  obtain ⟨V, hV, hVs⟩ := h1
  have hVs2 := scaled_shape hVs (ent (paramsAt [a, b, s] (0 + 2) (1, 1)) 0 0)
  have h3 := forward_ok (l := (NetLayer.activ A : NetLayer ℝ)) (w := [a, b, s]) (start := 0 + 2 + 1) (c := 1) hVs2 (sliceAt_paramsAt _ _ _ (by simp [NetLayer.paramShape])) trivial
  have h3s := map_shape hVs2 (layerRow (NetLayer.activ A : NetLayer ℝ) ([a, b, s].drop (0 + 2 + 1))) fun x hx => layerRow_length (l := (NetLayer.activ A : NetLayer ℝ)) hx
  refine ⟨_, .cons rfl hX (C128_linear_contract 2 1 true 2 1 rfl _ _) hV (.cons rfl hVs (scaleLayer_contract 2 1 _ _) rfl
    (.cons rfl hVs2 (C128_activation_contract A hA 2 1 _ _) h3 (.nil h3s))), rfl⟩

/-- The hypothesis of `C128_short_params_violation` is met by a layer of safe code. -/
example : ((⟨scaleLayer.forward, scaleLayer.backInput, scaleLayer.backParams, fun _ => [], (1, 1), 1⟩ : UserLayer ℝ).defaultParams fun _ => 0).length < 1 * 1 := by
  simp

/-- And those of `C128_long_params_violation`. -/
example (C : UserCriterion ℝ) (v : ℝ) (hC : ∀ Y T, C.cost Y T = ok v ∧ C.costGrad Y T = ok ⟨0, []⟩) (X T : Mat ℝ) :
    let l : UserLayer ℝ := ⟨fun Z _ => ok Z, fun G _ _ _ => ok G, fun _ _ _ _ => ok ⟨0, []⟩, fun _ => [7], (0, 0), 0⟩
    ((UserNet.new C).add l fun _ => 0).computeGrad ((UserNet.new C).add l fun _ => 0).weights X T = ub := by
  intro l
  exact C128_long_params_violation C l (fun _ => 0) X T X ⟨0, []⟩ ⟨0, []⟩ ⟨0, []⟩ v rfl (by simp [l]) (fun _ => rfl) (hC _ _).2 (hC _ _).1 (fun _ => rfl)
    (fun _ => rfl) rfl

end RM
