import Verif.Props.FeatureOrderNet
import Verif.Props.Backprop
import Verif.Props.SameFunction

/-! C105: the order of the hidden units of a network does not matter, and units that start alike stay alike. -/

namespace RM
open Outcome Scalar Spec

/-- The order of the weights of a network in which the units of one hidden layer come in the order `σ`. The `start` weights before that layer
and the `rest` weights after the next one stay where they are; the `h` columns of the layer's `k` rows and the rows (of `o` weights each,
the row of a bias first) of the next linear layer come in the order of the units. -/
def Spec.unitOrder (σ : List ℕ) (k h o : ℕ) (bias : Bool) (start rest : ℕ) : List ℕ :=
  List.range start ++ (((List.range k).flatMap fun i => σ.map fun j => start + (i * h + j)) ++
    (((firstOrder bias σ).flatMap fun i => (List.range o).map fun j => start + (k * h + (i * o + j))) ++
      (List.range rest).map fun j => start + (k * h + ((h + if bias then 1 else 0) * o + j))))

/-! ### Orders and positions -/

theorem firstOrder_order {h : ℕ} {σ : List ℕ} (hσ : IsOrder h σ) (b : Bool) : IsOrder (h + if b then 1 else 0) (firstOrder b σ) := by
  cases b with
  | true => exact withFirst_order hσ
  | false => exact hσ

theorem flatMap_range_block (h : ℕ) : ∀ k : ℕ, ((List.range k).flatMap fun i => (List.range h).map fun j => i * h + j) = List.range (k * h) :=
  flatMap_range_mul h

theorem unitOrder_order {h : ℕ} {σ : List ℕ} (hσ : IsOrder h σ) (k o : ℕ) (b : Bool) (start rest : ℕ) :
    IsOrder (start + (k * h + ((h + if b then 1 else 0) * o + rest))) (unitOrder σ k h o b start rest) := by
  unfold IsOrder unitOrder
  rw [List.range_add]
  refine List.Perm.append (List.Perm.refl _) ?_
  rw [List.range_add, List.map_append]
  refine List.Perm.append ?_ ?_
  · rw [← flatMap_range_block, List.map_flatMap]
    refine List.Perm.flatMap_left _ fun i _ => ?_
    rw [List.map_map]
    exact List.Perm.map _ hσ
  · rw [List.range_add, List.map_append, List.map_append]
    refine List.Perm.append ?_ ?_
    · rw [← flatMap_range_block, List.map_flatMap, List.map_flatMap]
      simp only [List.map_map, Function.comp_def]
      exact List.Perm.flatMap_right _ (firstOrder_order hσ b)
    · simp only [List.map_map, Function.comp_def]
      exact List.Perm.refl _

/-- An entry of a list of blocks of the same length. -/
theorem flatMap_getD {α β : Type} (m : ℕ) (f : α → List β) (z : β) : ∀ (L : List α), (∀ a ∈ L, (f a).length = m) → ∀ (i j : ℕ) (a : α), L[i]? = some a → j < m →
    (L.flatMap f).getD (i * m + j) z = (f a).getD j z
  | [], _, i, j, a, hi, _ => by simp at hi
  | b :: L, hm, 0, j, a, hi, hj => by
    simp only [List.getElem?_cons_zero, Option.some.injEq] at hi
    subst hi
    have hb := hm b (by simp)
    rw [List.flatMap_cons, List.getD_eq_getElem?_getD, List.getD_eq_getElem?_getD, zero_mul, zero_add, List.getElem?_append_left (by omega)]
  | b :: L, hm, i + 1, j, a, hi, hj => by
    have hb := hm b (by simp)
    rw [List.flatMap_cons, List.getD_eq_getElem?_getD, List.getElem?_append_right (by rw [hb, Nat.succ_mul]; omega), hb,
      show (i + 1) * m + j - m = i * m + j by rw [Nat.succ_mul]; omega, ← List.getD_eq_getElem?_getD]
    exact flatMap_getD m f z L (fun a ha => hm a (List.mem_cons_of_mem _ ha)) i j a (by simpa using hi) hj

theorem getD_append_skip {α : Type} (a b : List α) (m t : ℕ) (z : α) (hm : a.length = m) : (a ++ b).getD (m + t) z = b.getD t z := by
  subst hm
  simp [List.getD_eq_getElem?_getD, List.getElem?_append_right]

theorem getD_append_first {α : Type} (a b : List α) (t : ℕ) (z : α) (h : t < a.length) : (a ++ b).getD t z = a.getD t z := by
  simp [List.getD_eq_getElem?_getD, List.getElem?_append_left h]

section positions

variable {h : ℕ} {σ : List ℕ} (hσ : IsOrder h σ) (k o : ℕ) (b : Bool) (start rest : ℕ)
include hσ

theorem unit_len1 : ((List.range k).flatMap fun i => σ.map fun j => start + (i * h + j)).length = k * h := by
  simp [List.length_flatMap, hσ.length]

theorem unit_len2 : ((firstOrder b σ).flatMap fun i => (List.range o).map fun j => start + (k * h + (i * o + j))).length = (h + if b then 1 else 0) * o := by
  simp [List.length_flatMap, (firstOrder_order hσ b).length]

theorem unit_before {t : ℕ} (ht : t < start) : (unitOrder σ k h o b start rest).getD t 0 = t := by
  unfold unitOrder
  rw [getD_append_first _ _ _ _ (by simpa using ht)]
  simp [List.getD_eq_getElem?_getD, ht]

theorem unit_in {i j : ℕ} (hi : i < k) (hj : j < h) : (unitOrder σ k h o b start rest).getD (start + (i * h + j)) 0 = start + (i * h + σ.getD j 0) := by
  have hij : i * h + j < k * h := by
    calc i * h + j < i * h + h := by omega
      _ = (i + 1) * h := by ring
      _ ≤ k * h := Nat.mul_le_mul_right h hi
  unfold unitOrder
  rw [getD_append_skip _ _ _ _ _ (by simp), getD_append_first _ _ _ _ (by rw [unit_len1 hσ]; exact hij),
    flatMap_getD h _ 0 (List.range k) (by simp [hσ.length]) i j i (by simp [hi]) hj]
  have := hσ.length
  simp [List.getD_eq_getElem?_getD, this, hj]

theorem unit_out {i e : ℕ} (hi : i < h + if b then 1 else 0) (he : e < o) :
    (unitOrder σ k h o b start rest).getD (start + (k * h + (i * o + e))) 0 = start + (k * h + ((firstOrder b σ).getD i 0 * o + e)) := by
  have hie : i * o + e < (h + if b then 1 else 0) * o := by
    calc i * o + e < i * o + o := by omega
      _ = (i + 1) * o := by ring
      _ ≤ _ := Nat.mul_le_mul_right o hi
  have hl := (firstOrder_order hσ b).length
  unfold unitOrder
  rw [getD_append_skip _ _ _ _ _ (by simp), getD_append_skip _ _ _ _ _ (unit_len1 hσ k start), getD_append_first _ _ _ _ (by rw [unit_len2 hσ]; exact hie),
    flatMap_getD o _ 0 (firstOrder b σ) (by simp) i e ((firstOrder b σ).getD i 0) (by simp [List.getD_eq_getElem?_getD, hl, hi]) he]
  simp [List.getD_eq_getElem?_getD, he]

theorem unit_after {t : ℕ} (ht : t < rest) :
    (unitOrder σ k h o b start rest).getD (start + (k * h + ((h + if b then 1 else 0) * o + t))) 0 = start + (k * h + ((h + if b then 1 else 0) * o + t)) := by
  unfold unitOrder
  rw [getD_append_skip _ _ _ _ _ (by simp), getD_append_skip _ _ _ _ _ (unit_len1 hσ k start), getD_append_skip _ _ _ _ _ (unit_len2 hσ k o b start)]
  simp [List.getD_eq_getElem?_getD, ht]

end positions

/-! ### The function of the network -/

/-- Layers look at their own weights only. -/
theorem netRow_own : ∀ (ls : List (NetLayer ℝ)) (w w' x : List ℝ), (∀ t < totalParams ls, w.getD t 0 = w'.getD t 0) → netRow ls w x = netRow ls w' x
  | [], _, _, _, _ => rfl
  | .activ A :: ls, w, w', x, h => by
    simp only [netRow]
    exact netRow_own ls w w' _ fun t ht => h t (by rw [totalParams_cons]; simpa [NetLayer.numParams, NetLayer.paramShape] using ht)
  | .linear k o b :: ls, w, w', x, h => by
    simp only [netRow]
    have e : totalParams (NetLayer.linear k o b :: ls) = k * o + totalParams ls := by rw [totalParams_cons]; rfl
    have h1 : ∀ j < o, ∀ i < k, w.getD (i * o + j) 0 = w'.getD (i * o + j) 0 := by
      intro j hj i hi
      refine h _ ?_
      have : i * o + j < k * o := by
        calc i * o + j < i * o + o := by omega
          _ = (i + 1) * o := by ring
          _ ≤ k * o := Nat.mul_le_mul_right o hi
      omega
    have h2 : ((List.range o).map fun j => dot (if b then Scalar.one :: x else x) ((List.range k).map fun i => w.getD (i * o + j) Scalar.zero)) =
        (List.range o).map fun j => dot (if b then Scalar.one :: x else x) ((List.range k).map fun i => w'.getD (i * o + j) Scalar.zero) := by
      refine List.map_congr_left fun j hj => ?_
      congr 1
      exact List.map_congr_left fun i hi => h1 j (List.mem_range.mp hj) i (List.mem_range.mp hi)
    rw [h2]
    refine netRow_own ls _ _ _ fun t ht => ?_
    simp only [List.getD_eq_getElem?_getD, List.getElem?_drop]
    simpa only [List.getD_eq_getElem?_getD] using h (k * o + t) (by omega)

theorem map_getD_order {h : ℕ} {σ : List ℕ} (hσ : IsOrder h σ) (f : ℕ → ℝ) : ((List.range h).map fun j => f (σ.getD j 0)) = σ.map f := by
  have hl := hσ.length
  apply List.ext_getElem
  · simp [hl]
  · intro j h1 h2
    have : j < σ.length := by simpa using h2
    simp [List.getD_eq_getElem?_getD, this]

/-- The layers before, the hidden layer, its activation, the next linear layer, the layers after. -/
def hiddenAt (pre : List (NetLayer ℝ)) (k h : ℕ) (b₁ : Bool) (A : Activ ℝ) (o : ℕ) (b : Bool) (post : List (NetLayer ℝ)) : List (NetLayer ℝ) :=
  pre ++ .linear k h b₁ :: .activ A :: .linear (h + if b then 1 else 0) o b :: post

theorem hiddenAt_params (pre : List (NetLayer ℝ)) (k h : ℕ) (b₁ : Bool) (A : Activ ℝ) (o : ℕ) (b : Bool) (post : List (NetLayer ℝ)) :
    totalParams (hiddenAt pre k h b₁ A o b post) = totalParams pre + (k * h + ((h + if b then 1 else 0) * o + totalParams post)) := by
  unfold hiddenAt
  rw [totalParams_append, totalParams_cons, totalParams_cons, totalParams_cons]
  simp [NetLayer.numParams, NetLayer.paramShape]

/-- Reordering the units of a hidden layer does not change the function of the network. -/
theorem netRow_units {h : ℕ} {σ : List ℕ} (hσ : IsOrder h σ) (pre : List (NetLayer ℝ)) (k : ℕ) (b₁ : Bool) (A : Activ ℝ) (o : ℕ) (b : Bool) (post : List (NetLayer ℝ))
    (w : List ℝ) (x : List ℝ) :
    netRow (hiddenAt pre k h b₁ A o b post) (reorder (unitOrder σ k h o b (totalParams pre) (totalParams post)) w) x =
      netRow (hiddenAt pre k h b₁ A o b post) w x := by
  set s := totalParams pre with hs
  set r := totalParams post with hr
  set τ := unitOrder σ k h o b s r with hτ
  have hτl : τ.length = s + (k * h + ((h + if b then 1 else 0) * o + r)) := (unitOrder_order hσ k o b s r).length
  have hg : ∀ t, t < τ.length → (reorder τ w).getD t 0 = w.getD (τ.getD t 0) 0 := fun t ht => reorder_getD τ w ht
  have hk' : ∀ {i j : ℕ}, i < k → j < h → i * h + j < k * h := by
    intro i j hi hj
    calc i * h + j < i * h + h := by omega
      _ = (i + 1) * h := by ring
      _ ≤ k * h := Nat.mul_le_mul_right h hi
  have ho' : ∀ {i e : ℕ}, i < (h + if b then 1 else 0) → e < o → i * o + e < (h + if b then 1 else 0) * o := by
    intro i e hi he
    calc i * o + e < i * o + o := by omega
      _ = (i + 1) * o := by ring
      _ ≤ _ := Nat.mul_le_mul_right o hi
  unfold hiddenAt
  rw [netRow_append, netRow_append, ← hs]
  rw [netRow_own pre (reorder τ w) w x fun t ht => by rw [hg t (by omega), hτ, unit_before hσ k o b s r ht]]
  generalize netRow pre w x = z
  simp only [netRow]
  -- the hidden layer
  have e1 : ((List.range h).map fun j => dot (if b₁ then Scalar.one :: z else z) ((List.range k).map fun i => ((reorder τ w).drop s).getD (i * h + j) Scalar.zero)) =
      reorder σ ((List.range h).map fun j => dot (if b₁ then Scalar.one :: z else z) ((List.range k).map fun i => (w.drop s).getD (i * h + j) Scalar.zero)) := by
    rw [reorder_map_range hσ, ← map_getD_order hσ]
    refine List.map_congr_left fun j hj => ?_
    congr 1
    refine List.map_congr_left fun i hi => ?_
    have hi := List.mem_range.mp hi
    have hj := List.mem_range.mp hj
    have := hk' hi hj
    have e := hg (s + (i * h + j)) (by omega)
    rw [hτ, unit_in hσ k o b s r hi hj, ← hτ] at e
    simp only [List.getD_eq_getElem?_getD, List.getElem?_drop] at e ⊢
    exact e
  rw [e1, map_reorder hσ A.func (by simp)]
  generalize hy : (((List.range h).map fun j => dot (if b₁ then Scalar.one :: z else z) ((List.range k).map fun i => (w.drop s).getD (i * h + j) Scalar.zero)).map A.func) = y
  have hyl : y.length = h := by rw [← hy]; simp
  -- the next linear layer
  have e2 : ∀ e < o, dot (if b then Scalar.one :: reorder σ y else reorder σ y)
      ((List.range (h + if b then 1 else 0)).map fun i => (((reorder τ w).drop s).drop (k * h)).getD (i * o + e) Scalar.zero) =
      dot (if b then Scalar.one :: y else y) ((List.range (h + if b then 1 else 0)).map fun i => ((w.drop s).drop (k * h)).getD (i * o + e) Scalar.zero) := by
    intro e he
    have hρ := firstOrder_order hσ b
    have f1 : (if b then Scalar.one :: reorder σ y else reorder σ y) = reorder (firstOrder b σ) (if b then Scalar.one :: y else y) := by
      cases b with
      | true => simp [firstOrder, reorder_withFirst]
      | false => simp [firstOrder]
    have f2 : ((List.range (h + if b then 1 else 0)).map fun i => (((reorder τ w).drop s).drop (k * h)).getD (i * o + e) Scalar.zero) =
        reorder (firstOrder b σ) ((List.range (h + if b then 1 else 0)).map fun i => ((w.drop s).drop (k * h)).getD (i * o + e) Scalar.zero) := by
      rw [reorder_map_range hρ, ← map_getD_order hρ]
      refine List.map_congr_left fun i hi => ?_
      have hi := List.mem_range.mp hi
      have := ho' hi he
      have e' := hg (s + (k * h + (i * o + e))) (by omega)
      rw [hτ, unit_out hσ k o b s r hi he, ← hτ] at e'
      simp only [List.getD_eq_getElem?_getD, List.getElem?_drop] at e' ⊢
      exact e'
    rw [f1, f2]
    exact dot_reorder hρ (by cases b <;> simp [hyl]) (by simp)
  have e3 : ((List.range o).map fun e => dot (if b then Scalar.one :: reorder σ y else reorder σ y)
      ((List.range (h + if b then 1 else 0)).map fun i => (((reorder τ w).drop s).drop (k * h)).getD (i * o + e) Scalar.zero)) =
      (List.range o).map fun e => dot (if b then Scalar.one :: y else y) ((List.range (h + if b then 1 else 0)).map fun i => ((w.drop s).drop (k * h)).getD (i * o + e) Scalar.zero) :=
    List.map_congr_left fun e he => e2 e (List.mem_range.mp he)
  rw [e3]
  -- the rest
  refine netRow_own post _ _ _ fun t ht => ?_
  have e' := hg (s + (k * h + ((h + if b then 1 else 0) * o + t))) (by omega)
  rw [hτ, unit_after hσ k o b s r ht, ← hτ] at e'
  simpa only [List.getD_eq_getElem?_getD, List.getElem?_drop, add_assoc] using e'

/-! ### Gradients -/

theorem listGradient_length {f : List ℝ → Outcome ℝ} {g w : List ℝ} {n : ℕ} (hw : w.length = n) (h : ListGradientAt f g w) :
    g.length = n ∧ ∃ c : (Fin n → ℝ) → ℝ, (∀ v, f (List.ofFn v) = ok (c v)) ∧ IsGradientAt c (fun k => g.getD k 0) (fun k => w.getD k 0) := by
  subst hw
  exact h

/-- The gradient of a function that does not depend on a certain reordering of its arguments is reordered with them. -/
theorem gradient_reorder {n : ℕ} {τ : List ℕ} (h : IsOrder n τ) {f : List ℝ → Outcome ℝ} {g g' w : List ℝ} (hw : w.length = n)
    (hf : ∀ v : List ℝ, v.length = n → f (reorder τ v) = f v) (h1 : ListGradientAt f g w) (h2 : ListGradientAt f g' (reorder τ w)) :
    g' = reorder τ g := by
  obtain ⟨l1, c, c1, c2⟩ := listGradient_length hw h1
  obtain ⟨l2, c', c1', c2'⟩ := listGradient_length (show (reorder τ w).length = n by rw [reorder_length, h.length]) h2
  have hc : c' = c := by
    funext v
    have := (c1' v).symm.trans (c1 v)
    injection this
  subst hc
  have hlt : ∀ i : Fin n, τ.getD i 0 < n := fun i => h.lt (by
    rw [getD_lt 0 (by rw [h.length]; exact i.2)]
    exact List.getElem_mem _)
  obtain ⟨e, he⟩ : ∃ e : Fin n → Fin n, ∀ i, (e i : ℕ) = τ.getD i 0 := ⟨fun i => ⟨τ.getD i 0, hlt i⟩, fun _ => rfl⟩
  have hinj : Function.Injective e := by
    intro i j hij
    have hnd : τ.Nodup := (List.Perm.nodup_iff h).2 List.nodup_range
    have : τ.getD i 0 = τ.getD j 0 := by rw [← he, ← he, hij]
    rw [getD_lt 0 (by rw [h.length]; exact i.2), getD_lt 0 (by rw [h.length]; exact j.2)] at this
    exact Fin.ext ((List.Nodup.getElem_inj_iff hnd).mp this)
  have hre : ∀ v : Fin n → ℝ, reorder τ (List.ofFn v) = List.ofFn fun i => v (e i) := by
    intro v
    apply ext_getD (by simp [reorder_length, h.length])
    intro j hj
    rw [reorder_length, h.length] at hj
    have hj' : τ.getD j 0 < n := hlt ⟨j, hj⟩
    rw [reorder_getD τ _ (by rw [h.length]; exact hj)]
    generalize ht : τ.getD j 0 = t at hj'
    have he' : e ⟨j, hj⟩ = ⟨t, hj'⟩ := Fin.ext ((he _).trans ht)
    simp [List.getD_eq_getElem?_getD, hj, hj', he']
  have hinv : (fun v : Fin n → ℝ => c' fun i => v (e i)) = c' := by
    funext v
    have := hf (List.ofFn v) (by simp)
    rw [hre, c1, c1] at this
    injection this
  have hx : (fun k : Fin n => (reorder τ w).getD k 0) = fun k => w.getD (e k) 0 := by
    funext k
    rw [he]
    exact reorder_getD τ w (by rw [h.length]; exact k.2)
  rw [hx] at c2'
  let L : (Fin n → ℝ) →L[ℝ] (Fin n → ℝ) := ContinuousLinearMap.pi fun i => ContinuousLinearMap.proj (e i)
  have hcomp : HasFDerivAt (fun v : Fin n → ℝ => c' fun i => v (e i)) ((∑ k : Fin n, g'.getD k 0 • (ContinuousLinearMap.proj k : (Fin n → ℝ) →L[ℝ] ℝ)).comp L)
      (fun k => w.getD k 0) :=
    HasFDerivAt.comp (g := c') (f := fun v => L v) (fun k : Fin n => w.getD k 0) c2' L.hasFDerivAt
  rw [hinv] at hcomp
  have huniq := hcomp.unique c2
  apply ext_getD (by rw [l2, reorder_length, h.length])
  intro j hj
  rw [l2] at hj
  have hj' := congrArg (fun M : (Fin n → ℝ) →L[ℝ] ℝ => M (Pi.single (e ⟨j, hj⟩) 1)) huniq
  rw [reorder_getD τ g (by rw [h.length]; exact hj), ← he ⟨j, hj⟩]
  simpa [ContinuousLinearMap.sum_apply, Pi.single_apply, L, hinj.eq_iff] using hj'

/-- A symmetry of the function of a network is a symmetry of its gradient, with any regularisation. -/
theorem symmetric_gradient (net : BaseNet ℝ) {n c d : ℕ} (hn : 0 < n) {X T : Mat ℝ} (hX : HasShape X n c) (hT : HasShape T n d) (hne : net.layers ≠ [])
    (hl : LinesUp net.layers c d) (hA : GoodActivations net) (hb : net.criterion.kind = .bce → ∀ X w, OutputsInside net X w) {τ : List ℕ}
    (hτ : IsOrder (totalParams net.layers) τ) (hsym : ∀ w x, netRow net.layers (reorder τ w) x = netRow net.layers w x)
    (w : List ℝ) (hw : w.length = totalParams net.layers) (cost : ℝ) (g : List ℝ) (hg : net.computeGrad w X T = ok (cost, g)) :
    g.length = totalParams net.layers ∧ net.computeGrad (reorder τ w) X T = ok (cost, reorder τ g) := by
  have hrl : ∀ v : List ℝ, (reorder τ v).length = totalParams net.layers := fun v => by rw [reorder_length, hτ.length]
  have hcost : ∀ v : List ℝ, v.length = totalParams net.layers → costOfWeights net X T (reorder τ v) = costOfWeights net X T v := by
    intro v hv
    unfold costOfWeights
    have f1 := forwardProp_ok (net := withWeights net (reorder τ v)) hX hl (hrl v)
    have f2 := forwardProp_ok (net := withWeights net v) hX hl hv
    rw [f1, f2]
    have : X.rows.map (netRow (withWeights net (reorder τ v)).layers (withWeights net (reorder τ v)).weights) =
        X.rows.map (netRow (withWeights net v).layers (withWeights net v).weights) := List.map_congr_left fun x _ => hsym v x
    rw [this]
  have hscaled : ∀ v : List ℝ, v.length = totalParams net.layers → scaledCost n net X T (reorder τ v) = scaledCost n net X T v := by
    intro v hv
    unfold scaledCost
    rw [hcost v hv]
  by_cases hreg : net.criterion.reg = .none
  · obtain ⟨c1, g1, a1, a2, a3⟩ := C40_backprop net hreg hn X T hX hT hne hl hA w hw fun h => hb h X w
    obtain ⟨c2, g2, b1, b2, b3⟩ := C40_backprop net hreg hn X T hX hT hne hl hA (reorder τ w) (hrl w) fun h => hb h X _
    rw [a1] at hg
    cases hg
    rw [hcost w hw, a2] at b2
    cases b2
    rw [b1, gradient_reorder hτ hw hscaled a3 b3]
    exact ⟨a3.1.trans hw, rfl⟩
  · obtain ⟨c1, g1, R1, a1, a2, a3, a4, a5⟩ := C40_regularised net hreg hn X T hX hT hne hl hA w hw fun h => hb h X w
    obtain ⟨c2, g2, R2, b1, b2, b3, b4, b5⟩ := C40_regularised net hreg hn X T hX hT hne hl hA (reorder τ w) (hrl w) fun h => hb h X _
    rw [a5] at hg
    cases hg
    rw [hcost w hw, a1] at b1
    cases b1
    have hgr := gradient_reorder hτ hw hscaled a2 b2
    obtain ⟨φ, hφ⟩ := regGrad_column net.criterion.reg (totalParams net.layers)
    have r1 : R1 = ⟨1, w.map fun x => [φ x]⟩ := by
      have := (hφ w hw).symm.trans a3
      injection this with this
      exact this.symm
    have r2 : R2 = ⟨1, (reorder τ w).map fun x => [φ x]⟩ := by
      have := (hφ (reorder τ w) (hrl w)).symm.trans b3
      injection this with this
      exact this.symm
    have hent : ∀ (v : List ℝ) (k : ℕ), k < v.length → ent ⟨1, v.map fun x => [φ x]⟩ k 0 = φ (v.getD k 0) := by
      intro v k hk
      simp [ent, List.getD_eq_getElem?_getD, hk]
    refine ⟨by simp [hw], ?_⟩
    rw [b5]
    have hrc : regCost net.criterion.reg (column (reorder τ w)) = regCost net.criterion.reg (column w) := regCost_column net.criterion.reg hτ hw
    rw [hrc]
    congr 2
    apply ext_getD (by simp [hrl])
    intro j hj
    simp only [List.length_map, List.length_range, hrl] at hj
    have hjw : j < w.length := by omega
    have hτj : τ.getD j 0 < w.length := by
      rw [hw]
      exact hτ.lt (by rw [getD_lt 0 (by rw [hτ.length]; exact hj)]; exact List.getElem_mem _)
    have hjr : j < (reorder τ w).length := by rw [hrl]; exact hj
    rw [reorder_getD τ _ (by rw [hτ.length]; exact hj), getD_map_range _ _ _ hjr, getD_map_range _ _ _ hτj, hgr, reorder_getD τ g1 (by rw [hτ.length]; exact hj), r1, r2,
      hent _ _ hjr, hent _ _ hτj, reorder_getD τ w (by rw [hτ.length]; exact hj)]

/-! ### Training -/

/-- Training with one of the optimisers for networks: gradient descent, or a stochastic one with fixed random numbers. -/
def Spec.IsTrainer (train : ComputeGrad ℝ → List ℝ → Mat ℝ → Mat ℝ → Outcome (List ℝ)) : Prop :=
  (∃ a : GradientDesc ℝ, train = fun g s X T => (a.optimize (fun w => g w X T) s).out) ∨
  (∃ (a : StochasticGD ℝ) (r : ℕ → ℕ → ℕ), train = fun g s X T => (a.optimize g r s X T).out) ∨
  (∃ (a : AdaGrad ℝ) (r : ℕ → ℕ → ℕ), train = fun g s X T => (a.optimize g r s X T).out) ∨
  (∃ (a : RMSProp ℝ) (r : ℕ → ℕ → ℕ), train = fun g s X T => (a.optimize g r s X T).out)

theorem reorderCols_range {X : Mat ℝ} {n c : ℕ} (hX : HasShape X n c) : reorderCols (List.range c) X = X := by
  obtain ⟨k, rows⟩ := X
  obtain ⟨-, h2, h3⟩ := hX
  simp only at h2 h3
  subst h2
  simp only [reorderCols, Mat.mk.injEq, true_and]
  conv_rhs => rw [← List.map_id rows]
  refine List.map_congr_left fun r hr => ?_
  have := map_range_getD r
  rw [h3 r hr] at this
  exact this

theorem select_shape {A B : Mat ℝ} {n c i : ℕ} (hA : HasShape A n c) (h : A.selectRows [i] = ok B) : HasShape B 1 c := by
  unfold Mat.selectRows getAt at h
  simp only [List.mapM_cons, List.mapM_nil] at h
  cases hA' : A.rows[i]? with
  | none => rw [hA'] at h; cases h
  | some q =>
    rw [hA'] at h
    cases h
    refine ⟨rfl, hA.2.1, ?_⟩
    intro r hr
    simp only [List.mem_singleton] at hr
    rw [hr]
    exact hA.2.2 q (List.mem_of_getElem? hA')

/-- A symmetry of the function of a network is a symmetry of training. -/
theorem symmetric_train (net : BaseNet ℝ) {n c d : ℕ} (hn : 0 < n) {X T : Mat ℝ} (hX : HasShape X n c) (hT : HasShape T n d) (hne : net.layers ≠ [])
    (hl : LinesUp net.layers c d) (hA : GoodActivations net) (hb : net.criterion.kind = .bce → ∀ X w, OutputsInside net X w) {τ : List ℕ}
    (hτ : IsOrder (totalParams net.layers) τ) (hsym : ∀ w x, netRow net.layers (reorder τ w) x = netRow net.layers w x)
    (hw : net.weights.length = totalParams net.layers) {train : ComputeGrad ℝ → List ℝ → Mat ℝ → Mat ℝ → Outcome (List ℝ)} (ht : IsTrainer train)
    {m : BaseNet ℝ} (hm : net.train train X T = ok m) :
    m = withWeights net m.weights ∧ m.weights.length = totalParams net.layers ∧
      (withWeights net (reorder τ net.weights)).train train X T = ok (withWeights net (reorder τ m.weights)) := by
  unfold BaseNet.train at hm ⊢
  obtain ⟨v, hv, hm⟩ := bind_eq_ok.1 hm
  cases hm
  have hg : ∀ w c' d', w.length = totalParams net.layers → net.computeGrad w X T = ok (c', d') → d'.length = totalParams net.layers ∧
      net.computeGrad (reorder τ w) (reorderCols (List.range c) X) T = ok (c', reorder τ d') := by
    intro w c' d' hw' h
    rw [reorderCols_range hX]
    exact symmetric_gradient net hn hX hT hne hl hA hb hτ hsym w hw' c' d' h
  have hg1 : ∀ w i x t c' d', w.length = totalParams net.layers → X.selectRows [i] = ok x → T.selectRows [i] = ok t → net.computeGrad w x t = ok (c', d') →
      d'.length = totalParams net.layers ∧ net.computeGrad (reorder τ w) (reorderCols (List.range c) x) t = ok (c', reorder τ d') := by
    intro w i x t c' d' hw' hx ht' h
    rw [reorderCols_range (select_shape hX hx)]
    exact symmetric_gradient net one_pos (select_shape hX hx) (select_shape hT ht') hne hl hA hb hτ hsym w hw' c' d' h
  have hopt := optimisers_reorder (List.range c) hτ (X := X) (T := T) hg hg1
  rw [reorderCols_range hX] at hopt
  have key : v.length = totalParams net.layers ∧ train (withWeights net (reorder τ net.weights)).computeGrad (reorder τ net.weights) X T = ok (reorder τ v) := by
    rcases ht with ⟨a, rfl⟩ | ⟨a, r, rfl⟩ | ⟨a, r, rfl⟩ | ⟨a, r, rfl⟩
    · exact (hopt (fun _ _ => 0) net.weights v hw).1 a hv
    · exact (hopt r net.weights v hw).2.1 a hv
    · exact (hopt r net.weights v hw).2.2.1 a hv
    · exact (hopt r net.weights v hw).2.2.2 a hv
  refine ⟨rfl, key.1, ?_⟩
  show (train (withWeights net (reorder τ net.weights)).computeGrad (reorder τ net.weights) X T >>= _) = _
  rw [key.2, ok_bind]
  rfl

variable {pre post : List (NetLayer ℝ)} {k h o : ℕ} {b₁ b : Bool} {A : Activ ℝ} {crit : Criterion ℝ} {c d : ℕ}

/-- **C105 (predictions).** With the units of one hidden layer in another order a network makes the same predictions, whatever the layers
before and after and whatever the activation. -/
theorem C105_predictions {σ : List ℕ} (hσ : IsOrder h σ) (hl : LinesUp (hiddenAt pre k h b₁ A o b post) c d) {n : ℕ} {Z : Mat ℝ} (hZ : HasShape Z n c)
    (w : List ℝ) (hw : w.length = totalParams (hiddenAt pre k h b₁ A o b post)) :
    ∃ Y, (⟨hiddenAt pre k h b₁ A o b post, w, crit⟩ : BaseNet ℝ).forwardProp Z = ok Y ∧
      (⟨hiddenAt pre k h b₁ A o b post, reorder (unitOrder σ k h o b (totalParams pre) (totalParams post)) w, crit⟩ : BaseNet ℝ).forwardProp Z = ok Y := by
  have hτ := unitOrder_order hσ k o b (totalParams pre) (totalParams post)
  rw [← hiddenAt_params pre k h b₁ A o b post] at hτ
  refine ⟨_, forwardProp_ok (net := ⟨hiddenAt pre k h b₁ A o b post, w, crit⟩) hZ hl hw, ?_⟩
  rw [forwardProp_ok (net := ⟨hiddenAt pre k h b₁ A o b post, reorder (unitOrder σ k h o b (totalParams pre) (totalParams post)) w, crit⟩) hZ hl
    (by rw [reorder_length, hτ.length])]
  congr 2
  exact List.map_congr_left fun x _ => netRow_units hσ pre k b₁ A o b post w x

/-- **C105 (training).** Started with the units of one hidden layer in another order, training ends with the same network with these units in
that order, for all four optimisers, any cost function and any regularisation. -/
theorem C105_training {σ : List ℕ} (hσ : IsOrder h σ) (hl : LinesUp (hiddenAt pre k h b₁ A o b post) c d) {w : List ℝ}
    (hw : w.length = totalParams (hiddenAt pre k h b₁ A o b post)) (hA : GoodActivations ⟨hiddenAt pre k h b₁ A o b post, w, crit⟩)
    (hb : crit.kind = .bce → ∀ X v, OutputsInside ⟨hiddenAt pre k h b₁ A o b post, w, crit⟩ X v)
    {n : ℕ} (hn : 0 < n) {X T : Mat ℝ} (hX : HasShape X n c) (hT : HasShape T n d)
    {train : ComputeGrad ℝ → List ℝ → Mat ℝ → Mat ℝ → Outcome (List ℝ)} (ht : IsTrainer train)
    {m : BaseNet ℝ} (hm : (⟨hiddenAt pre k h b₁ A o b post, w, crit⟩ : BaseNet ℝ).train train X T = ok m) :
    m.layers = hiddenAt pre k h b₁ A o b post ∧ m.weights.length = w.length ∧
      (⟨hiddenAt pre k h b₁ A o b post, reorder (unitOrder σ k h o b (totalParams pre) (totalParams post)) w, crit⟩ : BaseNet ℝ).train train X T =
        ok ⟨m.layers, reorder (unitOrder σ k h o b (totalParams pre) (totalParams post)) m.weights, m.criterion⟩ := by
  have hτ := unitOrder_order hσ k o b (totalParams pre) (totalParams post)
  rw [← hiddenAt_params pre k h b₁ A o b post] at hτ
  obtain ⟨a1, a2, a3⟩ := symmetric_train ⟨hiddenAt pre k h b₁ A o b post, w, crit⟩ hn hX hT (by simp [hiddenAt]) hl hA hb hτ
    (fun v x => netRow_units hσ pre k b₁ A o b post v x) hw ht hm
  have e : m.layers = hiddenAt pre k h b₁ A o b post ∧ m.criterion = crit := by rw [a1]; exact ⟨rfl, rfl⟩
  refine ⟨e.1, a2.trans hw.symm, ?_⟩
  rw [e.1, e.2]
  exact a3

/-- Two units of the hidden layer are alike: they have the same weights in and the same weights out. -/
def Spec.Alike (pre : List (NetLayer ℝ)) (k h o : ℕ) (bias : Bool) (w : List ℝ) (p q : ℕ) : Prop :=
  (∀ i < k, w.getD (totalParams pre + (i * h + p)) 0 = w.getD (totalParams pre + (i * h + q)) 0) ∧
  ∀ e < o, w.getD (totalParams pre + (k * h + ((p + if bias then 1 else 0) * o + e))) 0 = w.getD (totalParams pre + (k * h + ((q + if bias then 1 else 0) * o + e))) 0

/-- The order in which `p` and `q` have changed places. -/
def swapOrder (h p q : ℕ) : List ℕ := (List.range h).map (Equiv.swap p q)

theorem swapOrder_order {h p q : ℕ} (hp : p < h) (hq : q < h) : IsOrder h (swapOrder h p q) := by
  have hlt : ∀ j < h, Equiv.swap p q j < h := by
    intro j hj
    rw [Equiv.swap_apply_def]
    split_ifs <;> assumption
  refine (List.perm_ext_iff_of_nodup (List.nodup_range.map (Equiv.swap p q).injective) List.nodup_range).mpr fun a => ?_
  simp only [List.mem_map, List.mem_range]
  refine ⟨?_, fun ha => ⟨Equiv.swap p q a, hlt a ha, Equiv.swap_apply_self p q a⟩⟩
  rintro ⟨j, hj, rfl⟩
  exact hlt j hj

theorem swapOrder_getD {h p q j : ℕ} (hj : j < h) : (swapOrder h p q).getD j 0 = Equiv.swap p q j := by
  simp [swapOrder, List.getD_eq_getElem?_getD, hj]

theorem firstSwap_getD {h p q : ℕ} {j : ℕ} (hj : j < h + if b then 1 else 0) : (firstOrder b (swapOrder h p q)).getD j 0 =
    if b then (match j with | 0 => 0 | j + 1 => Equiv.swap p q j + 1) else Equiv.swap p q j := by
  cases b with
  | false =>
    simp only [Bool.false_eq_true, if_false, Nat.add_zero] at hj
    simp only [firstOrder, Bool.false_eq_true, if_false]
    exact swapOrder_getD hj
  | true =>
    simp only [if_true] at hj
    simp only [firstOrder, if_true]
    cases j with
    | zero => simp [withFirst]
    | succ j =>
      have : j < h := by omega
      simp [withFirst, swapOrder, List.getD_eq_getElem?_getD, this]

/-- Alike means that changing places changes nothing. -/
theorem alike_iff {w : List ℝ} {p q : ℕ} (hp : p < h) (hq : q < h) (hw : w.length = totalParams (hiddenAt pre k h b₁ A o b post)) :
    Alike pre k h o b w p q ↔ reorder (unitOrder (swapOrder h p q) k h o b (totalParams pre) (totalParams post)) w = w := by
  have hσ := swapOrder_order hp hq
  set s := totalParams pre with hs
  set r := totalParams post with hr
  have hτl := (unitOrder_order hσ k o b s r).length
  have hwl : w.length = s + (k * h + ((h + if b then 1 else 0) * o + r)) := by rw [hw, hiddenAt_params]
  have hk' : ∀ {i j : ℕ}, i < k → j < h → i * h + j < k * h := by
    intro i j hi hj
    calc i * h + j < i * h + h := by omega
      _ = (i + 1) * h := by ring
      _ ≤ k * h := Nat.mul_le_mul_right h hi
  have ho' : ∀ {i e : ℕ}, i < (h + if b then 1 else 0) → e < o → i * o + e < (h + if b then 1 else 0) * o := by
    intro i e hi he
    calc i * o + e < i * o + o := by omega
      _ = (i + 1) * o := by ring
      _ ≤ _ := Nat.mul_le_mul_right o hi
  have hin : ∀ i < k, ∀ j < h, (reorder (unitOrder (swapOrder h p q) k h o b s r) w).getD (s + (i * h + j)) 0 = w.getD (s + (i * h + Equiv.swap p q j)) 0 := by
    intro i hi j hj
    have := hk' hi hj
    rw [reorder_getD _ _ (by omega), unit_in hσ k o b s r hi hj, swapOrder_getD hj]
  have hout : ∀ j < h, ∀ e < o, (reorder (unitOrder (swapOrder h p q) k h o b s r) w).getD (s + (k * h + ((j + if b then 1 else 0) * o + e))) 0 =
      w.getD (s + (k * h + ((Equiv.swap p q j + if b then 1 else 0) * o + e))) 0 := by
    intro j hj e he
    have hj' : (j + if b then 1 else 0) < h + if b then 1 else 0 := by omega
    have := ho' hj' he
    rw [reorder_getD _ _ (by omega), unit_out hσ k o b s r hj' he, firstSwap_getD hj']
    cases b <;> rfl
  constructor
  · rintro ⟨h1, h2⟩
    apply ext_getD (by rw [reorder_length, hτl, hwl])
    intro t ht
    rw [reorder_length, hτl] at ht
    by_cases c1 : t < s
    · rw [reorder_getD _ _ (by omega), unit_before hσ k o b s r c1]
    by_cases c2 : t < s + k * h
    · have hh : 0 < h := by omega
      have e1 : t = s + ((t - s) / h * h + (t - s) % h) := by
        have := Nat.div_add_mod' (t - s) h
        omega
      have hi : (t - s) / h < k := Nat.div_lt_of_lt_mul (by rw [mul_comm]; omega)
      have hj := Nat.mod_lt (t - s) hh
      generalize (t - s) / h = i at *
      generalize (t - s) % h = j at *
      subst e1
      rw [hin i hi j hj]
      rcases eq_or_ne j p with rfl | jp
      · rw [Equiv.swap_apply_left, h1 i hi]
      rcases eq_or_ne j q with rfl | jq
      · rw [Equiv.swap_apply_right, h1 i hi]
      · rw [Equiv.swap_apply_of_ne_of_ne jp jq]
    by_cases c3 : t < s + (k * h + (h + if b then 1 else 0) * o)
    · have hlt : t - s - k * h < (h + if b then 1 else 0) * o := by omega
      have hoo : 0 < o := by
        rcases Nat.eq_zero_or_pos o with h0 | h0
        · rw [h0, mul_zero] at hlt
          omega
        · exact h0
      have e1 : t = s + (k * h + ((t - s - k * h) / o * o + (t - s - k * h) % o)) := by
        have := Nat.div_add_mod' (t - s - k * h) o
        omega
      have hi : (t - s - k * h) / o < h + if b then 1 else 0 := Nat.div_lt_of_lt_mul (lt_of_lt_of_eq hlt (mul_comm _ _))
      have he := Nat.mod_lt (t - s - k * h) hoo
      generalize (t - s - k * h) / o = i at *
      generalize (t - s - k * h) % o = e at *
      subst e1
      have main : ∀ j < h, i = j + (if b then 1 else 0) → (reorder (unitOrder (swapOrder h p q) k h o b s r) w).getD (s + (k * h + (i * o + e))) 0 =
          w.getD (s + (k * h + (i * o + e))) 0 := by
        rintro j hj rfl
        rw [hout j hj e he]
        rcases eq_or_ne j p with rfl | jp
        · rw [Equiv.swap_apply_left, h2 e he]
        rcases eq_or_ne j q with rfl | jq
        · rw [Equiv.swap_apply_right, h2 e he]
        · rw [Equiv.swap_apply_of_ne_of_ne jp jq]
      cases hbb : b with
      | false =>
        rw [hbb] at main hi
        exact main i (by simpa using hi) (by simp)
      | true =>
        rw [hbb] at main hi
        cases i with
        | zero =>
          rw [reorder_getD _ _ (by rw [hbb] at hτl ht; omega), unit_out hσ k o true s r hi he, firstSwap_getD hi]
          rfl
        | succ i => exact main i (by simpa using hi) (by simp)
    · obtain ⟨u, hu⟩ : ∃ u, t = s + (k * h + ((h + if b then 1 else 0) * o + u)) := ⟨t - (s + (k * h + (h + if b then 1 else 0) * o)), by omega⟩
      rw [reorder_getD _ _ (by omega), hu, unit_after hσ k o b s r (by omega)]
  · intro he
    refine ⟨fun i hi => ?_, fun e he' => ?_⟩
    · have := hin i hi p hp
      rwa [he, Equiv.swap_apply_left] at this
    · have := hout p hp e he'
      rwa [he, Equiv.swap_apply_left] at this

/-- **C105 (alike).** Units of a hidden layer that start alike are alike after training, with all four optimisers, any cost function and
any regularisation: training never tells them apart. -/
theorem C105_alike {p q : ℕ} (hp : p < h) (hq : q < h) (hl : LinesUp (hiddenAt pre k h b₁ A o b post) c d) {w : List ℝ}
    (hw : w.length = totalParams (hiddenAt pre k h b₁ A o b post)) (hA : GoodActivations ⟨hiddenAt pre k h b₁ A o b post, w, crit⟩)
    (hb : crit.kind = .bce → ∀ X v, OutputsInside ⟨hiddenAt pre k h b₁ A o b post, w, crit⟩ X v)
    {n : ℕ} (hn : 0 < n) {X T : Mat ℝ} (hX : HasShape X n c) (hT : HasShape T n d)
    {train : ComputeGrad ℝ → List ℝ → Mat ℝ → Mat ℝ → Outcome (List ℝ)} (ht : IsTrainer train)
    {m : BaseNet ℝ} (hm : (⟨hiddenAt pre k h b₁ A o b post, w, crit⟩ : BaseNet ℝ).train train X T = ok m)
    (halike : Alike pre k h o b w p q) : Alike pre k h o b m.weights p q := by
  obtain ⟨a1, a2, a3⟩ := C105_training (swapOrder_order hp hq) hl hw hA hb hn hX hT ht hm
  rw [(alike_iff hp hq hw).mp halike, hm] at a3
  injection a3 with a3
  have := congrArg BaseNet.weights a3
  exact (alike_iff (post := post) (b₁ := b₁) (A := A) hp hq (a2.trans hw)).mpr this.symm

/-- **C105 (one unit).** When all units of the hidden layer are alike, as they are for ever after a start from equal weights, the network
computes a function of one single linear combination of the features, as if it had one hidden unit. -/
theorem C105_one_unit {f h o : ℕ} (A : Activ ℝ) (w : List ℝ) (halike : ∀ p < h, Alike [] (f + 1) h o true w 0 p) :
    ∃ u β γ : List ℝ, u.length = f + 1 ∧ β.length = o ∧ γ.length = o ∧ ∀ x : List ℝ, x.length = f →
      netRow [.new f h, .activ A, .new h o] w x = (List.range o).map fun e => β.getD e 0 + γ.getD e 0 * A.func (dot (1 :: x) u) := by
  refine ⟨(List.range (f + 1)).map fun i => w.getD (i * h) 0, (List.range o).map fun e => w.getD ((f + 1) * h + e) 0,
    (List.range o).map fun e => h * w.getD ((f + 1) * h + (o + e)) 0, by simp, by simp, by simp, fun x hx => ?_⟩
  have h1 : ∀ j < h, ((List.range (f + 1)).map fun i => w.getD (i * h + j) Scalar.zero) = (List.range (f + 1)).map fun i => w.getD (i * h) 0 := by
    intro j hj
    refine List.map_congr_left fun i hi => ?_
    have := (halike j hj).1 i (List.mem_range.mp hi)
    simpa [totalParams] using this.symm
  have hid : ((List.range h).map fun j => dot (Scalar.one :: x) ((List.range (f + 1)).map fun i => w.getD (i * h + j) Scalar.zero)).map A.func =
      List.replicate h (A.func (dot (1 :: x) ((List.range (f + 1)).map fun i => w.getD (i * h) 0))) := by
    rw [List.eq_replicate_iff]
    refine ⟨by simp, ?_⟩
    intro y hy
    simp only [List.map_map, List.mem_map, List.mem_range, Function.comp] at hy
    obtain ⟨j, hj, rfl⟩ := hy
    rw [h1 j hj]
    rfl
  simp only [NetLayer.new, netRow, if_true]
  rw [hid]
  generalize A.func (dot (1 :: x) ((List.range (f + 1)).map fun i => w.getD (i * h) 0)) = a
  refine List.map_congr_left fun e he => ?_
  have he := List.mem_range.mp he
  rw [getD_map_range _ _ _ he, getD_map_range _ _ _ he, dot_eq_range (n := h + 1) (by simp) (by simp), Finset.sum_range_succ']
  have hterm : ∀ j ∈ Finset.range h, (Scalar.one :: List.replicate h a).getD (j + 1) 0 *
      ((List.range (h + 1)).map fun i => (w.drop ((f + 1) * h)).getD (i * o + e) Scalar.zero).getD (j + 1) 0 = a * w.getD ((f + 1) * h + (o + e)) 0 := by
    intro j hj
    have hj := Finset.mem_range.mp hj
    have := (halike j hj).2 e he
    simp only [totalParams, List.map_nil, List.sum_nil, if_true, zero_add, one_mul] at this
    rw [getD_map_range _ _ _ (by omega), this]
    simp [List.getD_eq_getElem?_getD, hj]
  rw [Finset.sum_congr rfl hterm, Finset.sum_const, Finset.card_range, getD_map_range _ _ _ (by omega)]
  simp only [List.getD_cons_zero, nsmul_eq_mul]
  have : (w.drop ((f + 1) * h)).getD (0 * o + e) Scalar.zero = w.getD ((f + 1) * h + e) 0 := by
    simp [List.getD_eq_getElem?_getD]
  rw [this]
  show (h : ℝ) * (a * _) + (1 : ℝ) * _ = _
  ring

/-- Two inputs, two hidden units, one output; all weights start at 0. -/
noncomputable def zeroStart : BaseNet ℝ := ⟨hiddenAt [] 3 2 true sigmoid 1 true [.activ sigmoid], [0, 0, 0, 0, 0, 0, 0, 0, 0], ⟨.bce, .none⟩⟩

theorem zeroStart_lines : LinesUp zeroStart.layers 2 1 := .linear true rfl (.activ _ (.linear true rfl (.activ _ (.nil _))))

theorem zeroStart_activations : GoodActivations zeroStart := C40_activations _ fun A hA => by
  simp only [zeroStart, hiddenAt, List.nil_append, List.mem_cons, NetLayer.activ.injEq, reduceCtorEq, false_or, List.not_mem_nil, or_false] at hA
  exact Or.inl (by rcases hA with h | h <;> exact h)

/-- A network that starts with all weights 0 is trained with stochastic gradient descent on the exclusive or: training succeeds, and its two
units are still alike after any number of epochs. -/
example (r : ℕ → ℕ → ℕ) (o : StochasticGD ℝ) :
    ∃ m, zeroStart.train (fun g s X T => (o.optimize g r s X T).out) ⟨2, [[0, 0], [0, 1], [1, 0], [1, 1]]⟩ ⟨1, [[0], [1], [1], [0]]⟩ = ok m ∧
      Alike [] 3 2 1 true m.weights 0 1 := by
  have hb : ∀ X v, OutputsInside zeroStart X v := fun X v => C40_sigmoid_outputs _ [.linear 3 2 true, .activ sigmoid, .linear 3 1 true] rfl X v
  have hw : ([0, 0, 0, 0, 0, 0, 0, 0, 0] : List ℝ).length = totalParams zeroStart.layers := by simp [zeroStart, hiddenAt, totalParams]
  have hX : HasShape (⟨2, [[0, 0], [0, 1], [1, 0], [1, 1]]⟩ : Mat ℝ) 4 2 := ⟨rfl, rfl, by simp⟩
  have hT : HasShape (⟨1, [[0], [1], [1], [0]]⟩ : Mat ℝ) 4 1 := ⟨rfl, rfl, by simp⟩
  obtain ⟨f, df, -, h2, -⟩ := C40_training zeroStart hw rfl (by simp [zeroStart, hiddenAt]) zeroStart_lines zeroStart_activations (fun _ => hb) _ _ rfl rfl
    hX.2.2 hT.2.2 le_rfl r
  obtain ⟨w, run, hm, -⟩ := h2 o
  refine ⟨_, hm, ?_⟩
  refine C105_alike (pre := []) (h := 2) (post := [.activ sigmoid]) (by omega) (by omega) zeroStart_lines hw zeroStart_activations (fun _ => hb) (by omega) hX hT
    (Or.inr (Or.inl ⟨o, r, rfl⟩)) hm ?_
  constructor <;> intro i hi <;> interval_cases i <;> simp [totalParams]

end RM
