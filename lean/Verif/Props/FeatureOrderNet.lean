import Verif.Props.FeatureOrderFit
import Verif.Proofs.BackpropNet
import Verif.Proofs.KMeans

/-!
C97 for neural networks whose first layer is a linear one: with the features in another order, and the rows of the first layer's
weights in the same order, the network makes the same predictions and is trained to the same weights in that order.
-/

set_option linter.unusedSectionVars false

namespace RM
open Outcome Scalar Spec

/-- The order of the rows of the first layer's weights that goes with the order `σ` of the features: the row of the bias stays first. -/
def Spec.firstOrder (bias : Bool) (σ : List ℕ) : List ℕ := if bias then withFirst σ else σ

/-- The order of all the `n` weights in which the rows (of `o` weights each) of the first layer come in the order `ρ` and all other
weights stay where they are. -/
def Spec.weightOrder (ρ : List ℕ) (o n : ℕ) : List ℕ :=
  (ρ.flatMap fun i => (List.range o).map (i * o + ·)) ++ (List.range (n - ρ.length * o)).map (ρ.length * o + ·)

theorem flatMap_range_mul (o : ℕ) : ∀ k : ℕ, ((List.range k).flatMap fun i => (List.range o).map (i * o + ·)) = List.range (k * o)
  | 0 => by simp
  | k + 1 => by
    rw [List.range_succ, List.flatMap_append, flatMap_range_mul o k, Nat.succ_mul, List.range_add]
    simp

theorem weightOrder_order {k : ℕ} {ρ : List ℕ} (h : IsOrder k ρ) {o n : ℕ} (hn : k * o ≤ n) : IsOrder n (weightOrder ρ o n) := by
  unfold IsOrder weightOrder
  rw [h.length]
  have e : List.range n = List.range (k * o) ++ (List.range (n - k * o)).map (k * o + ·) := by
    rw [← List.range_add]
    congr 1
    omega
  rw [e, ← flatMap_range_mul]
  exact List.Perm.append (List.Perm.flatMap_right _ h) (List.Perm.refl _)

theorem map_drop_getD (a v : List ℝ) : ((List.range v.length).map fun j => (a ++ v).getD (a.length + j) 0) = v := by
  apply List.ext_getElem (by simp)
  intro i h1 h2
  rw [List.getElem_map, List.getElem_range, getD_lt 0 (by simp; omega), List.getElem_append_right (by omega)]
  congr 1
  omega

/-- The weights in the new order: the first layer's matrix with its rows in the order `ρ`, and the rest as it was. -/
theorem reorder_weights {k o : ℕ} {ρ : List ℕ} (h : IsOrder k ρ) {G : Mat ℝ} (hG : HasShape G k o) (v : List ℝ) :
    reorder (weightOrder ρ o (k * o + v.length)) (G.data ++ v) = (reorderRows ρ G).data ++ v := by
  have hl := data_length hG
  unfold reorder weightOrder
  rw [List.map_append, h.length, Nat.add_sub_cancel_left]
  congr 1
  · rw [List.map_flatMap]
    show _ = (ρ.map fun i => G.rows.getD i []).flatten
    rw [List.flatMap_def]
    congr 1
    apply List.map_congr_left
    intro i hi
    have hi' := h.lt hi
    have hr : (G.rows.getD i []).length = o := by
      rw [getD_lt [] (by rw [hG.1]; exact hi')]
      exact hG.2.2 _ (List.getElem_mem _)
    rw [List.map_map]
    conv_rhs => rw [← map_range_getD (G.rows.getD i []), hr]
    apply List.map_congr_left
    intro j hj
    have hj' := List.mem_range.1 hj
    have hlt : i * o + j < G.data.length := by
      rw [hl]
      calc i * o + j < i * o + o := by omega
        _ = (i + 1) * o := by rw [Nat.succ_mul]
        _ ≤ k * o := Nat.mul_le_mul_right _ hi'
    show (G.data ++ v).getD (i * o + j) 0 = _
    rw [getD_lt 0 (by rw [List.length_append]; omega), List.getElem_append_left hlt, ← getD_lt 0 hlt]
    exact data_ent hG hi' hj'
  · rw [List.map_map, ← hl]
    exact map_drop_getD _ _

theorem slice_ok_shape {w : List ℝ} {S : Mat ℝ} {k o i : ℕ} (h : sliceAt w i (k, o) = ok S) : HasShape S k o ∧ i + k * o ≤ w.length ∧ S.data = (w.drop i).take (k * o) := by
  unfold sliceAt at h
  split at h
  · rename_i hc
    cases h
    exact ⟨⟨chunk_length _ _ _, rfl, chunk_row_length _ _ _ (by have hc' : i + k * o ≤ w.length := hc; simp only [List.length_drop]; omega)⟩, hc, chunk_flatten_take _ _ _⟩
  · cases h

/-- The slice of the first layer in the weights in the new order. -/
theorem slice_first {k o : ℕ} {ρ : List ℕ} (h : IsOrder k ρ) {w : List ℝ} {S : Mat ℝ} (hS : sliceAt w 0 (k, o) = ok S) :
    sliceAt (reorder (weightOrder ρ o w.length) w) 0 (k, o) = ok (reorderRows ρ S) ∧
      (reorder (weightOrder ρ o w.length) w).drop (k * o) = w.drop (k * o) := by
  obtain ⟨hsh, hle, hd⟩ := slice_ok_shape hS
  rw [Nat.zero_add] at hle
  rw [List.drop_zero] at hd
  have hw : w = S.data ++ w.drop (k * o) := by rw [hd, List.take_append_drop]
  have hn : w.length = k * o + (w.drop (k * o)).length := by rw [List.length_drop]; omega
  have e : reorder (weightOrder ρ o w.length) w = (reorderRows ρ S).data ++ w.drop (k * o) := by
    have := reorder_weights h hsh (w.drop (k * o))
    rwa [← hn, ← hw] at this
  have hR := reorderRows_shape h hsh
  have hRl := data_length hR
  refine ⟨?_, ?_⟩
  · unfold sliceAt
    rw [if_pos (by rw [e, List.length_append, hRl]; simp)]
    congr 1
    show (⟨o, chunk o k ((reorder _ w).drop 0)⟩ : Mat ℝ) = _
    rw [List.drop_zero, e]
    have e2 : chunk o k ((reorderRows ρ S).data ++ w.drop (k * o)) = (reorderRows ρ S).rows := by
      have key : ∀ (R : List (List ℝ)) (v : List ℝ), (∀ r ∈ R, r.length = o) → chunk o R.length (R.flatten ++ v) = R := by
        intro R v hR
        induction R with
        | nil => rfl
        | cons r R ih =>
          have hr := hR r (by simp)
          rw [List.length_cons, chunk, List.flatten_cons, List.append_assoc, ← hr, List.take_left, List.drop_left, hr, ih fun q hq => hR q (by simp [hq])]
      have := key (reorderRows ρ S).rows (w.drop (k * o)) hR.2.2
      rwa [hR.1] at this
    rw [e2]
    show (⟨o, _⟩ : Mat ℝ) = ⟨S.cols, _⟩
    rw [hsh.2.1]
    rfl
  · rw [e, ← hRl, List.drop_left]

/-! ### Forwards -/

theorem forward_first {c : ℕ} {σ : List ℕ} (h : IsOrder c σ) (b : Bool) {k o : ℕ} (hk : k = c + if b then 1 else 0) {X S : Mat ℝ} (hX : X.WF) (hc : X.cols = c)
    (hS : HasShape S k o) : (NetLayer.linear k o b).forward (reorderCols σ X) (reorderRows (firstOrder b σ) S) = (NetLayer.linear k o b).forward X S := by
  cases b with
  | true =>
    simp only [if_true] at hk
    subst hk
    unfold NetLayer.forward
    simp only [if_true]
    rw [if_neg (by rw [reorderRows_length, firstOrder, if_pos rfl, (withFirst_order h).length]; simp [reorderCols, hc]), if_neg (by rw [hS.1, hc]; simp)]
    show (withOnes (reorderCols σ X) >>= fun x => x.mul _) = (withOnes X >>= fun x => x.mul S)
    rw [full_reorder, withOnes_ok, ok_map, ok_bind, ok_bind]
    have hsh := withOnes_shape hX
    rw [hc] at hsh
    have := mul_reorder_both (withFirst_order h) hsh hS
    rw [hc]
    exact this
  | false =>
    simp only [Bool.false_eq_true, if_false, Nat.add_zero] at hk
    subst hk
    unfold NetLayer.forward
    simp only [Bool.false_eq_true, if_false]
    rw [if_neg (by rw [reorderRows_length, firstOrder, if_neg (by simp), h.length]; simp [reorderCols, hc]), if_neg (by rw [hS.1, hc]; simp)]
    exact mul_reorder_both h ⟨rfl, hc, fun r hr => by rw [hX r hr, hc]⟩ hS

theorem sliceAt_drop {w w' : List ℝ} (hl : w'.length = w.length) {m : ℕ} (hd : w'.drop m = w.drop m) {i : ℕ} (hi : m ≤ i) (s : ℕ × ℕ) : sliceAt w' i s = sliceAt w i s := by
  unfold sliceAt
  have : w'.drop i = w.drop i := by
    rw [show i = m + (i - m) by omega, ← List.drop_drop, ← List.drop_drop, hd]
  rw [hl, this]

/-- The layers after the first do not see the inputs or the first layer's weights. -/
theorem netForward_rest {w w' : List ℝ} (hl : w'.length = w.length) {m : ℕ} (hd : w'.drop m = w.drop m) (X X' : Mat ℝ) :
    ∀ (ls : List (NetLayer ℝ)) (index : ℕ) (acts ps ps' : List (Mat ℝ)) (r : ℕ × List (Mat ℝ) × List (Mat ℝ)), m ≤ index → acts ≠ [] →
      netForward w X ls index acts ps = ok r → ∃ qs, r.2.2 = ps ++ qs ∧ r.1 = index + totalParams ls ∧ netForward w' X' ls index acts ps' = ok (r.1, r.2.1, ps' ++ qs)
  | [], index, acts, ps, ps', r, hi, ha, hr => by
    cases hr
    exact ⟨[], by simp, rfl, by simp [netForward]⟩
  | l :: ls, index, acts, ps, ps', r, hi, ha, hr => by
    rw [netForward] at hr
    obtain ⟨S, hS, hr⟩ := bind_eq_ok.1 hr
    obtain ⟨O, hO, hr⟩ := bind_eq_ok.1 hr
    obtain ⟨qs, h1, h2, h3⟩ := netForward_rest hl hd X X' ls (index + l.numParams) (acts ++ [O]) (ps ++ [S]) (ps' ++ [S]) r (by omega) (by simp) hr
    refine ⟨S :: qs, by rw [h1]; simp, by rw [h2, totalParams_cons]; omega, ?_⟩
    rw [netForward, sliceAt_drop hl hd hi, hS, ok_bind]
    have e : acts.getLast?.getD X' = acts.getLast?.getD X := by
      cases hg : acts.getLast? with
      | none => exact absurd (List.getLast?_eq_none_iff.1 hg) ha
      | some a => rfl
    rw [e, hO, ok_bind, h3]
    simp

theorem forwardRest_drop {w w' : List ℝ} (hl : w'.length = w.length) {m : ℕ} (hd : w'.drop m = w.drop m) :
    ∀ (ls : List (NetLayer ℝ)) (index : ℕ) (A : Mat ℝ), m ≤ index → forwardRest w' ls index A = forwardRest w ls index A
  | [], _, _, _ => rfl
  | l :: ls, index, A, hi => by
    rw [forwardRest, forwardRest, sliceAt_drop hl hd hi]
    congr 1
    funext S
    cases l.forward A S with
    | ok B => exact forwardRest_drop hl hd ls _ B (by omega)
    | err _ => rfl
    | panic => rfl
    | ub => rfl

/-! ### Backwards -/

theorem backParams_first {c : ℕ} {σ : List ℕ} (h : IsOrder c σ) (b : Bool) {k o : ℕ} (hk : k = c + if b then 1 else 0) {X : Mat ℝ} (hX : X.WF) (hc : X.cols = c) (og : Mat ℝ) :
    (NetLayer.linear k o b).backParams og (reorderCols σ X) = reorderRows (firstOrder b σ) <$> (NetLayer.linear k o b).backParams og X ∧
      ∀ P, (NetLayer.linear k o b).backParams og X = ok P → HasShape P k og.cols := by
  cases b with
  | true =>
    simp only [if_true] at hk
    subst hk
    have key : ∀ Y : Mat ℝ, (NetLayer.linear (c + 1) o true).backParams og Y = withOnes Y >>= fun x => x.transpose.mul og := fun _ => rfl
    have hw := full_wf hX
    have ht : (⟨X.cols + 1, X.rows.map ((1 : ℝ) :: ·)⟩ : Mat ℝ).transpose.rows.length = c + 1 := by simp [Mat.transpose, transposeRows, hc]
    rw [key, key, full_reorder, withOnes_ok, ok_map, ok_bind, ok_bind, transpose_reorderCols (withFirst_order h) hw (by simp [hc]),
      mul_reorderRows (withFirst_order h) ht]
    refine ⟨rfl, ?_⟩
    intro P hP
    unfold Mat.mul at hP
    split at hP
    · cases hP
      refine ⟨by simpa using ht, rfl, ?_⟩
      intro r hr
      obtain ⟨q, _, rfl⟩ := List.mem_map.1 hr
      simp
    · cases hP
  | false =>
    simp only [Bool.false_eq_true, if_false, Nat.add_zero] at hk
    subst hk
    have key : ∀ Y : Mat ℝ, (NetLayer.linear k o false).backParams og Y = Y.transpose.mul og := fun _ => rfl
    have ht : X.transpose.rows.length = k := by simp [Mat.transpose, transposeRows, hc]
    rw [key, key, transpose_reorderCols h hX hc, mul_reorderRows h ht]
    refine ⟨rfl, ?_⟩
    intro P hP
    unfold Mat.mul at hP
    split at hP
    · cases hP
      refine ⟨by simpa using ht, rfl, ?_⟩
      intro r hr
      obtain ⟨q, _, rfl⟩ := List.mem_map.1 hr
      simp
    · cases hP

theorem mul_shape_ok {A B C : Mat ℝ} (h : A.mul B = ok C) : A.cols = B.rows.length ∧ HasShape C A.rows.length B.cols := by
  unfold Mat.mul at h
  split at h
  · rename_i hc
    cases h
    refine ⟨hc, by simp, rfl, ?_⟩
    intro r hr
    obtain ⟨q, _, rfl⟩ := List.mem_map.1 hr
    simp
  · cases h

theorem backInput_first {k o : ℕ} {b : Bool} (hk : b = true → 0 < k) {ρ : List ℕ} (h : IsOrder k ρ) {S og out R : Mat ℝ} (hS : HasShape S k o)
    (hR : (NetLayer.linear k o b).backInput og out S = ok R) : og.cols = o ∧ ∃ R', (NetLayer.linear k o b).backInput og out (reorderRows ρ S) = ok R' := by
  have key : ∀ S' : Mat ℝ, (NetLayer.linear k o b).backInput og out S' = og.mul S'.transpose >>= fun g => if b then removeFirstCol g else ok g := fun _ => rfl
  rw [key] at hR
  obtain ⟨g, hg, _⟩ := bind_eq_ok.1 hR
  obtain ⟨h1, _⟩ := mul_shape_ok hg
  have ho : og.cols = o := by rw [h1]; simp [Mat.transpose, transposeRows, hS.2.1]
  refine ⟨ho, ?_⟩
  rw [key]
  have hR' := reorderRows_shape h hS
  have hm : ∃ g', og.mul (reorderRows ρ S).transpose = ok g' := by
    unfold Mat.mul
    rw [if_pos (by rw [ho]; simp [Mat.transpose, transposeRows, hR'.2.1])]
    exact ⟨_, rfl⟩
  obtain ⟨g', hg'⟩ := hm
  rw [hg', ok_bind]
  cases b with
  | false => exact ⟨_, rfl⟩
  | true =>
    have hsh := (mul_shape_ok hg').2
    obtain ⟨k', rfl⟩ : ∃ k', k = k' + 1 := ⟨k - 1, by have := hk rfl; omega⟩
    have hcols : (reorderRows ρ S).transpose.cols = k' + 1 := by simp [Mat.transpose, reorderRows_length, h.length]
    rw [hcols] at hsh
    obtain ⟨M', hM', _⟩ := removeFirstCol_ent hsh
    exact ⟨M', hM'⟩

theorem netBackward_first {c : ℕ} {σ : List ℕ} (h : IsOrder c σ) (b : Bool) {k o : ℕ} (hk : k = c + if b then 1 else 0) {X : Mat ℝ} (hX : X.WF) (hc : X.cols = c)
    (acts qs : List (Mat ℝ)) {S : Mat ℝ} (hS : HasShape S k o) :
    ∀ (L : List (NetLayer ℝ × ℕ)) (index : ℕ) (og : Mat ℝ) (g G : List (Option ℝ)), (∀ p ∈ L, 1 ≤ p.2) → index = k * o + (L.map fun p => p.1.numParams).sum →
      netBackward X acts (S :: qs) (L ++ [(NetLayer.linear k o b, 0)]) index og g = ok G →
      ∃ (P : Mat ℝ) (v : List (Option ℝ)), HasShape P k o ∧ G = P.data.map some ++ v ∧ G.length = g.length ∧
        netBackward (reorderCols σ X) acts (reorderRows (firstOrder b σ) S :: qs) (L ++ [(NetLayer.linear k o b, 0)]) index og g =
          ok ((reorderRows (firstOrder b σ) P).data.map some ++ v)
  | [], index, og, g, G, _, hi, hG => by
    have hρ : IsOrder k (firstOrder b σ) := by
      cases b with
      | true => simp only [if_true] at hk; subst hk; exact withFirst_order h
      | false => simp only [Bool.false_eq_true, if_false, Nat.add_zero] at hk; subst hk; exact h
    have hidx : index = k * o := by simpa using hi
    rw [List.nil_append, netBackward] at hG
    obtain ⟨A, hA, hG⟩ := bind_eq_ok.1 hG
    obtain ⟨O, hO, hG⟩ := bind_eq_ok.1 hG
    obtain ⟨p, hp, hG⟩ := bind_eq_ok.1 hG
    obtain ⟨P, hP, hG⟩ := bind_eq_ok.1 hG
    obtain ⟨g1, hg1, hG⟩ := bind_eq_ok.1 hG
    obtain ⟨R, hR, hG⟩ := bind_eq_ok.1 hG
    cases hG
    cases hA
    cases hp
    obtain ⟨ho, R', hR'⟩ := backInput_first (fun hb => by rw [hb] at hk; simp at hk; omega) hρ hS hR
    obtain ⟨e1, e2⟩ := backParams_first h b hk hX hc (o := o) og
    have hPs := e2 P hP
    rw [ho] at hPs
    have hnp : (NetLayer.linear k o b : NetLayer ℝ).numParams = k * o := rfl
    rw [hnp, hidx, Nat.sub_self] at hg1
    unfold copyInto at hg1
    split at hg1
    · rename_i hcond
      cases hg1
      refine ⟨P, g.drop (k * o), hPs, by simp, by simp [data_length hPs]; omega, ?_⟩
      rw [List.nil_append, netBackward]
      show (_ >>= _) = _
      rw [show layerInput (reorderCols σ X) acts 0 = ok (reorderCols σ X) from rfl, ok_bind, hO, ok_bind,
        show getAt (reorderRows (firstOrder b σ) S :: qs) 0 = ok (reorderRows (firstOrder b σ) S) from rfl, ok_bind, e1, hP, ok_map, ok_bind, hnp, hidx, Nat.sub_self]
      unfold copyInto
      rw [if_pos ⟨hcond.1, data_length (reorderRows_shape hρ hPs)⟩, ok_bind, hR', ok_bind]
      simp [netBackward]
    · cases hg1
  | (l, i) :: L, index, og, g, G, hL, hi, hG => by
    rw [List.cons_append, netBackward] at hG
    obtain ⟨A, hA, hG⟩ := bind_eq_ok.1 hG
    obtain ⟨O, hO, hG⟩ := bind_eq_ok.1 hG
    obtain ⟨p, hp, hG⟩ := bind_eq_ok.1 hG
    obtain ⟨P, hP, hG⟩ := bind_eq_ok.1 hG
    obtain ⟨g1, hg1, hG⟩ := bind_eq_ok.1 hG
    obtain ⟨R, hR, hG⟩ := bind_eq_ok.1 hG
    have hi1 : 1 ≤ i := hL (l, i) (by simp)
    simp only [List.map_cons, List.sum_cons] at hi
    obtain ⟨P', v, q1, q2, q3, q4⟩ := netBackward_first h b hk hX hc acts qs hS L (index - l.numParams) R g1 G (fun p hp => hL p (by simp [hp])) (by omega) hG
    have hlen : g1.length = g.length := by
      unfold copyInto at hg1
      split at hg1
      · rename_i hcond
        cases hg1
        simp
        omega
      · cases hg1
    refine ⟨P', v, q1, q2, by rw [q3, hlen], ?_⟩
    rw [List.cons_append, netBackward]
    have eA : layerInput (reorderCols σ X) acts i = ok A := by
      unfold layerInput at hA ⊢
      rw [if_neg (by omega)] at hA ⊢
      exact hA
    have ep : getAt (reorderRows (firstOrder b σ) S :: qs) i = ok p := by
      obtain ⟨i', rfl⟩ : ∃ i', i = i' + 1 := ⟨i - 1, by omega⟩
      exact hp
    rw [eA, ok_bind, hO, ok_bind, ep, ok_bind, hP, ok_bind, hg1, ok_bind, hR, ok_bind]
    exact q4

theorem allInit_ok : ∀ (l : List (Option ℝ)) (r : List ℝ), allInit l = ok r → l = r.map some
  | [], r, h => by cases h; rfl
  | none :: _, r, h => by cases h
  | some x :: xs, r, h => by
    rw [allInit] at h
    obtain ⟨q, hq, h⟩ := bind_eq_ok.1 h
    cases h
    rw [allInit_ok xs q hq]
    rfl

/-! ### Regularisation -/

theorem singles_flatten (w : List ℝ) : (w.map fun x => [x]).flatten = w := by
  induction w with
  | nil => rfl
  | cons a w ih => simp [ih]

theorem regGrad_column (reg : Reg ℝ) (n : ℕ) : ∃ φ : ℝ → ℝ, ∀ w : List ℝ, w.length = n → regGrad reg ⟨1, w.map fun x => [x]⟩ = ok ⟨1, w.map fun x => [φ x]⟩ := by
  have e1 : ∀ (x : ℝ) (w : List ℝ), w.length = n → l1Grad (⟨1, w.map fun x => [x]⟩ : Mat ℝ) x =
      ⟨1, w.map fun y => [if Scalar.signNeg y then Scalar.neg x /. ((Scalar.one +. Scalar.one) *. Scalar.ofNat n) else x /. ((Scalar.one +. Scalar.one) *. Scalar.ofNat n)]⟩ := by
    intro x w hw
    simp [l1Grad, Mat.map, hw, Function.comp_def]
  have e2 : ∀ (x : ℝ) (w : List ℝ), w.length = n → l2Grad (⟨1, w.map fun x => [x]⟩ : Mat ℝ) x = ⟨1, w.map fun y => [y *. (x /. Scalar.ofNat n)]⟩ := by
    intro x w hw
    simp [l2Grad, Mat.map, hw, Function.comp_def]
  cases reg with
  | l1 x => exact ⟨_, fun w hw => by rw [regGrad, e1 x w hw]⟩
  | l2 x => exact ⟨_, fun w hw => by rw [regGrad, e2 x w hw]⟩
  | elasticNet x y =>
    refine ⟨fun v => (if Scalar.signNeg v then Scalar.neg x /. ((Scalar.one +. Scalar.one) *. Scalar.ofNat n) else x /. ((Scalar.one +. Scalar.one) *. Scalar.ofNat n)) +.
      v *. (y /. Scalar.ofNat n), fun w hw => ?_⟩
    rw [regGrad, e1 x w hw, e2 y w hw]
    unfold Mat.zip
    rw [if_pos (by simp), zipWith_map_same]
    rfl
  | none =>
    refine ⟨fun _ => Scalar.zero, fun w hw => ?_⟩
    simp [regGrad, Mat.zeros]

theorem regCost_column (reg : Reg ℝ) {n : ℕ} {τ : List ℕ} (h : IsOrder n τ) {w : List ℝ} (hw : w.length = n) :
    regCost reg (⟨1, (reorder τ w).map fun x => [x]⟩ : Mat ℝ) = regCost reg ⟨1, w.map fun x => [x]⟩ := by
  have hl : (reorder τ w).length = w.length := by rw [reorder_length, h.length, hw]
  have e : ∀ f : ℝ → ℝ, fsum ((reorder τ w).map f) = fsum (w.map f) := by
    intro f
    rw [fsum_real, fsum_real, map_reorder h f hw, sum_reorder h (by simp [hw])]
  have e1 : ∀ x, l1Cost (⟨1, (reorder τ w).map fun x => [x]⟩ : Mat ℝ) x = l1Cost ⟨1, w.map fun x => [x]⟩ x := by
    intro x
    unfold l1Cost Mat.data
    simp only [singles_flatten, List.length_map, hl, e]
  have e2 : ∀ x, l2Cost (⟨1, (reorder τ w).map fun x => [x]⟩ : Mat ℝ) x = l2Cost ⟨1, w.map fun x => [x]⟩ x := by
    intro x
    unfold l2Cost Mat.data
    simp only [singles_flatten, List.length_map, hl, e]
  cases reg <;> simp [regCost, e1, e2]

/-! ### The gradient, training and predictions -/

/-- **C97 (networks: gradient).** With the features in another order and the rows of the first layer's weights in that order, the cost
is the same and the gradient is the same in the order of the weights, with any further layers, cost function and regularisation. -/
theorem C97_network_gradient (ls : List (NetLayer ℝ)) (w₀ : List ℝ) (crit : Criterion ℝ) (b : Bool) {c k o : ℕ} {σ : List ℕ} (h : IsOrder c σ)
    (hk : k = c + if b then 1 else 0) {X T : Mat ℝ} (hX : X.WF) (hc : X.cols = c) (w : List ℝ) (hw : w.length = totalParams (NetLayer.linear k o b :: ls))
    (cost : ℝ) (d : List ℝ) (hd : (⟨NetLayer.linear k o b :: ls, w₀, crit⟩ : BaseNet ℝ).computeGrad w X T = ok (cost, d)) :
    d.length = w.length ∧ (⟨NetLayer.linear k o b :: ls, w₀, crit⟩ : BaseNet ℝ).computeGrad (reorder (weightOrder (firstOrder b σ) o w.length) w) (reorderCols σ X) T =
      ok (cost, reorder (weightOrder (firstOrder b σ) o w.length) d) := by
  have hρ : IsOrder k (firstOrder b σ) := by
    cases b with
    | true => simp only [if_true] at hk; subst hk; exact withFirst_order h
    | false => simp only [Bool.false_eq_true, if_false, Nat.add_zero] at hk; subst hk; exact h
  set τ := weightOrder (firstOrder b σ) o w.length with hτ
  have hτo : IsOrder w.length τ := weightOrder_order hρ (by rw [hw, totalParams_cons]; exact Nat.le_add_right _ _)
  have hl : (reorder τ w).length = w.length := by rw [reorder_length, hτo.length]
  unfold BaseNet.computeGrad at hd
  obtain ⟨fw, hfw, hd⟩ := bind_eq_ok.1 hd
  obtain ⟨out, hout, hd⟩ := bind_eq_ok.1 hd
  obtain ⟨og, hog, hd⟩ := bind_eq_ok.1 hd
  obtain ⟨G, hG, hd⟩ := bind_eq_ok.1 hd
  obtain ⟨cc, hcc, hd⟩ := bind_eq_ok.1 hd
  obtain ⟨g, hg, hd⟩ := bind_eq_ok.1 hd
  -- forwards
  rw [netForward] at hfw
  obtain ⟨S, hS, hfw⟩ := bind_eq_ok.1 hfw
  obtain ⟨O, hO, hfw⟩ := bind_eq_ok.1 hfw
  have hS' : sliceAt w 0 (k, o) = ok S := hS
  obtain ⟨s1, s2⟩ := slice_first hρ hS'
  rw [← hτ] at s1 s2
  have hSs := (slice_ok_shape hS').1
  obtain ⟨qs, p1, p2, p3⟩ := netForward_rest hl s2 X (reorderCols σ X) ls _ _ _ [reorderRows (firstOrder b σ) S] fw (by
    show k * o ≤ 0 + k * o
    omega) (by simp) hfw
  have hfw' : netForward (reorder τ w) (reorderCols σ X) (NetLayer.linear k o b :: ls) 0 [] [] = ok (fw.1, fw.2.1, reorderRows (firstOrder b σ) S :: qs) := by
    rw [netForward, show sliceAt (reorder τ w) 0 (NetLayer.linear k o b : NetLayer ℝ).paramShape = ok (reorderRows (firstOrder b σ) S) from s1, ok_bind]
    have hO' : ((NetLayer.linear k o b).forward X S).unwrap = ok O := hO
    show (((NetLayer.linear k o b).forward (reorderCols σ X) (reorderRows (firstOrder b σ) S)).unwrap >>= _) = _
    rw [forward_first h b hk hX hc hSs, hO', ok_bind]
    exact p3
  -- backwards
  have hrev : (NetLayer.linear k o b :: ls).zipIdx.reverse = (ls.zipIdx 1).reverse ++ [(NetLayer.linear k o b, 0)] := by
    rw [List.zipIdx_cons, List.reverse_cons]
  have hps : fw.2.2 = S :: qs := by rw [p1]; rfl
  simp only [hrev, hps] at hG
  obtain ⟨P, v, b1, b2, b3, b4⟩ := netBackward_first h b hk hX hc fw.2.1 qs hSs _ fw.1 og _ G (by
    intro p hp
    rw [List.mem_reverse] at hp
    exact List.le_snd_of_mem_zipIdx hp) (by
    rw [p2, List.map_reverse, List.sum_reverse, ← sum_numParams, show (fun p : NetLayer ℝ × ℕ => p.1.numParams) = NetLayer.numParams ∘ Prod.fst from rfl, ← List.map_map,
      List.zipIdx_map_fst]
    show 0 + k * o + _ = _
    omega) hG
  have hgG := allInit_ok G g hg
  have hv : ∃ v', v = v'.map some ∧ g = P.data ++ v' := by
    rw [hgG] at b2
    have t1 := congrArg (List.drop P.data.length) b2
    have t2 := congrArg (List.take P.data.length) b2
    rw [← List.map_drop, List.drop_left' (by simp)] at t1
    rw [← List.map_take, List.take_left' (by simp)] at t2
    refine ⟨g.drop P.data.length, t1.symm, ?_⟩
    have := List.map_injective_iff.2 (Option.some_injective ℝ) t2
    conv_lhs => rw [← List.take_append_drop P.data.length g, this]
  obtain ⟨v', rfl, hgv⟩ := hv
  have hgl : g.length = w.length := by
    rw [hgG] at b3
    simpa using b3
  have hgr : reorder τ g = (reorderRows (firstOrder b σ) P).data ++ v' := by
    have hn : w.length = k * o + v'.length := by rw [← hgl, hgv, List.length_append, data_length b1]
    rw [hτ, hn, hgv]
    exact reorder_weights hρ b1 v'
  have hG' : netBackward (reorderCols σ X) fw.2.1 (reorderRows (firstOrder b σ) S :: qs) (NetLayer.linear k o b :: ls).zipIdx.reverse fw.1 og
      (List.replicate (reorder τ w).length none) = ok ((reorder τ g).map some) := by
    rw [hrev, hl, b4, hgr, List.map_append]
  unfold BaseNet.computeGrad
  rw [hfw', ok_bind]
  simp only [hout, ok_bind, hog, hG', hcc, allInit_some]
  split at hd
  · rename_i hr
    rw [if_pos hr]
    obtain ⟨φ, hφ⟩ := regGrad_column crit.reg w.length
    simp only [hφ w rfl, hφ (reorder τ w) hl, ok_bind] at hd ⊢
    have hD : ∀ u : List ℝ, (⟨1, u.map fun x => [φ x]⟩ : Mat ℝ).data = u.map φ := by
      intro u
      have := singles_flatten (u.map φ)
      rwa [List.map_map] at this
    have ei := inPlaceBin_reorder hτo Scalar.add hgl (show (w.map φ).length = w.length by simp)
    rw [hD] at hd ⊢
    rw [regCost_column crit.reg hτo rfl, map_reorder hτo φ rfl, ei.2]
    cases hd
    exact ⟨ei.1, rfl⟩
  · rename_i hr
    rw [if_neg hr]
    cases hd
    exact ⟨hgl, rfl⟩

/-- **C97 (networks: predictions).** -/
theorem C97_network_predictions (ls : List (NetLayer ℝ)) (crit : Criterion ℝ) (b : Bool) {c k o : ℕ} {σ : List ℕ} (h : IsOrder c σ)
    (hk : k = c + if b then 1 else 0) {Z : Mat ℝ} (hZ : Z.WF) (hc : Z.cols = c) (w : List ℝ) (hw : w.length = totalParams (NetLayer.linear k o b :: ls)) :
    (⟨NetLayer.linear k o b :: ls, reorder (weightOrder (firstOrder b σ) o w.length) w, crit⟩ : BaseNet ℝ).forwardProp (reorderCols σ Z) =
      (⟨NetLayer.linear k o b :: ls, w, crit⟩ : BaseNet ℝ).forwardProp Z := by
  have hρ : IsOrder k (firstOrder b σ) := by
    cases b with
    | true => simp only [if_true] at hk; subst hk; exact withFirst_order h
    | false => simp only [Bool.false_eq_true, if_false, Nat.add_zero] at hk; subst hk; exact h
  have hle : k * o ≤ w.length := by rw [hw, totalParams_cons]; exact Nat.le_add_right _ _
  have hτo : IsOrder w.length (weightOrder (firstOrder b σ) o w.length) := weightOrder_order hρ hle
  obtain ⟨S, hS⟩ : ∃ S, sliceAt w 0 (k, o) = ok S := by
    unfold sliceAt
    rw [if_pos (by simpa using hle)]
    exact ⟨_, rfl⟩
  obtain ⟨s1, s2⟩ := slice_first hρ hS
  have hSs := (slice_ok_shape hS).1
  unfold BaseNet.forwardProp
  show (sliceAt _ 0 (k, o) >>= _) = (sliceAt _ 0 (k, o) >>= _)
  rw [hS, s1, ok_bind, ok_bind, forward_first h b hk hZ hc hSs]
  congr 1
  funext O
  exact forwardRest_drop (by rw [reorder_length, hτo.length]) s2 ls _ O le_rfl

/-- **C97 (networks: training).** A network with a linear first layer, started with its first layer's rows in another order and trained
with any of the four optimisers (the stochastic ones with the same random numbers) on the data with the features in that order, ends with
the weights it would have found, in that order, and so predicts the same. -/
theorem C97_network (ls : List (NetLayer ℝ)) (w : List ℝ) (crit : Criterion ℝ) (b : Bool) {c k o : ℕ} {σ : List ℕ} (h : IsOrder c σ)
    (hk : k = c + if b then 1 else 0) {X T : Mat ℝ} (hX : X.WF) (hc : X.cols = c) (hw : w.length = totalParams (NetLayer.linear k o b :: ls))
    (train : ComputeGrad ℝ → List ℝ → Mat ℝ → Mat ℝ → Outcome (List ℝ))
    (htrain : (∃ a : GradientDesc ℝ, train = fun g s X T => (a.optimize (fun w => g w X T) s).out) ∨
      (∃ (a : StochasticGD ℝ) (r : ℕ → ℕ → ℕ), train = fun g s X T => (a.optimize g r s X T).out) ∨
      (∃ (a : AdaGrad ℝ) (r : ℕ → ℕ → ℕ), train = fun g s X T => (a.optimize g r s X T).out) ∨
      (∃ (a : RMSProp ℝ) (r : ℕ → ℕ → ℕ), train = fun g s X T => (a.optimize g r s X T).out))
    (m : BaseNet ℝ) (hm : (⟨NetLayer.linear k o b :: ls, w, crit⟩ : BaseNet ℝ).train train X T = ok m) :
    m.weights.length = w.length ∧
    (⟨NetLayer.linear k o b :: ls, reorder (weightOrder (firstOrder b σ) o w.length) w, crit⟩ : BaseNet ℝ).train train (reorderCols σ X) T =
      ok ⟨m.layers, reorder (weightOrder (firstOrder b σ) o w.length) m.weights, m.criterion⟩ ∧
    ∀ Z : Mat ℝ, Z.WF → Z.cols = c →
      (⟨m.layers, reorder (weightOrder (firstOrder b σ) o w.length) m.weights, m.criterion⟩ : BaseNet ℝ).forwardProp (reorderCols σ Z) = m.forwardProp Z := by
  have hρ : IsOrder k (firstOrder b σ) := by
    cases b with
    | true => simp only [if_true] at hk; subst hk; exact withFirst_order h
    | false => simp only [Bool.false_eq_true, if_false, Nat.add_zero] at hk; subst hk; exact h
  have hle : k * o ≤ w.length := by rw [hw, totalParams_cons]; exact Nat.le_add_right _ _
  have hτo : IsOrder w.length (weightOrder (firstOrder b σ) o w.length) := weightOrder_order hρ hle
  unfold BaseNet.train at hm ⊢
  obtain ⟨v, hv, hm⟩ := bind_eq_ok.1 hm
  cases hm
  have key : v.length = w.length ∧ train (⟨NetLayer.linear k o b :: ls, reorder (weightOrder (firstOrder b σ) o w.length) w, crit⟩ : BaseNet ℝ).computeGrad
      (reorder (weightOrder (firstOrder b σ) o w.length) w) (reorderCols σ X) T = ok (reorder (weightOrder (firstOrder b σ) o w.length) v) := by
    have hgrad : ∀ w' x t c' d, w'.length = w.length → x.cols = X.cols → (∀ r ∈ x.rows, r ∈ X.rows) → t.cols = T.cols → (∀ r ∈ t.rows, r ∈ T.rows) →
        (⟨NetLayer.linear k o b :: ls, w, crit⟩ : BaseNet ℝ).computeGrad w' x t = ok (c', d) → d.length = w.length ∧
        (⟨NetLayer.linear k o b :: ls, reorder (weightOrder (firstOrder b σ) o w.length) w, crit⟩ : BaseNet ℝ).computeGrad
          (reorder (weightOrder (firstOrder b σ) o w.length) w') (reorderCols σ x) t = ok (c', reorder (weightOrder (firstOrder b σ) o w.length) d) := by
      intro w' x t c' d hw' hxc hxr _ _ hd
      have := C97_network_gradient ls w crit b h hk (X := x) (T := t) (fun r hr => by rw [hX r (hxr r hr), hxc]) (by rw [hxc, hc]) w' (by rw [hw', hw]) c' d hd
      rw [hw'] at this
      exact this
    have hopt := C97_optimisers σ hτo (X := X) (T := T) hgrad
    rcases htrain with ⟨a, rfl⟩ | ⟨a, r, rfl⟩ | ⟨a, r, rfl⟩ | ⟨a, r, rfl⟩
    · exact (hopt (fun _ _ => 0) w v rfl).1 a hv
    · exact (hopt r w v rfl).2.1 a hv
    · exact (hopt r w v rfl).2.2.1 a hv
    · exact (hopt r w v rfl).2.2.2 a hv
  obtain ⟨k1, k2⟩ := key
  refine ⟨k1, ?_, ?_⟩
  · show (train _ (reorder (weightOrder (firstOrder b σ) o w.length) w) (reorderCols σ X) T >>= _) = _
    rw [k2, ok_bind]
  · intro Z hZ hZc
    have := C97_network_predictions ls crit b h hk hZ hZc v (by rw [k1, hw])
    rw [k1] at this
    exact this

end RM
