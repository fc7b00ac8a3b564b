import Mathlib.Analysis.Calculus.FDeriv.Mul
import Mathlib.Analysis.Calculus.FDeriv.Comp
import Mathlib.Analysis.Calculus.FDeriv.Pi
import Verif.Proofs.NNet
import Verif.Proofs.MatEnt

/-! Back-propagation. -/

namespace RM
open Outcome Scalar Spec

/-! ### Removing the first column -/

theorem div_block (d q r : ℕ) (hr : r < d) : (d * q + r) / d = q := by
  rw [Nat.mul_add_div (by omega), Nat.div_eq_of_lt hr, Nat.add_zero]

theorem removeLoop_spec (c : ℕ) (data : List ℝ) : ∀ (k i : ℕ) (v : List ℝ), i + k = data.length → v.length = data.length →
    v.drop i = data.drop i → (∀ p, p < i - (i + c) / (c + 1) → v[p]? = data[p + p / c + 1]?) →
    ∃ v' : List ℝ, removeLoop (c + 1) (List.range' i k) v ((i + c) / (c + 1)) = ok (v', (data.length + c) / (c + 1)) ∧ v'.length = data.length ∧
      ∀ p, p < data.length - (data.length + c) / (c + 1) → v'[p]? = data[p + p / c + 1]?
  | 0, i, v, hik, hl, hd, hp => by
    have : i = data.length := by omega
    subst this
    exact ⟨v, rfl, hl, hp⟩
  | k + 1, i, v, hik, hl, hd, hp => by
    rw [List.range'_succ, removeLoop]
    have hq : i = (c + 1) * (i / (c + 1)) + i % (c + 1) := (Nat.div_add_mod i (c + 1)).symm
    have hs : i % (c + 1) < c + 1 := Nat.mod_lt _ (by omega)
    generalize i / (c + 1) = q at hq
    generalize hsg : i % (c + 1) = s at hq hs
    have hd' : v.drop (i + 1) = data.drop (i + 1) := by
      rw [← List.drop_drop, ← List.drop_drop, hd]
    by_cases h0 : s = 0
    · subst h0
      rw [if_pos rfl]
      have e1 : (i + c) / (c + 1) = q := by
        rw [hq, Nat.add_zero]
        exact div_block _ _ _ (by omega)
      have e2 : (i + 1 + c) / (c + 1) = q + 1 := by
        rw [show i + 1 + c = (c + 1) * (q + 1) + 0 by rw [hq]; ring]
        exact div_block _ _ _ (by omega)
      have := removeLoop_spec c data k (i + 1) v (by omega) hl hd' (by
        intro p hp'
        apply hp
        rw [e1]; rw [e2] at hp'; omega)
      rw [e2] at this
      rw [e1]
      exact this
    · rw [if_neg (by omega)]
      obtain ⟨s, rfl⟩ : ∃ s', s = s' + 1 := ⟨s - 1, by omega⟩
      have e1 : (i + c) / (c + 1) = q + 1 := by
        rw [show i + c = (c + 1) * (q + 1) + s by rw [hq]; ring]
        exact div_block _ _ _ (by omega)
      have e2 : (i + 1 + c) / (c + 1) = q + 1 := by
        rw [show i + 1 + c = (c + 1) * (q + 1) + (s + 1) by rw [hq]; ring]
        exact div_block _ _ _ (by omega)
      rw [e1, if_pos (by omega)]
      have hi : i < v.length := by omega
      have hvi : v[i]? = data[i]? := by
        have := congrArg (fun l : List ℝ => l[0]?) hd
        simpa using this
      have hge : q + 1 ≤ i := by rw [hq, Nat.add_mul, Nat.one_mul]; omega
      simp only [getAt, List.getElem?_eq_getElem hi, ofOption_some, ok_bind, setAt, if_pos (show i - (q + 1) < v.length by omega)]
      have := removeLoop_spec c data k (i + 1) (v.set (i - (q + 1)) v[i]) (by omega) (by simp [hl])
        (by rw [List.drop_set_of_lt (by omega), hd']) (by
        intro p hp'
        rw [e2] at hp'
        by_cases hpi : p = i - (q + 1)
        · have hpq : p = c * q + s := by rw [hpi, hq, Nat.add_mul, Nat.one_mul]; omega
          have hdiv : p / c = q := by
            rw [hpq]
            apply Nat.div_eq_of_lt_le
            · rw [Nat.mul_comm]; omega
            · rw [Nat.succ_mul, Nat.mul_comm]; omega
          rw [← hpi, List.getElem?_set_self (by omega), hdiv]
          rw [show p + q + 1 = i by omega, ← hvi, List.getElem?_eq_getElem hi]
        · rw [List.getElem?_set_ne (by omega)]
          apply hp
          rw [e1]; omega)
      rw [e2] at this
      exact this

/-- `remove_first_col` removes the first column. -/
theorem removeFirstCol_ent {M : Mat ℝ} {n c : ℕ} (hM : HasShape M n (c + 1)) :
    ∃ M', removeFirstCol M = ok M' ∧ HasShape M' n c ∧ ∀ i j : ℕ, i < n → j < c → ent M' i j = ent M i (j + 1) := by
  have hlen := data_length hM
  obtain ⟨v, hv, hvl, hvp⟩ := removeLoop_spec c M.data M.data.length 0 M.data (by omega) rfl rfl (by intro p hp; simp at hp)
  have hdel : (M.data.length + c) / (c + 1) = n := by
    rw [hlen]
    apply Nat.div_eq_of_lt_le
    · omega
    · rw [Nat.succ_mul]; omega
  rw [hdel] at hv hvp
  have h0 : (0 + c) / (c + 1) = 0 := by rw [Nat.zero_add]; exact Nat.div_eq_of_lt (by omega)
  rw [h0, ← List.range_eq_range'] at hv
  have hsub : M.data.length - n = n * c := by rw [hlen, Nat.mul_add]; omega
  have hdata : (if 0 < n then v.take (M.data.length - n) else v) = v.take (n * c) := by
    split
    · rw [hsub]
    · rename_i hn
      have : n = 0 := by omega
      subst this
      have : v.length = 0 := by rw [hvl, hlen]; simp
      rw [List.length_eq_zero_iff.mp this]; simp
  have htl : (v.take (n * c)).length = n * c := by rw [List.length_take, hvl, hlen, Nat.mul_add]; omega
  have hsh : HasShape (⟨c, chunk c n (v.take (n * c))⟩ : Mat ℝ) n c := ⟨chunk_length _ _ _, rfl, chunk_row_length _ _ _ (by rw [htl])⟩
  refine ⟨⟨c, chunk c n (v.take (n * c))⟩, ?_, hsh, ?_⟩
  · unfold removeFirstCol
    rw [hM.2.1, hv, ok_bind]
    simp only [hdata]
    rw [hM.1, Nat.add_sub_cancel, Mat.new, if_pos htl]
  · intro i j hi hj
    rw [← data_ent hsh hi hj, ← data_ent hM hi (Nat.succ_lt_succ hj)]
    have hd : (⟨c, chunk c n (v.take (n * c))⟩ : Mat ℝ).data = v.take (n * c) := by
      unfold Mat.data
      rw [chunk_flatten_take, List.take_take, Nat.min_self]
    have hp : i * c + j < n * c := by
      calc i * c + j < i * c + c := by omega
        _ = (i + 1) * c := by rw [Nat.succ_mul]
        _ ≤ n * c := Nat.mul_le_mul_right c hi
    have hdiv : (i * c + j) / c = i := by
      apply Nat.div_eq_of_lt_le
      · omega
      · rw [Nat.succ_mul]; omega
    rw [hd, List.getD_eq_getElem?_getD, List.getElem?_take_of_lt hp, hvp _ (by rw [hsub]; exact hp), hdiv, ← List.getD_eq_getElem?_getD]
    congr 1
    rw [Nat.mul_add]; omega

/-! ### One layer -/

/-- The input of a linear layer with its bias entry. -/
def aug (bias : Bool) (x : List ℝ) : List ℝ := if bias then 1 :: x else x

/-- The share of one row in the gradient of the weights of a layer. -/
noncomputable def rowParamGrad (l : NetLayer ℝ) (x : List ℝ) (γ : ℕ → ℝ) (t : ℕ) : ℝ :=
  match l with
  | .linear _ o bias => (aug bias x).getD (t / o) 0 * γ (t % o)
  | .activ _ => 0

/-- The gradient in the input row of a layer. -/
noncomputable def rowInGrad (l : NetLayer ℝ) (u y : List ℝ) (γ : ℕ → ℝ) (m : ℕ) : ℝ :=
  match l with
  | .linear _ o bias => ∑ j ∈ Finset.range o, γ j * u.getD ((if bias then m + 1 else m) * o + j) 0
  | .activ A => A.gradFromOutput (y.getD m 0) * γ m

/-- The derivative of the activation functions, computed from the output, is right. -/
def GradOK (l : NetLayer ℝ) : Prop :=
  match l with
  | .linear _ _ _ => True
  | .activ A => ∀ x, HasDerivAt A.func (A.gradFromOutput (A.func x)) x

variable {E : Type} [NormedAddCommGroup E] [NormedSpace ℝ E]

theorem layerRow_linear_getD (k o : ℕ) (bias : Bool) (u x : List ℝ) (hx : (aug bias x).length = k) (j : ℕ) (hj : j < o) :
    (layerRow (.linear k o bias) u x).getD j 0 = ∑ a ∈ Finset.range k, (aug bias x).getD a 0 * u.getD (a * o + j) 0 := by
  simp only [layerRow, netRow]
  rw [getD_map_range _ _ _ hj]
  have e : (if bias = true then (Scalar.one : ℝ) :: x else x) = aug bias x := rfl
  rw [e, dot_eq_range hx (by simp)]
  apply Finset.sum_congr rfl
  intro a ha
  rw [getD_map_range _ _ _ (Finset.mem_range.mp ha)]
  rfl

theorem layerRow_deriv (l : NetLayer ℝ) (hok : GradOK l) (e₀ : E) (c : ℕ) (hfit : layerFits l c) (z : E → List ℝ) (hz : ∀ e, (z e).length = c)
    (z' : ℕ → E →L[ℝ] ℝ) (hdz : ∀ m < c, HasFDerivAt (fun e => (z e).getD m 0) (z' m) e₀)
    (u : E → List ℝ) (u' : ℕ → E →L[ℝ] ℝ) (hdu : ∀ t < l.numParams, HasFDerivAt (fun e => (u e).getD t 0) (u' t) e₀) :
    ∃ y' : ℕ → E →L[ℝ] ℝ, (∀ j < layerOut l c, HasFDerivAt (fun e => (layerRow l (u e) (z e)).getD j 0) (y' j) e₀) ∧
      ∀ γ : ℕ → ℝ, ∑ j ∈ Finset.range (layerOut l c), γ j • y' j =
        ∑ t ∈ Finset.range l.numParams, rowParamGrad l (z e₀) γ t • u' t +
        ∑ m ∈ Finset.range c, rowInGrad l (u e₀) (layerRow l (u e₀) (z e₀)) γ m • z' m := by
  cases l with
  | activ A =>
    refine ⟨fun m => A.gradFromOutput (A.func ((z e₀).getD m 0)) • z' m, ?_, ?_⟩
    · intro j hj
      have h1 := (hok ((z e₀).getD j 0)).comp_hasFDerivAt e₀ (hdz j hj)
      apply h1.congr_of_eventuallyEq
      filter_upwards with e
      simp only [layerRow, netRow, Function.comp_apply]
      exact getD_map_lt A.func _ 0 0 j (by rw [hz e]; exact hj)
    · intro γ
      simp only [layerOut, NetLayer.numParams, NetLayer.paramShape, Nat.mul_zero, Finset.range_zero, Finset.sum_empty, zero_add]
      apply Finset.sum_congr rfl
      intro m hm
      have e : (layerRow (.activ A) (u e₀) (z e₀)).getD m 0 = A.func ((z e₀).getD m 0) := by
        simp only [layerRow, netRow]
        exact getD_map_lt A.func _ 0 0 m (by rw [hz e₀]; exact Finset.mem_range.mp hm)
      simp only [rowInGrad, e, smul_smul]
      rw [mul_comm]
  | linear k o bias =>
    have hk : (if bias then c + 1 else c) = k := hfit
    have hlen : ∀ e, (aug bias (z e)).length = k := by
      intro e
      unfold aug
      rw [← hk]
      split <;> simp [hz e]
    -- derivative of the augmented input
    let a' : ℕ → E →L[ℝ] ℝ := fun a => if bias then (if a = 0 then 0 else z' (a - 1)) else z' a
    have hda : ∀ a < k, HasFDerivAt (fun e => (aug bias (z e)).getD a 0) (a' a) e₀ := by
      intro a ha
      cases bias with
      | false =>
        simp only [Bool.false_eq_true, if_false] at hk
        exact hdz a (by omega)
      | true =>
        simp only [if_true] at hk
        cases a with
        | zero => exact hasFDerivAt_const (1 : ℝ) e₀
        | succ a => exact hdz a (by omega)
    have hnp : NetLayer.numParams (.linear k o bias : NetLayer ℝ) = k * o := rfl
    rw [hnp] at hdu ⊢
    refine ⟨fun j => ∑ a ∈ Finset.range k, ((aug bias (z e₀)).getD a 0 • u' (a * o + j) + (u e₀).getD (a * o + j) 0 • a' a), ?_, ?_⟩
    · intro j hj
      have h1 : HasFDerivAt (fun e => ∑ a ∈ Finset.range k, (aug bias (z e)).getD a 0 * (u e).getD (a * o + j) 0)
          (∑ a ∈ Finset.range k, ((aug bias (z e₀)).getD a 0 • u' (a * o + j) + (u e₀).getD (a * o + j) 0 • a' a)) e₀ := by
        apply HasFDerivAt.fun_sum
        intro a ha
        have ha' := Finset.mem_range.mp ha
        have ht : a * o + j < k * o := by
          calc a * o + j < a * o + o := by have : j < o := hj; omega
            _ = (a + 1) * o := by rw [Nat.succ_mul]
            _ ≤ k * o := Nat.mul_le_mul_right o ha'
        exact (hda a ha').mul (hdu _ ht)
      apply h1.congr_of_eventuallyEq
      filter_upwards with e
      exact layerRow_linear_getD k o bias (u e) (z e) (hlen e) j hj
    · intro γ
      simp only [layerOut, rowParamGrad, rowInGrad]
      rw [sum_range_blocks]
      have hL : ∑ j ∈ Finset.range o, γ j • ∑ a ∈ Finset.range k, ((aug bias (z e₀)).getD a 0 • u' (a * o + j) + (u e₀).getD (a * o + j) 0 • a' a) =
          ∑ a ∈ Finset.range k, ∑ j ∈ Finset.range o, ((aug bias (z e₀)).getD a 0 * γ j) • u' (a * o + j) +
          ∑ a ∈ Finset.range k, (∑ j ∈ Finset.range o, γ j * (u e₀).getD (a * o + j) 0) • a' a := by
        rw [← Finset.sum_add_distrib]
        simp only [Finset.smul_sum]
        rw [Finset.sum_comm]
        apply Finset.sum_congr rfl
        intro a _
        rw [Finset.sum_smul, ← Finset.sum_add_distrib]
        apply Finset.sum_congr rfl
        intro j _
        rw [smul_add, smul_smul, smul_smul, mul_comm (γ j)]
      rw [hL]
      congr 1
      · apply Finset.sum_congr rfl
        intro a _
        apply Finset.sum_congr rfl
        intro j hj
        have hj' := Finset.mem_range.mp hj
        have e1 : (a * o + j) / o = a := by
          apply Nat.div_eq_of_lt_le
          · omega
          · rw [Nat.succ_mul]; omega
        have e2 : (a * o + j) % o = j := by rw [Nat.mul_comm, Nat.mul_add_mod]; exact Nat.mod_eq_of_lt hj'
        rw [e1, e2]
      · cases bias with
        | false =>
          simp only [Bool.false_eq_true, if_false] at hk
          rw [hk]
          simp [a']
        | true =>
          simp only [if_true] at hk
          rw [← hk, Finset.sum_range_succ']
          simp [a']

/-- The matrix the backward pass of a layer gives for the weights. -/
theorem backParams_ent (l : NetLayer ℝ) {n c : ℕ} {X G : Mat ℝ} (hX : HasShape X n c) (hG : HasShape G n (layerOut l c)) (hfit : layerFits l c) :
    ∃ M, l.backParams G X = ok M ∧ M.data.length = l.numParams ∧
      ∀ t < l.numParams, M.data.getD t 0 = ∑ i ∈ Finset.range n, rowParamGrad l (X.rows.getD i []) (ent G i) t := by
  cases l with
  | activ A =>
    refine ⟨⟨0, []⟩, rfl, rfl, ?_⟩
    intro t ht
    simp [NetLayer.numParams, NetLayer.paramShape] at ht
  | linear k o bias =>
    have hk : (if bias then c + 1 else c) = k := hfit
    have hA : HasShape (⟨k, X.rows.map (aug bias)⟩ : Mat ℝ) n k := map_shape hX _ (by
      intro x hx
      unfold aug
      rw [← hk]
      split <;> simp [hx])
    obtain ⟨hT, hTe⟩ := transpose_ent hA
    obtain ⟨M, hM, hMs, hMe⟩ := mul_ent hT hG
    refine ⟨M, ?_, data_length hMs, ?_⟩
    · cases bias with
      | false =>
        simp only [Bool.false_eq_true, if_false] at hk
        simp only [NetLayer.backParams, Bool.false_eq_true, if_false]
        have : (⟨k, X.rows.map (aug false)⟩ : Mat ℝ) = X := by
          obtain ⟨xc, xr⟩ := X
          have h1 : xc = c := hX.2.1
          have h2 : (aug false : List ℝ → List ℝ) = id := rfl
          rw [h2, List.map_id, ← hk, h1]
        rw [this] at hM
        exact hM
      | true =>
        simp only [if_true] at hk
        simp only [NetLayer.backParams, if_true]
        rw [hcat_ones, ok_bind]
        rw [← hM, hX.2.1, hk]
        rfl
    · intro t ht
      have hnp : NetLayer.numParams (.linear k o bias : NetLayer ℝ) = k * o := rfl
      rw [hnp] at ht
      have ho : 0 < o := by
        rcases Nat.eq_zero_or_pos o with h | h
        · rw [h] at ht; simp at ht
        · exact h
      have h1 : t / o < k := Nat.div_lt_of_lt_mul (by rw [Nat.mul_comm]; exact ht)
      have h2 : t % o < o := Nat.mod_lt _ ho
      have h3 : t = t / o * o + t % o := by rw [Nat.mul_comm]; exact (Nat.div_add_mod t o).symm
      have := data_ent hMs h1 (j := t % o) h2
      simp only [layerOut] at this hMe
      rw [← h3] at this
      rw [this, hMe _ _ h1 h2]
      apply Finset.sum_congr rfl
      intro i hi
      have hi' := Finset.mem_range.mp hi
      rw [hTe _ _ h1 hi', ent_of_rows, getD_map_lt _ _ [] _ _ (by rw [hX.1]; exact hi')]
      rfl

theorem flatten_zip (f : ℝ → ℝ → ℝ) (c : ℕ) : ∀ a b : List (List ℝ), (∀ r ∈ a, r.length = c) → (∀ r ∈ b, r.length = c) → a.length = b.length →
    List.zipWith f a.flatten b.flatten = (List.zipWith (List.zipWith f) a b).flatten
  | [], b, _, _, _ => by simp
  | r :: a, [], _, _, hl => by simp at hl
  | r :: a, s :: b, ha, hb, hl => by
    rw [List.flatten_cons, List.flatten_cons, List.zipWith_append (by rw [ha r (by simp), hb s (by simp)]),
      flatten_zip f c a b (fun r hr => ha r (by simp [hr])) (fun r hr => hb r (by simp [hr])) (by simpa using hl)]
    simp

/-- Combining row-major data is combining the matrices. -/
theorem new_zip (f : ℝ → ℝ → ℝ) {A B C : Mat ℝ} {n c : ℕ} (hA : HasShape A n c) (hB : HasShape B n c) (h : Mat.zip f A B = ok C) :
    Mat.new n c (List.zipWith f A.data B.data) = ok C := by
  unfold Mat.zip at h
  rw [if_pos ⟨by rw [hA.1, hB.1], by rw [hA.2.1, hB.2.1]⟩] at h
  injection h with h
  subst h
  unfold Mat.data Mat.new
  rw [flatten_zip f c _ _ hA.2.2 hB.2.2 (by rw [hA.1, hB.1]), hA.2.1]
  have hC : HasShape (⟨c, List.zipWith (List.zipWith f) A.rows B.rows⟩ : Mat ℝ) n c := by
    refine ⟨by simp [hA.1, hB.1], rfl, ?_⟩
    intro r hr
    obtain ⟨i, hi, rfl⟩ := List.getElem_of_mem hr
    simp only [List.length_zipWith] at hi
    simp [hA.2.2 _ (List.getElem_mem (show i < A.rows.length by omega)), hB.2.2 _ (List.getElem_mem (show i < B.rows.length by omega))]
  have h1 := data_length hC
  have h2 := chunk_flatten c _ hC.2.2
  rw [hC.1] at h2
  unfold Mat.data at h1
  rw [if_pos h1, h2]

/-- The matrix the backward pass of a layer gives for its input. -/
theorem backInput_ent (l : NetLayer ℝ) {n c start : ℕ} {w : List ℝ} {X G P : Mat ℝ} (hX : HasShape X n c) (hG : HasShape G n (layerOut l c))
    (hfit : layerFits l c) (hP : sliceAt w start l.paramShape = ok P) :
    ∃ M, l.backInput G ⟨layerOut l c, X.rows.map (layerRow l (w.drop start))⟩ P = ok M ∧ HasShape M n c ∧
      ∀ i m : ℕ, i < n → m < c → ent M i m =
        rowInGrad l (w.drop start) (layerRow l (w.drop start) (X.rows.getD i [])) (ent G i) m := by
  have hP' := hP
  unfold sliceAt at hP'
  split at hP'
  case isFalse => cases hP'
  rename_i hle
  obtain ⟨P1, hP1, hPs, hPd⟩ := slice_shape hle
  rw [hP] at hP1
  injection hP1 with hP1
  subst hP1
  cases l with
  | activ A =>
    have hY : HasShape (⟨layerOut (.activ A) c, X.rows.map (layerRow (.activ A) (w.drop start))⟩ : Mat ℝ) n c :=
      map_shape hX _ fun x hx => layerRow_length hx
    replace hG : HasShape G n c := hG
    have hz := zip_matOf (fun y g => A.gradFromOutput y *. g)
      (fun k : Fin n × Fin c => ent (⟨layerOut (.activ A) c, X.rows.map (layerRow (.activ A) (w.drop start))⟩ : Mat ℝ) k.1 k.2)
      (fun k => ent G k.1 k.2)
    rw [← eq_matOf hY, ← eq_matOf hG] at hz
    have hsh := matOf_shape n c (fun k => A.gradFromOutput (ent (⟨layerOut (.activ A) c, X.rows.map (layerRow (.activ A) (w.drop start))⟩ : Mat ℝ) k.1 k.2) *. ent G k.1 k.2)
    refine ⟨_, ?_, hsh, ?_⟩
    · simp only [NetLayer.backInput]
      rw [hY.1]
      exact new_zip _ hY hG hz
    · intro i m hi hm
      have := ent_matOf (fun k : Fin n × Fin c => A.gradFromOutput (ent (⟨layerOut (.activ A) c, X.rows.map (layerRow (.activ A) (w.drop start))⟩ : Mat ℝ) k.1 k.2) *. ent G k.1 k.2) ⟨i, hi⟩ ⟨m, hm⟩
      simp only at this
      rw [this]
      simp only [rowInGrad, ent_of_rows, real_mul]
      rw [getD_map_lt _ _ [] _ _ (by rw [hX.1]; exact hi)]
  | linear k o bias =>
    have hk : (if bias then c + 1 else c) = k := hfit
    simp only [NetLayer.paramShape] at hPs hPd hle
    obtain ⟨hT, hTe⟩ := transpose_ent hPs
    obtain ⟨M, hM, hMs, hMe⟩ := mul_ent hG hT
    simp only [layerOut] at hMe
    have hPe : ∀ a j : ℕ, a < k → j < o → ent P a j = (w.drop start).getD (a * o + j) 0 := by
      intro a j ha hj
      rw [← data_ent hPs ha hj, hPd, List.getD_eq_getElem?_getD, List.getElem?_take_of_lt, ← List.getD_eq_getElem?_getD]
      calc a * o + j < a * o + o := by omega
        _ = (a + 1) * o := by rw [Nat.succ_mul]
        _ ≤ k * o := Nat.mul_le_mul_right o ha
    cases bias with
    | false =>
      simp only [Bool.false_eq_true, if_false] at hk
      subst hk
      refine ⟨M, ?_, hMs, ?_⟩
      · simp only [NetLayer.backInput, hM, ok_bind, Bool.false_eq_true, if_false]
      · intro i m hi hm
        rw [hMe i m hi hm]
        simp only [rowInGrad, Bool.false_eq_true, if_false]
        apply Finset.sum_congr rfl
        intro j hj
        have hj' := Finset.mem_range.mp hj
        rw [hTe _ _ hj' hm, hPe _ _ hm hj']
    | true =>
      simp only [if_true] at hk
      subst hk
      obtain ⟨M', hM', hMs', hMe'⟩ := removeFirstCol_ent hMs
      refine ⟨M', ?_, hMs', ?_⟩
      · simp only [NetLayer.backInput, hM, ok_bind, if_true, hM']
      · intro i m hi hm
        rw [hMe' i m hi hm, hMe i (m + 1) hi (by omega)]
        simp only [rowInGrad, if_true]
        apply Finset.sum_congr rfl
        intro j hj
        have hj' := Finset.mem_range.mp hj
        rw [hTe _ _ hj' (by omega), hPe _ _ (by omega) hj']

end RM
