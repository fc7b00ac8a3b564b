import Verif.Spec.NNet
import Verif.Spec.Calculus
import Verif.Proofs.KMeans

/-! Slices, forward pass, weight blocks. -/

namespace RM
open Outcome Scalar Spec
variable {F : Type}

set_option linter.unusedSectionVars false

section
variable [Scalar F]

theorem chunk_length (c n : ℕ) (l : List F) : (chunk c n l).length = n := by
  induction n generalizing l with
  | zero => rfl
  | succ n ih => simp [chunk, ih]

theorem chunk_row_length (c : ℕ) : ∀ (n : ℕ) (l : List F), n * c ≤ l.length → ∀ r ∈ chunk c n l, r.length = c
  | 0, _, _, r, hr => by simp [chunk] at hr
  | n + 1, l, h, r, hr => by
    rw [Nat.succ_mul] at h
    simp only [chunk, List.mem_cons] at hr
    rcases hr with rfl | hr
    · rw [List.length_take]; omega
    · exact chunk_row_length c n (l.drop c) (by rw [List.length_drop]; omega) r hr

theorem chunk_flatten_take (c : ℕ) : ∀ (n : ℕ) (l : List F), (chunk c n l).flatten = l.take (n * c)
  | 0, l => by simp [chunk]
  | n + 1, l => by
    rw [chunk, List.flatten_cons, chunk_flatten_take c n, Nat.succ_mul, Nat.add_comm, List.take_add]

theorem slice_shape {w : List F} {start : ℕ} {shape : ℕ × ℕ} (h : start + shape.1 * shape.2 ≤ w.length) :
    ∃ P, sliceAt w start shape = ok P ∧ HasShape P shape.1 shape.2 ∧ P.data = (w.drop start).take (shape.1 * shape.2) := by
  refine ⟨_, if_pos h, ⟨chunk_length _ _ _, rfl, chunk_row_length _ _ _ (by rw [List.length_drop]; omega)⟩, chunk_flatten_take _ _ _⟩

theorem colOf_chunk (o j : ℕ) (hj : j < o) : ∀ (k : ℕ) (w : List F), k * o ≤ w.length →
    colOf (chunk o k w) j = (List.range k).map fun i => w.getD (i * o + j) Scalar.zero
  | 0, _, _ => rfl
  | k + 1, w, h => by
    rw [Nat.succ_mul] at h
    unfold colOf
    rw [chunk, List.filterMap_cons, List.range_succ_eq_map, List.map_cons, List.map_map]
    have h1 : (w.take o)[j]? = some (w.getD j Scalar.zero) := by
      rw [List.getElem?_take_of_lt hj, List.getD_eq_getElem?_getD, List.getElem?_eq_getElem (by omega)]
      rfl
    rw [h1]
    simp only [Nat.zero_mul, Nat.zero_add]
    congr 1
    have := colOf_chunk o j hj k (w.drop o) (by rw [List.length_drop]; omega)
    unfold colOf at this
    rw [this]
    apply List.map_congr_left
    intro i _
    simp only [Function.comp_apply, List.getD_eq_getElem?_getD, List.getElem?_drop]
    congr 2
    rw [Nat.succ_mul]
    omega

/-- What a layer does to one row, given its own weights. -/
def layerRow (l : NetLayer F) (w x : List F) : List F := netRow [l] w x

/-- The width of the output of a layer. -/
def layerOut (l : NetLayer F) (c : ℕ) : ℕ :=
  match l with
  | .linear _ o _ => o
  | .activ _ => c

/-- The layer accepts rows of width `c`. -/
def layerFits (l : NetLayer F) (c : ℕ) : Prop :=
  match l with
  | .linear k _ bias => (if bias then c + 1 else c) = k
  | .activ _ => True

theorem LinesUp_cons {l : NetLayer F} {ls : List (NetLayer F)} {c d : ℕ} : LinesUp (l :: ls) c d ↔ layerFits l c ∧ LinesUp ls (layerOut l c) d := by
  constructor
  · intro h
    cases h with
    | linear bias h rest => exact ⟨h, rest⟩
    | activ A rest => exact ⟨trivial, rest⟩
  · rintro ⟨h1, h2⟩
    cases l with
    | linear k o bias => exact .linear bias h1 h2
    | activ A => exact .activ A h2

theorem netRow_cons (l : NetLayer F) (ls : List (NetLayer F)) (w x : List F) :
    netRow (l :: ls) w x = netRow ls (w.drop l.numParams) (layerRow l w x) := by
  cases l <;> simp [netRow, layerRow, NetLayer.numParams, NetLayer.paramShape]

theorem hcat_ones (X : Mat F) : (Mat.ones X.rows.length 1).hcat X = ok ⟨X.cols + 1, X.rows.map (Scalar.one :: ·)⟩ := by
  unfold Mat.hcat Mat.ones
  simp only [List.length_replicate, if_true, Nat.add_comm 1]
  congr 2
  generalize X.rows = rs
  induction rs with
  | nil => rfl
  | cons r rs ih =>
    rw [List.length_cons, List.replicate_succ, List.zipWith_cons_cons, ih]
    rfl

theorem new_map {α : Type} (g : α → F) (c : ℕ) (rows : List (List α)) (h : ∀ r ∈ rows, r.length = c) :
    Mat.new rows.length c (rows.flatten.map g) = ok ⟨c, rows.map (List.map g)⟩ := by
  have h' : ∀ r ∈ rows.map (List.map g), r.length = c := by
    intro r hr
    obtain ⟨s, hs, rfl⟩ := List.mem_map.mp hr
    simp [h s hs]
  have hfl : (rows.map (List.map g)).flatten = rows.flatten.map g := by rw [List.map_flatten]
  have hlen : (rows.flatten.map g).length = rows.length * c := by
    rw [List.length_map, List.length_flatten]
    have : rows.map List.length = List.replicate rows.length c := by
      apply List.eq_replicate_iff.mpr
      simp
      exact fun r hr => h r hr
    rw [this, List.sum_replicate, smul_eq_mul]
  unfold Mat.new
  rw [if_pos hlen, ← hfl]
  have := chunk_flatten c (rows.map (List.map g)) h'
  rw [List.length_map] at this
  rw [this]

/-- A layer applied to fitting inputs acts row by row. -/
theorem forward_ok {l : NetLayer F} {w : List F} {start : ℕ} {n c : ℕ} {X P : Mat F} (hX : HasShape X n c)
    (hP : sliceAt w start l.paramShape = ok P) (hf : layerFits l c) :
    l.forward X P = ok ⟨layerOut l c, X.rows.map (layerRow l (w.drop start))⟩ := by
  unfold sliceAt at hP
  split at hP
  case isFalse => cases hP
  rename_i hle
  injection hP with hP
  subst hP
  cases l with
  | activ A =>
    simp only [NetLayer.forward, layerOut, layerRow]
    rw [hX.2.1]
    unfold Mat.data
    rw [new_map A.func c X.rows hX.2.2]
    rfl
  | linear k o bias =>
    simp only [layerFits] at hf
    simp only [NetLayer.paramShape] at hle ⊢
    have hk : k * o ≤ (w.drop start).length := by rw [List.length_drop]; omega
    have hrow : ∀ x : List F, (List.range o).map (fun j => dot x (colOf (chunk o k (w.drop start)) j)) =
        (List.range o).map (fun j => dot x ((List.range k).map fun i => (w.drop start).getD (i * o + j) Scalar.zero)) := by
      intro x
      apply List.map_congr_left
      intro j hj
      rw [colOf_chunk o j (List.mem_range.mp hj) k _ hk]
    cases bias with
    | true =>
      simp only [if_true] at hf
      simp only [NetLayer.forward, if_true, chunk_length, hX.2.1, hf, ne_eq, not_true_eq_false, if_false]
      rw [hcat_ones]
      simp only [ok_bind, Mat.mul, hX.2.1, chunk_length, hf, if_true, List.map_map]
      congr 2
      apply List.map_congr_left
      intro r _
      simp only [Function.comp_apply, hrow]
      rfl
    | false =>
      simp only [Bool.false_eq_true, if_false] at hf
      simp only [NetLayer.forward, Bool.false_eq_true, if_false, chunk_length, hX.2.1, hf, ne_eq, not_true_eq_false, Mat.mul, if_true]
      congr 2
      apply List.map_congr_left
      intro r _
      rw [hrow]
      rfl

theorem layerRow_length {l : NetLayer F} {w x : List F} {c : ℕ} (hx : x.length = c) : (layerRow l w x).length = layerOut l c := by
  cases l <;> simp [layerRow, netRow, layerOut, hx]

theorem map_shape {X : Mat F} {n c d : ℕ} (hX : HasShape X n c) (f : List F → List F) (hf : ∀ x : List F, x.length = c → (f x).length = d) :
    HasShape (⟨d, X.rows.map f⟩ : Mat F) n d := by
  refine ⟨by simp [hX.1], rfl, ?_⟩
  intro r hr
  obtain ⟨s, hs, rfl⟩ := List.mem_map.mp hr
  exact hf s (hX.2.2 s hs)

theorem totalParams_cons (l : NetLayer F) (ls : List (NetLayer F)) : totalParams (l :: ls) = l.numParams + totalParams ls := by
  cases l <;> simp [totalParams, NetLayer.numParams, NetLayer.paramShape]

theorem totalParams_nil : totalParams ([] : List (NetLayer F)) = 0 := rfl

theorem totalParams_append (a b : List (NetLayer F)) : totalParams (a ++ b) = totalParams a + totalParams b := by
  simp [totalParams]

theorem sum_numParams (ls : List (NetLayer F)) : (ls.map NetLayer.numParams).sum = totalParams ls := by
  induction ls with
  | nil => rfl
  | cons l ls ih => rw [List.map_cons, List.sum_cons, ih, totalParams_cons]

theorem netRow_length {ls : List (NetLayer F)} {c d : ℕ} (h : LinesUp ls c d) : ∀ (w x : List F), x.length = c → (netRow ls w x).length = d := by
  induction h with
  | nil c => intro w x hx; exact hx
  | linear bias h rest ih => intro w x hx; exact ih _ _ (by simp)
  | activ A rest ih => intro w x hx; exact ih _ _ (by simpa using hx)

theorem slice_exists {w : List F} {start : ℕ} {l : NetLayer F} (h : start + l.numParams ≤ w.length) :
    ∃ P, sliceAt w start l.paramShape = ok P := ⟨_, if_pos h⟩

theorem forwardRest_ok {w : List F} : ∀ (ls : List (NetLayer F)) (index n c d : ℕ) (X : Mat F), HasShape X n c → LinesUp ls c d →
    index + totalParams ls ≤ w.length → forwardRest w ls index X = ok ⟨d, X.rows.map (netRow ls (w.drop index))⟩
  | [], index, n, c, d, X, hX, h, _ => by
    cases h
    simp only [forwardRest, netRow, List.map_id']
    rw [← hX.2.1]
  | l :: ls, index, n, c, d, X, hX, h, hw => by
    rw [totalParams_cons] at hw
    obtain ⟨h1, h2⟩ := LinesUp_cons.mp h
    obtain ⟨P, hP⟩ := slice_exists (w := w) (start := index) (l := l) (by omega)
    have hfw := forward_ok hX hP h1
    simp only [forwardRest, hP, ok_bind, hfw]
    rw [forwardRest_ok ls (index + l.numParams) n _ d _ (map_shape hX _ fun x hx => layerRow_length hx) h2 (by omega)]
    congr 2
    rw [List.map_map]
    apply List.map_congr_left
    intro r _
    rw [Function.comp_apply, netRow_cons, List.drop_drop]

/-- The forward pass of a network whose layers line up. -/
theorem forwardProp_ok {net : BaseNet F} {n c d : ℕ} {X : Mat F} (hX : HasShape X n c) (h : LinesUp net.layers c d)
    (hw : net.weights.length = totalParams net.layers) :
    net.forwardProp X = ok ⟨d, X.rows.map (netRow net.layers net.weights)⟩ := by
  obtain ⟨ls, w, cr⟩ := net
  simp only at h hw ⊢
  cases ls with
  | nil =>
    cases h
    simp only [BaseNet.forwardProp, netRow, List.map_id']
    rw [← hX.2.1]
  | cons l ls =>
    rw [totalParams_cons] at hw
    obtain ⟨h1, h2⟩ := LinesUp_cons.mp h
    obtain ⟨P, hP⟩ := slice_exists (w := w) (start := 0) (l := l) (by omega)
    have hfw := forward_ok hX hP h1
    simp only [BaseNet.forwardProp, hP, ok_bind, hfw]
    rw [forwardRest_ok ls l.numParams n _ d _ (map_shape hX _ fun x hx => layerRow_length hx) h2 (by omega)]
    congr 2
    rw [List.map_map]
    apply List.map_congr_left
    intro r _
    rw [Function.comp_apply, netRow_cons, List.drop_zero]

theorem forward_misfit {l : NetLayer F} {w : List F} {start : ℕ} {n c : ℕ} {X P : Mat F} (hX : HasShape X n c)
    (hP : sliceAt w start l.paramShape = ok P) (hf : ¬layerFits l c) : l.forward X P = err .InvalidData := by
  unfold sliceAt at hP
  split at hP
  case isFalse => cases hP
  injection hP with hP
  subst hP
  cases l with
  | activ A => exact absurd trivial hf
  | linear k o bias =>
    simp only [layerFits] at hf
    cases bias with
    | true =>
      simp only [if_true] at hf
      simp only [NetLayer.forward, if_true, chunk_length, hX.2.1, NetLayer.paramShape]
      rw [if_pos hf]
    | false =>
      simp only [Bool.false_eq_true, if_false] at hf
      simp only [NetLayer.forward, Bool.false_eq_true, if_false, chunk_length, hX.2.1, NetLayer.paramShape]
      rw [if_pos hf]

theorem forwardRest_misfit {w : List F} {l : NetLayer F} {post : List (NetLayer F)} : ∀ (pre : List (NetLayer F)) (index n c d : ℕ) (X : Mat F), HasShape X n c →
    LinesUp pre c d → ¬layerFits l d → index + totalParams (pre ++ l :: post) ≤ w.length → forwardRest w (pre ++ l :: post) index X = err .InvalidParameters
  | [], index, n, c, d, X, hX, h, hf, hw => by
    cases h
    rw [List.nil_append, totalParams_cons] at hw
    obtain ⟨P, hP⟩ := slice_exists (w := w) (start := index) (l := l) (by omega)
    simp only [List.nil_append, forwardRest, hP, ok_bind, forward_misfit hX hP hf]
  | l' :: pre, index, n, c, d, X, hX, h, hf, hw => by
    rw [List.cons_append, totalParams_cons] at hw
    obtain ⟨h1, h2⟩ := LinesUp_cons.mp h
    obtain ⟨P, hP⟩ := slice_exists (w := w) (start := index) (l := l') (by omega)
    simp only [List.cons_append, forwardRest, hP, ok_bind, forward_ok hX hP h1]
    exact forwardRest_misfit pre _ n _ d _ (map_shape hX _ fun x hx => layerRow_length hx) h2 hf (by omega)

end
end RM
