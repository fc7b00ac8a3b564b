import Verif.Spec.Safe
import Verif.Model.KMeans
import Verif.Model.LinReg
import Verif.Base.Solve
import Verif.Proofs.KMeans
import Verif.Proofs.NNet

/-! Rules for calls that do not crash. -/

namespace RM
open Outcome Scalar Spec

variable {α β F : Type}

namespace Spec.Safe
variable {P : α → Prop} {Q : β → Prop}

theorem ok' {a : α} (h : P a) : Safe P (Outcome.ok a) := h
theorem err' (e : ErrorKind) : Safe P (Outcome.err e) := trivial

theorem of_eq {o : Outcome α} {a : α} (h : o = Outcome.ok a) (hP : P a) : Safe P o := by rw [h]; exact hP

theorem mono {P' : α → Prop} {o : Outcome α} (h : Safe P o) (hp : ∀ a, P a → P' a) : Safe P' o := by
  cases o
  · exact hp _ h
  · trivial
  · exact h
  · exact h

theorem bind {o : Outcome α} {f : α → Outcome β} (h : Safe P o) (hf : ∀ a, P a → Safe Q (f a)) : Safe Q (o >>= f) := by
  cases o
  · exact hf _ h
  · trivial
  · exact h.elim
  · exact h.elim

theorem and_eq {o : Outcome α} (h : Safe P o) : Safe (fun a => o = Outcome.ok a ∧ P a) o := by
  cases o
  · exact ⟨rfl, h⟩
  · trivial
  · exact h
  · exact h

theorem returns {o : Outcome α} (h : Safe P o) : o.returns := by
  cases o <;> first | trivial | exact h.elim

theorem of_ok {o : Outcome α} {a : α} (h : Safe P o) (ho : o = Outcome.ok a) : P a := by rw [ho] at h; exact h

theorem mapM {f : α → Outcome β} : ∀ {l : List α}, (∀ a ∈ l, Safe Q (f a)) →
    Safe (fun r => r.length = l.length ∧ ∀ b ∈ r, Q b) (l.mapM f)
  | [], _ => by
    rw [List.mapM_nil]
    exact ⟨rfl, by simp⟩
  | a :: l, h => by
    rw [List.mapM_cons]
    refine bind (h a List.mem_cons_self) fun b hb => bind (mapM fun a ha => h a (List.mem_cons_of_mem _ ha)) fun r hr => ?_
    exact ⟨by simp [hr.1], by intro x hx; rcases List.mem_cons.mp hx with rfl | hx; exacts [hb, hr.2 _ hx]⟩

theorem foldlM {f : β → α → Outcome β} : ∀ {l : List α} {b : β}, Q b → (∀ b, ∀ a ∈ l, Q b → Safe Q (f b a)) → Safe Q (l.foldlM f b)
  | [], _, hb, _ => hb
  | a :: l, b, hb, h => by
    rw [List.foldlM_cons]
    exact bind (h b a List.mem_cons_self hb) fun b' hb' => foldlM hb' fun b a ha => h b a (List.mem_cons_of_mem _ ha)

theorem getAt {l : List α} {i : ℕ} (h : i < l.length) : Safe (fun a => a ∈ l) (getAt l i) := by
  unfold RM.getAt
  rw [List.getElem?_eq_getElem h]
  exact List.getElem_mem h

theorem setAt {l : List α} {i : ℕ} {x : α} (h : i < l.length) : Safe (fun r => r = l.set i x) (setAt l i x) := by
  unfold RM.setAt
  rw [if_pos h]
  exact rfl

theorem assert {b : Bool} (h : b = true) : Safe (fun _ => True) (Outcome.assert b) := by subst h; trivial

theorem genRange {raw hi : ℕ} (h : 0 < hi) : Safe (fun i => i < hi) (genRange raw 0 hi) := by
  unfold RM.genRange
  rw [if_pos h]
  show _ < _
  rw [Nat.zero_add, Nat.sub_zero]
  exact Nat.mod_lt raw h

theorem fromLinalg {o : Outcome α} (h : Safe P o) : Safe P (fromLinalg o) := by
  cases o
  · exact h
  · trivial
  · exact h
  · exact h

theorem argminBy {lt : α → α → Bool} {l : List α} (h : l ≠ []) : Safe (fun r => r.1 < l.length) (argminBy lt l) := by
  cases l with
  | nil => exact absurd rfl h
  | cons v vs =>
    have : RM.argminBy lt (v :: vs) = Outcome.ok (argAux (fun best x => lt x best) v 0 1 vs) := rfl
    exact of_eq this (argminBy_lt lt this)

theorem argmaxBy {lt : α → α → Bool} {l : List α} (h : l ≠ []) : Safe (fun r => r.1 < l.length) (argmaxBy lt l) := by
  cases l with
  | nil => exact absurd rfl h
  | cons v vs =>
    refine ok' ?_
    have := argAux_lt (fun best x => lt best x) v 0 1 vs (by omega)
    simp only [List.length_cons]; omega

end Spec.Safe

/-! ### Matrices -/

theorem shape_of_wf {X : Mat F} (h : X.WF) : HasShape X X.rows.length X.cols := ⟨rfl, rfl, h⟩

theorem transposeRows_length (c : ℕ) (rows : List (List F)) (h : ∀ r ∈ rows, r.length = c) : ∀ r ∈ transposeRows c rows, r.length = rows.length := by
  intro r hr
  obtain ⟨j, hj, rfl⟩ := List.mem_map.mp hr
  rw [List.mem_range] at hj
  clear hr
  induction rows with
  | nil => rfl
  | cons a l ih =>
    have ha : a[j]? = some (a[j]'(by rw [h a List.mem_cons_self]; exact hj)) := List.getElem?_eq_getElem _
    rw [List.filterMap_cons, ha]
    simp [ih fun r hr => h r (List.mem_cons_of_mem _ hr)]

theorem HasShape.transpose {X : Mat F} {n c : ℕ} (h : HasShape X n c) : HasShape X.transpose c n := by
  obtain ⟨h1, h2, h3⟩ := h
  refine ⟨by simp [Mat.transpose, transposeRows, h2], h1, ?_⟩
  intro r hr
  rw [← h1]
  exact transposeRows_length X.cols X.rows (by rw [h2]; exact h3) r hr

theorem HasShape.map [Scalar F] {X : Mat F} {n c : ℕ} (h : HasShape X n c) (f : F → F) : HasShape (X.map f) n c := by
  refine ⟨by simp [Mat.map, h.1], h.2.1, ?_⟩
  intro r hr
  obtain ⟨s, hs, rfl⟩ := List.mem_map.mp hr
  simp [h.2.2 s hs]

theorem HasShape.wf {X : Mat F} {n c : ℕ} (h : HasShape X n c) : X.WF := by
  intro r hr
  rw [h.2.1]; exact h.2.2 r hr

theorem HasShape.dataLength {X : Mat F} {n c : ℕ} (h : HasShape X n c) : X.data.length = n * c := by
  have := flatten_length_const c X.rows h.2.2
  rw [h.1] at this
  exact this

namespace Spec.Safe
variable [Scalar F]

omit [Scalar F] in
theorem vecZip {f : F → F → F} {u v : List F} {n : ℕ} (hu : u.length = n) (hv : v.length = n) :
    Safe (fun r => r.length = n) (vecZip f u v) := by
  unfold RM.vecZip
  rw [if_pos (by rw [hu, hv])]
  show (List.zipWith f u v).length = n
  simp [hu, hv]

theorem zip {f : F → F → F} {A B : Mat F} {n c : ℕ} (hA : HasShape A n c) (hB : HasShape B n c) :
    Safe (fun M => HasShape M n c) (A.zip f B) := by
  unfold Mat.zip
  rw [if_pos ⟨by rw [hA.1, hB.1], by rw [hA.2.1, hB.2.1]⟩]
  refine ⟨by simp [hA.1, hB.1], hA.2.1, ?_⟩
  intro r hr
  obtain ⟨i, hi, rfl⟩ := List.mem_iff_getElem.mp hr
  simp only [List.length_zipWith] at hi
  rw [List.getElem_zipWith, List.length_zipWith, hA.2.2 _ (List.getElem_mem _), hB.2.2 _ (List.getElem_mem _), Nat.min_self]

theorem mul {A B : Mat F} {n m p : ℕ} (hA : HasShape A n m) (hB : HasShape B m p) : Safe (fun M => HasShape M n p) (A.mul B) := by
  unfold Mat.mul
  rw [if_pos (by rw [hA.2.1, hB.1])]
  refine ⟨by simp [hA.1], hB.2.1, ?_⟩
  intro r hr
  obtain ⟨a, ha, rfl⟩ := List.mem_map.mp hr
  simp [hB.2.1]

theorem mulVec {A : Mat F} {v : List F} {n m : ℕ} (hA : HasShape A n m) (hv : v.length = m) : Safe (fun r => r.length = n) (A.mulVec v) := by
  unfold Mat.mulVec
  rw [if_pos (by rw [hA.2.1, hv])]
  show (A.rows.map _).length = n
  simp [hA.1]

theorem new {n c : ℕ} {data : List F} (h : data.length = n * c) : Safe (fun M => HasShape M n c) (Mat.new n c data) := by
  unfold Mat.new
  rw [if_pos h]
  exact ⟨chunk_length _ _ _, rfl, chunk_row_length _ _ _ (by omega)⟩

theorem new_flatten {n c : ℕ} {rows : List (List F)} (hn : rows.length = n) (h : ∀ r ∈ rows, r.length = c) :
    Safe (fun M => HasShape M n c) (Mat.new n c rows.flatten) :=
  new (by rw [flatten_length_const c rows h, hn])

theorem selectRows {X : Mat F} {n c : ℕ} (hX : HasShape X n c) {idx : List ℕ} (h : ∀ i ∈ idx, i < n) :
    Safe (fun M => HasShape M idx.length c) (X.selectRows idx) := by
  unfold Mat.selectRows
  refine bind (mapM (Q := fun r : List F => r.length = c) fun i hi => ?_) fun rows hr => ?_
  · exact (getAt (by rw [hX.1]; exact h i hi)).mono fun r hr => hX.2.2 r hr
  · exact ⟨hr.1, hX.2.1, hr.2⟩

theorem withOnes {X : Mat F} {n c : ℕ} (hX : HasShape X n c) : Safe (fun M => HasShape M n (c + 1)) (withOnes X) := by
  refine of_eq (hcat_ones X) ⟨by simp [hX.1], by simp [hX.2.1], ?_⟩
  intro r hr
  obtain ⟨s, hs, rfl⟩ := List.mem_map.mp hr
  simp [hX.2.2 s hs]

end Spec.Safe

/-! ### Computations that call a model -/

namespace SafeLog
variable {C : Type} {P : α → Prop} {Q : β → Prop}

theorem pure {a : α} (h : P a) : Safe P (pure a : Logged C α).out := h

theorem bind {x : Logged C α} {f : α → Logged C β} (h : Safe P x.out) (hf : ∀ a, P a → Safe Q (f a).out) : Safe Q (x >>= f).out := by
  rw [Logged.bind_def, Logged.bind]
  cases e : x.out with
  | ok a => rw [e] at h; exact hf a h
  | err _ => trivial
  | panic => rw [e] at h; exact h.elim
  | ub => rw [e] at h; exact h.elim

end SafeLog

end RM
