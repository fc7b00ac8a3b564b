import Verif.Proofs.RowWise
import Verif.Model.LinReg
import Verif.Spec.RowOrder

/-! Sums over samples do not depend on their order. -/

namespace RM
open Outcome Scalar Spec
variable {F : Type} [Scalar F]

theorem fsum_perm [SumsReorder F] {l l' : List F} (h : l.Perm l') : fsum l = fsum l' := by
  unfold fsum
  exact h.foldl_eq' (fun a _ b _ z => SumsReorder.add_right_comm z a b) _

theorem fsum_map_perm [SumsReorder F] {σ : Type} {S S' : List σ} (h : S.Perm S') (f : σ → F) : fsum (S.map f) = fsum (S'.map f) :=
  fsum_perm (h.map f)

theorem colOf_map {σ : Type} (S : List σ) (g : σ → List F) {c j : ℕ} (hg : ∀ s ∈ S, (g s).length = c) (hj : j < c) :
    colOf (S.map g) j = S.map fun s => (g s).getD j Scalar.zero := by
  unfold colOf
  induction S with
  | nil => rfl
  | cons s S ih =>
    have h : j < (g s).length := by rw [hg s List.mem_cons_self]; exact hj
    rw [List.map_cons, List.map_cons, List.filterMap_cons, ih fun s hs => hg s (List.mem_cons_of_mem _ hs)]
    simp [List.getElem?_eq_getElem h, List.getD_eq_getElem?_getD]

theorem transpose_map {σ : Type} (S : List σ) (g : σ → List F) {c : ℕ} (hg : ∀ s ∈ S, (g s).length = c) :
    Mat.transpose ⟨c, S.map g⟩ = ⟨S.length, (List.range c).map fun j => S.map fun s => (g s).getD j Scalar.zero⟩ := by
  unfold Mat.transpose transposeRows
  rw [List.length_map]
  congr 1
  refine List.map_congr_left fun j hj => ?_
  exact colOf_map S g hg (List.mem_range.mp hj)

theorem zipWith_map_same {σ α β γ : Type} (S : List σ) (a : σ → α) (b : σ → β) (f : α → β → γ) :
    List.zipWith f (S.map a) (S.map b) = S.map fun s => f (a s) (b s) := by
  induction S with
  | nil => rfl
  | cons s S ih => simp [ih]

theorem vecZip_map {σ : Type} (S : List σ) (a b : σ → F) (f : F → F → F) :
    vecZip f (S.map a) (S.map b) = ok (S.map fun s => f (a s) (b s)) := by
  unfold vecZip
  rw [if_pos (by simp), zipWith_map_same]

theorem mulVec_map {σ : Type} (S : List σ) (g : σ → List F) (c : ℕ) (v : List F) :
    Mat.mulVec ⟨c, S.map g⟩ v = if c = v.length then ok (S.map fun s => dot (g s) v) else panic := by
  unfold Mat.mulVec
  simp [Function.comp_def]

theorem tmul_map {σ : Type} (S : List σ) (h : ℕ → σ → F) (g : σ → List F) {c d : ℕ} (hg : ∀ s ∈ S, (g s).length = d) :
    Mat.mul ⟨S.length, (List.range c).map fun i => S.map (h i)⟩ ⟨d, S.map g⟩ =
      ok ⟨d, (List.range c).map fun i => (List.range d).map fun j => fsum (S.map fun s => h i s *. (g s).getD j Scalar.zero)⟩ := by
  unfold Mat.mul
  rw [if_pos (by simp)]
  congr 2
  rw [List.map_map]
  refine List.map_congr_left fun i _ => ?_
  refine List.map_congr_left fun j hj => ?_
  rw [colOf_map S g hg (List.mem_range.mp hj), dot, zipWith_map_same]

theorem tmulVec_map {σ : Type} (S : List σ) (h : ℕ → σ → F) (c : ℕ) (y : σ → F) :
    Mat.mulVec ⟨S.length, (List.range c).map fun i => S.map (h i)⟩ (S.map y) =
      ok ((List.range c).map fun i => fsum (S.map fun s => h i s *. y s)) := by
  unfold Mat.mulVec
  rw [if_pos (by simp)]
  congr 1
  rw [List.map_map]
  refine List.map_congr_left fun i _ => ?_
  show dot _ _ = _
  rw [dot, zipWith_map_same]

/-- The inputs with a column of ones. -/
def fullOfS {β : Type} (c : ℕ) (S : List (List F × β)) : Mat F := ⟨c + 1, S.map fun s => Scalar.one :: s.1⟩

theorem withOnes_samples {β : Type} (c : ℕ) (S : List (List F × β)) : withOnes (inputsOf c S) = ok (fullOfS c S) := by
  rw [withOnes, hcat_ones]
  simp [inputsOf, fullOfS, Function.comp_def]

theorem full_length {β : Type} {c : ℕ} {S : List (List F × β)} (hS : ∀ s ∈ S, s.1.length = c) :
    ∀ s ∈ S, (Scalar.one :: s.1 : List F).length = c + 1 := fun s hs => by simp [hS s hs]

theorem fullOfS_transpose {β : Type} {c : ℕ} {S : List (List F × β)} (hS : ∀ s ∈ S, s.1.length = c) :
    (fullOfS c S).transpose = ⟨S.length, (List.range (c + 1)).map fun j => S.map fun s => (Scalar.one :: s.1).getD j Scalar.zero⟩ :=
  transpose_map S _ (full_length hS)

end RM
