import Verif.Spec.RowWise
import Verif.Proofs.NNet
import Verif.Proofs.KMeans
import Verif.Model.NaiveBayes
import Verif.Model.Svm
import Verif.Model.Glm
import Verif.Model.Pca
import Verif.Model.Gmm
import Verif.Model.KNN
import Verif.Model.Dbscan
import Verif.Model.Transforms

/-! Functions given by a function on the rows. -/

namespace RM
open Outcome Scalar Spec
variable {F : Type}

theorem mapM_eq_ok {α β : Type} {f : α → Outcome β} {l : List α} {r : List β} :
    l.mapM f = ok r ↔ List.Forall₂ (fun a b => f a = ok b) l r := ⟨mapM_forall₂', mapM_of_forall₂⟩

theorem mapM_singleton_ok {α β : Type} {f : α → Outcome β} {a : α} {b : β} : [a].mapM f = ok [b] ↔ f a = ok b := by
  rw [mapM_eq_ok]
  simp

/-- A first part that does not depend on the row. -/
theorem mapM_hoist {α β γ : Type} {A : Outcome γ} {k : α → γ → Outcome β} {l : List α} (hl : l ≠ []) {r : List β} :
    (l.mapM fun a => A >>= k a) = ok r ↔ ∃ c, A = ok c ∧ (l.mapM fun a => k a c) = ok r := by
  cases A with
  | ok c => simp
  | err e => cases l with
    | nil => exact absurd rfl hl
    | cons a l => simp [List.mapM_cons]
  | panic => cases l with
    | nil => exact absurd rfl hl
    | cons a l => simp [List.mapM_cons]
  | ub => cases l with
    | nil => exact absurd rfl hl
    | cons a l => simp [List.mapM_cons]

theorem mapM_comp {α β γ : Type} {g : α → Outcome γ} {k : γ → Outcome β} : ∀ {l : List α} {r : List β},
    (l.mapM fun a => g a >>= k) = ok r ↔ ∃ bs, l.mapM g = ok bs ∧ bs.mapM k = ok r := by
  intro l
  induction l with
  | nil => intro r; simp
  | cons a l ih =>
    intro r
    simp only [List.mapM_cons, bind_eq_ok, pure_eq, ok.injEq]
    constructor
    · rintro ⟨b, ⟨c, hc, hb⟩, rs, hrs, rfl⟩
      obtain ⟨bs, h1, h2⟩ := ih.mp hrs
      exact ⟨c :: bs, ⟨c, hc, bs, h1, rfl⟩, by simp [List.mapM_cons, hb, h2]⟩
    · rintro ⟨_, ⟨c, hc, bs, h1, rfl⟩, h2⟩
      simp only [List.mapM_cons, bind_eq_ok, pure_eq, ok.injEq] at h2
      obtain ⟨b, hb, rs, hrs, rfl⟩ := h2
      exact ⟨b, ⟨c, hc, hb⟩, rs, ih.mpr ⟨bs, h1, hrs⟩, rfl⟩

theorem mapM_pure {α β : Type} (g : α → β) (l : List α) : (l.mapM fun a => (ok (g a) : Outcome β)) = ok (l.map g) := by
  induction l with
  | nil => rfl
  | cons a l ih => simp [List.mapM_cons, ih]

/-- `f` applies `h` (which may look at the number of columns) to every row. -/
def PerRow {β : Type} (f : Mat F → Outcome (List β)) (h : ℕ → List F → Outcome β) : Prop :=
  ∀ X r, X.WF → X.rows ≠ [] → (f X = ok r ↔ X.rows.mapM (h X.cols) = ok r)

/-- The same for matrices; the result has `κ c` columns when the argument has `c`. -/
def PerRowMat (f : Mat F → Outcome (Mat F)) (κ : ℕ → ℕ) (h : ℕ → List F → Outcome (List F)) : Prop :=
  ∀ X Y, X.WF → X.rows ≠ [] → (f X = ok Y ↔ Y.cols = κ X.cols ∧ X.rows.mapM (h X.cols) = ok Y.rows)

theorem wf_row {X : Mat F} (hX : X.WF) {row : List F} (h : row ∈ X.rows) : (⟨X.cols, [row]⟩ : Mat F).WF := by
  intro r hr
  simp only [List.mem_singleton] at hr
  rw [hr]
  exact hX row h

theorem PerRow.rowWise {β : Type} {f : Mat F → Outcome (List β)} {h : ℕ → List F → Outcome β} (H : PerRow f h) : RowWise f := by
  intro X r hX hne
  rw [H X r hX hne, mapM_eq_ok]
  apply Iff.of_eq
  have : ∀ row ∈ X.rows, ∀ y, (h X.cols row = ok y) = (f ⟨X.cols, [row]⟩ = ok [y]) := by
    intro row hrow y
    rw [eq_iff_iff, H ⟨X.cols, [row]⟩ [y] (wf_row hX hrow) (by simp), mapM_singleton_ok]
  revert this
  generalize X.rows = l
  intro this
  induction l generalizing r with
  | nil => simp
  | cons a l ih =>
    cases r with
    | nil => simp
    | cons y r =>
      simp only [List.forall₂_cons]
      rw [this a (by simp), ih _ fun row hrow => this row (by simp [hrow])]

theorem PerRow.congr {β : Type} {f g : Mat F → Outcome (List β)} {h : ℕ → List F → Outcome β} (H : PerRow f h)
    (e : ∀ X r, X.WF → X.rows ≠ [] → (g X = ok r ↔ f X = ok r)) : RowWise g := by
  have : PerRow g h := by
    intro X r hX hne
    rw [e X r hX hne, H X r hX hne]
  exact this.rowWise

theorem PerRowMat.rowWise {f : Mat F → Outcome (Mat F)} {κ : ℕ → ℕ} {h : ℕ → List F → Outcome (List F)} (H : PerRowMat f κ h) :
    RowWiseMat f := by
  intro X Y hX hne
  rw [H X Y hX hne, mapM_eq_ok]
  have this : ∀ row ∈ X.rows, ∀ y, (f ⟨X.cols, [row]⟩ = ok ⟨Y.cols, [y]⟩) = (Y.cols = κ X.cols ∧ h X.cols row = ok y) := by
    intro row hrow y
    rw [eq_iff_iff, H ⟨X.cols, [row]⟩ ⟨Y.cols, [y]⟩ (wf_row hX hrow) (by simp), mapM_singleton_ok]
  have key : ∀ (l r : List (List F)), (∀ row ∈ l, row ∈ X.rows) →
      (List.Forall₂ (fun row y => f ⟨X.cols, [row]⟩ = ok ⟨Y.cols, [y]⟩) l r ↔
        (l = [] ∨ Y.cols = κ X.cols) ∧ List.Forall₂ (fun a b => h X.cols a = ok b) l r) := by
    intro l
    induction l with
    | nil => intro r _; simp
    | cons a l ih =>
      intro r hl
      cases r with
      | nil => simp
      | cons y r =>
        simp only [List.forall₂_cons]
        rw [this a (hl a (by simp)), ih r fun row hrow => hl row (by simp [hrow])]
        simp only [List.cons_ne_nil, false_or]
        tauto
  rw [key X.rows Y.rows fun _ h => h]
  simp [hne]

/-- Composition of two functions on the rows. -/
theorem PerRowMat.comp {f g : Mat F → Outcome (Mat F)} {κ μ : ℕ → ℕ} {h k : ℕ → List F → Outcome (List F)} (H : PerRowMat f κ h)
    (hlen : ∀ c x y, x.length = c → h c x = ok y → y.length = κ c) (K : PerRowMat g μ k) :
    PerRowMat (fun X => f X >>= g) (fun c => μ (κ c)) fun c x => h c x >>= k (κ c) := by
  intro X Y hX hne
  have hYY : ∀ rows, X.rows.mapM (h X.cols) = ok rows → (⟨κ X.cols, rows⟩ : Mat F).WF ∧ rows ≠ [] := by
    intro rows hr
    have h2 := mapM_eq_ok.mp hr
    constructor
    · intro y hy
      obtain ⟨i, hi, rfl⟩ := List.mem_iff_getElem.mp hy
      have hl := h2.length_eq
      replace hi : i < rows.length := hi
      have := (List.forall₂_iff_get.mp h2).2 i (by omega) hi
      exact hlen _ _ _ (hX _ (List.getElem_mem (by omega))) this
    · intro h0
      subst h0
      exact hne (List.forall₂_nil_right_iff.mp h2)
  rw [bind_eq_ok, mapM_comp]
  constructor
  · rintro ⟨Z, hZ, hg⟩
    obtain ⟨h1, h2⟩ := (H X Z hX hne).mp hZ
    obtain ⟨w, ne⟩ := hYY _ h2
    have hZ' : Z = ⟨κ X.cols, Z.rows⟩ := by rw [← h1]
    rw [hZ'] at hg
    obtain ⟨h3, h4⟩ := (K _ Y w ne).mp hg
    exact ⟨h3, Z.rows, h2, h4⟩
  · rintro ⟨h3, rows, h2, h4⟩
    obtain ⟨w, ne⟩ := hYY _ h2
    exact ⟨⟨κ X.cols, rows⟩, (H X _ hX hne).mpr ⟨rfl, h2⟩, (K _ Y w ne).mpr ⟨h3, h4⟩⟩

/-- A function with a condition on the number of columns and a total function of the rows. -/
theorem perRowMat_of_if {f : Mat F → Outcome (Mat F)} {κ : ℕ → ℕ} (p : ℕ → Prop) (g : ℕ → List F → List F)
    (h1 : ∀ X : Mat F, X.WF → X.rows ≠ [] → p X.cols → f X = ok ⟨κ X.cols, X.rows.map (g X.cols)⟩)
    (h2 : ∀ X : Mat F, X.WF → X.rows ≠ [] → ¬p X.cols → ∀ Y, f X ≠ ok Y) :
    ∃ h, PerRowMat f κ h ∧ ∀ c x y, h c x = ok y → y = g c x := by
  classical
  refine ⟨fun c x => if p c then ok (g c x) else .panic, ?_, ?_⟩
  · intro X Y hX hne
    by_cases hp : p X.cols
    · rw [h1 X hX hne hp]
      simp only [hp, if_true, mapM_pure, ok.injEq]
      constructor
      · rintro rfl; exact ⟨rfl, rfl⟩
      · rintro ⟨a, b⟩
        cases Y
        simp_all
    · simp only [hp, if_false]
      constructor
      · intro h; exact absurd h (h2 X hX hne hp Y)
      · rintro ⟨_, h⟩
        cases hr : X.rows with
        | nil => exact absurd hr hne
        | cons a l => rw [hr] at h; simp [List.mapM_cons] at h
  · intro c x y h
    by_cases hp : p c
    · simp only [hp, if_true, ok.injEq] at h; exact h.symm
    · simp [hp] at h

/-- The same for lists. -/
theorem perRow_of_if {β : Type} {f : Mat F → Outcome (List β)} (p : ℕ → Prop) (g : ℕ → List F → β)
    (h1 : ∀ X : Mat F, X.WF → X.rows ≠ [] → p X.cols → f X = ok (X.rows.map (g X.cols)))
    (h2 : ∀ X : Mat F, X.WF → X.rows ≠ [] → ¬p X.cols → ∀ Y, f X ≠ ok Y) : RowWise f := by
  classical
  refine PerRow.rowWise (h := fun c x => if p c then ok (g c x) else .panic) ?_
  intro X Y hX hne
  by_cases hp : p X.cols
  · rw [h1 X hX hne hp]
    simp only [hp, if_true, mapM_pure]
  · simp only [hp, if_false]
    constructor
    · intro h; exact absurd h (h2 X hX hne hp Y)
    · intro h
      cases hr : X.rows with
      | nil => exact absurd hr hne
      | cons a l => rw [hr] at h; simp [List.mapM_cons] at h

end RM
