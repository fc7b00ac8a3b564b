import Verif.Model.Calls
import Verif.Model.KMeans

/-! Computations that never report an error. -/

namespace RM
open Outcome Scalar
variable {F : Type} [Scalar F]

/-- The computation does not report an error. -/
def NoErr {α : Type} (o : Outcome α) : Prop := ∀ e, o ≠ err e

theorem NoErr.ok {α : Type} (a : α) : NoErr (Outcome.ok a) := fun _ h => by cases h
theorem NoErr.panic {α : Type} : NoErr (Outcome.panic : Outcome α) := fun _ h => by cases h
theorem NoErr.ub {α : Type} : NoErr (Outcome.ub : Outcome α) := fun _ h => by cases h

theorem NoErr.bind {α β : Type} {o : Outcome α} {f : α → Outcome β} (h : NoErr o) (hf : ∀ a, o = Outcome.ok a → NoErr (f a)) : NoErr (o >>= f) := by
  cases o with
  | ok a => exact hf a rfl
  | err e => exact absurd rfl (h e)
  | panic => exact .panic
  | ub => exact .ub

theorem NoErr.ite {α : Type} {p : Prop} [Decidable p] {a b : Outcome α} (ha : NoErr a) (hb : NoErr b) : NoErr (if p then a else b) := by
  split <;> assumption

theorem NoErr.mapM {α β : Type} {f : α → Outcome β} : ∀ {l : List α}, (∀ a ∈ l, NoErr (f a)) → NoErr (l.mapM f)
  | [], _ => .ok _
  | a :: l, h => by
    rw [List.mapM_cons]
    exact (h a List.mem_cons_self).bind fun b _ => (NoErr.mapM fun a ha => h a (List.mem_cons_of_mem _ ha)).bind fun _ _ => .ok _

theorem NoErr.foldlM {α β : Type} {f : β → α → Outcome β} : ∀ {l : List α} {b : β}, (∀ b a, NoErr (f b a)) → NoErr (l.foldlM f b)
  | [], _, _ => .ok _
  | a :: l, b, h => by
    rw [List.foldlM_cons]
    exact (h b a).bind fun b _ => NoErr.foldlM h

theorem noErr_getAt {α : Type} (l : List α) (i : ℕ) : NoErr (getAt l i) := by
  unfold getAt
  cases l[i]? with
  | none => exact .panic
  | some a => exact .ok _

theorem noErr_assert (b : Bool) : NoErr (assert b) := .ite (.ok _) .panic
theorem noErr_new (r c : ℕ) (d : List F) : NoErr (Mat.new r c d) := .ite (.ok _) .panic
theorem noErr_vecZip (f : F → F → F) (u v : List F) : NoErr (vecZip f u v) := .ite (.ok _) .panic
theorem noErr_zip (f : F → F → F) (a b : Mat F) : NoErr (Mat.zip f a b) := .ite (.ok _) .panic
theorem noErr_mul (a b : Mat F) : NoErr (a.mul b) := .ite (.ok _) .panic
theorem noErr_mulVec (a : Mat F) (v : List F) : NoErr (a.mulVec v) := .ite (.ok _) .panic
theorem noErr_expectOk {α : Type} (o : Outcome α) : NoErr (expectOk o) := by
  cases o
  · exact .ok _
  · exact .panic
  · exact .panic
  · exact .ub

theorem noErr_argminBy {α : Type} (lt : α → α → Bool) (l : List α) : NoErr (argminBy lt l) := by
  cases l
  · exact .panic
  · exact .ok _

theorem noErr_selectRows (m : Mat F) (idx : List ℕ) : NoErr (m.selectRows idx) :=
  (NoErr.mapM fun i _ => noErr_getAt _ _).bind fun _ _ => .ok _

theorem noErr_findClosest (c X : Mat F) : NoErr (findClosest c X) :=
  (NoErr.mapM fun r _ => (noErr_zip _ _ _).bind fun _ _ => (noErr_zip _ _ _).bind fun _ _ => noErr_argminBy _ _).bind fun _ _ => .ok _

theorem noErr_updateCentroids (k : ℕ) (X : Mat F) (cl : List ℕ) : NoErr (updateCentroids k X cl) :=
  (NoErr.mapM fun r _ => (noErr_selectRows _ _).bind fun _ _ => .ok _).bind fun _ _ => noErr_new _ _ _

theorem noErr_kmLoop (k : ℕ) (X : Mat F) : ∀ (n : ℕ) (cost : F) (c : Mat F), NoErr (kmLoop k X n cost c)
  | 0, _, _ => .ok _
  | n + 1, cost, c => (noErr_findClosest c X).bind fun _ _ => (noErr_updateCentroids _ _ _).bind fun _ _ =>
      .ite (.ok _) (noErr_kmLoop k X n _ _)

/-! ### Mixture models -/

theorem noErr_reservoirLoop {α : Type} (r : ℕ → ℕ) (k : ℕ) : ∀ (l : List α) (i j : ℕ) (acc : List α), NoErr (reservoirLoop r k l i j acc)
  | [], _, _, _ => .ok _
  | p :: l, i, j, acc => by
    unfold reservoirLoop
    refine NoErr.bind (.ite (.ok _) .panic) fun x _ => ?_
    split
    · exact NoErr.bind (.ite (.ok _) .panic) fun res _ => noErr_reservoirLoop r k l _ _ _
    · exact NoErr.bind (.ok _) fun res _ => noErr_reservoirLoop r k l _ _ _

theorem noErr_reservoirSample {α : Type} (r : ℕ → ℕ) (l : List α) (k : ℕ) : NoErr (reservoirSample r l k) :=
  (noErr_assert _).bind fun _ _ => noErr_reservoirLoop _ _ _ _ _ _

theorem noErr_fromLinalg {α : Type} {o : Outcome α} (h : NoErr o) : NoErr (fromLinalg o) := by
  cases o with
  | err e => exact absurd rfl (h e)
  | ok a => exact .ok _
  | panic => exact .panic
  | ub => exact .ub

theorem noErr_memberships {lup : Mat F → Outcome (F × Outcome (Mat F))} (hl : ∀ A d r, lup A = ok (d, r) → NoErr r) (m : Gmm F) (X : Mat F) :
    NoErr (m.memberships lup X) := by
  refine NoErr.bind (.mapM fun c _ => ?_) fun parts _ => ?_
  · refine (noErr_expectOk _).bind fun p hp => (noErr_fromLinalg ?_).bind fun _ _ => .ok _
    cases e : lup c with
    | ok q => rw [e] at hp; cases hp; exact hl c _ _ e
    | err _ => rw [e] at hp; cases hp
    | panic => rw [e] at hp; cases hp
    | ub => rw [e] at hp; cases hp
  · split
    · exact .ite (.ok _) .panic
    · refine NoErr.bind (.mapM fun x _ => ?_) fun _ _ => .ok _
      refine NoErr.bind (.mapM fun j _ => ?_) fun pdfs _ => NoErr.bind (.mapM fun i _ => ?_) fun _ _ => .ok _
      · exact (noErr_getAt _ _).bind fun mu _ => (noErr_getAt _ _).bind fun p _ => (noErr_vecZip _ _ _).bind fun _ _ =>
          (noErr_mul _ _).bind fun _ _ => (noErr_mul _ _).bind fun _ _ => (noErr_getAt _ _).bind fun _ _ => .ok _
      · exact (noErr_getAt _ _).bind fun _ _ => (noErr_getAt _ _).bind fun _ _ => .ok _

theorem noErr_update (m : Gmm F) (X W : Mat F) : NoErr (m.update X W) := by
  refine (noErr_mul _ _).bind fun _ _ => NoErr.bind (.mapM fun k _ => ?_) fun _ _ => .ok _
  refine (noErr_getAt _ _).bind fun mu _ => NoErr.bind (.foldlM fun acc i => ?_) fun cov _ => NoErr.bind ?_ fun _ _ =>
    (noErr_getAt _ _).bind fun _ _ => .ok _
  · refine (noErr_getAt _ _).bind fun x _ => (noErr_vecZip _ _ _).bind fun diff _ => (noErr_getAt _ _).bind fun wr _ =>
      (noErr_getAt _ _).bind fun w _ => NoErr.bind ?_ fun c _ => noErr_zip _ _ _
    unfold computeCov
    split
    · exact (noErr_vecZip _ _ _).bind fun _ _ => .ok _
    · exact (noErr_mul _ _).bind fun _ _ => .ok _
  · unfold addReg
    split
    · exact noErr_zip _ _ _
    · exact .ok _

theorem emCalls_err {lup : Mat F → Outcome (F × Outcome (Mat F))} (hl : ∀ A d r, lup A = ok (d, r) → NoErr r) (X : Mat F) :
    ∀ (n : ℕ) (m : Gmm F), NoErr (m.emCalls lup X n).2
  | 0, _ => .ok _
  | n + 1, m => by
    rw [Gmm.emCalls]
    split
    · split
      · exact .ok _
      · split
        · exact emCalls_err hl X n _
        · rename_i h; exact absurd h (noErr_update _ _ _ _)
        · exact .panic
        · exact .ub
    · rename_i h; exact absurd h (noErr_memberships hl _ _ _)
    · exact .panic
    · exact .ub

/-- The loop on the model itself and `Gmm.emLoop` agree on success. -/
theorem emCalls_ok (lup : Mat F → Outcome (F × Outcome (Mat F))) (X : Mat F) :
    ∀ (n : ℕ) (m m' : Gmm F), m.emCalls lup X n = (m', ok ()) ↔ Gmm.emLoop lup X n m = ok m'
  | 0, m, m' => by simp [Gmm.emCalls, Gmm.emLoop]
  | n + 1, m, m' => by
    rw [Gmm.emCalls, Gmm.emLoop, Gmm.emStep]
    cases e : m.memberships lup X with
    | ok wl =>
      obtain ⟨w, l⟩ := wl
      simp only [ok_bind]
      split
      · simp
      · cases e' : Gmm.update { m with logLik := l } X w with
        | ok m1 => simpa using emCalls_ok lup X n m1 m'
        | err _ => simp
        | panic => simp
        | ub => simp
    | err _ => simp
    | panic => simp
    | ub => simp

end RM
