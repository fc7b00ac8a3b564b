import Mathlib.Data.List.Perm.Basic
import Mathlib.Tactic.Ring
import Mathlib.Tactic.Linarith
import Mathlib.Tactic.Common

/-!
# Outcomes of a Rust call

A call of a library function can return a value, return `Err(kind)`, panic, or (inside `unsafe` code)
run into undefined behaviour. All four are explicit values of the model.
-/

namespace RM

/-- `ErrorKind`, src/learning/error.rs lines 22-34. -/
inductive ErrorKind
  | InvalidParameters
  | InvalidData
  | InvalidState
  | UntrainedModel
  | LinearAlgebra
  deriving DecidableEq, Repr

/-- The result of running a (terminating) Rust call.
`ok`/`err` are `LearningResult`'s `Ok`/`Err` (`LearningResult`, src/lib.rs line 150), `panic` is an unwinding panic,
`ub` is undefined behaviour reached through `unsafe` code (e.g. reading uninitialised memory). -/
inductive Outcome (α : Type)
  | ok (a : α)
  | err (k : ErrorKind)
  | panic
  | ub
  deriving DecidableEq, Repr

namespace Outcome

variable {α β γ : Type}

/-- Sequencing: `?` on errors, unwinding on panics. -/
@[simp] def bind : Outcome α → (α → Outcome β) → Outcome β
  | ok a, f => f a
  | err k, _ => err k
  | panic, _ => panic
  | ub, _ => ub

instance : Monad Outcome where
  pure := ok
  bind := bind

@[simp] theorem pure_eq (a : α) : (pure a : Outcome α) = ok a := rfl
theorem bind_def (x : Outcome α) (f : α → Outcome β) : (x >>= f) = bind x f := rfl
@[simp] theorem ok_bind (a : α) (f : α → Outcome β) : (ok a >>= f) = f a := rfl
@[simp] theorem err_bind (k : ErrorKind) (f : α → Outcome β) : ((err k : Outcome α) >>= f) = err k := rfl
@[simp] theorem panic_bind (f : α → Outcome β) : ((panic : Outcome α) >>= f) = panic := rfl
@[simp] theorem ub_bind (f : α → Outcome β) : ((ub : Outcome α) >>= f) = ub := rfl

instance : LawfulMonad Outcome := LawfulMonad.mk'
  (id_map := by intro α x; cases x <;> rfl)
  (pure_bind := by intros; rfl)
  (bind_assoc := by intro α β γ x f g; cases x <;> rfl)
  (bind_pure_comp := by intro α β f x; cases x <;> rfl)

@[simp] theorem ok_map (f : α → β) (a : α) : f <$> (ok a : Outcome α) = ok (f a) := rfl

/-- A successful bind had a successful first part. -/
theorem bind_eq_ok {x : Outcome α} {f : α → Outcome β} {b : β} :
    (x >>= f) = ok b ↔ ∃ a, x = ok a ∧ f a = ok b := by
  cases x <;> simp [bind_def]

/-- `Option` produced by a bounds-checked access: `None` is a panic. -/
def ofOption : Option α → Outcome α
  | some a => ok a
  | none => panic

@[simp] theorem ofOption_some (a : α) : ofOption (some a) = ok a := rfl
@[simp] theorem ofOption_none : ofOption (none : Option α) = panic := rfl
theorem ofOption_eq_ok {o : Option α} {a : α} : ofOption o = ok a ↔ o = some a := by
  cases o <;> simp [ofOption]

/-- `assert!(b)`. -/
def assert (b : Bool) : Outcome Unit := if b then ok () else panic

@[simp] theorem assert_true : assert true = ok () := rfl
@[simp] theorem assert_false : assert false = panic := rfl
theorem assert_eq_ok {b : Bool} {u : Unit} : assert b = ok u ↔ b = true := by
  cases b <;> simp [assert]

/-- Did the call return normally (with a value or an `Err`)? -/
def returns : Outcome α → Prop
  | ok _ => True
  | err _ => True
  | _ => False

end Outcome

open Outcome

/-- `rng.gen_range(lo, hi)` of the `rand` crate (external): a value in `[lo, hi)`, panics when `lo >= hi`.
The raw random number is an explicit argument; every value of `[lo,hi)` is the image of some raw number. -/
def genRange (raw lo hi : ℕ) : Outcome ℕ :=
  if lo < hi then ok (lo + raw % (hi - lo)) else panic

/-- `slice.swap(i, j)` of `std` (external): panics when an index is out of bounds. -/
def swapAt {α : Type} (l : List α) (i j : ℕ) : Outcome (List α) :=
  match l[i]?, l[j]? with
  | some a, some b => ok ((l.set i b).set j a)
  | _, _ => panic

/-- Bounds-checked `v[i] = x`. -/
def setAt {α : Type} (l : List α) (i : ℕ) (x : α) : Outcome (List α) :=
  if i < l.length then ok (l.set i x) else panic

/-- Bounds-checked `v[i]`. -/
def getAt {α : Type} (l : List α) (i : ℕ) : Outcome α := ofOption l[i]?

end RM
