import Verif.Base.Outcome

/-!
# Computations that call a user-supplied model

Optimisers call `compute_grad` of a model they are given. The calls they make are observable (the model is user code), so
the model of an optimiser returns the list of calls together with the outcome.
-/

namespace RM
open Outcome

/-- The calls made, in order, and the outcome. -/
structure Logged (C α : Type) where
  log : List C
  out : Outcome α

namespace Logged
variable {C α β : Type}

/-- Sequencing: the second computation runs only when the first returned a value. -/
def bind (x : Logged C α) (f : α → Logged C β) : Logged C β :=
  match x.out with
  | .ok a => ⟨x.log ++ (f a).log, (f a).out⟩
  | .err k => ⟨x.log, .err k⟩
  | .panic => ⟨x.log, .panic⟩
  | .ub => ⟨x.log, .ub⟩

instance : Monad (Logged C) where
  pure a := ⟨[], .ok a⟩
  bind := bind

/-- A computation that makes no calls. -/
def lift (x : Outcome α) : Logged C α := ⟨[], x⟩

/-- One recorded call. -/
def call (c : C) (x : Outcome α) : Logged C α := ⟨[c], x⟩

@[simp] theorem pure_def (a : α) : (pure a : Logged C α) = ⟨[], .ok a⟩ := rfl
theorem bind_def (x : Logged C α) (f : α → Logged C β) : (x >>= f) = bind x f := rfl

theorem bind_ok {x : Logged C α} {f : α → Logged C β} {a : α} (h : x.out = .ok a) :
    (x >>= f) = ⟨x.log ++ (f a).log, (f a).out⟩ := by
  rw [bind_def, bind, h]

@[simp] theorem mk_ok_bind (l : List C) (a : α) (f : α → Logged C β) :
    ((⟨l, .ok a⟩ : Logged C α) >>= f) = ⟨l ++ (f a).log, (f a).out⟩ := rfl

@[simp] theorem lift_ok_bind (a : α) (f : α → Logged C β) : ((lift (.ok a) : Logged C α) >>= f) = f a := rfl
@[simp] theorem call_ok_bind (c : C) (a : α) (f : α → Logged C β) :
    ((call c (.ok a) : Logged C α) >>= f) = ⟨c :: (f a).log, (f a).out⟩ := rfl

/-- The log of a bind is the first log, possibly followed by the second. -/
theorem log_bind_length (x : Logged C α) (f : α → Logged C β) (n m : ℕ) (hx : x.log.length ≤ n)
    (hf : ∀ a, x.out = .ok a → (f a).log.length ≤ m) : (x >>= f).log.length ≤ n + m := by
  rw [bind_def, bind]
  split
  · rename_i a h
    have := hf a h
    simp only [List.length_append]
    omega
  · exact hx.trans (Nat.le_add_right _ _)
  · exact hx.trans (Nat.le_add_right _ _)
  · exact hx.trans (Nat.le_add_right _ _)

@[simp] theorem lift_log (x : Outcome α) : (lift x : Logged C α).log = [] := rfl
@[simp] theorem lift_out (x : Outcome α) : (lift x : Logged C α).out = x := rfl
@[simp] theorem call_log (c : C) (x : Outcome α) : (call c x : Logged C α).log = [c] := rfl
@[simp] theorem call_out (c : C) (x : Outcome α) : (call c x : Logged C α).out = x := rfl

end Logged
end RM
