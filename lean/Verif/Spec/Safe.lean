import Verif.Spec.Calculus
import Verif.Model.Optim
import Verif.Model.Kernel

/-! What it means that a call does not crash. Nothing here mentions the arithmetic: the numbers may be anything the number type
has, infinities and NaN included. -/

namespace RM.Spec
open RM Outcome

variable {α F : Type}

/-- The call returns: with a value that satisfies `P`, or with an error. It does not panic, and no undefined behaviour is
reached. -/
def Safe (P : α → Prop) : Outcome α → Prop
  | .ok a => P a
  | .err _ => True
  | .panic => False
  | .ub => False

/-- A solver of square systems that may fail with an error but does not crash. -/
def SafeSolver (solve : Mat F → List F → Outcome (List F)) : Prop :=
  ∀ (A : Mat F) (b : List F) (n : ℕ), HasShape A n n → b.length = n → Safe (fun x => x.length = n) (solve A b)

/-- A function from square matrices to square matrices of the same size that may fail with an error but does not crash. -/
def SafeSquare (f : Mat F → Outcome (Mat F)) : Prop :=
  ∀ (A : Mat F) (n : ℕ), HasShape A n n → Safe (fun B => HasShape B n n) (f A)

/-- A model whose gradient can be computed at every parameter vector of length `d`. -/
def SafeGrad (d : ℕ) (g : List F → Outcome (F × List F)) : Prop :=
  ∀ w : List F, w.length = d → Safe (fun r => r.2.length = d) (g w)

/-- An optimiser that does not crash on such models. -/
def SafeOpt (opt : (List F → Outcome (F × List F)) → List F → Outcome (List F)) : Prop :=
  ∀ (d : ℕ) (g : List F → Outcome (F × List F)) (start : List F), start.length = d → SafeGrad d g →
    Safe (fun w => w.length = d) (opt g start)

/-- A model whose gradient can be computed at every parameter vector of length `d` and on every batch of rows of widths
`c` and `t`. -/
def SafeDataGrad (d c t : ℕ) (g : ComputeGrad F) : Prop :=
  ∀ (w : List F) (n : ℕ) (X Y : Mat F), w.length = d → HasShape X n c → HasShape Y n t → Safe (fun r => r.2.length = d) (g w X Y)

/-- An optimiser that does not crash on such models and data. -/
def SafeDataOpt (opt : ComputeGrad F → List F → Mat F → Mat F → Outcome (List F)) : Prop :=
  ∀ (d n c t : ℕ) (g : ComputeGrad F) (start : List F) (X Y : Mat F), start.length = d → HasShape X n c → HasShape Y n t →
    SafeDataGrad d c t g → Safe (fun w => w.length = d) (opt g start X Y)

/-- A kernel that can be applied to any two rows of width `c`. -/
def SafeKernel (c : ℕ) (ker : Kernel F) : Prop := ∀ u v : List F, u.length = c → v.length = c → ∃ x, ker u v = ok x

end RM.Spec
