import Verif.Base.Linalg

/-! Labelled samples, for properties about their order. -/

namespace RM.Spec
open Scalar

/-- The matrix of the inputs of labelled samples, one row each, `c` columns. -/
def inputsOf {F β : Type} (c : ℕ) (S : List (List F × β)) : Mat F := ⟨c, S.map Prod.fst⟩

/-- The labels of the samples. -/
def targetsOf {α β : Type} (S : List (α × β)) : List β := S.map Prod.snd

/-- Arithmetic in which the terms of a sum can be exchanged: exact arithmetic, with or without infinities and NaN, but not floats. -/
class SumsReorder (F : Type) [Scalar F] : Prop where
  add_right_comm : ∀ a b c : F, (a +. b) +. c = (a +. c) +. b

instance : SumsReorder ℝ := ⟨fun a b c => add_right_comm a b c⟩

instance : SumsReorder XR := ⟨fun a b c => by
  cases a <;> cases b <;> cases c <;> simp [Scalar.add, XR.add]
  ring⟩

/-- The smaller and the larger of finite numbers do not depend on the order in which they are compared. -/
class FiniteOrder (F : Type) [Scalar F] : Prop where
  min_comm : ∀ a x y : F, Scalar.isFinite a → Scalar.isFinite x → Scalar.isFinite y →
    (if y <. (if x <. a then x else a) then y else (if x <. a then x else a)) =
    (if x <. (if y <. a then y else a) then x else (if y <. a then y else a))
  max_comm : ∀ a x y : F, Scalar.isFinite a → Scalar.isFinite x → Scalar.isFinite y →
    (if (if a <. x then x else a) <. y then y else (if a <. x then x else a)) =
    (if (if a <. y then y else a) <. x then x else (if a <. y then y else a))
  max_finite : Scalar.isFinite (Scalar.maxVal : F)
  min_finite : Scalar.isFinite (Scalar.neg Scalar.maxVal : F)

end RM.Spec
