import Verif.Base.Outcome

/-! What it means for a call to be undone by a panic. -/

namespace RM.Spec

/-- A call on a model (the model afterwards and the result) that, when it panics, leaves the model as it was. -/
def KeptOnPanic {M D : Type} (call : M → D → M × Outcome Unit) : Prop := ∀ m d, (call m d).2 = Outcome.panic → (call m d).1 = m

end RM.Spec
