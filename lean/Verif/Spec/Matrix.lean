import Verif.Base.Linalg

/-! Specification vocabulary for data matrices: columns, means, variances. -/

namespace RM.Spec

/-- Column `j` (missing entries read as 0; well-formed matrices have none). -/
def col (m : Mat ℝ) (j : ℕ) : List ℝ := m.rows.map fun r => r.getD j 0

/-- Arithmetic mean. -/
noncomputable def mean (l : List ℝ) : ℝ := l.sum / l.length

/-- Sample variance (divisor `n - 1`). -/
noncomputable def sampleVar (l : List ℝ) : ℝ := (l.map fun x => (x - mean l) ^ 2).sum / (l.length - 1)

/-- Not all entries are equal. -/
def NonConstant (l : List ℝ) : Prop := ∃ x ∈ l, ∃ y ∈ l, x ≠ y

/-- Same number of rows, all with `cols` entries. -/
def SameShape {F : Type} (a b : Mat F) : Prop := a.cols = b.cols ∧ a.rows.length = b.rows.length ∧ b.WF

/-- A matrix of reals as floats. -/
def finMat (m : Mat ℝ) : Mat XR := ⟨m.cols, m.rows.map (List.map XR.fin)⟩

end RM.Spec
