import Verif.Model.BinaryTree

/-! Vocabulary for trees: what a tree contains, where a query falls. -/

namespace RM
open Scalar

variable {F B : Type}

/-- The row indices stored below a node. -/
def Node.rows : Node F B → List ℕ
  | .leaf c => c
  | .branch _ _ _ l r => l.rows ++ r.rows

/-- The leaves below a node. -/
def Node.leaves : Node F B → List (List ℕ)
  | .leaf c => [c]
  | .branch _ _ _ l r => l.leaves ++ r.leaves

/-- Every branch's region contains every row below the branch, where `R b i` says that region `b` contains row `i`. -/
def Node.Bounded (R : B → ℕ → Prop) : Node F B → Prop
  | .leaf _ => True
  | .branch _ _ b l r => (∀ i ∈ l.rows ++ r.rows, R b i) ∧ l.Bounded R ∧ r.Bounded R

/-- Every split dimension is a column. -/
def Node.DimsBelow (c : ℕ) : Node F B → Prop
  | .leaf _ => True
  | .branch dim _ _ l r => dim < c ∧ l.DimsBelow c ∧ r.DimsBelow c

/-- The leaf on the query's side of every split. -/
def Node.homeLeaf [Scalar F] (point : List F) : Node F B → List ℕ
  | .leaf c => c
  | .branch dim split _ l r => match point[dim]? with
    | none => []
    | some p => if p <. split then l.homeLeaf point else r.homeLeaf point

/-- Coordinate `j` of row `i` lies between the bounds, for every column. -/
def InBox [LinearOrder F] (data : Mat F) (box : List F × List F) (i : ℕ) : Prop :=
  ∃ row, data.rows[i]? = some row ∧ ∀ (j : ℕ) x, row[j]? = some x →
    ∃ lo hi, box.1[j]? = some lo ∧ box.2[j]? = some hi ∧ lo ≤ x ∧ x ≤ hi

end RM
