import Verif.Base.Linalg

/-! Specification vocabulary for scores and confusion matrices: everything is a count of positions. -/

namespace RM.Spec

/-- The number of positions `i < n` with property `q`. -/
def countPos (n : ℕ) (q : ℕ → Bool) : ℕ := (List.range n).countP q

/-- Number of positions at which `u` holds `a` and `v` holds `b`. -/
def pairCount {T : Type} [DecidableEq T] (u v : List T) (a b : T) : ℕ :=
  countPos u.length fun i => decide (u[i]? = some a ∧ v[i]? = some b)

/-- Number of positions at which the two sequences agree. -/
def agreeCount {T : Type} [DecidableEq T] (u v : List T) : ℕ :=
  countPos u.length fun i => decide (u[i]? = v[i]?)

/-- Number of positions at which the equality test `eqb` accepts the two entries. -/
def testCount {T : Type} (eqb : T → T → Bool) (u v : List T) : ℕ :=
  countPos u.length fun i => match u[i]?, v[i]? with
    | some a, some b => eqb a b
    | _, _ => false

/-- Entry `(i, j)` of a matrix given as a list of rows. -/
def entry {α : Type} (m : List (List α)) (i j : ℕ) : Option α := m[i]?.bind fun r => r[j]?

/-- Sum of the diagonal. -/
def trace (m : List (List ℕ)) : ℕ := ((List.range m.length).filterMap fun i => entry m i i).sum

/-- Sum of all entries. -/
def total (m : List (List ℕ)) : ℕ := (m.map List.sum).sum

/-- Every entry is 0 or 1. -/
def isBinary {T : Type} [Zero T] [One T] (u : List T) : Prop := ∀ x ∈ u, x = 0 ∨ x = 1

/-- Squared Euclidean distance. -/
noncomputable def sqDist (u v : List ℝ) : ℝ := (List.zipWith (fun x y => (x - y) ^ 2) u v).sum

end RM.Spec
