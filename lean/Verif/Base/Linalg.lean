import Verif.Base.Scalar

/-!
# rulinalg primitives

rulinalg is a dependency that is not in /repo. The definitions below model the functions the library calls, from their
documentation. A `Mat` is the list of rows together with the column count (rulinalg: `rows`, `cols`, row-major `data`);
`Mat.WF` says every row has `cols` entries, which rulinalg guarantees for every matrix (`Matrix::new` panics otherwise).
Sums are left-to-right folds (rulinalg unrolls them; the difference is a reassociation, invisible in exact arithmetic).
-/

namespace RM
open Outcome Scalar

variable {F : Type}

/-- rulinalg `Matrix<T>` (external). -/
structure Mat (F : Type) where
  cols : ℕ
  rows : List (List F)

/-- Every row has `cols` entries. -/
def Mat.WF (m : Mat F) : Prop := ∀ r ∈ m.rows, r.length = m.cols

/-- Number of rows. -/
def Mat.nrows (m : Mat F) : ℕ := m.rows.length

/-- Row-major data. -/
def Mat.data (m : Mat F) : List F := m.rows.flatten

/-- Splitting row-major data into `n` rows of `c` entries. -/
def chunk (c : ℕ) : ℕ → List F → List (List F)
  | 0, _ => []
  | n + 1, l => l.take c :: chunk c n (l.drop c)

/-- `Matrix::new(rows, cols, data)`: panics unless `data.len() == rows * cols`. -/
def Mat.new (r c : ℕ) (data : List F) : Outcome (Mat F) :=
  if data.length = r * c then ok ⟨c, chunk c r data⟩ else panic

/-- `m[[i, j]]`: panics out of range. -/
def Mat.at (m : Mat F) (i j : ℕ) : Outcome F := do
  let r ← getAt m.rows i
  getAt r j

/-- Transpose of a list of rows with `c` columns. -/
def transposeRows (c : ℕ) (rows : List (List F)) : List (List F) :=
  (List.range c).map fun j => rows.filterMap fun r => r[j]?

/-- `m.transpose()`. -/
def Mat.transpose (m : Mat F) : Mat F := ⟨m.rows.length, transposeRows m.cols m.rows⟩

section scalar
variable [Scalar F]

/-- Sum of a slice. -/
def fsum (l : List F) : F := l.foldl Scalar.add Scalar.zero

/-- `utils::dot`. -/
def dot (u v : List F) : F := fsum (List.zipWith Scalar.mul u v)

/-- Elementwise operation on two vectors; rulinalg asserts equal lengths. -/
def vecZip (f : F → F → F) (u v : List F) : Outcome (List F) :=
  if u.length = v.length then ok (List.zipWith f u v) else panic

/-- Elementwise operation on two matrices (`&a - &b`, `elemul`, `elediv`): panics unless the shapes agree. -/
def Mat.zip (f : F → F → F) (a b : Mat F) : Outcome (Mat F) :=
  if a.rows.length = b.rows.length ∧ a.cols = b.cols then
    ok ⟨a.cols, List.zipWith (List.zipWith f) a.rows b.rows⟩
  else panic

/-- Elementwise map (`apply`, `-m`, `m + scalar`). -/
def Mat.map (f : F → F) (a : Mat F) : Mat F := ⟨a.cols, a.rows.map (List.map f)⟩

/-- `m.sum()`. -/
def Mat.sum (a : Mat F) : F := fsum a.data

/-- Column `j` of a list of rows. -/
def colOf (rows : List (List F)) (j : ℕ) : List F := rows.filterMap fun r => r[j]?

/-- `m.sum_rows()`: the vector of column sums. -/
def Mat.sumRows (m : Mat F) : List F := (List.range m.cols).map fun j => fsum (colOf m.rows j)

/-- `m.sum_cols()`: the vector of row sums. -/
def Mat.sumCols (m : Mat F) : List F := m.rows.map fsum

/-- `m.mean(Axes::Row)`: column sums divided by the number of rows. -/
def Mat.meanRow (m : Mat F) : List F := m.sumRows.map fun s => s /. Scalar.ofNat m.rows.length

/-- `m.variance(Axes::Row)`: sample variance of every column, an error for fewer than two rows. -/
def Mat.varianceRow (m : Mat F) : Outcome (List F) :=
  if m.rows.length < 2 then err .LinearAlgebra
  else ok ((List.range m.cols).map fun j =>
    let c := colOf m.rows j
    let mu := fsum c /. Scalar.ofNat m.rows.length
    fsum (c.map fun x => (x -. mu) *. (x -. mu)) /. (Scalar.ofNat (m.rows.length - 1)))

/-- Matrix product: panics unless the inner dimensions agree. -/
def Mat.mul (a b : Mat F) : Outcome (Mat F) :=
  if a.cols = b.rows.length then
    ok ⟨b.cols, a.rows.map fun r => (List.range b.cols).map fun j => dot r (colOf b.rows j)⟩
  else panic

/-- Matrix-vector product: panics unless the dimensions agree. -/
def Mat.mulVec (a : Mat F) (v : List F) : Outcome (List F) :=
  if a.cols = v.length then ok (a.rows.map fun r => dot r v) else panic

/-- `a.hcat(b)`: panics unless the row counts agree. -/
def Mat.hcat (a b : Mat F) : Outcome (Mat F) :=
  if a.rows.length = b.rows.length then ok ⟨a.cols + b.cols, List.zipWith (· ++ ·) a.rows b.rows⟩ else panic

/-- `Matrix::ones(r, c)`. -/
def Mat.ones (r c : ℕ) : Mat F := ⟨c, List.replicate r (List.replicate c Scalar.one)⟩

/-- `Matrix::zeros(r, c)`. -/
def Mat.zeros (r c : ℕ) : Mat F := ⟨c, List.replicate r (List.replicate c Scalar.zero)⟩

end scalar

/-- The scan of `utils::argmax`/`argmin`: `better old new` says that `new` replaces `old`. -/
def argAux {α : Type} (better : α → α → Bool) : (best : α) → (bi i : ℕ) → List α → ℕ × α
  | best, bi, _, [] => (bi, best)
  | best, bi, i, v :: vs => if better best v then argAux better v i (i + 1) vs else argAux better best bi (i + 1) vs

/-- `argmax` (first maximal element; the running maximum is replaced when `max < v`); panics on an empty slice. -/
def argmaxBy {α : Type} (lt : α → α → Bool) : List α → Outcome (ℕ × α)
  | [] => panic
  | v :: vs => ok (argAux (fun best x => lt best x) v 0 1 vs)

/-- `argmin` (first minimal element; the running minimum is replaced when `min > v`); panics on an empty slice. -/
def argminBy {α : Type} (lt : α → α → Bool) : List α → Outcome (ℕ × α)
  | [] => panic
  | v :: vs => ok (argAux (fun best x => lt x best) v 0 1 vs)

end RM
