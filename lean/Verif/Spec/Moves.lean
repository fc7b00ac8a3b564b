import Verif.Spec.KNN
import Verif.Spec.KMeans

/-! Vocabulary for moving data about in space. -/

namespace RM.Spec

/-- `T` takes points with `n` coordinates to points with `n'` coordinates and multiplies all distances by `c`. -/
def ScalesBy (n n' : ℕ) (c : ℝ) (T : List ℝ → List ℝ) : Prop :=
  (∀ x, x.length = n → (T x).length = n') ∧ ∀ x y, x.length = n → y.length = n → eucl (T x) (T y) = c * eucl x y

/-- The data set in which every row is moved by `T`. -/
def moved (n' : ℕ) (T : List ℝ → List ℝ) (X : Mat ℝ) : Mat ℝ := ⟨n', X.rows.map T⟩

/-- The map `x ↦ A x + b`. -/
noncomputable def affineMap (A : List (List ℝ)) (b : List ℝ) (x : List ℝ) : List ℝ :=
  List.zipWith (fun a s => (List.zipWith (· * ·) a x).sum + s) A b

/-- `A` is a matrix with `n'` rows and `n` columns, the columns having length 1 and being orthogonal to each other. -/
def OrthonormalColumns (n n' : ℕ) (A : List (List ℝ)) : Prop :=
  A.length = n' ∧ (∀ r ∈ A, r.length = n) ∧
    ∀ i < n, ∀ j < n, (A.map fun r => r.getD i 0 * r.getD j 0).sum = if i = j then 1 else 0

end RM.Spec
