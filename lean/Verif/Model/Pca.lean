import Verif.Base.Solve

/-! Model of src/learning/pca.rs. -/

namespace RM
open Outcome Scalar
variable {F : Type} [Scalar F]

/-- `PCA`, src/learning/pca.rs lines 37-51. -/
structure Pca (F : Type) where
  n : Option ℕ
  center : Bool
  nFeatures : Option ℕ
  centers : Option (List F)
  components : Option (Mat F)
  inv : Bool

/-- `PCA::new`, src/learning/pca.rs lines 69-81. -/
def Pca.new (n : ℕ) (center : Bool) : Pca F := ⟨some n, center, none, none, none, false⟩

/-- `PCA::default`, src/learning/pca.rs lines 107-119. -/
def Pca.default : Pca F := ⟨none, true, none, none, none, false⟩

/-- `components`, src/learning/pca.rs lines 84-89. -/
def Pca.getComponents (m : Pca F) : Outcome (Mat F) :=
  match m.components with
  | none => err .UntrainedModel
  | some rot => ok rot

/-- `centering`, src/learning/pca.rs lines 203-207: unchecked reads of the centers. -/
def centering (inputs : Mat F) (centers : List F) : Outcome (Mat F) :=
  if centers.length < inputs.cols ∧ inputs.rows ≠ [] then ub
  else ok ⟨inputs.cols, inputs.rows.map fun r => List.zipWith Scalar.sub r centers⟩

/-- `v.select_cols(&[0, .., c - 1])` (rulinalg): panics when `c` exceeds the number of columns. -/
def firstCols (c : ℕ) (v : Mat F) : Outcome (Mat F) :=
  if c ≤ v.cols then ok ⟨c, v.rows.map fun r => r.take c⟩ else panic

/-- The check of `train`, src/learning/pca.rs lines 166-174. -/
def tooManyComponents (n : Option ℕ) (cols : ℕ) : Bool :=
  match n with
  | none => false
  | some n => decide (cols < n)

/-- The part of `train` before the decomposition, src/learning/pca.rs lines 176-183: the data and the new centers. -/
def Pca.prepare (m : Pca F) (inputs : Mat F) : Outcome (Mat F × Option (List F)) :=
  if m.center then do
    let centers := inputs.meanRow
    let d ← centering inputs centers
    ok (d, some centers)
  else ok (inputs, m.centers)

/-- The selection of components, src/learning/pca.rs lines 190-196. -/
def selectComponents (n : Option ℕ) (v : Mat F) : Outcome (Mat F) :=
  match n with
  | some c => firstCols c v
  | none => ok v

/-- `train`, src/learning/pca.rs lines 165-199; `svd` is rulinalg's `svd` (external): the singular values, the left and the
right singular vectors. The model after a panic is not represented. -/
def Pca.train (svd : Mat F → Outcome (Mat F × Mat F × Mat F)) (m : Pca F) (inputs : Mat F) : Outcome (Pca F) :=
  if tooManyComponents m.n inputs.cols then err .InvalidData
  else do
    let (data, centers) ← m.prepare inputs
    let (_, _, v) ← expectOk (svd data)
    let wide := decide (inputs.rows.length < inputs.cols)
    let v := if wide then v.transpose else v
    let comps ← selectComponents m.n v
    ok { m with
      centers := centers
      inv := if wide then true else m.inv
      components := some comps
      nFeatures := some inputs.cols }

/-- The product of `predict`, src/learning/pca.rs lines 147-151, 155-159. -/
def Pca.project (m : Pca F) (comp data : Mat F) : Outcome (Mat F) :=
  if m.inv then data.mul comp.transpose else data.mul comp

/-- `predict`, src/learning/pca.rs lines 125-163. -/
def Pca.predict (m : Pca F) (inputs : Mat F) : Outcome (Mat F) :=
  match m.nFeatures with
  | none => err .UntrainedModel
  | some f =>
    if f ≠ inputs.cols then err .InvalidData
    else match m.components with
      | none => err .UntrainedModel
      | some comp =>
        if m.center then
          match m.centers with
          | none => err .UntrainedModel
          | some centers => do
            let data ← centering inputs centers
            m.project comp data
        else m.project comp inputs

end RM
