import Verif.Base.Linalg

/-! Model of src/data/transforms/minmax.rs, standardize.rs and normalize.rs (shuffle.rs is in Model/RandUtils.lean). -/

namespace RM
open Outcome Scalar
variable {F : Type} [Scalar F]

/-! ### MinMaxScaler -/

/-- `MinMaxFitter`, src/data/transforms/minmax.rs lines 39-42. -/
structure MinMaxFitter (F : Type) where
  scaledMin : F
  scaledMax : F

/-- `MinMaxScaler`, src/data/transforms/minmax.rs lines 144-149. -/
structure MinMaxScaler (F : Type) where
  scale : List F
  const : List F

/-- The update of one column's `(min, max)` pair, src/data/transforms/minmax.rs lines 100-107. -/
def minmaxUpd (mm : F × F) (x : F) : F × F :=
  (if x <. mm.1 then x else mm.1, if mm.2 <. x then x else mm.2)

/-- The inner loop over a row, src/data/transforms/minmax.rs lines 92-108. -/
def minmaxRow : List F → List (F × F) → Outcome (List (F × F))
  | x :: xs, mm :: mms =>
    if !Scalar.isFinite x then err .InvalidData
    else do
      let rest ← minmaxRow xs mms
      ok (minmaxUpd mm x :: rest)
  | _, mms => ok mms

/-- The loop over the rows, src/data/transforms/minmax.rs lines 91-109. -/
def minmaxRows : List (List F) → List (F × F) → Outcome (List (F × F))
  | [], mms => ok mms
  | r :: rs, mms => do
    let mms' ← minmaxRow r mms
    minmaxRows rs mms'

/-- The scale of one column, src/data/transforms/minmax.rs lines 115-123. -/
def minmaxScale (f : MinMaxFitter F) (mm : F × F) : Outcome F :=
  let s := (f.scaledMax -. f.scaledMin) /. (mm.2 -. mm.1)
  if Scalar.isFinite s then ok s else err .InvalidData

/-- `MinMaxFitter::fit`, src/data/transforms/minmax.rs lines 83-136 (`T::min_value()` is `-T::max_value()` for floats). -/
def minmaxFit (f : MinMaxFitter F) (inputs : Mat F) : Outcome (MinMaxScaler F) := do
  let mms ← minmaxRows inputs.rows (List.replicate inputs.cols (Scalar.maxVal, Scalar.neg Scalar.maxVal))
  let scales ← mms.mapM (minmaxScale f)
  let consts := List.zipWith (fun mm s => f.scaledMax -. mm.2 *. s) mms scales
  ok ⟨scales, consts⟩

/-- `MinMaxScaler::transform`, src/data/transforms/minmax.rs lines 152-169. -/
def minmaxTransform (t : MinMaxScaler F) (inputs : Mat F) : Outcome (Mat F) :=
  if t.scale.length ≠ inputs.cols then err .InvalidData
  else ok ⟨inputs.cols, inputs.rows.map fun row =>
    List.zipWith Scalar.add (List.zipWith Scalar.mul row t.scale) t.const⟩

/-- `MinMaxScaler::inv_transform`, src/data/transforms/minmax.rs lines 174-188. -/
def minmaxInv (t : MinMaxScaler F) (inputs : Mat F) : Outcome (Mat F) :=
  if inputs.cols ≠ t.scale.length then err .InvalidData
  else ok ⟨inputs.cols, inputs.rows.map fun row =>
    List.zipWith Scalar.div (List.zipWith Scalar.sub row t.const) t.scale⟩

/-! ### Standardizer -/

/-- `StandardizerFitter`, src/data/transforms/standardize.rs lines 38-41. -/
structure StandardizerFitter (F : Type) where
  scaledMean : F
  scaledStdev : F

/-- `Standardizer`, src/data/transforms/standardize.rs lines 114-123. -/
structure Standardizer (F : Type) where
  means : List F
  variances : List F
  scaledMean : F
  scaledStdev : F

/-- `StandardizerFitter::fit`, src/data/transforms/standardize.rs lines 81-104. -/
def standardizerFit (f : StandardizerFitter F) (inputs : Mat F) : Outcome (Standardizer F) :=
  if inputs.rows.length ≤ 1 then err .InvalidData
  else
    let mean := inputs.meanRow
    match inputs.varianceRow with
    | ok variance =>
      if mean.any (fun x => !Scalar.isFinite x) then err .InvalidData
      else ok ⟨mean, variance, f.scaledMean, f.scaledStdev⟩
    | err _ => err .InvalidData
    | .panic => panic
    | ub => ub

/-- `Standardizer::transform`, src/data/transforms/standardize.rs lines 125-140. -/
def standardizerTransform (t : Standardizer F) (inputs : Mat F) : Outcome (Mat F) :=
  if t.means.length ≠ inputs.cols then err .InvalidData
  else ok ⟨inputs.cols, inputs.rows.map fun row =>
    List.zipWith (fun x y => x *. t.scaledStdev /. Scalar.sqrt y +. t.scaledMean)
      (List.zipWith Scalar.sub row t.means) t.variances⟩

/-- `Standardizer::inv_transform`, src/data/transforms/standardize.rs lines 144-162. -/
def standardizerInv (t : Standardizer F) (inputs : Mat F) : Outcome (Mat F) :=
  if inputs.cols ≠ t.means.length then err .InvalidData
  else ok ⟨inputs.cols, inputs.rows.map fun row =>
    List.zipWith Scalar.add
      (List.zipWith (fun x y => (x -. t.scaledMean) *. Scalar.sqrt y /. t.scaledStdev) row t.variances) t.means⟩

/-! ### Normalizer -/

/-- The Euclidean norm of rulinalg on a one-row slice (external): root of the dot product with itself. -/
def eucNorm (row : List F) : F := Scalar.sqrt (Scalar.zero +. dot row row)

/-- The loop of `Normalizer::transform`, src/data/transforms/normalize.rs lines 92-101. -/
def normalizeLoop : List (List F × F) → Outcome (List (List F))
  | [] => ok []
  | (row, d) :: rest =>
    if !Scalar.isFinite d then err .InvalidData
    else do
      let row' := if d ==. Scalar.zero then row else row.map fun x => x /. d
      let rest' ← normalizeLoop rest
      ok (row' :: rest')

/-- `Normalizer::transform`, src/data/transforms/normalize.rs lines 90-103, for an arbitrary row norm. -/
def normalizerTransform (norm : List F → F) (inputs : Mat F) : Outcome (Mat F) := do
  let dists := inputs.rows.map norm
  let rows ← normalizeLoop (inputs.rows.zip dists)
  ok ⟨inputs.cols, rows⟩

end RM
