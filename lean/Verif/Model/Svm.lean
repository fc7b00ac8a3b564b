import Verif.Model.Gp
import Verif.Model.Dist
import Verif.Model.LinReg

/-! Model of src/learning/svm.rs. The trait `Kernel` is open: kernels are arbitrary functions. Random draws are an explicit
stream. -/

namespace RM
open Outcome Scalar
variable {F : Type} [Scalar F]

/-- `SVM`, src/learning/svm.rs lines 48-56; `new`, lines 91-100, leaves the trained fields empty and sets 100 iterations. -/
structure Svm (F : Type) where
  ker : Kernel F
  lambda : F
  optimIters : ℕ := 100
  alpha : Option (List F) := none
  trainInputs : Option (Mat F) := none
  trainTargets : Option (List F) := none

/-- `SVM::default`, src/learning/svm.rs lines 65-76; `SquaredExp::default` has length scale and amplitude 1. -/
def Svm.default : Svm F := { ker := sqExpKernel Scalar.one Scalar.one, lambda := Scalar.ofRat (3 / 10) }

/-- The sum of the kernels of row `i` with all rows, src/learning/svm.rs lines 156-157. -/
def kernelRowSum (ker : Kernel F) (row : List F) (full : Mat F) : Outcome F :=
  full.rows.foldlM (fun s r => do let k ← ker row r; ok (s +. k)) Scalar.zero

/-- One iteration of the loop of `train`, src/learning/svm.rs lines 153-163; `raw` is the random number drawn. -/
def svmStep (ker : Kernel F) (lambda : F) (full : Mat F) (targets : List F) (alpha : List F) (t raw : ℕ) : Outcome (List F) := do
  let i ← genRange raw 0 full.rows.length
  let row ← getAt full.rows i
  let s ← kernelRowSum ker row full
  let y ← getAt targets i
  let sum := (s *. y) /. (lambda *. Scalar.ofNat t)
  if sum <. Scalar.one then ok (alpha.modify i fun a => a +. Scalar.one) else ok alpha

/-- `train`, src/learning/svm.rs lines 144-171. `draws t` is the random number of iteration `t`. -/
def Svm.train (draws : ℕ → ℕ) (m : Svm F) (inputs : Mat F) (targets : List F) : Outcome (Svm F) := do
  let full ← withOnes inputs
  let alpha ← (List.range m.optimIters).foldlM (fun a t => svmStep m.ker m.lambda full targets a t (draws t))
    (List.replicate inputs.rows.length Scalar.zero)
  ok { m with
    alpha := some (alpha.map fun a => a /. Scalar.ofNat m.optimIters)
    trainInputs := some full
    trainTargets := some targets }

/-- `predict`, src/learning/svm.rs lines 127-142. -/
def Svm.predict (m : Svm F) (inputs : Mat F) : Outcome (List F) := do
  let full ← withOnes inputs
  match m.alpha, m.trainInputs, m.trainTargets with
  | some alpha, some trainInputs, some trainTargets => do
    let k ← kerMat m.ker full trainInputs
    let w ← vecZip Scalar.mul alpha trainTargets
    let d ← k.mulVec (w.map fun x => x /. m.lambda)
    ok (d.map signum)
  | _, _, _ => err .UntrainedModel

end RM
