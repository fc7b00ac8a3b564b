import Verif.Model.NaiveBayes

/-! Model of src/learning/naive_bayes.rs for distributions of the user's own: an `update_params` that fails may leave the
distribution changed (Verif/Model/NaiveBayes.lean, made for the three distributions of the crate, says that it does not). -/

namespace RM
open Outcome Scalar
variable {D F : Type} [Scalar F]

/-- An implementation of `Distribution`, src/learning/naive_bayes.rs lines 213-227; `update_params` takes `&mut self`: the
distribution afterwards, whatever the result, and the result. -/
structure UserDistr (D F : Type) where
  fromParams : (classCount features : ℕ) → D
  update : D → (data : Mat F) → (cls : ℕ) → D × Outcome Unit
  jointLogLik : D → (data : Mat F) → (classPrior : List F) → Outcome (Mat F)

/-- The distributions of the crate as implementations of the trait. -/
def NBDistr.toUser (B : NBDistr D F) : UserDistr D F where
  fromParams := B.fromParams
  update := fun d M c => match B.update d M c with
    | ok d' => (d', ok ())
    | err e => (d, err e)
    | .panic => (d, panic)
    | ub => (d, ub)
  jointLogLik := B.jointLogLik

/-- The loop of `update_params`, src/learning/naive_bayes.rs lines 164-175: the distribution as left behind and the result. -/
def UserDistr.fit (B : UserDistr D F) (inputs : Mat F) : ℕ → List (List ℕ) → D → D × Outcome Unit
  | _, [], d => (d, ok ())
  | idx, c :: cs, d =>
    if c.isEmpty then UserDistr.fit B inputs (idx + 1) cs d
    else match inputs.selectRows c with
      | ok rows =>
        match B.update d rows idx with
        | (d', ok _) => UserDistr.fit B inputs (idx + 1) cs d'
        | (d', r) => (d', r)
      | err e => (d, err e)
      | .panic => (d, panic)
      | ub => (d, ub)

/-- `train` and `update_params`, src/learning/naive_bayes.rs lines 109-112 and 148-185: the model afterwards (also after a
panic) and the result. -/
def UserDistr.train (B : UserDistr D F) (m : NaiveBayes D F) (inputs targets : Mat F) : NaiveBayes D F × Outcome Unit :=
  let classCount := targets.cols
  let total := inputs.rows.length
  let d0 := B.fromParams targets.cols inputs.cols
  match nbScan 0 targets.rows (List.replicate classCount 0) (List.replicate classCount []) with
  | (counts, ok data) =>
    match B.fit inputs 0 data d0 with
    | (d, ok _) =>
      (⟨some d, some classCount, some (counts.map fun c => Scalar.ofNat c /. Scalar.ofNat total), counts⟩, ok ())
    | (d, r) => ({ m with distr := some d, classCounts := counts }, r)
  | (counts, err e) => ({ m with distr := some d0, classCounts := counts }, err e)
  | (counts, .panic) => ({ m with distr := some d0, classCounts := counts }, panic)
  | (counts, ub) => ({ m with distr := some d0, classCounts := counts }, ub)

/-- `get_log_probs`, src/learning/naive_bayes.rs lines 138-146. -/
def UserDistr.logProbs (B : UserDistr D F) (m : NaiveBayes D F) (inputs : Mat F) : Outcome (Mat F) :=
  match m.distr, m.classPrior with
  | some d, some p => B.jointLogLik d inputs p
  | _, _ => err .UntrainedModel

/-- `predict` and `get_classes`, src/learning/naive_bayes.rs lines 115-133 and 199-209. -/
def UserDistr.predict (B : UserDistr D F) (m : NaiveBayes D F) (inputs : Mat F) : Outcome (Mat F) := do
  let logProbs ← B.logProbs m inputs
  let classes ← logProbs.rows.mapM fun row => do
    let r ← argmaxBy Scalar.lt row
    ok r.1
  match m.clusterCount with
  | some k => do
    let rows ← classes.mapM fun c => setAt (List.replicate k Scalar.zero) c Scalar.one
    Mat.new inputs.rows.length k rows.flatten
  | none => err .UntrainedModel

end RM
