import Verif.Model.KMeans

/-! Model of src/learning/naive_bayes.rs. -/

namespace RM
open Outcome Scalar
variable {F : Type} [Scalar F]

/-- The trait `Distribution`, src/learning/naive_bayes.rs lines 213-227. A failing `update` leaves the distribution as it was
(true of the three built-in ones). -/
structure NBDistr (D F : Type) where
  fromParams : ℕ → ℕ → D
  update : D → Mat F → ℕ → Outcome D
  jointLogLik : D → Mat F → List F → Outcome (Mat F)

/-- `NaiveBayes`, src/learning/naive_bayes.rs lines 50-57. -/
structure NaiveBayes (D F : Type) where
  distr : Option D
  clusterCount : Option ℕ
  classPrior : Option (List F)
  classCounts : List ℕ

/-- `NaiveBayes::new`, src/learning/naive_bayes.rs lines 71-78. -/
def nbNew (D F : Type) : NaiveBayes D F := ⟨none, none, none, []⟩

/-- `find_class`, src/learning/naive_bayes.rs lines 187-197 (`idx` is the position of the head). -/
def findClass : ℕ → List F → Outcome ℕ
  | _, [] => err .InvalidState
  | idx, r :: rs => if r ==. Scalar.one then ok idx else findClass (idx + 1) rs

/-- The loop of `update_params`, src/learning/naive_bayes.rs lines 155-162: the counts as left behind and the row indices by class. -/
def nbScan : ℕ → List (List F) → List ℕ → List (List ℕ) → List ℕ × Outcome (List (List ℕ))
  | _, [], counts, data => (counts, ok data)
  | i, row :: rows, counts, data =>
    match findClass 0 row with
    | ok c => if c < data.length then nbScan (i + 1) rows (counts.modify c (· + 1)) (data.modify c fun v => v ++ [i]) else (counts, panic)
    | err e => (counts, err e)
    | .panic => (counts, panic)
    | ub => (counts, ub)

/-- The loop of `update_params`, src/learning/naive_bayes.rs lines 164-175: the distribution as left behind and the result. -/
def nbFit {D : Type} (B : NBDistr D F) (inputs : Mat F) : ℕ → List (List ℕ) → D → D × Outcome Unit
  | _, [], d => (d, ok ())
  | idx, c :: cs, d =>
    if c.isEmpty then nbFit B inputs (idx + 1) cs d
    else match inputs.selectRows c with
      | ok rows =>
        match B.update d rows idx with
        | ok d' => nbFit B inputs (idx + 1) cs d'
        | err e => (d, err e)
        | .panic => (d, panic)
        | ub => (d, ub)
      | err e => (d, err e)
      | .panic => (d, panic)
      | ub => (d, ub)

/-- `train` and `update_params`, src/learning/naive_bayes.rs lines 109-112 and 148-185: the model afterwards (also after a
panic) and the result. -/
def nbTrain {D : Type} (B : NBDistr D F) (m : NaiveBayes D F) (inputs targets : Mat F) : NaiveBayes D F × Outcome Unit :=
  let classCount := targets.cols
  let total := inputs.rows.length
  let d0 := B.fromParams targets.cols inputs.cols
  match nbScan 0 targets.rows (List.replicate classCount 0) (List.replicate classCount []) with
  | (counts, ok data) =>
    match nbFit B inputs 0 data d0 with
    | (d, ok _) =>
      (⟨some d, some classCount, some (counts.map fun c => Scalar.ofNat c /. Scalar.ofNat total), counts⟩, ok ())
    | (d, err e) => ({ m with distr := some d, classCounts := counts }, err e)
    | (d, .panic) => ({ m with distr := some d, classCounts := counts }, panic)
    | (d, ub) => ({ m with distr := some d, classCounts := counts }, ub)
  | (counts, err e) => ({ m with distr := some d0, classCounts := counts }, err e)
  | (counts, .panic) => ({ m with distr := some d0, classCounts := counts }, panic)
  | (counts, ub) => ({ m with distr := some d0, classCounts := counts }, ub)

/-- `get_log_probs`, src/learning/naive_bayes.rs lines 138-146. -/
def nbLogProbs {D : Type} (B : NBDistr D F) (m : NaiveBayes D F) (inputs : Mat F) : Outcome (Mat F) :=
  match m.distr, m.classPrior with
  | some d, some p => B.jointLogLik d inputs p
  | _, _ => err .UntrainedModel

/-- `predict` and `get_classes`, src/learning/naive_bayes.rs lines 115-133 and 199-209. -/
def nbPredict {D : Type} (B : NBDistr D F) (m : NaiveBayes D F) (inputs : Mat F) : Outcome (Mat F) := do
  let logProbs ← nbLogProbs B m inputs
  let classes ← logProbs.rows.mapM fun row => do
    let r ← argmaxBy Scalar.lt row
    ok r.1
  match m.clusterCount with
  | some k => do
    let rows ← classes.mapM fun c => setAt (List.replicate k Scalar.zero) c Scalar.one
    Mat.new inputs.rows.length k rows.flatten
  | none => err .UntrainedModel

/-! ### Gaussian -/

/-- `Gaussian`, src/learning/naive_bayes.rs lines 235-238. -/
structure GaussD (F : Type) where
  theta : Mat F
  sigma : Mat F

/-- `Gaussian::update_params`, src/learning/naive_bayes.rs lines 264-282: the writes to `class * features + idx` set row `class`. -/
def gaussUpdate (d : GaussD F) (data : Mat F) (cls : ℕ) : Outcome (GaussD F) := do
  let mean := data.meanRow
  match data.varianceRow with
  | ok var => do
    let th ← setAt d.theta.rows cls mean
    let sg ← setAt d.sigma.rows cls var
    ok ⟨⟨d.theta.cols, th⟩, ⟨d.sigma.cols, sg⟩⟩
  | err _ => err .InvalidData
  | .panic => panic
  | ub => ub

/-- One iteration of `Gaussian::joint_log_lik`, src/learning/naive_bayes.rs lines 291-303. -/
def gaussClassLik [ScalarPi F] (d : GaussD F) (data : Mat F) (i : ℕ) (prior : F) : Outcome (List F) := do
  let s ← d.sigma.selectRows [i]
  let nij := Scalar.ofRat (-1 / 2) *. (s.map fun x => Scalar.ln ((x *. Scalar.ofRat 2) *. ScalarPi.pi)).sum
  let th ← d.theta.selectRows (List.replicate data.rows.length i)
  let diff ← Mat.zip Scalar.sub data th
  let sg ← d.sigma.selectRows (List.replicate data.rows.length i)
  let q ← Mat.zip Scalar.div (diff.map fun x => x *. x) sg
  ok (q.sumCols.map fun r => ((Scalar.neg r *. Scalar.ofRat (1 / 2)) +. nij) +. Scalar.ln prior)

/-- `Gaussian`, src/learning/naive_bayes.rs lines 256-308. -/
def gaussDistr [ScalarPi F] : NBDistr (GaussD F) F where
  fromParams c f := ⟨Mat.zeros c f, Mat.zeros c f⟩
  update := gaussUpdate
  jointLogLik d data prior := do
    let liks ← prior.zipIdx.mapM fun p => gaussClassLik d data p.2 p.1
    let m ← Mat.new prior.length data.rows.length liks.flatten
    ok m.transpose

/-! ### Bernoulli and multinomial -/

/-- `Bernoulli`, src/learning/naive_bayes.rs lines 317-320, and `Multinomial`, lines 390-393. -/
structure LogProbsD (F : Type) where
  logProbs : Mat F
  pseudo : F

/-- `Bernoulli::update_params`, src/learning/naive_bayes.rs lines 339-354. -/
def bernUpdate (d : LogProbsD F) (data : Mat F) (cls : ℕ) : Outcome (LogProbsD F) := do
  let pseudoCc := Scalar.ofNat data.rows.length +. (Scalar.ofRat 2 *. d.pseudo)
  let pseudoFc := data.sumRows.map fun s => s +. d.pseudo
  let lp := pseudoFc.map fun x => Scalar.ln x -. Scalar.ln pseudoCc
  let rows ← setAt d.logProbs.rows cls lp
  ok ⟨⟨d.logProbs.cols, rows⟩, d.pseudo⟩

/-- The row added to every row of a likelihood matrix, src/learning/naive_bayes.rs lines 378-380 and 440-442. -/
def addClassRow (res : Mat F) (n : ℕ) (perClass : List F) : Outcome (Mat F) := do
  let row ← Mat.new 1 perClass.length perClass
  let sel ← row.selectRows (List.replicate n 0)
  Mat.zip Scalar.add res sel

/-- `Bernoulli`, src/learning/naive_bayes.rs lines 331-382 (`joint_log_lik`: lines 356-381). -/
def bernDistr : NBDistr (LogProbsD F) F where
  fromParams c f := ⟨Mat.zeros c f, Scalar.one⟩
  update := bernUpdate
  jointLogLik d data prior := do
    let neg := d.logProbs.map fun x => Scalar.ln (Scalar.one -. Scalar.exp x)
    let diff ← Mat.zip Scalar.sub d.logProbs neg
    let res ← Mat.mul data diff.transpose
    let per ← prior.zipIdx.mapM fun p => do
      let s ← getAt neg.sumCols p.2
      ok (Scalar.ln p.1 +. s)
    addClassRow res data.rows.length per

/-- `Multinomial::update_params`, src/learning/naive_bayes.rs lines 412-425. -/
def multUpdate (d : LogProbsD F) (data : Mat F) (cls : ℕ) : Outcome (LogProbsD F) := do
  let pseudoFc := data.sumRows.map fun s => s +. d.pseudo
  let pseudoCc := fsum pseudoFc
  let lp := pseudoFc.map fun x => Scalar.ln x -. Scalar.ln pseudoCc
  let rows ← setAt d.logProbs.rows cls lp
  ok ⟨⟨d.logProbs.cols, rows⟩, d.pseudo⟩

/-- `Multinomial`, src/learning/naive_bayes.rs lines 404-444 (`joint_log_lik`: lines 427-443). -/
def multDistr : NBDistr (LogProbsD F) F where
  fromParams c f := ⟨Mat.zeros c f, Scalar.one⟩
  update := multUpdate
  jointLogLik d data prior := do
    let res ← Mat.mul data d.logProbs.transpose
    addClassRow res data.rows.length (prior.map Scalar.ln)

end RM
