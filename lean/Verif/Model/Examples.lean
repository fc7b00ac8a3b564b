import Verif.Model.Defaults
import Verif.Model.Svm
import Verif.Model.NaiveBayes

/-! Model of the programs in /repo/examples: what they compute from their random draws. Printing is left out; the result of a
program is the numbers it prints last. The programs' sizes are parameters, their values are given with the `main` functions. -/

namespace RM
open Outcome Scalar
variable {F : Type} [Scalar F]

/-! ### examples/k-means_generating_cluster.rs -/

/-- `Normal::new(mean, sd)` followed by one `sample` (crate `rand`, external); `n` is the raw draw of `StandardNormal`. -/
def normalSample (mean sd n : F) : F := mean +. sd *. n

/-- `generate_data`, examples/k-means_generating_cluster.rs lines 12-42. `z i` is the `i`-th raw draw. `Normal::new` also asserts
that the deviation is not negative, which has been checked by then. -/
def generateData (z : ℕ → F) (centroids : Mat F) (points : ℕ) (noise : F) : Outcome (Mat F) := do
  assert (decide (0 < centroids.cols))
  assert (decide (0 < centroids.rows.length))
  assert (Scalar.zero <=. noise)
  let raw := (List.range points).flatMap fun p => centroids.rows.zipIdx.flatMap fun c => c.1.zipIdx.map fun x =>
    x.1 +. normalSample Scalar.zero noise (z ((p * centroids.rows.length + c.2) * centroids.cols + x.2))
  Mat.new (centroids.rows.length * points) centroids.cols raw

/-- `main`, examples/k-means_generating_cluster.rs lines 44-76, for `points` samples from each centroid (2000 in the program): the
numbers of samples closest to the first and to the second centroid. `raw` and `us` are the draws of the initialisation. -/
def kmeansExample (z : ℕ → F) (raw : ℕ) (us : List F) (points : ℕ) : Outcome (ℕ × ℕ) := do
  let centroids ← Mat.new 2 2 [Scalar.ofRat (-1 / 2), Scalar.ofRat (-1 / 2), Scalar.zero, Scalar.ofRat (1 / 2)]
  let samples ← generateData z centroids points (Scalar.ofRat (2 / 5))
  let trained := kmTrain (kppInit raw us) (KMeans.new 2) samples
  let _ ← expectOk trained.2
  let _ ← ofOption trained.1.centroids
  let classes ← expectOk (kmPredict trained.1 samples)
  ok ((classes.filter fun x => x == 0).length, (classes.filter fun x => !(x == 0)).length)

/-! ### examples/nnet-and_gate.rs -/

/-- The training inputs, examples/nnet-and_gate.rs lines 25-38; `left i` and `right i` are the draws of round `i`. -/
def andInputs (left right : ℕ → F) (samples : ℕ) : List F := (List.range samples).flatMap fun i => [left i, right i]

/-- The training labels, examples/nnet-and_gate.rs lines 32-36. -/
def andLabels (left right : ℕ → F) (samples : ℕ) : List F :=
  (List.range samples).map fun i =>
    if (Scalar.ofRat (7 / 10) <. left i) && (Scalar.ofRat (7 / 10) <. right i) then Scalar.one else Scalar.zero

/-- The evaluation loop, examples/nnet-and_gate.rs lines 69-80: hits and misses. -/
def andEvaluate (expected : List F) : ℕ → List F → ℕ × ℕ → Outcome (ℕ × ℕ)
  | _, [], s => ok s
  | idx, p :: ps, (hits, misses) => do
    let e ← getAt expected idx
    if Scalar.zero <. (p -. Scalar.ofRat (1 / 2)) *. (e -. Scalar.ofRat (1 / 2)) then andEvaluate expected (idx + 1) ps (hits + 1, misses)
    else andEvaluate expected (idx + 1) ps (hits, misses + 1)

/-- `main`, examples/nnet-and_gate.rs lines 16-86, for a number of samples (10000 in the program): hits and misses. `init` are the
random streams of the layers, `r` those of the epochs. -/
def andExample (left right : ℕ → F) (init : ℕ → ℕ → F) (r : ℕ → ℕ → ℕ) (samples : ℕ) : Outcome (ℕ × ℕ) := do
  let inputs ← Mat.new samples 2 (andInputs left right samples)
  let targets ← Mat.new samples 1 (andLabels left right samples)
  let net ← BaseNet.mlp [2, 1] ⟨.bce, .l2 Scalar.zero⟩ sigmoid init
  let net ← expectOk (net.train (fun g start X T => (StochasticGD.default.optimize g r start X T).out) inputs targets)
  let zero : F := Scalar.zero
  let one : F := Scalar.one
  let testInputs ← Mat.new 4 2 [zero, zero, zero, one, one, one, one, zero]
  let res ← expectOk (net.forwardProp testInputs)
  andEvaluate [zero, zero, one, zero] 0 res.data (0, 0)

/-! ### examples/svm-sign_learner.rs -/

/-- The training inputs, examples/svm-sign_learner.rs lines 22-25. -/
def signInputs : List ℚ := [-1 / 10, -2, -9, -101, -6667 / 10, 0, 1 / 10, 1, 11, 99, 4567 / 10]

/-- The training targets, examples/svm-sign_learner.rs lines 26-29. -/
def signTargets : List ℚ := [-1, -1, -1, -1, -1, 1, 1, 1, 1, 1, 1]

/-- The numbers tried, examples/svm-sign_learner.rs line 42. -/
def signTests : List ℤ := ((List.range 2000).map fun i : ℕ => (i : ℤ) - 1000).filter fun x => x.tmod 100 == 0

/-- The evaluation loop, examples/svm-sign_learner.rs lines 42-58: hits and misses. -/
def signEvaluate (m : Svm F) : List ℤ → ℕ × ℕ → Outcome (ℕ × ℕ)
  | [], s => ok s
  | n :: ns, (hits, misses) => do
    let nf : F := Scalar.ofRat n
    let input ← Mat.new 1 1 [nf]
    let out ← expectOk (m.predict input)
    let o ← getAt out 0
    if Scalar.zero <. o *. nf then signEvaluate m ns (hits + 1, misses)
    else if nf ==. Scalar.zero then signEvaluate m ns (hits + 1, misses)
    else signEvaluate m ns (hits, misses + 1)

/-- `main`, examples/svm-sign_learner.rs lines 17-65: hits and misses. -/
def signExample (draws : ℕ → ℕ) : Outcome (ℕ × ℕ) := do
  let inputs : Mat F ← Mat.new 11 1 (signInputs.map Scalar.ofRat)
  let m ← expectOk (Svm.train draws { ker := hyperTanKernel (Scalar.ofRat 100) Scalar.zero, lambda := Scalar.ofRat (3 / 10) } inputs
    (signTargets.map Scalar.ofRat))
  signEvaluate m signTests (0, 0)

/-! ### examples/naive_bayes_dogs.rs -/

/-- `Color` and `Dog`, examples/naive_bayes_dogs.rs lines 11-24; the colour is whether the dog is red. -/
structure Dog (F : Type) where
  red : Bool
  friendliness : F
  furriness : F
  speed : F

/-- `Dog::rand`, examples/naive_bayes_dogs.rs lines 26-63, from the coin and three raw draws of `StandardNormal`. -/
def Dog.rand (coin z₁ z₂ z₃ : F) : Dog F :=
  if coin <. Scalar.ofRat (1 / 2) then
    ⟨true, normalSample Scalar.zero Scalar.one z₁, normalSample Scalar.zero Scalar.one z₂, normalSample Scalar.zero Scalar.one z₃⟩
  else
    ⟨false, normalSample Scalar.one Scalar.one z₁, normalSample Scalar.one Scalar.one z₂, normalSample (Scalar.ofRat (-1)) Scalar.one z₃⟩

/-- A matrix collected from an iterator of slices (rulinalg, external): without slices it has no columns, and slices of different
lengths panic. -/
def Mat.collect : List (List F) → Outcome (Mat F)
  | [] => ok ⟨0, []⟩
  | r :: rs => if rs.all (fun x => x.length == r.length) then ok ⟨r.length, r :: rs⟩ else panic

/-- The traits of a dog as a row, examples/naive_bayes_dogs.rs lines 86-89 and 99-102. The source puts all numbers into one vector and
cuts it into chunks of three: the chunks are these rows. -/
def Dog.traits (d : Dog F) : List F := [d.friendliness, d.furriness, d.speed]

/-- The colour as a target row, examples/naive_bayes_dogs.rs lines 90-96. -/
def Dog.target (d : Dog F) : List F := if d.red then [Scalar.one, Scalar.zero] else [Scalar.zero, Scalar.one]

/-- `evaluate_prediction`, examples/naive_bayes_dogs.rs lines 107-119: whether it counts as a hit. -/
def Dog.hit (d : Dog F) (prediction : List F) : Outcome Bool := do
  let p ← getAt prediction 0
  ok (d.red == (p ==. Scalar.one))

/-- A loop over dogs and predictions, examples/naive_bayes_dogs.rs lines 138-140 and 146-150. -/
def dogHits : List (Dog F × List F) → ℕ → Outcome ℕ
  | [], hits => ok hits
  | (d, p) :: rest, hits => do
    let b ← d.hit p
    dogHits rest (if b then hits + 1 else hits)

/-- `main` with `generate_dog_data`, examples/naive_bayes_dogs.rs lines 65-105 and 121-154, on the dogs drawn (1000 and 1000 in the
program): the number of hits. -/
def dogsExample [ScalarPi F] (training test : List (Dog F)) : Outcome ℕ := do
  let trainingMatrix ← Mat.collect (training.map Dog.traits)
  let targetMatrix ← Mat.collect (training.map Dog.target)
  let testMatrix ← Mat.collect (test.map Dog.traits)
  let trained := nbTrain gaussDistr (nbNew (GaussD F) F) trainingMatrix targetMatrix
  let _ ← expectOk trained.2
  let predictions ← expectOk (nbPredict gaussDistr trained.1 testMatrix)
  let unprinted := test.length - 10
  let hits ← dogHits ((test.zip predictions.rows).take unprinted) 0
  dogHits ((test.zip predictions.rows).drop unprinted) hits

end RM
