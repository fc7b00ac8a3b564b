import Verif.Model.Dist
import Verif.Model.Kernel
import Verif.Model.Gp
import Verif.Model.KMeans
import Verif.Model.KNN
import Verif.Model.BinaryTree
import Verif.Model.NNet
import Verif.Model.Optim
import Verif.Model.LinReg
import Verif.Model.Transforms

/-! The remaining constructors and `Default` implementations of the library. -/

namespace RM
open Outcome Scalar
variable {F : Type} [Scalar F]

/-- `Gaussian::default`, src/stats/dist/gaussian.rs lines 35-43. -/
def GaussDist.default : GaussDist F := ⟨Scalar.zero, Scalar.one, Scalar.one⟩

/-- `Exponential::default`, src/stats/dist/exponential.rs lines 23-27. -/
def ExpDist.default : ExpDist F := ⟨Scalar.one⟩

/-- `Polynomial::default`, src/learning/toolkit/kernel.rs lines 216-224. -/
def polyDefault : Kernel F := polyKernel Scalar.one Scalar.zero Scalar.one
/-- `Exponential::default`, src/learning/toolkit/kernel.rs lines 337-344. -/
def expDefault : Kernel F := expKernel Scalar.one Scalar.one
/-- `HyperTan::default`, src/learning/toolkit/kernel.rs lines 397-404. -/
def hyperTanDefault : Kernel F := hyperTanKernel Scalar.one Scalar.zero
/-- `Multiquadric::default`, src/learning/toolkit/kernel.rs lines 445-449. -/
def multiquadricDefault : Kernel F := multiquadricKernel Scalar.zero
/-- `RationalQuadratic::default`, src/learning/toolkit/kernel.rs lines 498-505. -/
def rationalQuadraticDefault : Kernel F := rationalQuadraticKernel Scalar.one Scalar.one

/-- `GaussianProcess::new`, src/learning/gp.rs lines 112-121. -/
def Gp.new (ker : Kernel F) (mean : Mat F → List F) (noise : F) : Gp F := ⟨ker, mean, noise, none, none, none⟩
/-- `GaussianProcess::default`, src/learning/gp.rs lines 86-97, with `ConstMean::default`, lines 48-52. -/
def Gp.default : Gp F := ⟨sqExpDefault, constMean Scalar.zero, Scalar.zero, none, none, none⟩

/-- `MinMaxFitter::default`, src/data/transforms/minmax.rs lines 44-51. -/
def MinMaxFitter.default : MinMaxFitter F := ⟨Scalar.zero, Scalar.one⟩
/-- `StandardizerFitter::default`, src/data/transforms/standardize.rs lines 43-50. -/
def StandardizerFitter.default : StandardizerFitter F := ⟨Scalar.zero, Scalar.one⟩
/-- The norm of `Normalizer::default`, src/data/transforms/normalize.rs lines 56-63. -/
def normalizerDefault : List F → F := eucNorm

/-- `BinaryTree::new`, src/learning/knn/binary_tree.rs lines 261-267. -/
def BinaryTree.new {B : Type} (leafsize : ℕ) : BinaryTree F B := ⟨leafsize, none, none⟩
/-- `BinaryTree::default`, src/learning/knn/binary_tree.rs lines 32-38. -/
def BinaryTree.default {B : Type} : BinaryTree F B := ⟨30, none, none⟩
/-- `KNNClassifier::new_specified`, src/learning/knn/mod.rs lines 98-104. -/
def KNNClassifier.newSpecified {S : Type} (k : ℕ) (s : S) : KNNClassifier S := ⟨k, s, none⟩
/-- `KNNClassifier::new`, src/learning/knn/mod.rs lines 79-85. -/
def KNNClassifier.new (k : ℕ) : KNNClassifier (BinaryTree F (List F × List F)) := ⟨k, BinaryTree.default, none⟩
/-- `KNNClassifier::default`, src/learning/knn/mod.rs lines 60-66. -/
def KNNClassifier.default : KNNClassifier (BinaryTree F (List F × List F)) := ⟨5, BinaryTree.default, none⟩

/-- The kd-tree as the searcher of a classifier, src/learning/knn/binary_tree.rs lines 386-430; `fuel` bounds the unbounded
loops of `build`: running out of it, which stands for not terminating, is taken as a panic. -/
def kdSearcher (fuel : ℕ) : Searcher F (BinaryTree F (List F × List F)) where
  build t m := (treeBuild kdKind fuel t m).getD panic
  search := treeSearch kdKind

/-- `KMeansClassifier::new`, src/learning/k_means.rs lines 126-133 (its initialiser is `KPlusPlus`, `kppInit`). -/
def KMeans.new (k : ℕ) : KMeans F := ⟨100, k, none⟩
/-- `set_iters`, src/learning/k_means.rs lines 179-181. -/
def KMeans.setIters (m : KMeans F) (iters : ℕ) : KMeans F := { m with iters := iters }

/-- `BCECriterion::default`, src/learning/nnet/mod.rs lines 526-530. -/
def Criterion.bceDefault : Criterion F := ⟨.bce, .none⟩
/-- `MSECriterion::default`, src/learning/nnet/mod.rs lines 567-571. -/
def Criterion.mseDefault : Criterion F := ⟨.mse, .none⟩
/-- The network of `NeuralNet::default`, src/learning/nnet/mod.rs lines 113-118 and 255-261; `r` are the random streams of the
layers. Its algorithm is `StochasticGD.default`. -/
def BaseNet.default (sizes : List ℕ) (r : ℕ → ℕ → F) : Outcome (BaseNet F) := BaseNet.mlp sizes Criterion.bceDefault sigmoid r

/-- `train` of `LogisticRegressor::default`, src/learning/logistic_reg.rs lines 59-66, 101-116. -/
def LogReg.trainDefault (inputs : Mat F) (targets : List F) : Outcome (LogReg F) :=
  LogReg.train (fun g start => (GradientDesc.default.optimize g start).out) inputs targets

end RM
