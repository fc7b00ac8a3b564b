import Verif.Base.Cholesky
import Verif.Base.Linalg
import Verif.Base.Logged
import Verif.Base.MonoScalar
import Verif.Base.Outcome
import Verif.Base.Overflow
import Verif.Base.Scalar
import Verif.Base.Solve
import Verif.Base.Underflow
import Verif.Model.Activ
import Verif.Model.BinaryTree
import Verif.Model.Calls
import Verif.Model.Cost
import Verif.Model.CrossValidation
import Verif.Model.Datasets
import Verif.Model.Dbscan
import Verif.Model.DbscanStack
import Verif.Model.Defaults
import Verif.Model.Dist
import Verif.Model.Examples
import Verif.Model.Fmincg
import Verif.Model.FmincgWide
import Verif.Model.Glm
import Verif.Model.GlmCriterion
import Verif.Model.Gmm
import Verif.Model.Gp
import Verif.Model.KMeans
import Verif.Model.KNN
import Verif.Model.Kernel
import Verif.Model.LinReg
import Verif.Model.NNet
import Verif.Model.NaiveBayes
import Verif.Model.Optim
import Verif.Model.Pca
import Verif.Model.RandUtils
import Verif.Model.Regularization
import Verif.Model.Score
import Verif.Model.Svm
import Verif.Model.Transforms
import Verif.Model.TreeStack
import Verif.Model.Unwind
import Verif.Model.UserDistr
import Verif.Model.UserNet
import Verif.Model.Words
import Verif.Model.Work
import Verif.Proofs.Argmax
import Verif.Proofs.Backprop
import Verif.Proofs.BackpropNet
import Verif.Proofs.BinaryTree
import Verif.Proofs.CdfAccuracy
import Verif.Proofs.Cholesky
import Verif.Proofs.CrossValidation
import Verif.Proofs.Dbscan
import Verif.Proofs.Defined
import Verif.Proofs.DefinedNet
import Verif.Proofs.Fmincg
import Verif.Proofs.FmincgWide
import Verif.Proofs.Glm
import Verif.Proofs.Gmm
import Verif.Proofs.GmmAlg
import Verif.Proofs.GmmHist
import Verif.Proofs.GmmMoves
import Verif.Proofs.GmmOne
import Verif.Proofs.GmmTrain
import Verif.Proofs.Gp
import Verif.Proofs.KMeans
import Verif.Proofs.KMeansInit
import Verif.Proofs.KNNVote
import Verif.Proofs.KNearest
import Verif.Proofs.KppExpect
import Verif.Proofs.KppLaw
import Verif.Proofs.Linalg
import Verif.Proofs.Lloyd
import Verif.Proofs.LloydFix
import Verif.Proofs.MapDist
import Verif.Proofs.MatEnt
import Verif.Proofs.MatOf
import Verif.Proofs.NNet
import Verif.Proofs.NaiveBayes
import Verif.Proofs.NaiveBayesLik
import Verif.Proofs.NaiveBayesTrain
import Verif.Proofs.NoErr
import Verif.Proofs.Optim
import Verif.Proofs.Overflow
import Verif.Proofs.PSD
import Verif.Proofs.PSDIntegral
import Verif.Proofs.Pca
import Verif.Proofs.PcaAlg
import Verif.Proofs.PcaUnique
import Verif.Proofs.RandUtils
import Verif.Proofs.RealMat
import Verif.Proofs.RegDescent
import Verif.Proofs.Regression
import Verif.Proofs.Reservoir
import Verif.Proofs.RoundErr
import Verif.Proofs.RowOrder
import Verif.Proofs.RowWise
import Verif.Proofs.Safe
import Verif.Proofs.Score
import Verif.Proofs.Solve
import Verif.Proofs.StrictPD
import Verif.Proofs.SvdExists
import Verif.Proofs.Svm
import Verif.Proofs.ToMatrix
import Verif.Proofs.Transforms
import Verif.Proofs.TreeKinds
import Verif.Proofs.TreeTermination
import Verif.Proofs.Underflow
import Verif.Proofs.Work
import Verif.Props.Activ
import Verif.Props.AffineMaps
import Verif.Props.Apart
import Verif.Props.ApartLabels
import Verif.Props.ApartRounded
import Verif.Props.Backprop
import Verif.Props.BayesApart
import Verif.Props.Calls
import Verif.Props.ConstantFeature
import Verif.Props.Copies
import Verif.Props.Cost
import Verif.Props.CoverHart
import Verif.Props.CrossValidation
import Verif.Props.Datasets
import Verif.Props.Dbscan
import Verif.Props.DbscanStack
import Verif.Props.Defaults
import Verif.Props.Dist
import Verif.Props.DistAccuracy
import Verif.Props.DistSample
import Verif.Props.Encoding
import Verif.Props.EncodingTwo
import Verif.Props.Examples
import Verif.Props.ExamplesDogs
import Verif.Props.ExamplesNet
import Verif.Props.ExamplesSvm
import Verif.Props.Express
import Verif.Props.Extremes
import Verif.Props.FeatureOrder
import Verif.Props.FeatureOrderCases
import Verif.Props.FeatureOrderFit
import Verif.Props.FeatureOrderMore
import Verif.Props.FeatureOrderNet
import Verif.Props.Fmincg
import Verif.Props.FmincgWide
import Verif.Props.FreshFolds
import Verif.Props.FreshNet
import Verif.Props.GdFast
import Verif.Props.GdRate
import Verif.Props.Glm
import Verif.Props.GlmCriterion
import Verif.Props.GlmLik
import Verif.Props.GlmOnePass
import Verif.Props.Gmm
import Verif.Props.GmmMoves
import Verif.Props.Gp
import Verif.Props.GpKnows
import Verif.Props.HiddenUnits
import Verif.Props.HoldOut
import Verif.Props.KMeans
import Verif.Props.KMeansInit
import Verif.Props.KMeansRuns
import Verif.Props.KMeansStops
import Verif.Props.KMeansTwo
import Verif.Props.KMeansUniform
import Verif.Props.KNN
import Verif.Props.KNNTree
import Verif.Props.Kernel
import Verif.Props.KppSeeding
import Verif.Props.LineSearch
import Verif.Props.Memory
import Verif.Props.MissingCounts
import Verif.Props.MissingNet
import Verif.Props.MissingNoise
import Verif.Props.MissingScore
import Verif.Props.MissingStoch
import Verif.Props.MissingSvm
import Verif.Props.MissingTrain
import Verif.Props.MissingValue
import Verif.Props.MoreData
import Verif.Props.MoreSamples
import Verif.Props.MoreSamplesTwo
import Verif.Props.Moves
import Verif.Props.NNet
import Verif.Props.NaiveBayes
import Verif.Props.NaiveBayesOptimal
import Verif.Props.NaiveBayesSmoothing
import Verif.Props.NaiveBayesUnseen
import Verif.Props.Nesterov
import Verif.Props.NetMisfit
import Verif.Props.NextSample
import Verif.Props.NoPanic
import Verif.Props.NoPanicFolds
import Verif.Props.NoPanicModels
import Verif.Props.NoPanicMore
import Verif.Props.Noise
import Verif.Props.Noiseless
import Verif.Props.OnAverage
import Verif.Props.Optim
import Verif.Props.Outliers
import Verif.Props.Overflow
import Verif.Props.Pca
import Verif.Props.PcaMoves
import Verif.Props.Pipelines
import Verif.Props.RandUtils
import Verif.Props.RandomFolds
import Verif.Props.Refit
import Verif.Props.RegDescent
import Verif.Props.RegNet
import Verif.Props.Regions
import Verif.Props.Regression
import Verif.Props.Regret
import Verif.Props.Regularization
import Verif.Props.ReservoirMore
import Verif.Props.Rounding
import Verif.Props.RoundingDescent
import Verif.Props.RoundingMore
import Verif.Props.RoundingThree
import Verif.Props.Rounds
import Verif.Props.RowOrder
import Verif.Props.RowOrderGp
import Verif.Props.RowWise
import Verif.Props.SameFunction
import Verif.Props.SameFunctionOne
import Verif.Props.SameFunctionRidge
import Verif.Props.Score
import Verif.Props.ScoreParts
import Verif.Props.Separable
import Verif.Props.SeparableNet
import Verif.Props.Signs
import Verif.Props.Stability
import Verif.Props.Svm
import Verif.Props.SvmApart
import Verif.Props.SvmLimit
import Verif.Props.Targets
import Verif.Props.TargetsDescent
import Verif.Props.TestScores
import Verif.Props.Transforms
import Verif.Props.TreeStack
import Verif.Props.Underflow
import Verif.Props.Units
import Verif.Props.Unwind
import Verif.Props.UserDistr
import Verif.Props.UserNet
import Verif.Props.Words
import Verif.Props.Work
import Verif.Spec.AffineMaps
import Verif.Spec.AsMatrix
import Verif.Spec.BinaryTree
import Verif.Spec.Calculus
import Verif.Spec.Calls
import Verif.Spec.Cholesky
import Verif.Spec.Copies
import Verif.Spec.CrossValidation
import Verif.Spec.Dbscan
import Verif.Spec.Dist
import Verif.Spec.Encoding
import Verif.Spec.FeatureOrder
import Verif.Spec.Fresh
import Verif.Spec.Glm
import Verif.Spec.GlmCriterion
import Verif.Spec.Gmm
import Verif.Spec.GmmMoves
import Verif.Spec.Gp
import Verif.Spec.KMeans
import Verif.Spec.KNN
import Verif.Spec.Kernel
import Verif.Spec.LineSearch
import Verif.Spec.Matrix
import Verif.Spec.Memory
import Verif.Spec.Moves
import Verif.Spec.NNet
import Verif.Spec.NaiveBayes
import Verif.Spec.Noiseless
import Verif.Spec.Optim
import Verif.Spec.Overflow
import Verif.Spec.Pca
import Verif.Spec.PcaMoves
import Verif.Spec.Random
import Verif.Spec.Regression
import Verif.Spec.Rounding
import Verif.Spec.RowOrder
import Verif.Spec.RowWise
import Verif.Spec.Safe
import Verif.Spec.Score
import Verif.Spec.Seeding
import Verif.Spec.Solve
import Verif.Spec.Svm
import Verif.Spec.Underflow
import Verif.Spec.Units
import Verif.Spec.Unwind
import Verif.Spec.UserDistr
import Verif.Spec.UserNet
