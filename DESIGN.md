# Formal model of rusty-machine in Lean 4 — design

Source: `/repo` (AtheMathmo/rusty-machine, pinned commit). The Rust code is read as text only.
Everything machine-checked is in `lean/Verif`. `lake build` in `lean/` checks it.

## 1. Layout

| directory | contents |
|---|---|
| `Verif/Base/` | outcome type (value / error kind / panic / undefined behaviour), scalar interface, matrices as lists of rows, the rulinalg and rand primitives the code calls |
| `Verif/Model/` | the Rust functions, one definition per function, each citing file and lines |
| `Verif/Spec/` | small, independent definitions used in theorem statements (what "k nearest" means, what a partition is, ...) |
| `Verif/Proofs/` | helper lemmas |
| `Verif/Props/` | the property theorems `Cxx_...`, each with a non-vacuity `example` |

## 2. Modelling decisions

* **Panics** (`assert!`, `unwrap`, index out of range, rulinalg dimension assertions) are the constructor
  `Outcome.panic`; `LearningResult::Err` is `Outcome.err kind`; reading an uninitialised or out-of-range slot through
  `unsafe` code is `Outcome.ub`. No total default (`getD`, `x/0 = 0`) stands in for a panic.
* **`&mut self`** methods return the new state. The state after an error is modelled (`Model/Calls`, `Model/KMeans`,
  `Model/NaiveBayes`), in the order of the assignments; the state after a panic is modelled in `Model/Unwind`, and other theorems about
  histories range over calls that return.
* **Randomness** is an explicit list (or function) of draws; theorems quantify over all draws that `gen_range` can give.
* **Loops** are structural recursion/folds; loops without an evident bound take fuel, and theorems state
  what happens for every fuel (termination = some fuel suffices; divergence = no fuel suffices).
* **Floating point.** Model functions are generic over an interface `Scalar F` listing the float operations used
  (arithmetic, IEEE comparisons as `Bool`, `is_finite`, `sqrt`, `exp`, `ln`...). It is instantiated with
  1. `ℝ` — exact arithmetic: used for algebraic identities (least squares, gradients, scaling laws, densities);
  2. `XR` — ℝ extended by NaN, +inf, -inf with IEEE rules for the special values, no rounding, one zero: used for
     "bad input is rejected" and for NaN-producing paths;
  3. any lawful monotone arithmetic (`MonoScalar`: comparisons are those of a linear order, operations are monotone,
     subtraction is antisymmetric, ...) — satisfied by exact reals and by reals with any monotone odd idempotent
     rounding of every operation (IEEE double rounding without overflow is one): used where the
     claim survives rounding (kd-tree pruning, DBSCAN symmetry, ...);
  4. `UR` — `XR` with an exponential that is 0 below -746 and infinite above 710 (`Base/Underflow.lean`): used for C122.
  5. `BR` — `XR` with a largest finite number: results beyond `f64::MAX` are infinite (`Base/Overflow.lean`): used for C124.
  Not modelled: the bit-level float format, overflow inside case 1/3, signed zeros, rulinalg's summation order.
* **rulinalg / rand / libnum** are not in `/repo`. Their functions are modelled from their documented behaviour
  (`Verif/Base/Linalg.lean`): `argmax/argmin` return the first extremal index, `mean(Axes::Row)` is the column mean,
  `variance(Axes::Row)` the sample variance and an error for fewer than 2 rows, `select_rows` panics out of range,
  `Matrix::new` panics on a wrong length, elementwise operations on two slices or vectors panic when the lengths differ (for
  `utils::vec_bin_op`, used by DBSCAN's distance, this may be a check of debug builds only; the one theorem that concludes a
  panic from it is the width part of `C28_predict_panics`), `sort_by` is stable, `gen_range(a,b)` returns a value in `[a,b)` and panics
  when `a >= b`. Matrix decompositions (`solve`, `Cholesky`, `svd`) enter as parameters with their contract as a
  hypothesis.
* `usize` is `Nat` (no overflow), except in `Model/Words` (64-bit words, for network sizes and numbers of neighbours) and `Model/FmincgWide`. `len - 1` on an empty neighbour list before an unchecked access (knn/mod.rs lines 183 and 217) counts as
  undefined behaviour, as in release builds; with overflow checks on it panics first. Only searches for no neighbours get there.

## 3. Plan per property

| id | model | proof |
|---|---|---|
| C01, C02 | `Folds` as (start,size) arithmetic and list slicing | arithmetic on `n/k`, `n%k`; concatenation of consecutive slices |
| C03 | `k_fold_validate` over an arbitrary state-passing model | induction over folds |
| C04, C05, C06, C07 | shuffles as recursion over draw lists; uninitialised buffer as `Option` slots | permutation by swaps; bijection draws <-> arrangements by induction; counting for the reservoir |
| C08, C09 | confusion matrix over label lists, hash map as association list | induction over samples |
| C10, C11 | counters | induction, arithmetic |
| C12 | rows of reals | algebra |
| C13–C18 | transforms, generic scalar | real algebra; case analysis on NaN/inf in `XR` |
| C19 | `KNearest` container | sorted-insert invariant; "k smallest" specification as a permutation split |
| C20–C22 | tree type, fuelled builder, queue search | tree invariants; lower-bound lemma for boxes/balls; search invariant. C21/C22 are expected to be partial: the search can drop neighbours when the first leaf has fewer than k-1 rows — witness proved |
| C23 | fuelled `select_split` | divergence for equal rows; termination by halving argument |
| C24, C25 | vote, life cycle | count/argmax lemmas |
| C26–C29 | DFS with visited list | DFS invariant, reachability; C27 and C29 negative witnesses |
| C30–C33 | k-means | argmin lemmas; mean minimises squared distance; draws |
| C34–C37 | naive Bayes | sums over classes; exp/log identities; negative witness for C37 |
| C38–C40 | layers as lists | slices; vector-Jacobian induction with Mathlib derivatives |
| C41–C43 | scalar functions | Mathlib calculus; C43 negative for L2 |
| C44–C47 | optimizers over an arbitrary model | loop invariants |
| C48–C53 | regression | linear algebra on `Matrix`; calculus |
| C54, C55 | mixture model, LU decomposition with contract | finite sums, quadratic forms, loop invariant over all histories |
| C70, C72, C73 | the same model | singular covariances by rank arguments; concrete negative witnesses |
| C74 | `BaseNet.computeGrad` with a regularisation | the gradient of C40 plus that of the penalty, separable functions; negative witness with two rows |
| C75 | every `predict` and `transform` of the model, any scalar | each is shown to be a function mapped over the rows, composed for networks; `RowWise` is the specification |
| C76 | every `train` as a call that returns the model afterwards and a result (Model/Calls) | `OnlyLastSuccess` is the specification; each `train` is shown to assign only on success and to read only the settings, then induction on the history |
| C77 | the trained models, transforms and scores on permuted sample lists | `List.Perm` on labelled samples; sums reorder (`SumsReorder`), minima and maxima of finite numbers commute (`FiniteOrder`); the Gaussian process through reindexed matrices and C59 |
| C78 | `ExpDist.sample`, `GaussDist.sample` as functions of the raw draw | push-forward of Mathlib's `expMeasure`/`gaussianReal` under the sampling function; library cdf and pdf related to the law through C62, C63 and C65 |
| C79 | `kppInit` as a function of the first index and the further draws, under the product of uniform laws | selection intervals give the one-step law; the expectation is a finite recursion (`expCost`), bounded by the argument of Arthur and Vassilvitskii (induction on the number of further centres) |
| C80 | `forgyLoop`, `partitionLoop` as functions of finite draw lists | renaming the positions by a permutation is a bijection of draw lists (multiple transitivity of the symmetric group); a missing position bounds the share of waiting lists; induction for the groups |
| C81 | `lineSearch`, `cgSuccess`, `cgLoop`, `interpolate`, `extrapolate`; the specification is the inductive relation `CGPath` | loop invariants relating the state to real lists; algebra for the minimisers |
| C82 | `kFoldValidate` over an arbitrary model, naive Bayes and neural networks as models; specification `FreshScores` | the run relation of C03 as a function of the folds; independence of the state by case analysis; negative witness for a one-weight network |
| C83 | `GradientDesc.optimize`, `LinReg.trainWithOptimization`, `LogReg.train`; specification `AboveTangents`, `distSq`, `gdGap` | the squared distance to any competitor pays for the excess cost of every step; Cauchy-Schwarz for early stops; convexity of the cross entropy by its derivative; telescoped drops for costs that are not convex; squared gradient against excess cost where the cost curves upwards |
| C84 | `standardizerFit/Transform`, `minmaxFit/Transform`, `LinReg.train/predict`, `nbTrain/nbPredict gaussDistr`; specification `inUnits` | mean and variance under affine maps; uniqueness of least squares; log likelihoods shift by the same constant in every class |
| C85 | the models of KNN, DBSCAN, kernels, GP, SVM and k-means; specification `ScalesBy`, `moved`, `affineMap`, `OrthonormalColumns` | the runs are related step by step; DBSCAN by uniqueness of the clustering; means move with the points |
| C86 | the models over numbers rounded by any function with relative error at most u (Spec/Rounding.lean) | calculus of errors (Proofs/RoundErr.lean): agreement up to a factor for nonnegative results, errors relative to a magnitude for signed ones; the combinatorial theorems C19 and C26 hold for rounded distances and are combined with the bounds; gradient descent by contraction towards the optimum with a perturbed step (Props/RoundingDescent.lean) |
| C87 | all models, over an arbitrary Scalar type | a logic of safe calls (Spec/Safe.lean, Proofs/Safe.lean): each library step keeps shapes, loops by induction with shape invariants |
| C88 | The update rule of StochasticGD as in C45 | change of variables between the stored parameters (points ahead) and Nesterov's positions, induction over the calls |
| C89 | The optimisers as in C45, their calls with arguments | potential function for the momentum method (the point z_t moving by -mu/(1-alpha) g), Duchi's telescoping argument for AdaGrad, induction over the calls |
| C90 | Kernels, Gaussian process, linear regression and nearest neighbours as in C59-C61, C48, C19-C24 | strict positive definiteness: a null combination is orthogonal to every further point (quadratic discriminant), Vandermonde determinant along a separating direction for the Gaussian, mixtures for the rational quadratic, the kink of the exponential; then the earlier theorems |
| C91 | Model/Defaults: every Default implementation and short constructor | the parameters are put into the theorems of the other properties and the results simplified to closed forms; a tree of fewer than 30 rows is one leaf, for which the search is exact |
| C92 | the models of naive Bayes and linear regression; Spec/AffineMaps: invertible affine map | the log densities change by a constant independent of the class; least squares solutions are unique and correspond under the affine map |
| C93 | Model/Glm as it is; Spec/AffineMaps | normal and interior targets: training is one weighted least squares fit, whose solution is unique and corresponds under the affine map; violation: two samples whose first pass has slope 1e-10/k, stopping for k = 2 and continuing for k = 1/2, where the linear predictor of the sample with target 0 stays negative in all later passes (induction over the passes) |
| C94 | Model/KMeans as it is, over the extended reals | pigeonhole on the k^n label lists: equal labels give equal centroids, the objective does not increase in between, so two consecutive iterations have equal cost and the stop test fires; an iteration that does not lower the objective leaves every occupied centroid in place (a mean is the unique minimiser), so the labels repeat; empty first cluster: at rest two iterations later |
| C95 | naive Bayes, KNN, scores, logistic regression, Bernoulli GLM, SVM | explicit log-probability tables under a permutation, majority vote under an injection, symmetry of the cross entropy, concrete counterexamples |
| C96 | linear, logistic, generalised linear regression, scaler, scores, priors, networks | sums over copies are multiples; uniqueness of the least squares solution, of inverses and of gradients; a concrete counterexample for networks |
| C97 | all supervised models, transformers, neighbours, k-means, DBSCAN | a reordering is a permutation of every row: sums, dot products and distances are unchanged, products with reordered matrices are reordered products; induction over the iterations of the optimisers and the layers of a network |
| C98 | both fits and transforms | a fitted scaler is a change of units with positive factors (C84 applies), and every change of units can be undone |
| C99 | the models of C48, C53, C59 and C12 | the solution of the normal equations and the formula of the Gaussian process are linear in the targets |
| C100 | train_with_optimization with the gradient descent loop | the points after n plain steps are linear in the targets by induction on n; a one-sample counterexample for different numbers of steps |
| C101 | the model of C54 and C55 | densities are divided by the change of volume, weighted means and covariances change like the data; the two loops run in lockstep by induction on the number of iterations; a one-component counterexample in a chosen unit |
| C102 | the models of C33-C40, C48-C52, C54, C59, C20 side by side | equal outputs row by row; gradients by uniqueness from C40 and C49; the two descents run in lockstep by induction; the ridge cost splits exactly at the weights of the process; one cluster and one component by induction on the iterations |
| C103 | Model/Pca.lean, contract SvdExact | singular values by comparing the largest sums of squares captured by p directions, vectors because the Gram matrix commutes with the change of basis; the row of projections is then the product with the block of that change of basis |
| C104 | Model/NNet.lean (defaultParams applies the scale of Normal::new(0, sqrt(2/(i+o))) to raw draws) | weights as a list of (layer, draw, factor) with no repetitions, independence by precomposition, sums of independent normals by induction |
| C105 | Model/NNet.lean, Model/Optim.lean | invariance of the function under the reordering of the weights; uniqueness of gradients turns it into equivariance of compute_grad (by C40), and that into equivariance of the optimisers (as for C97) |
| C106 | Model/KNN.lean, Model/Dbscan.lean, Model/Regression.lean, Model/Gp.lean | the state after the old samples is a prefix of the run (nearest neighbours); monotonicity of cores and chains and uniqueness of the clustering (DBSCAN); comparison of minima (regression); Schur-complement inequality for the inverse of a positive matrix and of a part of it (Gaussian processes) |
| C107 | Model/Score.lean, Model/CrossValidation.lean | the scores are means over rows; the test folds are a permutation of the samples, so the outputs of the folds can be scattered into one list of predictions; the fold sizes differ by at most one |
| C108 | Props/Stability.lean over the models of the predictors | Cauchy-Schwarz for affine maps; mean value theorem for the activation functions; induction over the layers; the triangle inequality for the neighbours; projections (least squares) and K(K+sI)^-1 (Gaussian process) do not increase norms |
| C109 | Props/RandomFolds.lean over the models of in_place_fisher_yates, Folds and k_fold_validate | the shuffle is a bijection from draws to arrangements (C04); renaming the samples by a permutation maps arrangements to arrangements, so every set of a size is equally frequent; double counting for samples and pairs; induction over the run of the validation |
| C110 | Props/OnAverage.lean over the models of the optimisers, the random utilities and the SVM | each index is at each position of equally many arrangements (renaming), shuffles commute with renaming so later epochs are covered; induction over independent draws for the SVM; induction over the pool for the sample mean |
| C111 | Props/HoldOut.lean over the models of LinRegressor and GaussianProcess | both models are unique minimisers, so the inequalities of both sums of squares are subtracted; replacing a target by the prediction of the model trained without it reproduces that model, and training is linear in the targets (C99); leverages are the diagonal of a projection, whose trace is computed; for Gaussian processes the solutions with and without the sample differ by a multiple of one column of the inverse |
| C112 | Props/Noise.lean over the models of LinRegressor and GaussianProcess; errors and random functions are given by their means and covariances on any probability space | predictions are combinations of the targets; the error of the prediction is uncorrelated with its difference from any other admissible combination, so mean squares add up (Pythagoras) |
| C113 | Props/NaiveBayesOptimal.lean over the model of naive_bayes.rs; the fitted distribution is written out independently (counts, proportions, normal density) and integrated with Mathlib's measure on functions Fin d -> R | predictions are the largest joint probability row by row (C34, C35, C36), summed or integrated over rows; the fit by weighted arithmetic and geometric means, the mean as the minimiser of squared distances, and log t <= t - 1 for variances |
| C114 | Props/TestScores.lean over the model of score.rs; samples are independent identically distributed functions on a Mathlib probability space | scores are means of functions of the samples (C10, C11, C12); Hoeffding's inequality, the variance of independent sums and the strong law of large numbers from Mathlib |
| C115 | Props/MoreSamples.lean and Props/MoreSamplesTwo.lean over the models of lin_reg.rs, standardize.rs, naive_bayes.rs, minmax.rs, knn and pca.rs; samples as in C114 | strong law of large numbers for the moments, then continuity: normal equations (C48) and matrix inverses, sample variances as a function of the first two moments, the formulas of C35 and C36 for the trained models; sets of positive probability are hit ever more often, hence extreme values and near neighbours (C19, C25); the sample second moments converge and the components are optimal for them (C69), uniformly over orthonormal directions |
| C116 | Props/NextSample.lean, CoverHart.lean over the models of standardize.rs, minmax.rs, lin_reg.rs, cross_validation.rs and knn; samples as in C114 | linearity of expectation; independent samples can be exchanged (joint law is a product measure), so each of n+1 samples is equally likely to be the record; least squares against a fixed function; the folds of C03 with exchanged samples; the events that sample i is the first equal to the next one are products, their sum is geometric |
| C117 | Props/Rounds.lean over the models of grad_desc.rs and nnet/mod.rs | the trajectory of C44 is determined by where the cost repeats; momentum by computing the epochs |
| C118 | Props/KMeansTwo.lean over the model of k_means.rs | the difference of the squared distances to two points is affine, so the two means are on different sides and each keeps a sample; induction over the iterations |
| C119 | Model/Examples.lean: the programs with their random numbers as arguments, printing left out | the theorems of the models they call (C118, C74, C68, C34, C35, C87), and counting of the draws |
| C120 | Model/DbscanStack.lean: the recursion with the number of nested calls that still fit | every nested call visits a new sample, so the calls in progress never outnumber the samples; on points in a row each call visits just the next point |
| C121 | Model/FmincgWide.lean: the optimiser with the casts to i32 and their wrap-around | each line search that ends is one of Model/Fmincg with as much room as it has used, so the turn lemma behind C47 and C81 applies; counting of evaluations against the counter |
| C122 | Base/Underflow.lean: the reals with special values and an exponential of bounded range, as one more instance of the number type | finite vectors are closed under the operations; NaN spreads through sums; evaluation of one iteration on the outlier data for every number of samples and components |
| C123 | Model/TreeStack.lean: split with a limited number of nested calls | each split leaves fewer samples on either side (induction over the steps); on samples 2^i - 1 each split takes off one sample (induction over the number of samples) |
| C124 | Base/Overflow.lean: the reals with special values and a largest finite number, as one more instance of the number type; Spec/Overflow.lean | the search commutes with maps of distances that respect comparisons (Proofs/MapDist.lean); sums of squares are finite or infinite; evaluation on the counterexamples |
| C125 | Model/Unwind.lean: the PCA model after a panic; Spec/Memory.lean: outcomes without undefined behaviour, the library's optimisers, the networks that safe calls make | a predicate `Defined` with one rule per combinator, induction over every loop (Proofs/Defined.lean, Proofs/DefinedNet.lean); invariant: the number of weights is that of the layers |
| C126 | Model/Unwind.lean: the models after a panic, assignment by assignment, for PCA, k-means and mixtures; Model/Calls and nbTrain for the others; Spec/Unwind.lean | case analysis along the calls, with the results on calls that do not panic (C87) |
| C127 | Model/GlmCriterion.lean: the trait as a record of its methods, defaults and the four built-in criteria, training and prediction for any of them | a pass is weighted least squares with arbitrary weights, characterised by the normal equations and the determinant; induction over the passes; for the exception, NaN spreads through the products (XR) |
| C128 | Model/UserNet.lean: NetLayer and Criterion as records of their methods, the network around arbitrary ones | gradients as derivatives along all curves (Spec/UserNet.lean); induction over the layers with the forward pass, the backward pass and the chain rule in one statement; invariant of the backward loop for initialised memory |
| C129 | Model/UserDistr.lean: Distribution as a record of its methods, training and prediction around an arbitrary one | the list of calls is written out in Spec/UserDistr.lean from data and targets alone; induction over the classes; prediction by C34's lemma on first maxima |
| C130 | Model/Work.lean: the same functions with a list of what they measure, query or call | forgetting the lists gives the models of the other properties; the rows below a node and the queue are conserved (sub-permutations of the tree's rows, C20); the queried points are the visited ones; products of row lists for kernels |
| C131 | Model/Datasets.lean: the two tables, generated from the source text | counting repeated rows of the whole tables by kernel evaluation, carried to the reals by injectivity, then the general theorems |
| C132 | Model/Words.lean: the size arithmetic of network construction, weight access, prediction and gradient as usize arithmetic in a debug and a release build; reservations of more than isize::MAX bytes | refinement to the exact models under bounds on the sum of sizes, by induction over the layers; explicit wrapping cases |
| C133 | The models of networks, optimisers, regularisation and logistic regression that exist | the network's function is unchanged by the signs; its gradient turns by uniqueness of derivatives (C40); induction over the steps of each optimiser, whose caches of squares do not turn while momentum does |
| C134 | The k-means model that exists | a row is nearest to the start of its group and then to its mean (a mean is no farther away than all its points, and the triangle inequality), so every iteration gives the same labels; the average over the draws is unfolded one draw at a time, each of which hits a new group with probability at least sS/(sS+nD) |
| C135 | The nearest-neighbour and DBSCAN models that exist | if a row of another class is among the k nearest then all the nearer rows of the class are too; every row of a group is a core sample and linked to all the group and to no other (C26) |
| C136 | The models that exist, over numbers that are rounded after every operation (C86) | the errors of a distance (C86) and of a mean, by the triangle inequality; the labels of one iteration are exactly the groups, so every iteration computes the same means |
| C137 | The logistic regression and gradient descent models that exist | the distance to the best fit (C83) against the scaled separating function, whose mean cross entropy is at most 1/(4n); a total cost below log 2 leaves no sample on the wrong side |
| C138 | The support vector machine model that exists; finite data in the arithmetic with infinities and NaN | the multipliers of C68: one counted sample of the right group outweighs all T possible counts of the other; independence of the draws for the probability; no sample of target 1 is counted when its kernel sum is large |
| C139 | The Gaussian process model that exists | quadratic form bounds for the inverse of K + noise I: the form is at least noise times the squared length, Cauchy-Schwarz in both forms |
| C140 | The models that exist and a specification of chains of steps | every step is an invertible affine map, principal axes are a rigid motion; induction on the chain with C92, C84 and C85 |
| C141 | the network and logistic regression models | a direction in which the rows differ (roots of polynomials), steep sigmoids, limits; parallelograms are kept by linear layers |
| C142 | the naive Bayes model | C34 and C35, the largest deviation from a mean in terms of the sample variance, monotonicity of the normal density in the variance far from the mean |
| C143 | the models of C24, C34, C35, C48 and C13 | counting votes; linearity in the targets and uniqueness of the least squares fit; the variance of a class grows with the square of an outlier; the scaling is affine |
| C144 | the models of C23, C25, C26, C31 and C59 | all rows are the nearest rows; the first node is a leaf; the specification of DBSCAN at its extremes; one cluster contains every sample; the weights are bounded by the residuals over noise minus the norm of the Gram matrix |
| C145 | the models of C19, C28, C30, C34, C48, C50 and C58 | differences of squared distances and of log likelihoods are affine functions; a set given by affine inequalities, strict or not, is convex |
| C146 | the models of C34, C48 and C85, naive Bayes over numbers with infinities and NaN | appending a constant is a rigid map (C85); the design matrix has dependent columns (C48); a variance 0 makes the log likelihood inf - inf, and the scan for the maximum keeps a NaN in front and skips it elsewhere |
| C147 | the prediction functions over numbers with infinities and NaN | NaN is absorbing for sums and products, every comparison with it is false, so scans for a minimum or maximum that start with it keep it |
| C148 | the models of k-means, naive Bayes and nearest neighbours over numbers with infinities and NaN | invariant of the loop: centroid 0 has a NaN and the cost is NaN so the loop never stops early; the mean of a class with a NaN is NaN, and so is a sum of counts; the test of the SVM loop is false for NaN, so no multiplier changes; a NaN coordinate stays NaN under each update of the stochastic optimisers; one NaN in the samples makes every entry of the gradient NaN, for networks by induction over the layers forwards and backwards; renumbering of the rows after the ignored sample; uniqueness of the density clustering for DBSCAN |
| C149 | the models of the scores and costs over numbers with infinities and NaN | induction over the rows; a NaN survives elementwise operations and sums; the two-class test fails for NaN |
| C71 | the same model | Gibbs' inequality and the trace/log-determinant inequality (eigenvalues) for the EM bound |
| C56, C57 | PCA with SVD contract | linear algebra; negative witnesses |
| C58 | SVM | loop invariant |
| C59 | GP with Cholesky contract | linear algebra |
| C60, C61 | kernels | symmetry by induction on expressions; quadratic forms |
| C62, C63, C65 | distributions | Mathlib calculus, numeric bounds; C65: negative witness for 0.003, power series and monotonicity for the bound 0.0032 |
| C64 | naive Bayes without class 0 | general negative theorem |
| C66 | gradient descent training | descent lemma with an explicit step bound; negative witness |
| C67 | GLM maximum likelihood | concavity; negative witnesses for Bernoulli and Poisson; the loop stops after its second pass on interior targets because the lagged adjustments are 0, so the result is one weighted least squares fit |
| C68 | SVM objective | closed form of the multipliers; negative witnesses; limit of long trainings by the strong law of large numbers |
| C69 | PCA optimality | Bessel/Pythagoras in matrix form; existence of singular value decompositions |

Nothing in the list is considered inexpressible; what is left out is listed per property in MANIFEST.json.

## 4. What is modelled

Every function of `src/` except the `Display`/`Debug`/serialisation derives and the
benchmark and test programs; and the four programs of `examples/`. Per file:

| source | model | simplifications |
|---|---|---|
| analysis/confusion_matrix.rs, score.rs | `Model/Score` | hash map as association list; `usize` sums do not overflow |
| datasets/iris.rs, trees.rs, mod.rs | `Model/Datasets` | the decimal literals are exact rationals, converted to the scalar type |
| analysis/cross_validation.rs | `Model/CrossValidation`, `Model/RandUtils` | the trained model is an arbitrary state-passing function |
| data/transforms/* | `Model/Transforms`, `Model/RandUtils` | in-place mutation as a returned matrix |
| learning/toolkit/rand_utils.rs | `Model/RandUtils` | draws as streams of naturals reduced by `gen_range`; uninitialised memory as `Option` slots |
| learning/toolkit/activ_fn.rs, cost_fn.rs, regularization.rs | `Model/Activ`, `Cost`, `Regularization` | decimal constants before rounding |
| learning/toolkit/kernel.rs | `Model/Kernel` | `hypot` as the root of the sum of squares |
| stats/dist/* | `Model/Dist` | `FRAC_2_PI` is 2/pi; sampling takes rand's raw draw (`Exp1`, `StandardNormal`) as an argument |
| learning/knn/* | `Model/KNN`, `Model/BinaryTree` | boxed nodes as an inductive type; the builder takes fuel; unchecked indexing out of range is `ub` |
| learning/k_means.rs | `Model/KMeans` | weighted sampling by a draw in the unit interval |
| learning/dbscan.rs | `Model/Dbscan`, `Model/DbscanStack` | the recursive expansion takes fuel, always sufficient (proved) |
| learning/naive_bayes.rs | `Model/NaiveBayes`, `Model/UserDistr` (distributions of the user's own) | model state also after failures |
| learning/nnet/* | `Model/NNet`, `Model/UserNet` | `debug_assert`s absent (release build); `Model/NNet` has the crate's layers and criteria, `Model/UserNet` arbitrary ones as records of functions of their arguments; uninitialised gradients as `Option`; the draws of `StandardNormal` are a stream, scaled as `Normal::new` scales them |
| learning/optim/grad_desc.rs | `Model/Optim` | calls of the model are logged in a writer; the stochastic optimisers share one frame |
| learning/optim/fmincg.rs | `Model/Fmincg`, `Model/FmincgWide` | the nested line-search loops are flattened into one step function; `Model/Fmincg` takes limits below 2^31, `Model/FmincgWide` all limits with the casts to `i32` (overflow of `i32` arithmetic panics, as in debug builds) |
| learning/lin_reg.rs, logistic_reg.rs, glm.rs | `Model/LinReg`, `Model/Glm`, `Model/GlmCriterion` (criteria of the user's own) | solver and inverse by contract; `Binomial` cannot be constructed outside the crate; methods of a user's criterion are functions of their arguments |
| learning/gp.rs | `Model/Gp` | Cholesky and triangular solvers by contract |
| learning/svm.rs | `Model/Svm` | over `XR`, because the first iteration divides by zero |
| learning/pca.rs | `Model/Pca` | singular value decomposition by contract |
| learning/gmm.rs | `Model/Gmm` | LU decomposition by contract; underflow of `exp` for far samples in the arithmetic `UR` (C122) only |
| the `train` calls of lin_reg, logistic_reg, glm, gp, svm, pca, gmm on `&mut self` | `Model/Calls` | the model after an error, in the order of the assignments; after a panic see `Model/Unwind` |
| examples/* | `Model/Examples` | random numbers as arguments; printing left out |

Contracts of external linear algebra are hypotheses of the theorems, never axioms, and each is shown satisfiable by a concrete
function for all inputs: Gaussian elimination (`gaussSolve`, `gaussInverse`), `choleskyFactor`, `someSvd`, `exactLup`.
Real division by zero has Mathlib's value 0 in the `ℝ` instance; theorems over `ℝ` carry hypotheses that keep it away, or
the same path is also treated over `XR`.

## 5. Trusted base

Lean 4.33.0's kernel; axioms `propext`, `Classical.choice`, `Quot.sound` only; the correspondence between the
definitions in `Verif/Base`, `Verif/Model` and the Rust sources (by reading, line references in the comments);
the assumed behaviour of rulinalg/rand/std listed above; exact arithmetic where stated.
