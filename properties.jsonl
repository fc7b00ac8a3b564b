{"id": "C01", "title": "k-fold test folds partition the samples", "statement": "For n samples and k folds with 1 < k <= n, the k test index sets yielded during k-fold validation are pairwise disjoint, together contain every index 0..n-1 exactly once, and this holds whatever the random shuffle was.", "quantifier": "every n, every k with 1<k<=n, every sequence of random draws made by the shuffle", "why_tests_cant": "A test fixes n, k and one shuffle; a boundary error in the remainder handling shows only for particular n mod k.", "anchors": ["src/analysis/cross_validation.rs: Folds::new, Folds::next, create_shuffled_indices, ShuffledIndices"]}
{"id": "C02", "title": "k-fold train sets are complements and folds are balanced", "statement": "In every fold the training indices are exactly the indices not in the test fold (each once), no slice is out of bounds, every test fold has floor(n/k) or ceil(n/k) elements (the first n mod k folds get the extra one), exactly k folds are produced; and the iterator refuses (panics on) k <= 1 and k > n.", "quantifier": "every n, k and fold index, every shuffle", "why_tests_cant": "Needs all (n,k) pairs and all fold positions at once.", "anchors": ["src/analysis/cross_validation.rs: Folds, TrainingIndices::iter, TestIndices"]}
{"id": "C03", "title": "k-fold validation never leaks test rows and reports one score per fold", "statement": "k_fold_validate returns one score per fold in fold order; each score is computed from a model trained (starting from the state left by the previous folds) only on the rows outside the fold, on inputs and targets selected with the same indices; if some train or predict call fails, the first such failure is returned and no later call is made.", "quantifier": "every model (arbitrary train/predict behaviour and state), data set, score function, k and shuffle", "why_tests_cant": "The model is an arbitrary trait implementation and the shuffle is random; a test sees one model and one shuffle.", "anchors": ["src/analysis/cross_validation.rs: k_fold_validate, copy_rows"]}
{"id": "C04", "title": "in-place Fisher-Yates is a uniform shuffle", "statement": "in_place_fisher_yates leaves a permutation of its input in the slice and never indexes out of bounds, and the map from sequences of in-range random draws to resulting arrangements is a bijection onto all arrangements, so uniform independent draws give every arrangement the same probability. Cross-validation uses it to produce a permutation of 0..n-1.", "quantifier": "every slice (any length, any element type) and every sequence of draws allowed by gen_range", "why_tests_cant": "Uniformity is a statement about all n! outcomes and about all lengths.", "anchors": ["src/learning/toolkit/rand_utils.rs: in_place_fisher_yates", "src/analysis/cross_validation.rs: create_shuffled_indices"]}
{"id": "C05", "title": "copying Fisher-Yates is a uniform shuffle and never reads uninitialised memory", "statement": "fisher_yates returns a permutation of its input of the same length; every slot it reads has been written before, although the buffer starts uninitialised; and draws-to-arrangements is a bijection.", "quantifier": "every input slice and every sequence of draws allowed by gen_range", "why_tests_cant": "Reading uninitialised memory may go unnoticed in a run; the claim ranges over all lengths and draws.", "anchors": ["src/learning/toolkit/rand_utils.rs: fisher_yates"]}
{"id": "C06", "title": "reservoir sampling returns a uniform sample without replacement", "statement": "reservoir_sample(pool, k) with k < |pool| returns exactly k elements taken from k distinct positions of the pool, never indexing out of bounds; with k = |pool| it returns the pool unchanged; it panics exactly when k > |pool|. Over all equally likely draw sequences every pool position is included equally often, with frequency k/|pool|.", "quantifier": "every pool, every k, every sequence of draws", "why_tests_cant": "Equal inclusion frequency is a count over all draw sequences.", "anchors": ["src/learning/toolkit/rand_utils.rs: reservoir_sample"]}
{"id": "C07", "title": "Shuffler permutes rows only", "statement": "Shuffler::transform returns a matrix of the same shape whose rows are a permutation of the input rows with each row's contents intact; it never fails or panics; and every row order is reachable.", "quantifier": "every matrix (including 0 or 1 row) and every sequence of draws", "why_tests_cant": "Ranges over all matrices and all random draws.", "anchors": ["src/data/transforms/shuffle.rs: Shuffler::transform, ShufflerFitter::fit"]}
{"id": "C08", "title": "confusion matrix cells count (truth, prediction) pairs", "statement": "Entry (i,j) of confusion_matrix(pred, truth, labels) is exactly the number of positions whose true label is labels[i] and whose predicted label is labels[j]; positions with a label outside the list contribute nowhere; the matrix is square with one row per label.", "quantifier": "all label types, prediction/target vectors and label lists", "why_tests_cant": "Counts for arbitrary vectors and label lists.", "anchors": ["src/analysis/confusion_matrix.rs: confusion_matrix"]}
{"id": "C09", "title": "confusion matrix default labels, totals and rejection", "statement": "With no label list the labels are all distinct values of targets and predictions in increasing order, so the entries sum to the number of samples and the trace is the number of correct predictions (so trace/total is the accuracy). The function panics exactly when the two vectors differ in length or an explicit label list contains a duplicate.", "quantifier": "all vectors over an ordered label type, all label lists", "why_tests_cant": "Completeness of the default label set and the exact panic condition quantify over all inputs.", "anchors": ["src/analysis/confusion_matrix.rs: confusion_matrix", "src/analysis/score.rs: accuracy"]}
{"id": "C10", "title": "accuracy is the fraction of agreeing positions", "statement": "accuracy(outputs, targets) panics iff the lengths differ and otherwise equals (#agreeing positions)/n, lies in [0,1], is 1 iff all positions agree; row_accuracy is the same over rows of matrices. On empty input it is 0/0.", "quantifier": "all output and target sequences", "why_tests_cant": "Universal over inputs, with the empty and mismatched cases.", "anchors": ["src/analysis/score.rs: accuracy, row_accuracy"]}
{"id": "C11", "title": "precision, recall and F1 agree with their definitions", "statement": "On 0/1 vectors of equal length precision = TP/(TP+FP), recall = TP/(TP+FN), f1 = 2TP/(2TP+FP+FN); each lies in [0,1] when its denominator is positive, f1 is the harmonic mean of the other two, swapping outputs and targets exchanges precision and recall and keeps f1; each function panics iff lengths differ or a value other than 0/1 is met at the first offending position.", "quantifier": "all pairs of vectors over a type with 0 and 1", "why_tests_cant": "Tests fix a few confusion tables; the panic condition depends on order of positions.", "anchors": ["src/analysis/score.rs: precision, recall, f1"]}
{"id": "C12", "title": "negative mean squared error", "statement": "neg_mean_squared_error(outputs, targets) of equal-shaped matrices equals minus the mean over rows of the squared Euclidean row difference; it is <= 0, equals 0 iff the matrices are equal, is symmetric, and larger row errors never increase the score.", "quantifier": "all pairs of equal-shaped non-empty real matrices", "why_tests_cant": "Universal over matrices.", "anchors": ["src/analysis/score.rs: neg_mean_squared_error"]}
{"id": "C13", "title": "MinMaxScaler maps training columns onto the requested range", "statement": "After fitting on data whose columns are non-constant, transforming the same data puts every entry in [scaled_min, scaled_max], and in each column some entry attains scaled_min and some attains scaled_max; the map of each column is affine and increasing.", "quantifier": "all finite data matrices with non-constant columns and all scaled_min < scaled_max (exact arithmetic)", "why_tests_cant": "Range over all matrices and ranges.", "anchors": ["src/data/transforms/minmax.rs: MinMaxFitter::fit, MinMaxScaler::transform"]}
{"id": "C14", "title": "MinMaxScaler inverse transform round-trips", "statement": "inv_transform(transform(X)) = X and transform(inv_transform(X)) = X for any matrix with the fitted number of columns, whenever scaled_min != scaled_max. When scaled_min = scaled_max fit still succeeds but the inverse divides by zero.", "quantifier": "all fitted scalers and all matrices of matching width (exact arithmetic)", "why_tests_cant": "Round trip for all inputs.", "anchors": ["src/data/transforms/minmax.rs: MinMaxScaler::transform, MinMaxScaler::inv_transform"]}
{"id": "C15", "title": "MinMaxScaler rejects bad data instead of producing garbage", "statement": "fit fails with InvalidData exactly when some entry is NaN/infinite or some column is constant (when there is at least one row); transform and inv_transform fail exactly when the column count differs from the fitted one.", "quantifier": "all matrices over floats including NaN and infinities", "why_tests_cant": "Special values anywhere in the matrix, any shape.", "anchors": ["src/data/transforms/minmax.rs: MinMaxFitter::fit, transform, inv_transform"]}
{"id": "C16", "title": "Standardizer yields the requested mean and standard deviation", "statement": "After fitting on data with at least two rows and no constant column, transforming the same data gives every column mean equal to the requested mean and sample standard deviation equal to the requested stdev (up to sign of stdev: its absolute value).", "quantifier": "all real matrices with >= 2 rows and non-constant columns, all requested means and stdevs (exact arithmetic)", "why_tests_cant": "Algebraic identity over all data.", "anchors": ["src/data/transforms/standardize.rs: StandardizerFitter::fit, Standardizer::transform"]}
{"id": "C17", "title": "Standardizer inverse round-trips; degenerate columns", "statement": "inv_transform undoes transform for every matrix of matching width when fitted variances and the requested stdev are non-zero; fit rejects data with fewer than two rows and non-finite data; both maps fail exactly on matrices of a different width; a constant column is accepted by fit and transforming the training data turns that whole column into NaN (a defect users must guard against).", "quantifier": "all fitted standardizers, all matrices of matching width", "why_tests_cant": "All inputs, including degenerate columns.", "anchors": ["src/data/transforms/standardize.rs: fit, transform, inv_transform"]}
{"id": "C18", "title": "Normalizer scales each row to unit norm", "statement": "With the Euclidean norm (and any norm that is absolutely homogeneous), transform returns a matrix of the same shape in which every non-zero row has norm 1 and is a positive multiple of the original row, zero rows are unchanged, normalising twice equals normalising once; it fails exactly when some row norm is not finite.", "quantifier": "all matrices, all norms satisfying the norm laws; failure condition over floats with NaN/inf", "why_tests_cant": "Universal over matrices and norms.", "anchors": ["src/data/transforms/normalize.rs: Normalizer::transform"]}
{"id": "C19", "title": "brute-force search returns exactly the k nearest rows", "statement": "BruteForce::search(point,k), 1 <= k <= rows, returns k distinct row indices with their true distances in non-decreasing order, and no omitted row is strictly closer than a returned one; it panics for k = 0 or k > rows.", "quantifier": "all data matrices, query points, k", "why_tests_cant": "All data sets and tie patterns.", "anchors": ["src/learning/knn/brute_force.rs: search", "src/learning/knn/mod.rs: KNearest::new, add, dist, get_results, get_distances"]}
{"id": "C20", "title": "kd-tree and ball-tree leaves partition the training rows", "statement": "After building, every training row index is in exactly one leaf, every leaf is non-empty and has fewer than leafsize rows, and every row in a subtree lies inside the recorded box (kd) / ball (ball tree).", "quantifier": "all data sets and leaf sizes for which the build terminates", "why_tests_cant": "Structural invariant of arbitrary trees.", "anchors": ["src/learning/knn/binary_tree.rs: select_split, split, build, KDTreeBranch::build, BallTreeBranch::build"]}
{"id": "C21", "title": "kd-tree search returns the k nearest rows", "statement": "KDTree::search(point,k) should return k distinct indices with true distances in non-decreasing order, none of the omitted rows being strictly closer - i.e. the same distances as brute force.", "quantifier": "all data sets, leaf sizes, queries and k <= rows", "why_tests_cant": "Pruning errors show only for specific geometry; all trees and queries must be covered.", "anchors": ["src/learning/knn/binary_tree.rs: search_leaf, search, KDTreeBranch::dist, maybe_close", "src/learning/knn/mod.rs: KNearest"]}
{"id": "C22", "title": "ball-tree search returns the k nearest rows", "statement": "BallTree::search(point,k) should return the same distances as brute force, and all results are true nearest neighbours.", "quantifier": "all data sets, leaf sizes, queries and k <= rows (exact arithmetic)", "why_tests_cant": "Same as C21; relies on the triangle inequality for all points.", "anchors": ["src/learning/knn/binary_tree.rs: BallTreeBranch::build, dist, search"]}
{"id": "C23", "title": "when tree construction terminates", "statement": "In exact arithmetic KNN training with a tree searcher returns (successfully) exactly when no row value occurs leafsize or more times; otherwise (for instance leafsize <= 1, or leafsize equal rows) it runs forever, also with rounding. With rounding it can run forever on distinct rows: two adjacent representable numbers whose midpoint rounds to the smaller one.", "quantifier": "all data sets with at least one row and column, all leaf sizes", "why_tests_cant": "Non-termination cannot be observed by a finite test; termination ranges over all data.", "anchors": ["src/learning/knn/binary_tree.rs: select_split, split, build"]}
{"id": "C24", "title": "KNN prediction is the majority label of the k nearest, ties to the smallest label", "statement": "For each query row predict returns a label occurring among the labels of the rows found by the searcher with maximal multiplicity, and the smallest such label.", "quantifier": "all label vectors, searcher results and queries", "why_tests_cant": "All tie patterns.", "anchors": ["src/learning/knn/mod.rs: KNNClassifier::predict, freq"]}
{"id": "C25", "title": "KNN training validation and life cycle", "statement": "predict before a successful train fails with UntrainedModel; train fails with InvalidData exactly when the target count differs from the row count or fewer rows than k are given; a failed train leaves the classifier unchanged, so a later predict behaves as before; after successful brute-force training with k >= 1 predict on matching-width input succeeds with one label per row.", "quantifier": "all histories of train/predict calls", "why_tests_cant": "History property.", "anchors": ["src/learning/knn/mod.rs: KNNClassifier::train, predict"]}
{"id": "C26", "title": "DBSCAN labels are the connected components of core points", "statement": "After train, a sample has a cluster label iff at least min_points samples (itself included) are at distance < eps from it; two labelled samples share a label iff they are linked by a chain of labelled samples with consecutive distances < eps; labels used are exactly 0..c-1, numbered by the first core sample of each cluster. Training always terminates.", "quantifier": "all data sets, eps > 0, min_points", "why_tests_cant": "Recursive graph exploration over arbitrary neighbourhood graphs.", "anchors": ["src/learning/dbscan.rs: train, expand_cluster, region_query, init_params"]}
{"id": "C27", "title": "DBSCAN noise is exactly the points not within eps of a cluster", "statement": "Documentation: a sample is None iff it is not within distance eps of a cluster. (Fails: border samples - within eps of a core sample but not core - are reported as None; what holds is that a sample farther than eps from every core sample is None.)", "quantifier": "all data sets, eps, min_points", "why_tests_cant": "Needs all neighbourhood structures.", "anchors": ["src/learning/dbscan.rs: module documentation, expand_cluster"]}
{"id": "C28", "title": "DBSCAN predict assigns the nearest training sample's cluster", "statement": "On a model trained while predictive, predict gives each query the cluster of its nearest training sample (lowest index among equally near) if that distance is < eps and None otherwise; predict fails with InvalidState when not predictive and UntrainedModel when no data were recorded; querying a training sample that is at positive distance from all others returns its own label.", "quantifier": "all trained models and query matrices", "why_tests_cant": "All queries and tie patterns.", "anchors": ["src/learning/dbscan.rs: predict"]}
{"id": "C29", "title": "DBSCAN predict always uses data and clusters of the same training run", "statement": "Across any history of set_predictive and train calls, predict never combines the data of one training run with the clusters of another. (Fails: training predictively, then non-predictively on other data, then switching predictive on again mixes the two, and can index out of bounds.)", "quantifier": "all call histories", "why_tests_cant": "History property.", "anchors": ["src/learning/dbscan.rs: train, predict, set_predictive"]}
{"id": "C30", "title": "k-means assigns every point to a nearest centroid", "statement": "predict returns for each row the smallest index of a centroid at minimal squared distance; results are < k; predicting before training fails with UntrainedModel; training with k > rows fails with InvalidData and leaves the model unchanged.", "quantifier": "all centroid sets and inputs", "why_tests_cant": "All ties and inputs.", "anchors": ["src/learning/k_means.rs: predict, find_closest_centroids, init_centroids"]}
{"id": "C31", "title": "k-means training never increases the objective", "statement": "Each training iteration leaves the sum of squared distances of points to their nearest centroid no larger than before (exact arithmetic), as long as no cluster is empty, so the trained centroids are at least as good as the initial ones; training stops after at most iters iterations and keeps k centroids of the input width.", "quantifier": "all data sets, initial centroids, iteration limits", "why_tests_cant": "Inequality over all data and all iteration counts.", "anchors": ["src/learning/k_means.rs: train, update_centroids, find_closest_centroids"]}
{"id": "C32", "title": "k-means initialisers return k centroids built from the data", "statement": "Forgy returns k rows of the data at pairwise distinct positions; random partition returns the means of k non-empty disjoint groups covering all rows; k-means++ returns k data rows; all results have k rows and the input width, so training does not reject them.", "quantifier": "all data sets with k <= rows and all random draws", "why_tests_cant": "All random outcomes.", "anchors": ["src/learning/k_means.rs: Forgy, RandomPartition, KPlusPlus"]}
{"id": "C33", "title": "k-means++ never picks a point that already coincides with a centroid", "statement": "sample_discretely returns an index of positive weight for every draw in [0,sum), each index exactly for a set of draws of length equal to its weight; hence in k-means++ each new centroid differs from all previous ones, and the final-panic is unreachable when the weights are non-negative with positive sum.", "quantifier": "all weight vectors and all draws", "why_tests_cant": "Continuous random draws.", "anchors": ["src/learning/k_means.rs: sample_discretely, KPlusPlus"]}
{"id": "C34", "title": "naive Bayes priors and one-hot predictions", "statement": "After a successful train the class priors are the class frequencies (non-negative, sum 1); predict returns one row per input, each with a single 1 in the column of a maximal joint log likelihood (first maximal) and zeros elsewhere; predict before training fails; a target row without any entry equal to 1 makes train fail with InvalidState.", "quantifier": "all inputs and target matrices with one target row per sample", "why_tests_cant": "All data.", "anchors": ["src/learning/naive_bayes.rs: train, predict, update_params, find_class, get_classes"]}
{"id": "C35", "title": "Gaussian naive Bayes computes the Bayes joint likelihood", "statement": "exp(joint log likelihood) of class c at x equals prior_c times the product over features of the normal density with that class's fitted mean and variance; the fitted parameters are the class sample mean and sample variance.", "quantifier": "all trained models with positive variances and all inputs (exact arithmetic)", "why_tests_cant": "Identity over all inputs.", "anchors": ["src/learning/naive_bayes.rs: Gaussian::update_params, joint_log_lik"]}
{"id": "C36", "title": "Bernoulli and multinomial naive Bayes use properly smoothed probabilities", "statement": "For 0/1 (resp. non-negative count) data the fitted feature probabilities lie strictly between 0 and 1, multinomial ones sum to 1 per class, and exp(joint log likelihood) is prior times the product of Bernoulli factors p^x(1-p)^(1-x) (resp. p^x).", "quantifier": "all training data with entries in the stated range, all inputs", "why_tests_cant": "Identity and bounds over all data.", "anchors": ["src/learning/naive_bayes.rs: Bernoulli, Multinomial"]}
{"id": "C37", "title": "a failed naive Bayes retrain leaves the model usable as before", "statement": "A train call that returns an error leaves the model's predictions unchanged. (Fails: the distribution is replaced before validation, so later predictions use mixed parameters.)", "quantifier": "all call histories", "why_tests_cant": "History property.", "anchors": ["src/learning/naive_bayes.rs: train, update_params"]}
{"id": "C38", "title": "neural network weights are a disjoint, in-order packing of layer weights", "statement": "After any sequence of add calls the weight vector length is the sum of the layers' parameter counts, get_net_weights of layer i is the i-th consecutive block reshaped row-major, blocks are disjoint and cover the vector, so changing one layer's block leaves other layers' weights unchanged.", "quantifier": "all layer sequences and weight vectors", "why_tests_cant": "All networks.", "anchors": ["src/learning/nnet/mod.rs: BaseNeuralNet::add, get_layer_weights, mlp"]}
{"id": "C39", "title": "neural network forward pass shapes and errors", "statement": "forward_prop on n rows returns n rows with the last layer's width, each output row depends only on the matching input row, an input of the wrong width is rejected with InvalidData, an inner mismatch with InvalidParameters, and the empty network is the identity. Training on inputs for which predict reports an error panics.", "quantifier": "all networks, weights and inputs", "why_tests_cant": "All networks.", "anchors": ["src/learning/nnet/mod.rs: forward_prop", "src/learning/nnet/net_layer.rs: forward"]}
{"id": "C40", "title": "back-propagation computes the gradient", "statement": "compute_grad of a network without regularisation returns the cost and a vector which is, component by component, the partial derivative of (number of rows x cost) with respect to the weights - for a single sample exactly the gradient of the cost.", "quantifier": "all networks of linear/activation layers, weights, inputs and targets (exact arithmetic)", "why_tests_cant": "Derivative statement over all networks and points.", "anchors": ["src/learning/nnet/mod.rs: compute_grad", "src/learning/nnet/net_layer.rs: forward, back_input, back_params, remove_first_col"]}
{"id": "C41", "title": "activation functions satisfy their derivative and inverse laws", "statement": "For Sigmoid, Linear, Exp and Tanh: func_grad is the derivative of func, func_grad_from_output(func x) = func_grad x, func_inv(func x) = x, and the range is (0,1), R, (0,inf), (-1,1) respectively, strictly increasing.", "quantifier": "all real arguments", "why_tests_cant": "All reals.", "anchors": ["src/learning/toolkit/activ_fn.rs"]}
{"id": "C42", "title": "cost functions and their gradients", "statement": "Mean squared error and cross entropy costs are non-negative on valid outputs, zero (MSE) only at the targets, and grad_cost is (number of rows) times the partial derivative of cost with respect to each output.", "quantifier": "all real output/target matrices (outputs in (0,1) for cross entropy)", "why_tests_cant": "All matrices.", "anchors": ["src/learning/toolkit/cost_fn.rs"]}
{"id": "C43", "title": "regularisation gradients are the gradients of the regularisation costs", "statement": "reg_grad is the gradient of reg_cost for L1 (where no weight is zero), L2 and ElasticNet. (L2 fails: the cost uses the norm, the gradient that of the squared norm.)", "quantifier": "all weight matrices and strengths", "why_tests_cant": "All matrices.", "anchors": ["src/learning/toolkit/regularization.rs"]}
{"id": "C44", "title": "gradient descent follows the gradient and respects its iteration limit", "statement": "GradientDesc::optimize evaluates the model at most iters times and returns start moved by exactly j <= iters steps w <- w - alpha*grad(w), j being the first step at which the cost repeats up to 1e-20; the result has the starting length; starting at a stationary point it returns the start; for a cost with L-Lipschitz gradient and alpha <= 2/L the result is no worse than the start. (Quirk: a start of cost 0 is returned unchanged whatever its gradient.)", "quantifier": "all differentiable models (arbitrary compute_grad), starts and settings", "why_tests_cant": "Arbitrary model behaviour.", "anchors": ["src/learning/optim/grad_desc.rs: GradientDesc::optimize"]}
{"id": "C45", "title": "stochastic optimizers visit every sample once per epoch", "statement": "In each epoch of StochasticGD, AdaGrad and RMSProp every training row is used exactly once with its own target, in the order of a fresh shuffle; the parameters follow the documented update rule from call to call; the run ends after the first epoch whose mean cost repeats or after iters epochs; the result has the starting length; with all-zero gradients the start is returned; fewer targets than inputs panic.", "quantifier": "all data sets, models, permutations and settings", "why_tests_cant": "All random orders.", "anchors": ["src/learning/optim/grad_desc.rs: StochasticGD, AdaGrad, RMSProp optimize"]}
{"id": "C46", "title": "AdaGrad and RMSProp steps are bounded", "statement": "Every AdaGrad update moves each coordinate by at most alpha and every RMSProp update moves each coordinate by at most learning_rate/sqrt(1-decay), for all settings the constructors accept; the constructors panic exactly outside the documented ranges. (With tau = 0, which is accepted, floats turn a coordinate with zero gradient into NaN.)", "quantifier": "all gradient sequences and settings in the accepted ranges", "why_tests_cant": "All gradient histories.", "anchors": ["src/learning/optim/grad_desc.rs: AdaGrad, RMSProp"]}
{"id": "C47", "title": "conjugate gradient never returns something worse than the start", "statement": "ConjugateGD::optimize returns parameters whose cost is <= the cost at the start, for any model with finite costs and gradients; it performs at most 1 + iters*(1+max) evaluations. (Fails when a cost is NaN.)", "quantifier": "all models (arbitrary cost and gradient functions), starts, settings in the intended ranges (rho >= 0, ext > 1, 0 < int < 1)", "why_tests_cant": "Arbitrary cost functions and line-search paths.", "anchors": ["src/learning/optim/fmincg.rs: ConjugateGD::optimize"]}
{"id": "C48", "title": "linear regression training solves least squares", "statement": "If train succeeds the parameters minimise the sum of squared residuals over all parameter vectors (intercept included), uniquely so; predict on the training inputs returns the fitted values whose residuals are orthogonal to every feature column and sum to zero.", "quantifier": "all full-rank data sets and targets (exact linear solve)", "why_tests_cant": "Optimality over all parameter vectors.", "anchors": ["src/learning/lin_reg.rs: train, predict"]}
{"id": "C49", "title": "regression gradients are exact", "statement": "compute_grad of linear (resp. logistic) regression returns the cost and exactly its gradient with respect to the parameters.", "quantifier": "all data sets and parameter vectors", "why_tests_cant": "Derivative identity for all inputs.", "anchors": ["src/learning/lin_reg.rs: compute_grad", "src/learning/logistic_reg.rs: compute_grad"]}
{"id": "C50", "title": "logistic predictions are probabilities", "statement": "Logistic regression predictions lie strictly in (0,1), increase with the linear score, and equal 1/2 exactly on the decision hyperplane; predict before training fails with UntrainedModel; predict returns one value per row.", "quantifier": "all parameters and inputs (exact arithmetic)", "why_tests_cant": "All inputs.", "anchors": ["src/learning/logistic_reg.rs: predict"]}
{"id": "C51", "title": "GLM link functions", "statement": "For Logit, Log and Identity: func_inv is the inverse of func on its domain, func_grad is the derivative of func, and func_inv maps R into the valid mean range.", "quantifier": "all reals in the domain", "why_tests_cant": "All reals.", "anchors": ["src/learning/glm.rs: LinkFunc impls"]}
{"id": "C52", "title": "GLM validation and weights", "statement": "GLM train rejects targets with a different count and targets outside the family's support; the working weights are positive at every mean reachable through the link; predictions lie in the family's mean range; predict before train fails. (Fails in one point: targets outside the support, e.g. 7 for the Bernoulli family, are accepted. Linearly dependent features make train panic instead of returning an error.)", "quantifier": "all families, links, inputs", "why_tests_cant": "All inputs.", "anchors": ["src/learning/glm.rs: train, predict, Criterion impls"]}
{"id": "C53", "title": "Normal GLM equals ordinary least squares", "statement": "A GLM with the normal family and identity link trained on full-rank data has exactly the least squares parameters of linear regression.", "quantifier": "all full-rank data sets (exact arithmetic)", "why_tests_cant": "Identity for all data.", "anchors": ["src/learning/glm.rs: train, Normal", "src/learning/lin_reg.rs: train"]}
{"id": "C54", "title": "Gaussian mixture weights form a distribution", "statement": "GaussianMixtureModel::new gives k equal weights summing to 1; with_weights accepts exactly k non-negative weights and normalises them to sum 1 keeping ratios (positive total); every E-step gives each sample membership weights that are non-negative and sum to 1; every M-step gives mixture weights that sum to 1.", "quantifier": "all k, weights, data and densities", "why_tests_cant": "All inputs.", "anchors": ["src/learning/gmm.rs: new, with_weights, membership_weights, update_params"]}
{"id": "C55", "title": "Gaussian mixture M-step means and covariances", "statement": "The updated means are the membership-weighted averages of the data (hence inside each coordinate's data range) and the updated covariances are symmetric, positive semi-definite and - with a positive regularisation constant - positive definite.", "quantifier": "all data and membership matrices with positive class totals", "why_tests_cant": "All inputs.", "anchors": ["src/learning/gmm.rs: update_params, compute_cov"]}
{"id": "C56", "title": "PCA projections", "statement": "predict centres with the training means and projects on the components: on the training data the projected columns have mean zero, for n >= p and all components kept pairwise distances are preserved, a width mismatch is rejected with InvalidData, and asking for more components than columns is rejected.", "quantifier": "all data sets and the SVD contract (orthonormal right factors)", "why_tests_cant": "All inputs.", "anchors": ["src/learning/pca.rs: train, predict, centering"]}
{"id": "C57", "title": "PCA retraining forgets the previous training set", "statement": "After a successful train the model predicts as a freshly created model trained on the same data. (Fails: training on wide data sets a flag that is never reset, so a later training on tall data predicts with transposed components; and restricting the number of components on wide data truncates features.)", "quantifier": "all call histories", "why_tests_cant": "History property.", "anchors": ["src/learning/pca.rs: train, predict"]}
{"id": "C58", "title": "SVM outputs and multipliers", "statement": "SVM::predict returns only +1 or -1 for every input row (exact arithmetic), predict before train fails; after training every multiplier lies in [0,1] and they sum to at most 1, for every sequence of random draws. (With optim_iters set to 0 the outputs are NaN.)", "quantifier": "all data, kernels, draws", "why_tests_cant": "All random draws.", "anchors": ["src/learning/svm.rs: train, predict"]}
{"id": "C59", "title": "Gaussian process regression solves the regularised system", "statement": "After training, the predictive mean is m(x) + k(x,X)(K+noise I)^-1(y - m(X)); with zero noise it interpolates the training targets; predictions before training fail; a target count mismatch is rejected; the posterior covariance is K** - K*(K+noise I)^-1 K*^T and symmetric.", "quantifier": "all kernels/means/data for which the Cholesky step succeeds", "why_tests_cant": "All inputs.", "anchors": ["src/learning/gp.rs: ker_mat, train, predict, get_posterior"]}
{"id": "C60", "title": "kernels are symmetric and composable", "statement": "Every built-in kernel and every sum/product of symmetric kernels is symmetric in its arguments, and the sum (product) kernel's value is the sum (product) of the values. Kernels based on distances panic exactly when the two points have different lengths; kernels based on the dot product never panic and silently ignore the tail of the longer point.", "quantifier": "all vectors and kernel parameters", "why_tests_cant": "All inputs and nestings.", "anchors": ["src/learning/toolkit/kernel.rs"]}
{"id": "C61", "title": "positive semi-definite kernels stay positive semi-definite under composition", "statement": "For every finite point set the Gram matrices of the linear (c >= 0), polynomial (natural degree, alpha, c >= 0), squared-exponential, exponential and rational-quadratic kernels, and of sums and products of kernels with positive semi-definite Gram matrices, are positive semi-definite; squared-exponential values lie in (0, ampl] with value ampl on the diagonal. The multiquadric and hyperbolic-tangent kernels do not have the property.", "quantifier": "all finite point sets", "why_tests_cant": "All point sets.", "anchors": ["src/learning/toolkit/kernel.rs"]}
{"id": "C62", "title": "exponential distribution functions are consistent", "statement": "For a positive rate, cdf is 0 at 0, strictly increasing, tends to 1, and its derivative is pdf; logpdf = ln pdf; sampling inverts the cdf; pdf, logpdf and cdf panic exactly for negative arguments. (The constructor does not reject non-positive rates.)", "quantifier": "all rates > 0 and x >= 0", "why_tests_cant": "All reals.", "anchors": ["src/stats/dist/exponential.rs"]}
{"id": "C63", "title": "gaussian distribution functions are consistent", "statement": "logpdf = ln pdf up to the rounding of the two library constants, pdf is positive, symmetric about the mean and maximal there and integrates to 1 up to that rounding; the cdf approximation is increasing, lies in [0,1], is 1/2 at the mean and satisfies cdf(mean+d)+cdf(mean-d)=1; a sample is mean + sqrt(variance) times a standard normal draw.", "quantifier": "all means, variances > 0, x", "why_tests_cant": "All reals.", "anchors": ["src/stats/dist/gaussian.rs", "src/stats/dist/mod.rs: consts"]}
{"id": "C64", "title": "a class without training samples is never predicted", "statement": "If some class column of the training targets has no samples, predict never answers with that class. (Fails for Gaussian and Bernoulli models: when class 0 is the unseen one, its NaN likelihood makes class 0 the answer for every input. Holds for multinomial models on finite non-negative data.)", "quantifier": "all training sets and finite inputs", "why_tests_cant": "Depends on NaN propagation for every data set.", "anchors": ["src/learning/naive_bayes.rs: predict, get_classes, joint_log_lik"]}
{"id": "C65", "title": "the gaussian cdf is accurate to 0.003 as documented", "statement": "The value of cdf differs from the normal distribution function by at most 0.003. (Fails: at 1.6 standard deviations above the mean the error is about 0.0031.)", "quantifier": "all means, variances > 0, x", "why_tests_cant": "A bound over all reals against an integral.", "anchors": ["src/stats/dist/gaussian.rs: cdf"]}
{"id": "C66", "title": "regression by gradient descent ends no worse than it starts", "statement": "train_with_optimization of linear regression, and training of logistic regression with gradient descent, return parameters whose cost on the training data is no larger than the cost of the starting parameters. (Fails for inputs with large entries: the step length is fixed, and on the single sample 10 -> 1 linear regression ends 10^250 times worse than it started.)", "quantifier": "all data sets, targets and step lengths", "why_tests_cant": "Divergence depends on the data; all data sets.", "anchors": ["src/learning/lin_reg.rs: train_with_optimization", "src/learning/logistic_reg.rs: train", "src/learning/optim/grad_desc.rs: GradientDesc"]}
{"id": "C67", "title": "GLM training maximises the likelihood", "statement": "The parameters found by training a generalised linear model maximise the likelihood of the training data over all parameter vectors. (Holds for the normal family. Fails for the others: each pass uses adjustments computed at the means of the pass before, and the first working responses are on the scale of the means, so training can stop, converged, at other parameters: with as many zeros as ones at every point the Bernoulli family predicts 0.62.)", "quantifier": "all families, data sets and targets", "why_tests_cant": "Optimality over all parameter vectors.", "anchors": ["src/learning/glm.rs: train, compute_y_bar, compute_working_weight"]}
{"id": "C68", "title": "SVM training runs the Pegasos algorithm", "statement": "SVM::train computes the multipliers of the kernelised Pegasos algorithm its documentation names: the drawn sample's multiplier grows exactly when its margin under the current multipliers is below 1. (Fails: the margin is computed from the plain sum of kernels, without the multipliers or the other samples' targets; linearly separable data can be misclassified for every sequence of draws.)", "quantifier": "all data, kernels, lambda, iteration counts and sequences of draws", "why_tests_cant": "Random draws; the difference is in how multipliers evolve.", "anchors": ["src/learning/svm.rs: train"]}
{"id": "C69", "title": "PCA captures the most variance", "statement": "The projected columns of the training data are orthogonal (uncorrelated when centred) with non-increasing sums of squares, and no orthonormal directions of the same number capture more of the (centred) training data's sum of squares or reconstruct it with a smaller error.", "quantifier": "all data sets with at least as many samples as columns or all components kept, all competing orthonormal families, all singular value decompositions", "why_tests_cant": "Optimality over all orthonormal families.", "anchors": ["src/learning/pca.rs: train, predict"]}
{"id": "C70", "title": "Gaussian mixture training reports unusable data", "statement": "train either succeeds or returns an error, it does not panic: too few samples for the number of components, constant columns and fewer samples than dimensions are reported; with CovOption::Regularized(eps), eps > 0, training succeeds on all data with at least two samples and as many samples as components, and the trained model can predict; predict reports samples of another width.", "quantifier": "all data, component counts, covariance options, random draws and earlier uses of the model", "why_tests_cant": "Whether a covariance is singular depends on all of the data; tests use well-behaved data.", "anchors": ["src/learning/gmm.rs: train, predict, initialize_covariances, membership_weights"]}
{"id": "C71", "title": "Expectation maximisation does not make the training data less likely", "statement": "With full or diagonal covariances, training from the same random draws with more iterations never gives a model under which the training data has a smaller likelihood.", "quantifier": "all data, component counts, random draws, earlier uses of the model and pairs of iteration counts", "why_tests_cant": "An inequality for all data and all numbers of iterations, with irrational densities.", "anchors": ["src/learning/gmm.rs: train, membership_weights, update_params, compute_cov"]}
{"id": "C72", "title": "The regularisation constant of mixture covariances", "statement": "CovOption::Regularized(eps) adds eps to the diagonal of every covariance: after training every covariance is the weighted covariance of the data plus eps times the identity.", "quantifier": "all data, eps, random draws and iteration counts", "why_tests_cant": "All inputs; the value depends on irrational weights.", "anchors": ["src/learning/gmm.rs: CovOption, initialize_covariances, update_params"]}
{"id": "C73", "title": "Training a mixture model again", "statement": "The result of train depends on the data, the settings and the random draws only: training a trained model again gives what training a new model with the same settings would give.", "quantifier": "all data, settings, random draws and earlier training", "why_tests_cant": "All histories of calls.", "anchors": ["src/learning/gmm.rs: train, update_params, membership_weights"]}
{"id": "C74", "title": "The gradient of a regularised network", "statement": "compute_grad of a neural network returns a vector that is (up to a positive factor) the gradient in the weights of the cost it returns, including the regularisation, so that stepping against it lowers that cost. (Fails for more than one row with any regularisation: the gradient of the data cost is n times too large against the penalty's, and can point up the reported cost. For L2 see also C43.)", "quantifier": "all networks, regularisations, weight vectors and data sets", "why_tests_cant": "A derivative at every weight vector; the relative size of two terms depends on the number of rows.", "anchors": ["src/learning/nnet/mod.rs: compute_grad", "src/learning/toolkit/regularization.rs: reg_cost, reg_grad"]}
{"id": "C75", "title": "Predictions do not depend on the batch", "statement": "Predicting (and transforming) works row by row: on a non-empty batch predict succeeds exactly when it succeeds on every row alone, and a row's answer in the batch is its answer alone; so batches can be split, joined and reordered. Linear, logistic and generalised linear regression, SVM, Gaussian process means, KNN, k-means, DBSCAN, naive Bayes, neural networks, PCA, mixture models, and MinMaxScaler, Standardizer and Normalizer once fitted.", "quantifier": "all models in all states, all batches, kernels and search structures, any arithmetic including NaN and infinities", "why_tests_cant": "Tests compare a few batches; the property relates all pairs of batches sharing a row.", "anchors": ["src/learning/*: predict", "src/data/transforms/*.rs: transform, inv_transform"]}
{"id": "C76", "title": "What a model remembers of the train calls it has seen", "statement": "After any history of train calls that did not panic, a model answers exactly as a model with the same settings that has seen only the last successful call; a call that reports an error changes nothing, and before the first success predict reports UntrainedModel. Linear, logistic and generalised linear regression, Gaussian processes, SVM, k-means, KNN with all search structures; for PCA and mixture models the part about failing calls (for the rest see C57 and C73, for naive Bayes C37, for DBSCAN C29).", "quantifier": "all histories of calls, all data, settings and random draws, any arithmetic", "why_tests_cant": "All call histories.", "anchors": ["src/learning/lin_reg.rs: train, train_with_optimization, predict", "src/learning/logistic_reg.rs: train", "src/learning/glm.rs: train", "src/learning/gp.rs: train, predict, get_posterior", "src/learning/svm.rs: train", "src/learning/k_means.rs: train", "src/learning/knn/mod.rs: train", "src/learning/knn/binary_tree.rs: build", "src/learning/pca.rs: train", "src/learning/gmm.rs: train"]}
{"id": "C77", "title": "The order of the samples does not matter", "statement": "In exact arithmetic, giving the same samples (inputs with their targets) in another order changes nothing about what is learnt: linear regression (both ways of training), logistic and generalised linear regression, naive Bayes with the three distributions, k-means from the same starting centroids, Gaussian processes, Standardizer and MinMaxScaler; nor does it change any score or the confusion matrix. Not claimed for DBSCAN, for nearest neighbours with ties, and for stochastic optimisers, where the order is part of the algorithm.", "quantifier": "all sample lists and all permutations of them, all settings; scores other than the squared error in any arithmetic", "why_tests_cant": "All permutations of all data sets.", "anchors": ["src/learning/lin_reg.rs: train, train_with_optimization", "src/learning/logistic_reg.rs: train", "src/learning/glm.rs: train", "src/learning/naive_bayes.rs: train", "src/learning/k_means.rs: train", "src/learning/gp.rs: train, predict, get_posterior", "src/data/transforms/standardize.rs: fit", "src/data/transforms/minmax.rs: fit", "src/analysis/score.rs", "src/analysis/confusion_matrix.rs"]}
{"id": "C78", "title": "Samples drawn from a distribution follow it", "statement": "Given raw draws with the standard law (rand's Exp(1) and standard normal sources), the values returned by ind_sample and sample of the Exponential and Gaussian distributions have exactly the law the distribution describes: the probability of a sample below x is the mathematical cdf, which the library's cdf function equals (exponential) or approximates within its stated error (Gaussian), and the library's pdf is the density of the samples.", "quantifier": "all rates, means and positive variances, all thresholds", "why_tests_cant": "A probability statement about all draws; sampling tests see a finite number of draws and a tolerance.", "anchors": ["src/stats/dist/exponential.rs: ind_sample, sample, cdf, pdf", "src/stats/dist/gaussian.rs: ind_sample, sample, cdf, pdf"]}
{"id": "C79", "title": "k-means++ starts are good on average", "statement": "k-means++ picks the first centroid uniformly among the rows and every further one with probability proportional to its squared distance to the nearest centroid chosen so far; the expected k-means objective of the centroids it returns is at most 8 (ln k + 2) times the objective of any k centres, in particular of the best possible ones.", "quantifier": "all finite data sets, all k, all choices of k competing centres; expectation over all random draws", "why_tests_cant": "An expectation over a continuum of draws, compared with an optimum that is infeasible to compute.", "anchors": ["src/learning/k_means.rs: KPlusPlus::init_centroids, sample_discretely"]}
{"id": "C80", "title": "Forgy and random partition treat all choices alike", "statement": "With uniform draws, Forgy's initialiser returns every ordered choice of k different positions with the same probability and stops waiting for further draws with probability 1; the random partition initialiser starts cluster j with row j and sends every later row to the cluster its own draw names, so all assignments of the later rows are equally likely.", "quantifier": "all data sets, all k up to the number of rows, all numbers and sequences of draws", "why_tests_cant": "A statement about the frequencies over all sequences of draws.", "anchors": ["src/learning/k_means.rs: Forgy::init_centroids, RandomPartition::init_centroids"]}
{"id": "C81", "title": "Conjugate gradient descent makes Wolfe steps along Polak-Ribiere directions", "statement": "With settings in the intended ranges, the result of conjugate gradient descent is reached from the start by at most `iters` line searches: each accepted move starts along a descent direction, lowers the cost by at least the share rho of what the slope promises and flattens the slope by the factor sig (strong Wolfe conditions); the next direction is that of Polak and Ribiere, or straight down if the cost would rise; after one failed search it restarts straight down, and after two in a row it stops. Trial points are minimisers of the fitted parabola or cubic, moved into the allowed range.", "quantifier": "all models with finite costs and gradients, all starts, all settings in the intended ranges, all states of the line search", "why_tests_cant": "The path depends on the cost function, which is arbitrary; a test fixes one.", "anchors": ["src/learning/optim/fmincg.rs: ConjugateGD::optimize"]}
{"id": "C82", "title": "Cross validation tests models on rows they have not seen", "statement": "Every score of k-fold validation is the score of the given model, as it was before the validation, trained on the rows outside the fold only.", "quantifier": "all models, data sets, score functions, numbers of folds and shuffles", "why_tests_cant": "It depends on what a model keeps from one training call to the next; a test sees plausible scores either way.", "anchors": ["src/analysis/cross_validation.rs: k_fold_validate", "src/learning/naive_bayes.rs: NaiveBayes::train", "src/learning/nnet/mod.rs: NeuralNet::train"]}
{"id": "C83", "title": "Training by gradient descent comes within a known distance of the best fit", "statement": "Gradient descent with a step of at most 1/L on a convex, nonnegative cost whose gradient is L-Lipschitz ends with a cost that exceeds the cost of any other parameters z by at most |start - z|^2 / (2 * step * iterations), or by the amount the stop test (1e-20) hides if it stops early. In particular for linear regression trained by its fixed gradient descent (step 0.3, 100 steps, start 0) when the mean of 1 + |x|^2 is at most 10/3, and for logistic regression when step times that mean is at most 4 and the targets are in [0, 1]. Without convexity some evaluated parameters have a squared gradient of at most 2 * cost(start) / (step * iterations). On data that spread by at least mu in all directions, the parameters found by linear regression's two training methods (normal equations and gradient descent) differ in squared distance by at most 2/mu times an excess cost that falls by the factor 1 - 0.3 * mu per step.", "quantifier": "all costs as described, data sets, targets, steps, numbers of iterations and competing parameters", "why_tests_cant": "A test compares one run with one known answer; the rate is about all data and all competitors at once.", "anchors": ["src/learning/optim/grad_desc.rs: GradientDesc::optimize", "src/learning/lin_reg.rs: train_with_optimization", "src/learning/logistic_reg.rs: train"]}
{"id": "C84", "title": "The units in which columns are measured do not matter", "statement": "Measuring each column in another unit (x becomes a*x + b) changes nothing in what the following produce: the standardizer (a > 0, at least two rows), the min-max scaler (a > 0, no constant column), linear regression (a nonzero: training succeeds for one exactly if for the other, and the predictions are equal) and Gaussian naive Bayes (a > 0, no feature constant within a class). For linear regression, measuring the targets in another unit changes the predictions to the same unit.", "quantifier": "all data sets, units and new points", "why_tests_cant": "A test compares one rescaled data set with one other; the claim relates two whole training runs for all data and all units.", "anchors": ["src/data/transforms/standardize.rs: StandardizerFitter, Standardizer", "src/data/transforms/minmax.rs: MinMaxFitter, MinMaxScaler", "src/learning/lin_reg.rs: train, predict", "src/learning/naive_bayes.rs: Gaussian, train, predict"]}
{"id": "C85", "title": "Where the data lie in space does not matter to learners that look at distances", "statement": "Moving training data and new points by a map that multiplies all distances by c > 0 changes nothing in: the neighbours found by brute force search (distances multiplied by c) and the labels k nearest neighbours gives; the clusters and predictions of DBSCAN with radius multiplied by c. Rotating, reflecting and shifting (c = 1, also into a space of higher dimension) changes nothing in: predictions and covariances of Gaussian processes and predictions of support vector machines with kernels that are functions of the distance (squared exponential, exponential, rational quadratic, multiquadric, their sums and products; for other kernels whenever their values do not change); the clusters of k-means, whose centroids move with the data, for each of its three starts with the same random draws.", "quantifier": "all data sets, motions, model parameters, random draws and new points", "why_tests_cant": "A test tries one motion of one data set; the claim relates two whole runs for all of them.", "anchors": ["src/learning/knn/brute_force.rs: BruteForce::search", "src/learning/knn/mod.rs: KNNClassifier", "src/learning/dbscan.rs: train, predict", "src/learning/toolkit/kernel.rs", "src/learning/gp.rs: train, predict, get_posterior", "src/learning/svm.rs: train, predict", "src/learning/k_means.rs: train, predict, Forgy, RandomPartition, KPlusPlus"]}
{"id": "C86", "title": "Rounding errors stay within bounds that depend only on the number of columns and rows", "statement": "When every arithmetic result is off by at most a fraction u of its exact value, sums, dot products, column means, mean squared errors, linear and logistic predictions, scaled and standardized entries, and the distances of the neighbour search, k-means and DBSCAN are off from their exact values by at most what a fixed number of roundings (columns plus a small constant, or rows times columns for the score) make of the sizes of their terms. Hence brute-force search, k-means prediction and DBSCAN return results that are exact except for rows whose exact distances are equal up to these errors. The outputs of a network are off by a bound computed layer by layer from its weights, which vanishes with u; an SVM predicts the exact class of every row whose decision value exceeds the rounding of its terms; variances, linear kernels, accuracies (whose order is never reversed) and the exponential distribution function have bounds of the same kind. So have normalised rows, coordinates along principal components, the squared exponential, exponential, multiquadric, rational quadratic and hyperbolic tangent kernels, the predictions of generalised linear models and Gaussian processes, and precision, recall and F1; Gaussian and multinomial naive Bayes choose a class whose exact log-probability is the largest up to the rounding of its terms. Gradient descent on a cost that curves upwards comes as close to the exact optimum as the errors of the computed gradients allow, the initial distance shrinking geometrically; for linear regression trained by gradient descent the bound is explicit in the sizes of the data.", "quantifier": "every rounding function with relative error at most u < 1, every data set, parameter vector, query, radius and number of neighbours, every order of summation for sums", "why_tests_cant": "tests compare a few results with a tolerance; a bound must hold for all data, and which neighbours, labels and clusters can change because of rounding must be known for all data", "anchors": ["src/learning/lin_reg.rs predict", "src/learning/logistic_reg.rs predict", "src/learning/knn/mod.rs dist", "src/learning/knn/brute_force.rs search", "src/learning/k_means.rs find_closest_centroids", "src/learning/dbscan.rs region_query", "src/analysis/score.rs neg_mean_squared_error", "src/data/transforms/minmax.rs transform", "src/data/transforms/standardize.rs transform", "src/learning/nnet/mod.rs forward_prop", "src/learning/svm.rs predict", "src/stats/dist/exponential.rs cdf", "src/analysis/score.rs accuracy", "src/data/transforms/normalize.rs transform", "src/learning/pca.rs predict", "src/learning/toolkit/kernel.rs", "src/learning/glm.rs predict", "src/learning/gp.rs predict", "src/learning/naive_bayes.rs predict", "src/analysis/score.rs precision, recall, f1", "src/learning/optim/grad_desc.rs GradientDesc::optimize", "src/learning/lin_reg.rs compute_grad, train_with_optimization"]}
{"id": "C87", "title": "Calls on data of matching shapes do not crash, whatever the numbers", "statement": "Training and prediction with every model, every optimiser, kernel, cost function, transformer and cross validation, called on data whose numbers of rows and columns match, return a value or an error: no panic and no undefined behaviour, even if the data hold NaN or infinities, overflow occurs, or the linear algebra fails. The exceptions are listed exactly: models that unwrap a failed factorisation (generalised linear models, Gaussian processes, principal components, Gaussian mixtures), a search for two or more neighbours of a row with a NaN distance to one of the first rows, a network without layers, k-means++ on fewer distinct rows than clusters (C33), the tree searches (C20-C23), and a restricted number of principal components on data with fewer rows than columns. Results have the promised shapes.", "quantifier": "every number type (so every rounding, NaN and infinities), every data set, parameter setting and random choice, every solver and factorisation that returns a result of the right shape or fails with an error", "why_tests_cant": "tests use well-behaved numbers; a service that feeds user data to the library must know that no value in the data can take the process down", "anchors": ["src/learning/k_means.rs", "src/learning/dbscan.rs", "src/learning/lin_reg.rs", "src/learning/logistic_reg.rs", "src/learning/glm.rs", "src/learning/svm.rs", "src/learning/gp.rs", "src/learning/naive_bayes.rs", "src/learning/knn/mod.rs KNearest::new", "src/learning/nnet/mod.rs compute_grad", "src/learning/pca.rs", "src/learning/gmm.rs", "src/learning/optim", "src/data/transforms", "src/analysis/cross_validation.rs k_fold_validate"]}
{"id": "C88", "title": "StochasticGD is Nesterov's accelerated method with step size mu and momentum alpha", "statement": "For every model that returns a cost and a gradient, every start, data set, shuffling and number of epochs, a run of `StochasticGD` follows Nesterov's momentum method: there are positions x and velocities v with x = start, v = 0 at the beginning, v' = alpha v - mu * gradient at the point ahead x + alpha v, x' = x + v'; every call of the model's gradient is made at the point ahead, and the returned parameters are the last point ahead. While the gradient is constant, sample t moves the parameters by mu (1 + alpha + ... + alpha^(t+1)) times the gradient, so mu is the step size itself (the field's documentation calls it the square root of the learning rate).", "quantifier": "all models, starts, data sets, shufflings, alpha, mu and epoch counts", "why_tests_cant": "The equivalence is between two recursions over arbitrarily many samples; tests run a few epochs and only look at the final cost.", "anchors": ["src/learning/optim/grad_desc.rs: StochasticGD::optimize", "src/learning/optim/grad_desc.rs: StochasticGD::new"]}
{"id": "C89", "title": "Stochastic training keeps up with the best fixed parameters", "statement": "For every model whose cost on each sample is convex in the parameters, every shuffling and number of epochs: (StochasticGD) with momentum alpha < 1 and gradients of length at most G, the total cost paid in the T calls exceeds that of any fixed parameters z by at most (1 - alpha)/(2 mu) |start - z|^2 + T mu G^2 (1/(2(1 - alpha)) + alpha^2/(1 - alpha)^2); (AdaGrad) if the visited parameters stay within D of z in each coordinate, by at most the sum over the coordinates of D^2/(2 alpha) (tau + sqrt S) + alpha sqrt S, S the sum of squares of that coordinate of the gradients, hence by O(sqrt T) when gradients are bounded. Since each epoch visits every sample once, the average cost paid is within the bound over T of the mean cost of z on the data.", "quantifier": "all convex per-sample costs, data sets, shufflings, comparison parameters, step sizes and epoch counts", "why_tests_cant": "It is a bound over all cost functions, all sample orders and all competitors, after any number of steps.", "anchors": ["src/learning/optim/grad_desc.rs: StochasticGD::optimize", "src/learning/optim/grad_desc.rs: AdaGrad::optimize"]}
{"id": "C90", "title": "Noiseless data are learnt exactly", "statement": "(Gaussian processes) With zero noise, the default, and a squared exponential, exponential or rational quadratic kernel, a product of such or a sum of one with any kernel of C61, training with one target per row succeeds exactly when no row is repeated, for all targets and mean functions; the trained model then predicts every training target exactly, with zero posterior covariance. (Linear regression) If the targets are an affine function of the rows and the columns are affinely independent, training returns exactly that function and predictions are exact at every input. (Nearest neighbours) With k = 1 and no repeated rows, brute force, kd-tree and ball tree all give each training row its own label.", "quantifier": "all data sets of any size and dimension, targets, kernels of the classes named, mean functions and labels", "why_tests_cant": "Whether the covariance matrix can be decomposed depends on all the rows at once, and the claim covers every finite set of distinct points.", "anchors": ["src/learning/gp.rs: GaussianProcess::train, predict", "src/learning/toolkit/kernel.rs: SquaredExp, Exponential, RationalQuadratic, KernelSum, KernelProd", "src/learning/lin_reg.rs: LinRegressor", "src/learning/knn/mod.rs: KNNClassifier"]}
{"id": "C91", "title": "Default-constructed objects behave as documented", "statement": "The objects built by default() and by the short constructors have the documented parameters, with the observable effects that follow: the default linear and polynomial kernels are the inner product, the squared exponential one exp(-|x-y|^2/2), the exponential one exp(-|x-y|/2), the hyperbolic tangent one tanh<x,y>, the multiquadric one the distance, the rational quadratic one 1/(1+|x-y|^2/2); the default Gaussian is the standard normal and the default exponential distribution has rate 1; the default parameters of the optimisers are accepted by their constructors and the default conjugate gradient never returns worse parameters than its start; the default min-max scaler maps columns onto [0,1], the standardizer gives mean 0 and deviation 1, the normalizer Euclidean length 1; the default Gaussian process interpolates data without repeated rows; KNNClassifier::new(k) (default k = 5) rejects fewer than k rows and, with k to 29 rows, votes among the k nearest; KMeansClassifier::new(k) runs at most 100 iterations; the default network outputs numbers in (0,1) and computes the exact gradient of the cross entropy; the default logistic regression trains on every data set with one target per row; the default DBSCAN computes the density clustering with eps = 1/2 and 5 points and never predicts; KNNClassifier::new_specified(k, brute force) votes among the k nearest; a network built with the default mean squared error computes its exact gradient.", "quantifier": "all inputs of the default-constructed objects: points, matrices, data sets, layer sizes, models and random streams", "why_tests_cant": "A unit test compares fields or a few outputs; the consequences hold for every input.", "anchors": ["src/learning/toolkit/kernel.rs: impl Default", "src/stats/dist/gaussian.rs: Default for Gaussian", "src/stats/dist/exponential.rs: Default for Exponential", "src/learning/optim/grad_desc.rs: impl Default", "src/learning/optim/fmincg.rs: Default for ConjugateGD", "src/data/transforms: impl Default", "src/learning/gp.rs: Default for GaussianProcess", "src/learning/knn/mod.rs: KNNClassifier::new, default", "src/learning/k_means.rs: KMeansClassifier::new", "src/learning/nnet/mod.rs: NeuralNet::default", "src/learning/logistic_reg.rs: Default for LogisticRegressor"]}
{"id": "C92", "title": "Mixing, reflecting or rescaling the features invertibly does not matter to regression and Gaussian naive Bayes", "statement": "Linear regression trains on the image of the data under an invertible affine map of the features (a rotation, a shear, a change of basis or of units) when it trains on the data, and then predicts the same for the image of every input. Gaussian naive Bayes does the same for maps that multiply each feature by a number other than 0, of either sign, and shift it.", "quantifier": "all training sets, all invertible affine maps, all inputs", "why_tests_cant": "A test tries one map; the claim compares two whole training runs for every map.", "anchors": ["src/learning/naive_bayes.rs: NaiveBayes::train, predict", "src/learning/lin_reg.rs: LinRegressor::train, predict"]}
{"id": "C93", "title": "The units of the features do not matter to a generalised linear model", "statement": "Training a generalised linear model on features in other units and predicting data in those units gives the same predictions as in the original units.", "quantifier": "all families, training sets, changes of units and inputs", "why_tests_cant": "A test tries one pair of units; the claim compares two iterative training runs for every data set and every change of units.", "anchors": ["src/learning/glm.rs: GenLinearModel::train, predict"]}
{"id": "C94", "title": "k-means training comes to rest at a fixed point", "statement": "Given a large enough iteration limit, k-means training stops by itself: the limit has no influence on the centroids, and the trained centroids are at rest, i.e. each is the mean of the training points the model labels with it and each point is labelled with a nearest centroid.", "quantifier": "all finite data sets, numbers of clusters, initial centroids and iteration limits", "why_tests_cant": "Termination before the limit, with a bound that holds for every data set, is a statement about unboundedly long runs; a test observes a few runs with one limit.", "anchors": ["src/learning/k_means.rs: UnSupModel::train, find_closest_centroids, update_centroids"]}
{"id": "C95", "title": "The encoding of the classes does not matter", "statement": "Renaming the classes renames the predictions and changes nothing else. For the three naive Bayes models, permuting the columns of one-hot targets permutes the class log-probabilities and, where no two classes tie, the predictions. For nearest neighbours any injective renaming of the labels renames the predictions of queries without a tied vote, and an increasing renaming renames them all, failures included. Accuracy and the confusion matrix do not change when predictions, targets and labels are renamed together. Exchanging the two classes exchanges the predictions of logistic regression, of the Bernoulli model and of the support vector machine.", "quantifier": "all training sets, queries, permutations of the classes or injective renamings of the labels, searchers, settings of gradient descent", "why_tests_cant": "a test fixes one encoding; the claim compares the outcomes of two trainings for every data set and every renaming", "anchors": ["src/learning/naive_bayes.rs: train, predict, find_max", "src/learning/knn/mod.rs: predict, freq", "src/analysis/score.rs: accuracy", "src/analysis/confusion_matrix.rs: confusion_matrix", "src/learning/logistic_reg.rs: train", "src/learning/glm.rs: train", "src/learning/svm.rs: train"]}
{"id": "C96", "title": "Giving every sample the same number of times does not matter", "statement": "Models and scores defined by averages over the samples do not depend on how often a data set is repeated. Linear regression, by the normal equations or by gradient descent, logistic regression with any optimiser, generalised linear models other than the binomial one, and the min-max scaler give the same model for k copies of every sample as for one; the class priors of naive Bayes, the accuracy, precision, recall, F1 score and mean squared error are the same and every count of a confusion matrix is multiplied by k. A neural network trained on k copies ends with the same weights.", "quantifier": "all training sets, all k > 0, all optimisers of logistic regression, all solvers and inverters that are exact", "why_tests_cant": "a test fixes one data set and one k; the claim compares two trainings of every data set", "anchors": ["src/learning/lin_reg.rs: train, compute_grad", "src/learning/logistic_reg.rs: train, compute_grad", "src/learning/glm.rs: train", "src/data/transforms/minmax.rs: fit", "src/analysis/score.rs: accuracy, precision, recall, f1, neg_mean_squared_error", "src/analysis/confusion_matrix.rs: confusion_matrix", "src/learning/naive_bayes.rs: train", "src/learning/nnet/mod.rs: compute_grad"]}
{"id": "C97", "title": "The order of the features does not matter", "statement": "Training on data whose features come in another order gives the corresponding model: linear regression (by the normal equations or by gradient descent), logistic regression and generalised linear models end with their coefficients in that order, a neural network with a linear first layer (started with the rows of its first layer in that order) ends with its weights in that order whichever optimiser trains it, and those models, Gaussian processes and support vector machines with the kernels of the toolkit, all three naive Bayes models, nearest neighbours, DBSCAN, k-means (started from the same centroids) and Gaussian mixture models (with the same random draws) give the reordered samples the predictions they gave the samples. The transformers map reordered data to the reordered results.", "quantifier": "all data sets, all orders of the features, all samples to predict, all settings of the models, all random numbers of the stochastic optimisers", "why_tests_cant": "a test fixes one data set and one order; the claim compares the results of training for all data sets and all permutations", "anchors": ["src/learning/lin_reg.rs: train, predict", "src/learning/logistic_reg.rs: train, predict", "src/learning/glm.rs: train, predict", "src/learning/nnet/mod.rs: compute_grad, train, predict", "src/learning/optim/grad_desc.rs: optimize", "src/learning/gp.rs: train, predict", "src/learning/svm.rs: train, predict", "src/learning/naive_bayes.rs: train, predict", "src/learning/knn/mod.rs: train, predict", "src/learning/dbscan.rs: train, predict", "src/learning/k_means.rs: train, predict", "src/learning/gmm.rs: train, predict", "src/learning/toolkit/kernel.rs: kernel", "src/data/transforms/standardize.rs: fit, transform", "src/data/transforms/minmax.rs: fit, transform", "src/data/transforms/normalize.rs: transform"]}
{"id": "C98", "title": "Scalers forget earlier scaling", "statement": "Fitting a standardizer or a min-max scaler to the output of another standardizer or min-max scaler gives, for the same data and for all further data sent through both, what fitting it to the original data gives. In particular a scaler fitted to its own output changes nothing, neither that output nor any other data.", "quantifier": "all data sets of at least two rows without a constant column, all ranges with min < max, all requested deviations > 0, all further data of the same width", "why_tests_cant": "a test fixes a data set and two scalers; the claim is about every chain of two scalers and all data", "anchors": ["src/data/transforms/minmax.rs: fit, transform", "src/data/transforms/standardize.rs: fit, transform"]}
{"id": "C99", "title": "Regression is linear in the targets", "statement": "Linear regression, generalised linear models of the normal family and Gaussian processes trained on the same inputs with the targets a*s + b*t predict a times what they predict after training with s plus b times what they predict after training with t (Gaussian processes: when the mean function is zero or a + b = 1). Adding a constant to the targets adds it to the predictions of the first two. A Gaussian process whose mean, kernel and noise are put into other units together with the targets gives its predictions and its covariances in those units. The negative mean squared error is multiplied by the square of a change of units.", "quantifier": "all data sets on which training succeeds, all pairs of target vectors, all real factors and offsets, all inputs to predict", "why_tests_cant": "a test fixes data and factors; the claim is about every pair of target vectors, and a slip (a regularisation, a threshold, an offset left out) may show only for some of them", "anchors": ["src/learning/lin_reg.rs: train, predict", "src/learning/glm.rs: train, predict", "src/learning/gp.rs: train, predict, get_posterior", "src/analysis/score.rs: neg_mean_squared_error"]}
{"id": "C100", "title": "Gradient descent training is linear in the targets", "statement": "Linear regression trained by gradient descent with the targets a*s + b*t predicts a times what it predicts after training with s plus b times what it predicts after training with t; in particular it does not matter in which unit the targets are written.", "quantifier": "all data sets, all pairs of target vectors, all real factors, all inputs to predict", "why_tests_cant": "a test fixes data and factors; whether the early stop interferes depends on the size of the targets", "anchors": ["src/learning/lin_reg.rs: train_with_optimization", "src/learning/optim/grad_desc.rs: GradientDesc::optimize, LEARNING_EPS"]}
{"id": "C101", "title": "The coordinates of the features do not matter to mixture models", "statement": "A Gaussian mixture model trained on data whose features went through an invertible affine change v -> M v + c has the same mixture weights, the changed means and the covariances M S M^T, and gives changed samples the predictions the other model gives the samples; training fails on both or on neither. This holds for all such changes with full covariances, for rescaling and reordering with diagonal covariances, and for changes that keep distances with regularised covariances.", "quantifier": "all data sets, all models whatever was done with them before, all random draws, all invertible affine changes that suit the covariance option, all samples to predict", "why_tests_cant": "a test fixes data and one change; the claim is about every change and every number of iterations, and whether training stops early depends on the size of the likelihood", "anchors": ["src/learning/gmm.rs: GaussianMixtureModel::train, predict, initialize_covariances, membership_weights, update_params, compute_cov"]}
{"id": "C102", "title": "Models that describe the same function agree", "statement": "A network of one linear layer without activation makes the predictions of linear regression with the same parameters, and with the sigmoid those of logistic regression; with the mean squared error or the cross entropy it reports the same cost and n times the gradient, so that gradient descent with a step n times shorter finds the same parameters. Generalized linear models with Bernoulli or binomial outcomes predict as logistic regression and with normal outcomes as linear regression; the normal model trains to the parameters of linear regression, and the Bernoulli likelihood is -n times the cost of logistic regression, maximal exactly where its gradient vanishes. A Gaussian process with the linear kernel predicts what ridge regression predicts, with or without an intercept. k-means with one cluster finds the average of the samples whatever the initialisation, and a mixture with one component the average and the covariance.", "quantifier": "all data sets, parameters, step lengths, numbers of iterations, initialisations and random draws", "why_tests_cant": "tests compare a few predictions of two models on one data set; agreement is a claim about every input and about the whole course of training", "anchors": ["src/learning/nnet/mod.rs: BaseNeuralNet::compute_grad, forward_prop, train", "src/learning/lin_reg.rs: LinRegressor::train, predict, compute_grad, train_with_optimization", "src/learning/logistic_reg.rs: LogisticRegressor::train, predict, compute_grad", "src/learning/glm.rs: GenLinearModel::train, predict", "src/learning/gp.rs: GaussianProcess::train, predict", "src/learning/k_means.rs: KMeansClassifier::train, predict", "src/learning/gmm.rs: GaussianMixtureModel::train"]}
{"id": "C103", "title": "The coordinates, order and copies of the samples do not matter to principal components", "statement": "Turning, reflecting and shifting the samples and multiplying them by c > 0 (without centring: no shift) multiplies the variances of the projected columns by c^2 and the projections of correspondingly moved points by c; giving the samples in another order, or every one of them k times, or using another correct decomposition, leaves the projections of all points as they are. Here the projections are the same up to the sign of each column when the singular values are all different, and in general up to an orthogonal matrix that mixes only components with equal singular values; distances between projections are determined. A model asked for fewer components projects on the first columns of a model asked for more. Projecting the projections again changes nothing but signs.", "quantifier": "all data sets with at least as many samples as columns, numbers of components, orthogonal matrices, shifts, factors, orders, numbers of copies, decompositions that meet the contract and new points", "why_tests_cant": "a decomposition is only determined up to signs and equal singular values; tests compare with one output of one library on one data set", "anchors": ["src/learning/pca.rs: PCA::train, predict, components"]}
{"id": "C104", "title": "New networks start from the documented random weights", "statement": "The weights of every linear layer of a new network are normal with mean 0 and variance 2/(rows + columns) (Xavier), where the row of the bias counts as an input; all weights of the network are independent; with probability one none is 0 and no two are equal. A new linear layer with bias turns every sample x into outputs that are normal with mean 0 and variance 2(1+|x|^2)/(d+1+o) and independent in pairs. mlp makes the same networks as adding its layers one by one.", "quantifier": "all lists of layers with any sizes, criteria, samples, and all families of independent standard normal draws", "why_tests_cant": "a claim about distributions: no finite number of draws settles a distribution, independence or an almost sure event", "anchors": ["src/learning/nnet/net_layer.rs: Linear::new, Linear::default_params", "src/learning/nnet/mod.rs: BaseNeuralNet::add, add_layers, mlp, get_net_weights, forward_prop"]}
{"id": "C105", "title": "The order of the hidden units does not matter, and units that start alike stay alike", "statement": "Putting the units of a hidden layer of a network into another order (their incoming weights and their outgoing weights) leaves all predictions as they are, and a network trained from the reordered weights ends up as the reordered trained network. Two hidden units with the same incoming and outgoing weights are still the same after training, whatever the data, the cost function, the regularisation, the optimiser and the number of iterations; a network with one hidden layer whose units are all alike computes a function of a single linear combination of the features. So the random start (C104) is what makes the units different.", "quantifier": "all networks with a linear layer, an activation and another linear layer anywhere in them (with or without bias), all orders of the units, weights, data, targets, cost functions, regularisations, the four optimisers with any parameters, any random numbers", "why_tests_cant": "a symmetry of every training run of every network; tests train a few networks from random weights", "anchors": ["src/learning/nnet/mod.rs: BaseNeuralNet::compute_grad, forward_prop, NeuralNet::train", "src/learning/nnet/net_layer.rs: Linear", "src/learning/optim/grad_desc.rs: GradientDesc, StochasticGD, AdaGrad, RMSProp"]}
{"id": "C106", "title": "What more data, more features or a wider radius can and cannot change", "statement": "Nearest neighbours: samples added to the training data that are not nearer to a query than its k-th neighbour change neither the result of the exhaustive search nor the predicted class. DBSCAN: with a wider radius, a smaller min_points or further samples, samples that were in a cluster still are and samples that shared a cluster still share one; samples outside the radius of all old ones leave the old labels as they are. Linear regression: further features never increase the squared error on the training data; after training with further samples the old ones are fitted no better and the new ones no worse; samples that lie on the fitted plane leave the model as it is. Gaussian processes: a model that can be trained on some data can be trained on every part of them, and more data never increase the posterior variance of any prediction (nor any quadratic form of the posterior covariance), whatever the targets.", "quantifier": "all data sets, additions, targets, queries and parameters (nearest neighbours in any arithmetic, the others in exact arithmetic)", "why_tests_cant": "compares two training runs on every pair of a data set and an extension of it; tests train on single data sets", "anchors": ["src/learning/knn/mod.rs: KNNClassifier::predict, KNearest::add", "src/learning/knn/brute_force.rs: BruteForce::search", "src/learning/dbscan.rs: DBSCAN::train", "src/learning/lin_reg.rs: LinRegressor::train", "src/learning/gp.rs: GaussianProcess::train, get_posterior"]}
{"id": "C107", "title": "Scores of parts combine, and the scores of a cross validation are scores of one prediction for each sample", "statement": "The accuracy, the row accuracy and the negative mean squared error of data cut into parts are the means of the scores of the parts weighted with their sizes; confusion matrices with the same labels add up; precision, recall, F1 and accuracy are the quotients of the entries of the two-class confusion matrix. In a successful k-fold cross validation with such a score there is one prediction for every sample, made by the model after it was last trained on exactly the rows of the other folds, such that the fold scores weighted with the fold sizes give the score of all these predictions; the plain mean of the fold accuracies is within k/(4n) of it and equal to it if k divides n.", "quantifier": "all models, data, targets, numbers of folds, random streams and equality tests", "why_tests_cant": "relates the scores of every division of every data set; tests look at a few small vectors", "anchors": ["src/analysis/score.rs: accuracy, row_accuracy, neg_mean_squared_error, precision, recall, f1", "src/analysis/confusion_matrix.rs: confusion_matrix", "src/analysis/cross_validation.rs: k_fold_validate"]}
{"id": "C108", "title": "Small changes of the input or the targets change predictions by a bounded amount", "statement": "Moving a query row by d changes a linear regression prediction by at most the norm of the coefficients times d, a logistic one by a quarter of that, a neural network's output by at most the product of its layers' gains times the largest change of a coordinate, and a Gaussian process mean or an SVM decision value by at most the slope of the kernel times the multipliers times d. Predictions of K nearest neighbours, k-means, DBSCAN and the SVM do not change at all while the move is smaller than half the gap (or the decision value allows it). Changed targets move the fitted values of least squares and of a Gaussian process with a positive semidefinite kernel by no more than the targets moved. Changing k predictions changes the accuracy by at most k/n.", "quantifier": "all trained models, all query rows and all moved rows, all targets", "why_tests_cant": "a bound on the change between every pair of inputs; tests look at single inputs", "anchors": ["src/learning/lin_reg.rs: predict, train", "src/learning/logistic_reg.rs: predict", "src/learning/nnet/mod.rs: predict", "src/learning/knn/mod.rs: predict", "src/learning/k_means.rs: predict", "src/learning/dbscan.rs: predict", "src/learning/gp.rs: predict, train", "src/learning/svm.rs: predict", "src/learning/toolkit/kernel.rs: SquaredExp, Linear", "src/analysis/score.rs: accuracy"]}
{"id": "C109", "title": "The random division into folds is fair and cross validation unbiased", "statement": "Over the equally likely draws of the random generator, the test set of each fold of a k-fold validation is a uniformly random subset of the samples of the fold's size: each such subset is tested equally often, each sample is in it with probability (size / n), two samples are in it together with probability m(m-1)/(n(n-1)). So for any model whose score depends only on which samples were held out, the expected score of fold i is the mean hold-out score over all test sets of that size, and when k divides n this also holds for the mean of the k scores.", "quantifier": "all numbers of samples and folds, all folds, all samples and sets of samples, all models and score functions", "why_tests_cant": "a statement about the distribution over all n! outcomes of the shuffle; a test sees one shuffle", "anchors": ["src/analysis/cross_validation.rs: k_fold_validate, create_shuffled_indices, Folds", "src/learning/toolkit/rand_utils.rs: in_place_fisher_yates"]}
{"id": "C110", "title": "Random choices are unbiased on average", "statement": "Averaged over the equally likely draws of the random generator: (a) in every epoch of a stochastic optimiser that takes place, each sample is equally likely at each position, so the mean of any quantity of the sample at that position is its mean over the data; (b) from the same start, the first step of stochastic gradient descent is, on average, a step along the mean of the per-sample gradients with step size mu(1+alpha); (c) the mean of any quantity over a sample drawn without replacement is, on average, its mean over the pool, also when the pool has repeated elements; (d) the expected multiplier of sample i of a trained support vector machine is the share of iterations t with y_i times its kernel sum below lambda t, divided by the number of samples.", "quantifier": "all data sets, start parameters, positions, epochs and earlier shuffles; all models given by a cost and a gradient per sample; all pools, sample sizes and quantities; all kernels, targets and numbers of iterations", "why_tests_cant": "a statement about the mean over all draws; a test sees one seed", "anchors": ["src/learning/optim/grad_desc.rs: StochasticGD, AdaGrad, RMSProp optimize", "src/learning/toolkit/rand_utils.rs: in_place_fisher_yates, reservoir_sample", "src/learning/svm.rs: SVM::train"]}
{"id": "C111", "title": "Regression on held-out samples", "statement": "Whatever samples are held out, linear regression trained on all samples has at most the squared error on them of a model trained without them, strictly less unless the models are equal; adding samples that a model already predicts exactly leaves it unchanged. The error at a sample of the model trained without this sample is the error of the model trained on all samples divided by 1 - h, where the leverage h in [0, 1) is what the model predicts there after training on targets 1 for this sample and 0 for the others. All leverages lie in [0, 1] and add up to the number of parameters. The same formula holds for Gaussian process regression with a constant mean and positive noise, whose posterior variance at a left-out sample, plus the noise, is the noise divided by 1 - h.", "quantifier": "all data sets on which training succeeds, all subsets of samples held out in any order, all samples", "why_tests_cant": "a relation between trainings on different data sets that must hold for all data; a test compares a few", "anchors": ["src/learning/lin_reg.rs: LinRegressor train, predict", "src/learning/gp.rs: GaussianProcess train, predict, get_posterior"]}
{"id": "C112", "title": "What predictions are worth when the observations are noisy", "statement": "When the targets are values of an affine function observed with uncorrelated errors of mean zero and equal variance, the predictions of linear regression are right on average, and no other combination of the targets that is right for all affine functions has a smaller mean squared error. The mean squared error of the prediction at a training sample is the variance of the errors times the leverage of the sample, and the mean sum of the squared errors on the training data is the variance times the number of samples minus the number of parameters. When the targets are noisy observations of a random function with the mean and the kernel of a Gaussian process and errors with its noise, training succeeds, predictions are right on average, the reported posterior variance is their mean squared error, and no other affine combination of the targets has a smaller one.", "quantifier": "all probability spaces, all errors and random functions with the given first and second moments, all inputs on which training is possible, all points of prediction", "why_tests_cant": "a statement about averages over all distributions of the errors; a test sees finitely many draws of one", "anchors": ["src/learning/lin_reg.rs: LinRegressor train, predict", "src/learning/gp.rs: GaussianProcess train, predict, get_posterior"]}
{"id": "C113", "title": "Naive Bayes fits by maximum likelihood and decides as well as possible under its fit", "statement": "When every class has training samples, the numbers that a trained naive Bayes model compares are the joint probabilities of a class and a row of features under one probability distribution (a density for the Gaussian kind). Under this distribution no classifier is right with a larger probability than the model's predictions. The distribution makes the training data at least as likely as any other with independent features of the same kind: for Bernoulli with one extra sample with and one without each feature per class, for multinomial with one extra count of each feature per class, and for Gaussian as far as priors and means are concerned, whatever the variances. The Gaussian variances are the sample variances, n/(n-1) times the variances of maximum likelihood.", "quantifier": "all training data with a sample of every class (0/1 features, counts, or real features not constant on any class), all competing classifiers, all competing priors and parameters, any previous state of the model", "why_tests_cant": "compares with all classifiers and with all distributions", "anchors": ["src/learning/naive_bayes.rs: NaiveBayes train, predict, Gaussian, Bernoulli, Multinomial"]}
{"id": "C114", "title": "Scores on independent samples tell how good a predictor is", "statement": "Applied to the predictions and truths of n independent samples, accuracy is on average the probability p of a right prediction, has variance p(1-p)/n, deviates from p by eps or more with probability at most 2 exp(-2 n eps^2), and converges to p almost surely as n grows. Choosing among M predictors one of best accuracy loses more than 2 eps against the best of them with probability at most 2 M exp(-2 n eps^2). Precision, recall and F1 converge almost surely to the values computed from the probabilities of true positives, false positives and false negatives. The negative mean squared error is on average minus the mean squared error of the predictor, converges to it almost surely, and satisfies the same kind of bound when the errors are bounded.", "quantifier": "all distributions of samples, all predictors (measurable), all numbers of samples, all eps", "why_tests_cant": "a statement about probabilities and limits over all distributions; a test sees finitely many draws of one", "anchors": ["src/analysis/score.rs: accuracy, row_accuracy, precision, recall, f1, neg_mean_squared_error"]}
{"id": "C115", "title": "With more and more samples, what is learnt approaches the truth", "statement": "Let models train on the first n of independent samples of one distribution. Linear regression: if features and target have second moments and no nonzero affine function of the features vanishes, exactly one affine function has the smallest mean squared error, and almost surely training succeeds for all large n, the parameters converge to this function's and so do all predictions. The standardizer's means and variances converge to those of the features, and transformed rows converge where the variance is positive. Gaussian, Bernoulli and multinomial naive Bayes: if every class has positive probability (and positive variances for the Gaussian model), almost surely training succeeds for all large n, the joint probabilities that the model computes converge to those of the model with the true class probabilities and the true means, variances or shares per class, and for each row where this model has a single most probable class, that class is predicted for all large n. Min-max scaling: if each feature lies between two bounds and comes arbitrarily close to both with positive probability, almost surely the transformed rows converge to their position between the bounds. Nearest neighbours (brute force): if samples closer to x than b have positive probability, almost surely the k nearest neighbours of x among the first n samples are all closer than b for all large n, and if such samples all have one class, x is classified as it. Principal components: almost surely, for all large n, the k components capture of a new sample on average as much as any k orthonormal directions, up to an error that tends to zero.", "quantifier": "all distributions of samples with the stated moments, all numbers of features and classes, all rows to predict", "why_tests_cant": "a statement about limits and probabilities over all distributions; a test sees finitely many draws of one", "anchors": ["src/learning/lin_reg.rs: LinRegressor::train, predict", "src/data/transforms/standardize.rs: StandardizerFitter::fit, Standardizer::transform", "src/learning/naive_bayes.rs: NaiveBayes::train, predict, Gaussian, Bernoulli, Multinomial", "src/data/transforms/minmax.rs: MinMaxFitter::fit, MinMaxScaler::transform", "src/learning/knn/mod.rs: KNNClassifier::train, predict", "src/learning/knn/brute_force.rs: BruteForce::search", "src/learning/pca.rs: PCA::train, components"]}
{"id": "C116", "title": "What is learnt from a fixed number of samples is right on average and holds for the next sample", "statement": "For n independent samples of one distribution: the means and variances of a fitted standardizer are on average the means and variances of the features, and the mean squared error of the means is the variance divided by n. A fitted min-max scaler takes a given feature of the next sample out of the requested range with probability at most 2/(n+1), and some feature with probability at most 2d/(n+1), whatever the distribution. The mean squared error of linear regression on its own training samples is on average at most the mean squared error on new samples of any affine function. For every model whose training does not depend on earlier training, the expected score of a fold of a k-fold validation is the expected score of the model trained on as many independent samples as the other folds have and tested on as many further samples as the fold has, however the samples are shuffled. If the features take finitely many values, the nearest neighbour classifier with k = 1 (brute force, which returns the first of the nearest rows) is wrong about the next sample with probability at most twice that of any other classification rule, plus the number of values divided by n+1.", "quantifier": "all distributions of samples, all numbers of samples, features and folds, all shuffles, models and scores", "why_tests_cant": "a statement about expectations and probabilities over all distributions; a test sees finitely many draws of one", "anchors": ["src/data/transforms/standardize.rs: StandardizerFitter::fit", "src/data/transforms/minmax.rs: MinMaxFitter::fit, MinMaxScaler::transform", "src/learning/lin_reg.rs: LinRegressor::train, predict", "src/analysis/cross_validation.rs: k_fold_validate", "src/learning/knn/brute_force.rs: BruteForce::search", "src/learning/knn/mod.rs: KNNClassifier::train, predict"]}
{"id": "C117", "title": "Training in several rounds", "statement": "Training by batch gradient descent for n iterations and then, from where that ended, for m more is training once for n + m iterations: the same evaluations of the cost and the same parameters, bit for bit in any arithmetic, as long as the first round did not stop early and the cost at the seam is not zero. A neural network trained twice this way is the network trained once. When a round stops early, a larger number of iterations gives the same parameters. Stochastic gradient descent starts every call at rest, so two rounds of one epoch are not one round of two epochs: on the cost w\u00b2/2 they end alpha\u00b2\u00b7mu apart.", "quantifier": "all cost functions, starting points, steps, numbers of iterations, networks and arithmetics", "why_tests_cant": "holds for every cost function and every number of iterations", "anchors": ["src/learning/optim/grad_desc.rs: GradientDesc::optimize, StochasticGD::optimize", "src/learning/nnet/mod.rs: NeuralNet::train"]}
{"id": "C118", "title": "K-means with two clusters never loses a cluster", "statement": "Training with two clusters from two centroids that both have a sample (one sample at least as near to the first, one nearer to the second) succeeds with two different, finite centroids, whatever the iteration limit, and predicting the training data uses both labels. The initialisers give such centroids whenever they give two different ones: with k-means++, the default, on all data with two different rows and for all draws (on data whose rows are all equal training panics); with Forgy when the two chosen rows differ; with random partition when the two means differ. With three clusters a cluster can become empty and spoil the result (C31).", "quantifier": "all data, draws and iteration limits", "why_tests_cant": "holds for every data set and every sequence of random numbers", "anchors": ["src/learning/k_means.rs: KMeansClassifier::train, update_centroids, find_closest_centroids, KPlusPlus, Forgy, RandomPartition"]}
{"id": "C119", "title": "The example programs run to the end", "statement": "The four example programs end normally, for all the random numbers they draw, and what they print is determined as follows. K-means: if two generated samples differ (which happens with probability one for normal draws) it prints two positive cluster sizes that add up to the number of samples; if all samples are equal it panics. AND gate: it always ends; hits and misses add up to four, and the hits are the cases on the right side of the learnt line. Sign learner: it always ends, with all 20 numbers right or exactly 10 of them; at most one in 10^14 of the draws gets any wrong. Dogs: it ends exactly when neither colour has exactly one training dog (2n of the 2^n colourings of n dogs fail), and the hits are the test dogs that are red just when red is found at least as likely as white.", "quantifier": "all random draws, all numbers of samples", "why_tests_cant": "a run of an example tries one sequence of random numbers", "anchors": ["examples/k-means_generating_cluster.rs: generate_data, main", "examples/nnet-and_gate.rs: main", "examples/svm-sign_learner.rs: main", "examples/naive_bayes_dogs.rs: Dog::rand, generate_dog_data, evaluate_prediction, main"]}
{"id": "C120", "title": "DBSCAN training needs stack for one call per sample, and sometimes exactly that", "statement": "Training DBSCAN nests calls. With room on the stack for as many nested calls as there are samples it never overflows and gives the result it gives with unlimited stack. Less is not enough in general: for every n \u2265 2, n points in a row, each within reach of the next, overflow a stack that has room for fewer than n nested calls.", "quantifier": "all data, all models, all stack sizes", "why_tests_cant": "an overflow appears only on data larger than the test's, and depends on the order of the samples", "anchors": ["src/learning/dbscan.rs: train, expand_cluster"]}
{"id": "C121", "title": "Conjugate gradient descent takes limits of any size", "statement": "The limits iters and max of conjugate gradient descent can be any values of their type (usize). The optimiser returns, never with a higher cost than that of the start, and the limit iters stops it only after that many line searches.", "quantifier": "all settings, all models with finite costs and gradients, all starts", "why_tests_cant": "tests use limits of a few hundred; the values from 2^31 on behave differently", "anchors": ["src/learning/optim/fmincg.rs: ConjugateGD, optimize"]}
{"id": "C122", "title": "Exponentials that underflow or overflow do no harm", "statement": "When an exponential is too small or too large for the number type, the library still gives the right answer up to a negligible error: logistic predictions are numbers in [0, 1] near the exact probabilities, training on finite data gives finite parameters, kernels are finite, and the memberships that a Gaussian mixture predicts are numbers that add up to 1.", "quantifier": "all finite inputs, parameters, targets, step sizes and numbers of iterations", "why_tests_cant": "exp underflows only for arguments below about -745; tests on small data do not get there", "anchors": ["src/learning/toolkit/activ_fn.rs: Sigmoid", "src/learning/logistic_reg.rs: compute_grad, train, predict", "src/learning/toolkit/cost_fn.rs: CrossEntropyError", "src/learning/gmm.rs: membership_weights, update_params", "src/learning/toolkit/kernel.rs: SquaredExp"]}
{"id": "C123", "title": "How much stack the building of a search tree needs", "statement": "Building a kd-tree or ball tree from n samples with leaf size L, when it ends, needs at most max(1, n + 2 - L) nested recursive calls (two more than the samples beyond the leaf size), whatever the samples are, and there are samples of a single feature that need exactly this many, so the depth is not logarithmic in general.", "quantifier": "all data (of any number type, with NaN and rounding), leaf sizes and both kinds of tree; for the lower bound all n >= 1 and L >= 2", "why_tests_cant": "a stack overflow aborts the process and appears only for long, skewed data; tests build small trees", "anchors": ["src/learning/knn/binary_tree.rs: BinaryTree::build, split, select_split"]}
{"id": "C124", "title": "Finite numbers that are too large to be squared, added or subtracted are handled or reported", "statement": "For finite data of any size, searches find the nearest samples, k-means assigns the nearest centre and finite centres, and the scalers map as documented; where an intermediate result is beyond the largest number, the call reports an error.", "quantifier": "all finite data, queries, centres, numbers of neighbours", "why_tests_cant": "squares overflow only for entries beyond about 1e154; tests use small numbers", "anchors": ["src/learning/knn/mod.rs: dist, KNearest::dist", "src/learning/knn/brute_force.rs: search", "src/learning/knn/binary_tree.rs: search", "src/learning/k_means.rs: find_closest_centroids, update_centroids", "src/data/transforms/minmax.rs: fit, transform", "src/data/transforms/standardize.rs: fit, transform", "src/data/transforms/normalize.rs: transform"]}
{"id": "C125", "title": "Calls of safe functions do not reach undefined behaviour", "statement": "The library uses unsafe code (unchecked reads, uninitialised vectors, views through raw pointers) behind safe functions. No sequence of safe calls reads memory it must not read.", "quantifier": "all data of all shapes, all numbers including NaN and infinities, all parameters, all random numbers, all user optimisers, all histories of calls including caught panics", "why_tests_cant": "an unchecked read beyond the end usually goes unnoticed in a test, and the dangerous shapes and histories are unbounded in number", "anchors": ["src/learning/knn/mod.rs: KNearest::add, KNearest::dist", "src/learning/knn/binary_tree.rs: maybe_close, select_split, build, search", "src/learning/dbscan.rs: train, expand_cluster", "src/learning/k_means.rs: RandomPartition, KPlusPlus", "src/learning/nnet/mod.rs: forward_prop, compute_grad, get_net_weights", "src/learning/pca.rs: centering, train, predict", "src/learning/toolkit/rand_utils.rs: fisher_yates"]}
{"id": "C126", "title": "A train call that panics leaves the model as it was", "statement": "A caller who catches a panic of train finds the model as it was before the call: it answers as before, or is still untrained.", "quantifier": "all models, all states they can be in, all training data, solvers, kernels, optimisers and initialisers, including those that panic", "why_tests_cant": "the state left behind depends on where the panic happens; no test of the repository looks at a model after a panic", "anchors": ["src/learning/lin_reg.rs: train, train_with_optimization", "src/learning/logistic_reg.rs: train", "src/learning/glm.rs: train", "src/learning/gp.rs: train", "src/learning/svm.rs: train", "src/learning/nnet/mod.rs: train", "src/learning/knn/mod.rs: train", "src/learning/k_means.rs: train, init_centroids", "src/learning/gmm.rs: train", "src/learning/naive_bayes.rs: train", "src/learning/dbscan.rs: train", "src/learning/pca.rs: train"]}
{"id": "C127", "title": "A regression family of the user's own is fitted like a built-in one", "statement": "A generalised linear model whose criterion is written by the user, who gives a link function and a variance function and keeps the documented defaults for the rest, is fitted by the same procedure as the built-in families. For data with independent features and targets at which the variance is positive and the link has a slope, training succeeds; parameters are left unchanged by a pass exactly when they solve the estimating equations of that link and variance; a constant factor in the variance does not change the parameters; the identity link with a constant variance gives least squares; the log link with the mean as variance gives the Poisson family. A different number of samples and targets is reported before any method of the criterion is called, and a criterion that returns the wrong number of weights makes train panic.", "quantifier": "all link and variance functions, all overridden methods (for the checks), all training data", "why_tests_cant": "Criteria are user code: the tests know four of them, and each overrides the defaults that other criteria rely on.", "anchors": ["src/learning/glm.rs: Criterion, LinkFunc, GenLinearModel::train, GenLinearModel::predict"]}
{"id": "C128", "title": "A network layer or criterion of the user's own is trained like a built-in one", "statement": "A neural network can hold layers and a criterion written by the user. If at the current inputs and weights each layer's two backward functions give the gradient of its forward function, and the criterion's cost gradient is a multiple of the gradient of its cost, then compute_grad succeeds and returns the cost of the predictions and that multiple of its gradient in all weights, layer by layer in the order they were added; a regularisation of the user's own adds its cost and its gradient. The built-in layers and criteria are a special case of this. A layer that returns a gradient of the wrong size is never trained on. A layer's refusal of its input reaches the caller of predict. No layer written in safe code can make the network read memory it does not own.", "quantifier": "all layers and criteria (as functions of their arguments), all numbers of layers and shapes, all weights and inputs, all directions of change", "why_tests_cant": "Layers are user code: tests know the two in the crate, and finite differences at a few weights do not establish a gradient.", "anchors": ["src/learning/nnet/net_layer.rs: NetLayer", "src/learning/nnet/mod.rs: Criterion, NeuralNet::add, BaseNeuralNet::compute_grad, BaseNeuralNet::forward_prop, get_layer_weights"]}
{"id": "C129", "title": "A naive Bayes distribution of the user's own gets each class once, and predictions follow its numbers", "statement": "A naive Bayes model trained with a distribution written by the user makes a new one for the classes and features of the data and gives it, in ascending order of the classes that occur, exactly the samples of each class, one update per class. If all updates succeed, the priors are the shares of the classes; the first update that fails or panics ends the training with that result and the priors of before. A target row that names no class is reported before any update. Predictions mark, one-hot, the first class with the largest of the numbers the distribution gives; if these are logarithms of prior times likelihood no class has a larger posterior. A distribution that gives the wrong number of rows gets no prediction out. The built-in distributions are a special case.", "quantifier": "all distributions (as functions of their arguments that may also fail, panic, or leave a changed state), all data and targets, all earlier states of the model", "why_tests_cant": "The distribution is user code with its own state; tests know the three in the crate.", "anchors": ["src/learning/naive_bayes.rs: Distribution, NaiveBayes::train, NaiveBayes::predict, update_params, get_log_probs, get_classes"]}
{"id": "C130", "title": "How much work searches, clustering and kernel methods do", "statement": "A search in a kd-tree or ball tree built from n samples measures the distance to each sample at most once, so at most n distances, and every sample it returns is one it measured; a tree of one leaf reaches the bound. A brute-force search measures each sample exactly once, in order. A k-nearest-neighbour prediction asks its searcher once per row, in order. Training DBSCAN queries the neighbourhood of each sample exactly once. A Gaussian process evaluates its kernel once for each ordered pair of samples in training, once per pair of new row and sample in predict, and twice per such pair plus once per pair of new rows for the posterior. An SVM evaluates its kernel in each iteration for the drawn sample with every sample and keeps nothing between iterations, and in predict once per pair of new row and sample.", "quantifier": "all data, points, numbers of neighbours, leaf sizes, random draws, kernels and searchers (also the user's own), all numbers of iterations", "why_tests_cant": "A test can time one data set; that no input makes a search revisit a sample or a training repeat a query must hold for every tree shape and every density structure.", "anchors": ["src/learning/knn/binary_tree.rs: BinaryTree::search, search_leaf", "src/learning/knn/brute_force.rs: BruteForce::search", "src/learning/knn/mod.rs: get_distances, KNNClassifier::predict", "src/learning/dbscan.rs: train, expand_cluster, region_query", "src/learning/gp.rs: ker_mat, train, predict, get_posterior", "src/learning/svm.rs: ker_mat, train, predict"]}
{"id": "C131", "title": "The shipped data sets, and what the learners make of them", "statement": "The iris data set has 150 rows of 4 positive features, none above 7.9, and 50 targets of each of its three classes, in order; the third feature is below 2 in the first class and at least 3 in the others; the trees data set has 31 rows of 2 positive features, none above 87, and 31 positive targets; the column means are 5.843.., 3.054, 3.758.., 1.198.. and 13.248.., 76, 30.171... Building a kd-tree or ball tree on iris ends exactly when the leaf size is at least 4, on trees when it is at least 3: smaller leaf sizes never return. k-means++ on iris picks k different rows for up to 147 clusters and panics for 148 or more, whatever the random draws, also where there are enough rows. Linear regression succeeds on both for all targets. Both scalers bring every column of both to the target range or moments and can be undone. Gaussian naive Bayes trains on iris and learns priors of a third.", "quantifier": "all leaf sizes, numbers of clusters and random draws, all target vectors, all target ranges and moments, all exact solvers", "why_tests_cant": "A test tries one leaf size, one seed and one number of clusters; the boundaries follow from the repeated rows of the tables and hold for all draws.", "anchors": ["src/datasets/iris.rs: load", "src/datasets/trees.rs: load", "src/datasets/mod.rs: Dataset", "src/learning/knn/binary_tree.rs: BinaryTree::build", "src/learning/k_means.rs: KPlusPlus", "src/learning/lin_reg.rs: LinRegressor::train", "src/data/transforms/minmax.rs", "src/data/transforms/standardize.rs", "src/learning/naive_bayes.rs: NaiveBayes::train"]}
{"id": "C132", "title": "Sizes that do not fit the machine are refused", "statement": "On a 64-bit machine, building a network whose weights can be counted and stored gives the documented network, weights, predictions and gradients, in debug and release builds alike. A layer with too many weights is refused with a panic when it is added: always in a debug build, where every network that comes out has exactly the weights its layers need; in a release build, when its number of weights is below 2^64. From 2^64 weights on, the number wraps: the release build takes the layer, stores only the remainder of the weights (none for Linear::without_bias(1 << 32, 1 << 32)), and the safe calls that read the layer's weights, predict with it or compute a gradient reach beyond them: undefined behaviour. mlp with no sizes panics in both. Linear::new with the largest size panics in debug builds and makes a layer that refuses all data in release builds. A search tree asked for fewer than 2^60 neighbours answers as described elsewhere; asked for more it panics.", "quantifier": "all layer sizes, layer sequences, weights and data; both build profiles; all trees, points and numbers of neighbours", "why_tests_cant": "The sizes at which the arithmetic wraps are far beyond any test data; the claim is about all sizes a caller can pass.", "anchors": ["src/learning/nnet/net_layer.rs: Linear::new, num_params, default_params", "src/learning/nnet/mod.rs: mlp, add, get_layer_weights, get_net_weights, compute_grad, forward_prop", "src/learning/knn/mod.rs: KNearest::get_results", "src/learning/knn/binary_tree.rs: BinaryTree::search"]}
{"id": "C133", "title": "The sign in which a feature is measured, and the direction of an odd hidden unit, do not matter to networks", "statement": "When some features are measured with the opposite sign and the first layer's weights for them start with the opposite sign, a network with a linear first layer predicts the same, and training with any of the four optimisers, any cost function, and no or L2 regularisation ends with the same weights up to these signs. The same holds for the units of any hidden layer with an odd activation (tanh, linear) when all their weights in and out change sign; so such a unit whose weights are all zero is never trained. Neither holds of an L1 term, whose gradient at a zero weight is positive, nor of logistic regression, which always starts from the weights 1/2.", "quantifier": "all networks (any layers before and after), weights, data sets, choices of signs, optimisers and their settings, epochs and random numbers, over the reals", "why_tests_cant": "each test has one network, one sign convention and one start", "anchors": ["src/learning/nnet/mod.rs: compute_grad, forward_prop, train", "src/learning/nnet/net_layer.rs: Linear", "src/learning/toolkit/activ_fn.rs: Tanh, Linear", "src/learning/toolkit/regularization.rs: l1_reg_grad, l2_reg_grad", "src/learning/optim/grad_desc.rs: GradientDesc, StochasticGD, AdaGrad", "src/learning/optim/rmsprop.rs: RMSProp", "src/learning/logistic_reg.rs: train"]}
{"id": "C134", "title": "K-means finds groups of rows that lie apart, from a good start", "statement": "If the training rows fall into k groups such that rows of different groups are more than twice as far apart as any two rows of one group, and training starts at one row of every group, then after one iteration or more the centroids are the means of the groups, and predicting the training data tells exactly which rows belong together; new rows that lie with a group get its number. With the default k-means++ initialiser the probability of this is at least (sS/(sS+nD))^(k-1) for every first row, where n is the number of rows, s the size of the smallest group, D and S the largest squared distance in a group and the smallest between groups. If the data have exactly k different rows it happens for all draws, and the centroids are these rows. From a bad start the groups need not be found however far apart they lie.", "quantifier": "all data sets of finite numbers, groupings, numbers of clusters, iteration limits, initialisers and random draws", "why_tests_cant": "the tests have a few points in two groups, one seedless run each", "anchors": ["src/learning/k_means.rs: train, predict, init_centroids, update_centroids, find_closest_centroids, Forgy, KPlusPlus, sample_discretely"]}
{"id": "C135", "title": "Nearest neighbours and density clustering tell apart what lies apart", "statement": "The brute-force nearest-neighbour classifier gives a sample the class l whenever more than k/2 training rows of class l are nearer to it than every row of another class; so when every class has more than k/2 rows and its rows lie nearer to each other than to other classes, the training rows and new rows beside a class get their class. DBSCAN, on groups of at least min_points rows with distances below eps within a group and at least eps between groups, labels no sample as noise and gives two samples the same label exactly if they are in one group; with prediction switched on a new row beside a group gets its label.", "quantifier": "all data sets of real numbers, classes, groupings, k, eps and min_points, and new rows", "why_tests_cant": "the tests have a few points in one or two groups", "anchors": ["src/learning/knn/mod.rs: train, predict", "src/learning/knn/brute_force.rs: search", "src/learning/dbscan.rs: train, predict, expand_cluster, region_query"]}
{"id": "C136", "title": "Groups that lie apart are found in spite of rounding errors", "statement": "In floating-point arithmetic whose operations round with a relative error u: (k-means) if rows of one group lie within distance D, rows of different groups at distance S or more, no row is longer than M and S exceeds (g+1)(D + eM) - where g-1 and e are the relative errors of a distance and of a mean, which vanish with u - then training from one row of every group ends, for every iteration limit of one or more, with centroids that are the means of the groups up to an error of length eM; predicting the training rows says exactly which of them are in one group, and new rows beside a group get its number. (Nearest neighbours) a sample gets the class of which more than k/2 rows are nearer to it, by more than the rounding errors, than the rows of other classes. (DBSCAN) if eps separates the distances within groups from those between groups by more than the rounding errors, the labels are exactly the groups and nothing is noise.", "quantifier": "all rounding functions with relative error below 1, all data sets of representable numbers, groupings, starts, iteration limits, k, eps and min_points, and new rows", "why_tests_cant": "the tests run a few data sets in one arithmetic, and cannot say how much room the groups need", "anchors": ["src/learning/k_means.rs: train, predict, get_closest_centroids, update_centroids", "src/learning/knn/mod.rs: train, predict", "src/learning/dbscan.rs: train"]}
{"id": "C137", "title": "Logistic regression separates classes that a hyperplane separates", "statement": "If an affine function v is at least gamma on the samples with target 1 and at most -gamma on those with target 0, and the step size times the mean of 1 + |x|^2 is at most 4, then logistic regression trained by gradient descent with more than 5 n R^2 / (4 step) iterations - R the distance of the start to log(4n)/gamma times v, and 13 n^2 R^2 at most 1e20 times the step, so that the stop test does not hide the margin - predicts more than one half for every training sample with target 1 and less than one half for every one with target 0; so does the network of one linear layer and the sigmoid, trained with the cross entropy from the same start with the step divided by n. Conversely, whenever a logistic model does so the classes are separated by the hyperplane of its parameters. For classes a hyperplane separates no parameters are the best: the Bernoulli likelihood grows with every move in its direction and the gradient vanishes nowhere.", "quantifier": "all data sets of up to 1e19 samples with targets 0 and 1, all separating affine functions, step sizes and iteration limits within the bounds", "why_tests_cant": "the tests train on one or two small data sets; how many iterations suffice depends on the margin", "anchors": ["src/learning/logistic_reg.rs: train, predict, compute_grad", "src/learning/optim/grad_desc.rs: GradientDesc::optimize"]}
{"id": "C138", "title": "A support vector machine tells apart what lies apart", "statement": "Let the targets be 1 and -1. A trained SVM classifies a new point as s whenever it is near to all training rows of target s and far from all others, where near and far are measured by the kernel and the least near kernel exceeds the number of iterations times the largest far one; for the default machine: whenever the squared distances to the rows of the other target exceed those to the rows of target s by 9.3. This holds for every sequence of draws in which a sample of target s is drawn (for s = 1 late enough to be counted), and so with a probability of at least 1 - (1-p)^(T-a) - (1-q)^(T-b). (Fails for larger samples: when the kernels of every sample of target 1 add up to lambda (T-1), for the default machine when each of these rows is given 30 times, the machine predicts the same for all points, however far apart the two groups lie.)", "quantifier": "all data sets with targets 1 and -1, all new points, all kernels, regularisation constants and iteration counts, all sequences of random draws", "why_tests_cant": "tests train on one small data set with one seed; whether a sample is counted depends on the size of the data set and on when it is drawn", "anchors": ["src/learning/svm.rs: train, predict, Default", "src/learning/toolkit/kernel.rs: SquaredExp"]}
{"id": "C139", "title": "A Gaussian process is sure near its data and falls back on the prior far from them", "statement": "With a positive semi-definite kernel and positive noise: a prediction differs from the prior mean by at most the root of the sum of the squared kernel values with the training rows, times the distance of the targets from the prior mean, divided by the noise; the posterior variance lies between 0 and the prior variance and falls short of the latter by at most that sum divided by the noise. It is at most what is left of the prior variance after a single observation at any training row, and at a training row at most the noise. The fitted values are not farther from the targets than the prior mean is. With the squared exponential kernel, prediction and variance approach the prior mean and amplitude with growing distance from the data.", "quantifier": "all data sets, targets, positive semi-definite kernels, mean functions, positive noise levels and query points", "why_tests_cant": "a test compares a handful of predictions; the claim is about every query, in particular those far from anything tested", "anchors": ["src/learning/gp.rs: train, predict, get_posterior", "src/learning/toolkit/kernel.rs: SquaredExp"]}
{"id": "C140", "title": "Preparing the data does not change what learners blind to the preparation predict", "statement": "Linear regression that trains on data also trains on them after any number of steps of preparation (standardizer, min-max scaler, principal component analysis with all components kept), each fitted to what the steps before it made of the data, and then predicts the same for further data sent through the same steps. Gaussian naive Bayes does so for scaling. Principal component analysis with all components kept changes nothing in the labels of k nearest neighbours, the clusters and predictions of DBSCAN, the predictions of k-means started with the same draws, of support vector machines and of Gaussian processes with kernels that are functions of the distance.", "quantifier": "all data sets and targets, all chains of preparation of any length, all further data of the same width", "why_tests_cant": "a test runs one chain on one data set; the claim is about every chain and all data", "anchors": ["src/data/transforms/standardize.rs: fit, transform", "src/data/transforms/minmax.rs: fit, transform", "src/learning/pca.rs: train, predict", "src/learning/lin_reg.rs: train, predict", "src/learning/naive_bayes.rs: train, predict", "src/learning/knn/mod.rs: train, predict", "src/learning/k_means.rs: train, predict", "src/learning/dbscan.rs: train, predict"]}
{"id": "C141", "title": "Hidden units let a network fit any labels; without them neither a network nor logistic regression can", "statement": "Whatever values are asked for at finitely many different rows, there are weights with which a network of one hidden layer of sigmoids, two for each row, predicts them up to any error; with a sigmoid at the end, as the multi-layer perceptron has it, all values from 0 to 1, so any labelling of the rows, can be had, and the cost of the cross entropy that training minimises has no positive lower bound for labels 0 and 1. A network of linear layers only with a sigmoid at the end, whatever the number and width of the layers and the weights, and logistic regression with any parameters, cannot put two rows into one class and two other rows with the same middle into the other (exclusive or).", "quantifier": "all matrices of different rows, all targets, all errors allowed, all numbers of outputs; all layouts and weights of linear networks, all parameters of logistic regression, all rows of any width", "why_tests_cant": "A test can train one network on one data set; that no weights at all do something, or that for every data set some weights do, is no statement about a run.", "anchors": ["src/learning/nnet/mod.rs: NeuralNet::predict, mlp", "src/learning/nnet/net_layer.rs: Linear", "src/learning/toolkit/activ_fn.rs: Sigmoid", "src/learning/logistic_reg.rs: LogisticRegressor::predict"]}
{"id": "C142", "title": "Gaussian naive Bayes tells apart classes that lie apart, but not all classes that do not overlap", "statement": "If in every feature the values of one class differ by at most D, those of two classes by more than D(2 + sqrt(n + 2 log n)) where n is the number of samples, and no feature of a class is constant, then training the Gaussian naive Bayes classifier succeeds and the model assigns every point each of whose coordinates lies between those of two training points of a class to that class; in particular predicting on the training inputs gives back the targets exactly. That the values of two classes do not overlap is not enough: trained on 0 and 10 against 11 and 13, the model assigns 10 to the class of 11 and 13.", "quantifier": "all data sets, numbers of classes, features and samples, widths and gaps per feature, class frequencies, earlier states of the model, and points to predict", "why_tests_cant": "The likelihoods weigh means, variances and class frequencies against each other; a test can check that chosen data is classified well, not how far apart classes have to be in general.", "anchors": ["src/learning/naive_bayes.rs: NaiveBayes::train, predict, Gaussian::joint_log_lik, Gaussian::update_params"]}
{"id": "C143", "title": "What a few wrong samples can and cannot do", "statement": "Nearest neighbours: if among the neighbours found for a query one class has more than 2m votes more than every other, changing the labels of any m training samples does not change the prediction. Naive Bayes: changing m of n samples changes no class probability by more than m/n. Against this, one wrong number has no bounded effect elsewhere: by the target of one sample alone linear regression can be made to predict any value for that sample; a Gaussian naive Bayes model no longer assigns any of the queries to a class if a single entry of one of its training samples is large enough; and scaling to a range maps two samples to values whose distance is at most the fraction of the range that their distance is of the distance of one of them from any third sample, so an outlier squeezes all others together.", "quantifier": "all data sets, all choices of the changed samples and values, all searchers and queries, all numbers of classes and features", "why_tests_cant": "A test changes one sample of one data set in one way; both the guarantee and the absence of any bound speak about all changes.", "anchors": ["src/learning/knn/mod.rs: KNNClassifier::predict", "src/learning/naive_bayes.rs: NaiveBayes::train, predict, Gaussian", "src/learning/lin_reg.rs: LinRegressor::train, predict", "src/data/transforms/minmax.rs: MinMaxScaler"]}
{"id": "C144", "title": "What the parameters mean at their extremes", "statement": "A nearest neighbours classifier that asks for as many neighbours as there are samples ignores the query and predicts the majority label of the whole training set. A k-d tree or ball tree whose leaf size exceeds the number of samples is a single leaf and answers every query as the exhaustive search does. DBSCAN with min_points at most 1 marks no sample as noise; with min_points above the number of samples it marks all as noise; with a radius larger than all distances and min_points at most the number of samples it puts all samples into one cluster. K-means with one cluster ends at the mean of the samples whatever the start. A Gaussian process told to expect more and more noise trains from some noise on and its predictions tend to its prior mean, at a rate of one over the noise.", "quantifier": "all data sets, labels, queries, radii, starts, kernels and means", "why_tests_cant": "A test runs one data set at one setting of the parameter; the reading of a parameter at its extremes is about all data sets, and in the case of the noise about a limit.", "anchors": ["src/learning/knn/mod.rs: KNNClassifier::predict", "src/learning/knn/binary_splitting.rs: build, search", "src/learning/dbscan.rs: DBSCAN::train", "src/learning/k_means.rs: KMeansClassifier::train", "src/learning/gp.rs: GaussianProcess::train, predict"]}
{"id": "C145", "title": "The shape of the regions of equal prediction", "statement": "The regions of the clusters of k-means, of the signs of a support vector machine with the linear kernel, of the classes of multinomial and Bernoulli naive Bayes, and of the classes of Gaussian naive Bayes if every feature has the same spread in all classes, are convex: a point between two points of equal prediction gets that prediction, ties included. In general the regions of Gaussian naive Bayes are not convex. On the way from one point to another the predictions of linear regression change evenly and those of logistic regression stay between those at the ends. With one neighbour and no repeated samples the regions of a nearest neighbours classifier are star-shaped: on the way from a point to a sample nearest to it all points get the label of that sample; so do the predictions of DBSCAN inside the radius of that sample.", "quantifier": "all data sets, centroids, parameters and draws of the training, all pairs of points and all points between them", "why_tests_cant": "A region consists of infinitely many points, and its shape is a statement about all pairs of them.", "anchors": ["src/learning/k_means.rs: KMeansClassifier::predict", "src/learning/svm.rs: SVM::predict", "src/learning/naive_bayes.rs: NaiveBayes::predict", "src/learning/lin_reg.rs: LinRegressor::predict", "src/learning/logistic_reg.rs: LogisticRegressor::predict", "src/learning/knn/mod.rs: KNNClassifier::predict", "src/learning/dbscan.rs: DBSCAN::predict"]}
{"id": "C146", "title": "A feature that does not vary", "statement": "A feature with the same value in all samples and queries carries no information, so adding it changes no prediction: k-means (same centroids with the feature appended), nearest neighbours, DBSCAN, Gaussian processes and support vector machines with kernels of the distance predict as without it. Violated by linear regression, which refuses all such data with an error about linear algebra, and by Gaussian naive Bayes, where it is enough that the feature has one value within one class: if that class is class 0 it is predicted for every query, otherwise it is never predicted, not even for its own samples.", "quantifier": "all data sets, values of the feature, parameters, targets and queries", "why_tests_cant": "The feature can be added to every data set; the failures need data that real data sets contain but hand-made test data avoid.", "anchors": ["src/learning/knn/mod.rs: KNNClassifier", "src/learning/dbscan.rs: DBSCAN", "src/learning/k_means.rs: KMeansClassifier", "src/learning/gp.rs: GaussianProcess", "src/learning/svm.rs: SVM", "src/learning/lin_reg.rs: LinRegressor::train", "src/learning/naive_bayes.rs: Gaussian::joint_log_lik"]}
{"id": "C147", "title": "A missing number in a query", "statement": "A query with a NaN in it gets an answer that shows it: linear and logistic regression, support vector machines and Gaussian processes (kernels that are NaN at NaN) and neural networks predict NaN, and DBSCAN puts the query in no cluster. Violated by k-means, which puts it in cluster 0, by all three kinds of naive Bayes, which put it in class 0, and by nearest neighbours found by brute force, which with k = 1 give it the label of the first sample and with larger k panic: these answers look like any other, or end the program.", "quantifier": "all fitted models, number and position of the NaN entries, and other entries of the query (including infinities)", "why_tests_cant": "What a NaN does depends on where it is compared: the answer must be followed through every sum, product and comparison for all models and other entries.", "anchors": ["src/learning/lin_reg.rs: LinRegressor::predict", "src/learning/logistic_reg.rs: LogisticRegressor::predict", "src/learning/svm.rs: SVM::predict", "src/learning/gp.rs: GaussianProcess::predict", "src/learning/nnet/mod.rs: NeuralNet::predict", "src/learning/dbscan.rs: DBSCAN::predict", "src/learning/k_means.rs: KMeansClassifier::predict", "src/learning/naive_bayes.rs: NaiveBayes::predict", "src/learning/knn/mod.rs: KNNClassifier::predict"]}
{"id": "C148", "title": "A missing number in the training data", "statement": "One NaN in one training sample is rejected by training or affects no more than that sample. Violated: after k-means is trained on such data, every query is put into cluster 0, whatever the initial centroids; a naive Bayes model (Gaussian, multinomial or Bernoulli) predicts class 0 for every query if the sample is of class 0, and otherwise never predicts the class of the sample; the classifier by nearest neighbours found by brute force gives every query the label of the first sample if that has the NaN and k = 1, and panics on every query if one of the first k samples has it and k > 1. Linear and logistic regression trained by gradient descent and support vector machines predict NaN for every query. The stochastic optimisers return parameters that are all NaN, for every model whose gradient at a sample with a NaN is NaN. Neural networks with a linear layer are such models: trained by gradient descent or a stochastic optimiser they predict NaN for every query. It holds for DBSCAN (min_points above 0), which marks the sample as noise and clusters the others as without it, and nearest neighbours ignore such a sample if it comes after the first k.", "quantifier": "all training data with a NaN in it, all positions of it, initial centroids, numbers of iterations and queries", "why_tests_cant": "Training accepts the data; the effect shows only in later predictions and depends on the position of the sample.", "anchors": ["src/learning/k_means.rs: KMeansClassifier::train", "src/learning/k_means.rs: KMeansClassifier::predict", "src/learning/naive_bayes.rs: NaiveBayes::train", "src/learning/naive_bayes.rs: NaiveBayes::predict", "src/learning/knn/mod.rs: KNNClassifier::predict", "src/learning/knn/brute_force.rs: BruteForce::search", "src/learning/dbscan.rs: DBSCAN::train", "src/learning/svm.rs: SVM::train", "src/learning/optim/grad_desc.rs: StochasticGD", "src/learning/optim/grad_desc.rs: AdaGrad", "src/learning/optim/grad_desc.rs: RMSProp", "src/learning/nnet/mod.rs: NeuralNet::train"]}
{"id": "C149", "title": "A missing number in a scored prediction", "statement": "A NaN among the predictions or targets never improves a score. row_accuracy is the fraction of the rows that agree and have no NaN, so a row with a NaN counts as wrong even if the target has a NaN at the same place; neg_mean_squared_error, the mean squared error cost and the cross entropy cost of matrices are NaN; precision, recall and F1 of vectors of floats panic.", "quantifier": "all matrices (vectors) of predictions and targets of the same shape with a NaN at any positions, and all other entries, infinite ones too", "why_tests_cant": "Tests compare scores of finite predictions; whether a NaN is masked depends on its position and on the other entries.", "anchors": ["src/analysis/score.rs: row_accuracy", "src/analysis/score.rs: neg_mean_squared_error", "src/analysis/score.rs: precision", "src/analysis/score.rs: recall", "src/analysis/score.rs: f1", "src/learning/toolkit/cost_fn.rs: MeanSqError", "src/learning/toolkit/cost_fn.rs: CrossEntropyError"]}
