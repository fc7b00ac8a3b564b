{
 "claims": [
  {
   "property": "C01",
   "status": "proved",
   "theorems": [
    "RM.C01_C02_folds_are_a_k_fold_division",
    "RM.C01_each_sample_tested_once"
   ],
   "note": "All n, k, shuffles."
  },
  {
   "property": "C02",
   "status": "proved",
   "theorems": [
    "RM.C01_C02_folds_are_a_k_fold_division",
    "RM.C02_train_is_complement",
    "RM.C02_rejects_exactly_bad_k",
    "RM.C02_index_iterators"
   ],
   "note": "All n, k, fold positions, shuffles; exact panic condition."
  },
  {
   "property": "C03",
   "status": "proved",
   "theorems": [
    "RM.C03_validate_runs_the_folds",
    "RM.C03_one_score_per_fold",
    "RM.C03_rejects_bad_arguments"
   ],
   "note": "Arbitrary state-passing model and score function; the Runs relation in Spec/CrossValidation.lean is the specification."
  },
  {
   "property": "C04",
   "status": "proved",
   "theorems": [
    "RM.C04_in_place_shuffle_is_permutation",
    "RM.C04_in_place_shuffle_uniform",
    "RM.C04_in_place_shuffle_natural"
   ],
   "note": "Permutation, bijection draws<->arrangements, naturality."
  },
  {
   "property": "C05",
   "status": "proved",
   "theorems": [
    "RM.C05_copy_shuffle_is_permutation",
    "RM.C05_copy_shuffle_uniform",
    "RM.C05_copy_shuffle_natural"
   ],
   "note": "No uninitialised read (ub), permutation, bijection."
  },
  {
   "property": "C06",
   "status": "proved",
   "theorems": [
    "RM.C06_sample_without_replacement",
    "RM.C06_panics_when_too_large",
    "RM.C06_full_sample",
    "RM.C06_sample_uniform",
    "RM.C06_number_of_draws",
    "RM.C06_sample_natural",
    "RM.C06_inclusion"
   ],
   "note": "Sub-multiset, exact panic condition, uniform over k-subsets by counting draw sequences."
  },
  {
   "property": "C07",
   "status": "proved",
   "theorems": [
    "RM.C07_shuffler_permutes_rows",
    "RM.C07_shuffler_keeps_shape",
    "RM.C07_shuffler_reaches_every_order"
   ],
   "note": "Rows permuted, shape kept, all orders reachable."
  },
  {
   "property": "C08",
   "status": "proved",
   "theorems": [
    "RM.C08_confusion_entries"
   ],
   "note": "All label types, vectors, label lists."
  },
  {
   "property": "C09",
   "status": "proved",
   "theorems": [
    "RM.C09_default_labels",
    "RM.C09_panic_iff",
    "RM.C09_totals"
   ],
   "note": "Default labels, totals, trace = accuracy, exact panic condition."
  },
  {
   "property": "C10",
   "status": "proved",
   "theorems": [
    "RM.C10_accuracy_value",
    "RM.C10_accuracy_range",
    "RM.C10_accuracy_empty",
    "RM.C10_row_accuracy"
   ],
   "note": "Any equality test; range and extreme values; NaN on empty input."
  },
  {
   "property": "C11",
   "status": "proved",
   "theorems": [
    "RM.C11_score_values",
    "RM.C11_panic_iff",
    "RM.C11_range_harmonic",
    "RM.C11_swap"
   ],
   "note": "Textbook ratios, ranges, harmonic mean, symmetry, exact panic condition (a run of the loop panics iff some position is not 0/1)."
  },
  {
   "property": "C12",
   "status": "proved",
   "theorems": [
    "RM.C12_value",
    "RM.C12_sign_zero_symm",
    "RM.C12_monotone"
   ],
   "note": "Exact arithmetic."
  },
  {
   "property": "C13",
   "status": "proved",
   "theorems": [
    "RM.C13_minmax_range"
   ],
   "note": "Exact arithmetic; entries representable as finite f64."
  },
  {
   "property": "C14",
   "status": "proved",
   "theorems": [
    "RM.C14_minmax_roundtrip",
    "RM.C14_equal_ends_not_invertible"
   ],
   "note": "Exact arithmetic; with equal ends the inverse is NaN everywhere (C14_equal_ends_not_invertible)."
  },
  {
   "property": "C15",
   "status": "proved",
   "theorems": [
    "RM.C15_minmax_fit_rejects",
    "RM.C15_minmax_width"
   ],
   "note": "Over floats with NaN and infinities (exact arithmetic on finite values: overflow is not modelled)."
  },
  {
   "property": "C16",
   "status": "proved",
   "theorems": [
    "RM.C16_standardizer_moments"
   ],
   "note": "Exact arithmetic."
  },
  {
   "property": "C17",
   "status": "proved",
   "theorems": [
    "RM.C17_standardizer_roundtrip",
    "RM.C17_standardizer_fit_rejects",
    "RM.C17_standardizer_width",
    "RM.C17_constant_column_violation"
   ],
   "note": "Round trip in exact arithmetic, rejection over floats with NaN/inf; constant columns become NaN (C17_constant_column_violation)."
  },
  {
   "property": "C18",
   "status": "proved",
   "theorems": [
    "RM.C18_normalizer",
    "RM.C18_euclidean",
    "RM.C18_rejects",
    "RM.C18_euclidean_rejects"
   ],
   "note": "Any homogeneous non-negative row norm; Euclidean norm over floats with NaN/inf."
  },
  {
   "property": "C19",
   "status": "proved",
   "theorems": [
    "RM.C19_brute_force_k_nearest",
    "RM.C19_C21_C22_distance_is_euclidean",
    "RM.C19_brute_force_exact",
    "RM.C19_brute_force_panics",
    "RM.C19_brute_force_untrained"
   ],
   "note": "Exact arithmetic and any monotone rounding; panics characterised."
  },
  {
   "property": "C20",
   "status": "proved",
   "theorems": [
    "RM.C20_kd_structure",
    "RM.C20_ball_structure",
    "RM.C20_splits_separate"
   ],
   "note": "Any finished build, both trees, with or without rounding."
  },
  {
   "property": "C21",
   "status": "partial",
   "theorems": [
    "RM.C19_C21_C22_distance_is_euclidean",
    "RM.C21_kd_search_prefix_partial",
    "RM.C21_kd_search_exact_partial",
    "RM.C21_kd_search_two_partial",
    "RM.C21_kd_violation",
    "RM.C21_C22_untrained",
    "RM.C21_C22_short_query_ub"
   ],
   "note": "VIOLATED by the code for k >= 3 (C21_kd_violation: 3 rows, k = 3, only 2 returned). Proved: the first min(k, m+1) results are nearest rows (m = rows in the query leaf), full claim for k <= 2 or m >= k-1. Missing: exactly the results the code gets wrong."
  },
  {
   "property": "C22",
   "status": "partial",
   "theorems": [
    "RM.C19_C21_C22_distance_is_euclidean",
    "RM.C22_ball_search_prefix_partial",
    "RM.C22_ball_search_exact_partial",
    "RM.C22_ball_search_two_partial",
    "RM.C22_ball_violation",
    "RM.C21_C22_untrained",
    "RM.C21_C22_short_query_ub"
   ],
   "note": "VIOLATED by the code for k >= 3 (C22_ball_violation). Same positive results as C21, in exact arithmetic."
  },
  {
   "property": "C23",
   "status": "proved",
   "theorems": [
    "RM.C23_fuel_irrelevant",
    "RM.C23_kd_terminates_iff",
    "RM.C23_ball_terminates_iff",
    "RM.C23_diverges_on_repeated_rows",
    "RM.C23_diverges_with_rounding",
    "RM.C23_rounding_witness"
   ],
   "note": "Termination iff over the reals, divergence for any linear order, rounding witness."
  },
  {
   "property": "C24",
   "status": "proved",
   "theorems": [
    "RM.C24_vote_is_majority",
    "RM.C24_predict_is_majority"
   ],
   "note": "Any searcher."
  },
  {
   "property": "C25",
   "status": "proved",
   "theorems": [
    "RM.C25_train_error_iff",
    "RM.C25_failed_train_unchanged",
    "RM.C25_untrained_predict",
    "RM.C25_brute_history"
   ],
   "note": "All call histories."
  },
  {
   "property": "C26",
   "status": "proved",
   "theorems": [
    "RM.C26_train",
    "RM.C26_train_xr",
    "RM.C26_labels_unique",
    "RM.C26_new"
   ],
   "note": "Exact arithmetic and floats with NaN/inf; total correctness (termination included), labels unique."
  },
  {
   "property": "C27",
   "status": "partial",
   "theorems": [
    "RM.C27_far_is_noise_partial",
    "RM.C27_border_violation",
    "RM.C27_border_violation_witness"
   ],
   "note": "VIOLATED by the code: border samples (non-core, within eps of a core sample) are reported as noise (C27_border_violation). Proved: samples not within eps of a core sample are noise, core samples never are."
  },
  {
   "property": "C28",
   "status": "proved",
   "theorems": [
    "RM.C28_predict",
    "RM.C28_predict_training",
    "RM.C28_predict_errors",
    "RM.C28_predict_panics"
   ],
   "note": "Exact arithmetic; nearest sample with tie rule, training data reproduced, all error and panic conditions."
  },
  {
   "property": "C29",
   "status": "partial",
   "theorems": [
    "RM.C29_history_state",
    "RM.C29_same_run_partial",
    "RM.C29_mixing_violation",
    "RM.C29_history_runs",
    "RM.C29_mixing_panics"
   ],
   "note": "VIOLATED by the code (C29_mixing_violation, C29_mixing_panics). Proved: exact state after any call history, and the claim whenever the last training run was predictive."
  },
  {
   "property": "C30",
   "status": "proved",
   "theorems": [
    "RM.C30_predict_nearest",
    "RM.C30_nearest_unique",
    "RM.C30_labels_valid",
    "RM.C30_untrained",
    "RM.C30_too_many_clusters",
    "RM.C30_bad_initialiser",
    "RM.C30_width_mismatch"
   ],
   "note": "Finite centroids over floats with NaN/inf; label validity for every scalar type; all error paths."
  },
  {
   "property": "C31",
   "status": "proved",
   "theorems": [
    "RM.C31_iteration",
    "RM.C31_at_most_iters",
    "RM.C31_trained_shape",
    "RM.C31_training_never_worse",
    "RM.C31_single_cluster",
    "RM.C31_nan_first_centroid_takes_all",
    "RM.C31_empty_cluster_collapse"
   ],
   "note": "Exact arithmetic on finite values, NaN centroids of empty clusters included; only cluster 0 must stay non-empty. C31_empty_cluster_collapse shows the claim false without that, with a built-in initialiser."
  },
  {
   "property": "C32",
   "status": "proved",
   "theorems": [
    "RM.C32_forgy",
    "RM.C32_forgy_ends",
    "RM.C32_forgy_all_choices",
    "RM.C32_random_partition",
    "RM.C32_C33_kplusplus",
    "RM.C32_accepted",
    "RM.C32_kplusplus_non_finite"
   ],
   "note": "All random draws; Forgy: termination once k distinct positions were drawn."
  },
  {
   "property": "C33",
   "status": "proved",
   "theorems": [
    "RM.C32_C33_kplusplus",
    "RM.C33_kplusplus_too_few_points",
    "RM.C33_sample_intervals",
    "RM.C33_positive_weight",
    "RM.C33_zero_total"
   ],
   "note": "Exact arithmetic."
  },
  {
   "property": "C34",
   "status": "proved",
   "theorems": [
    "RM.C34_priors",
    "RM.C34_priors_sum",
    "RM.C34_priors_distribution",
    "RM.C34_fewer_targets",
    "RM.C34_bad_target",
    "RM.C34_untrained",
    "RM.C34_predict_gaussian",
    "RM.C34_predict_bernoulli",
    "RM.C34_predict_multinomial"
   ],
   "note": "Exact arithmetic. C34_fewer_targets: the code does not check the number of target rows; priors then sum to less than 1."
  },
  {
   "property": "C35",
   "status": "proved",
   "theorems": [
    "RM.C35_gaussian",
    "RM.C35_trains_iff"
   ],
   "note": "Exact arithmetic; also the exact condition under which training succeeds."
  },
  {
   "property": "C36",
   "status": "proved",
   "theorems": [
    "RM.C36_bernoulli",
    "RM.C36_multinomial"
   ],
   "note": "Exact arithmetic, real exponents allowed. With a single feature the multinomial probability is 1, not below 1 (stated with at least two features)."
  },
  {
   "property": "C37",
   "status": "partial",
   "theorems": [
    "RM.C37_failed_train_state",
    "RM.C37_untrained_stays_untrained_partial",
    "RM.C37_success_independent",
    "RM.C37_violation"
   ],
   "note": "VIOLATED by the code (C37_violation). Proved: exact state after a failure, models never trained stay untrained, and successful runs do not depend on the earlier state."
  },
  {
   "property": "C38",
   "status": "proved",
   "theorems": [
    "RM.C38_length",
    "RM.C38_blocks",
    "RM.C38_partition",
    "RM.C38_independent",
    "RM.C38_add",
    "RM.C38_mlp"
   ],
   "note": "any arithmetic"
  },
  {
   "property": "C39",
   "status": "proved",
   "theorems": [
    "RM.C39_forward",
    "RM.C39_errors",
    "RM.C39_training"
   ],
   "note": "any arithmetic"
  },
  {
   "property": "C40",
   "status": "proved",
   "theorems": [
    "RM.C40_backprop",
    "RM.C40_one_sample",
    "RM.C40_regularised",
    "RM.C40_activations",
    "RM.C40_sigmoid_outputs",
    "RM.C40_default",
    "RM.C40_training"
   ],
   "note": "exact real arithmetic; with cross entropy the predictions must lie in (0,1), which C40_sigmoid_outputs gives for a sigmoid last layer; C40_regularised gives the data part with a regulariser; C40_training composes it with the stochastic optimisers"
  },
  {
   "property": "C41",
   "status": "proved",
   "theorems": [
    "RM.C41_sigmoid",
    "RM.C41_linear",
    "RM.C41_exp",
    "RM.C41_tanh"
   ],
   "note": "exact real arithmetic"
  },
  {
   "property": "C42",
   "status": "proved",
   "theorems": [
    "RM.C42_shape_mismatch",
    "RM.C42_mse",
    "RM.C42_mse_grad",
    "RM.C42_crossEntropy",
    "RM.C42_crossEntropy_grad",
    "RM.C42_crossEntropy_min",
    "RM.C42_vector"
   ],
   "note": "exact real arithmetic; matrix version, and the vector version reduced to it"
  },
  {
   "property": "C43",
   "status": "partial",
   "theorems": [
    "RM.C43_l1",
    "RM.C43_none",
    "RM.C43_l2_partial",
    "RM.C43_l2_violation",
    "RM.C43_elasticNet_partial"
   ],
   "note": "L1 and None proved; for L2 the property fails (C43_l2_violation: true exactly when the norm of the weights is 1/2), C43_l2_partial and C43_elasticNet_partial give the cost whose gradient reg_grad is"
  },
  {
   "property": "C44",
   "status": "proved",
   "theorems": [
    "RM.C44_trajectory",
    "RM.C44_calls",
    "RM.C44_length",
    "RM.C44_new",
    "RM.C44_stationary",
    "RM.C44_descent",
    "RM.C44_zero_cost_start"
   ],
   "note": "trajectory, calls and length for any arithmetic; stationarity and descent in exact arithmetic"
  },
  {
   "property": "C45",
   "status": "proved",
   "theorems": [
    "RM.C45_sgd",
    "RM.C45_adagrad",
    "RM.C45_rmsprop",
    "RM.C45_every_sample_once",
    "RM.C45_length",
    "RM.C45_zero_gradients",
    "RM.C45_fewer_targets_panic"
   ],
   "note": "any arithmetic; zero gradients in exact arithmetic"
  },
  {
   "property": "C46",
   "status": "proved",
   "theorems": [
    "RM.C46_adagrad",
    "RM.C46_rmsprop",
    "RM.C46_constructors",
    "RM.C46_tau_zero_nan"
   ],
   "note": "exact arithmetic; C46_tau_zero_nan shows the boundary case tau = 0 with special values"
  },
  {
   "property": "C47",
   "status": "proved",
   "theorems": [
    "RM.C47_never_worse",
    "RM.C47_calls",
    "RM.C47_nan_violation"
   ],
   "note": "exact arithmetic with NaN and infinities (no rounding); iters, max < 2^31; C47_nan_violation for models returning NaN costs"
  },
  {
   "property": "C48",
   "status": "proved",
   "theorems": [
    "RM.C48_least_squares",
    "RM.C48_predict",
    "RM.C48_residuals",
    "RM.C48_succeeds_iff",
    "RM.C48_singular",
    "RM.C48_misuse"
   ],
   "note": "exact arithmetic; the linear solver is a parameter with the contract of Spec/Solve (exact solutions of regular systems), met by Gaussian elimination"
  },
  {
   "property": "C49",
   "status": "proved",
   "theorems": [
    "RM.C49_linear",
    "RM.C49_logistic"
   ],
   "note": "exact arithmetic"
  },
  {
   "property": "C50",
   "status": "proved",
   "theorems": [
    "RM.C50_predictions",
    "RM.C50_columns",
    "RM.C50_train"
   ],
   "note": "exact arithmetic"
  },
  {
   "property": "C51",
   "status": "proved",
   "theorems": [
    "RM.C51_logit",
    "RM.C51_log",
    "RM.C51_identity",
    "RM.C51_family"
   ],
   "note": "exact arithmetic"
  },
  {
   "property": "C52",
   "status": "partial",
   "theorems": [
    "RM.C52_count_partial",
    "RM.C52_untrained",
    "RM.C52_predictions",
    "RM.C52_columns",
    "RM.C52_weights",
    "RM.C52_train",
    "RM.C52_singular",
    "RM.C52_support_violation"
   ],
   "note": "VIOLATED in one point: targets outside the support are accepted (C52_support_violation). Everything else proved; C52_train and C52_singular say exactly when training succeeds and when it panics"
  },
  {
   "property": "C53",
   "status": "proved",
   "theorems": [
    "RM.C53_least_squares",
    "RM.C53_linear_regression"
   ],
   "note": "exact arithmetic; matrix inverse and linear solver with the contracts of Spec/Solve"
  },
  {
   "property": "C54",
   "status": "proved",
   "theorems": [
    "RM.C54_new",
    "RM.C54_with_weights",
    "RM.C54_zero_total_violation",
    "RM.C54_weights",
    "RM.C54_predict",
    "RM.C54_predict_succeeds",
    "RM.C54_untrained"
   ],
   "note": "Exact arithmetic, over all histories of a model made with positive weights (GmmHistory); the LU decomposition by contract (LupExact), met by exactLup. Weights with sum 0 are accepted and give NaN: C54_zero_total_violation."
  },
  {
   "property": "C55",
   "status": "proved",
   "theorems": [
    "RM.C55_start",
    "RM.C55_step",
    "RM.C55_stop",
    "RM.C55_trained",
    "RM.C55_zero_weight_violation"
   ],
   "note": "Exact arithmetic, as theorems about train with t and t + 1 iterations (C55_step), its start and when it stops. For positive weights; a weight of zero gives NaN means: C55_zero_weight_violation."
  },
  {
   "property": "C56",
   "status": "proved",
   "theorems": [
    "RM.C56_predict",
    "RM.C56_default",
    "RM.C56_new",
    "RM.C56_mean_zero",
    "RM.C56_distances",
    "RM.C56_training_distances",
    "RM.C56_width",
    "RM.C56_train",
    "RM.C56_untrained"
   ],
   "note": "Exact arithmetic; rulinalg's svd as a contract (SvdExact), met by someSvd for every matrix. For data with at least as many samples as columns, or all components kept; otherwise predict panics (C57_wide_restricted_violation)."
  },
  {
   "property": "C57",
   "status": "partial",
   "theorems": [
    "RM.C57_retrain_partial",
    "RM.C57_violation",
    "RM.C57_wide_restricted_violation"
   ],
   "note": "Violated by the code: C57_violation, C57_wide_restricted_violation. Proved for histories without wide data, and for wide data last (C57_retrain_partial)."
  },
  {
   "property": "C58",
   "status": "proved",
   "theorems": [
    "RM.C58_multipliers",
    "RM.C58_outputs",
    "RM.C58_columns",
    "RM.C58_untrained",
    "RM.C58_misuse",
    "RM.C58_kernels",
    "RM.C58_zero_iters_violation"
   ],
   "note": "Floats with infinities and NaN and otherwise exact (the first iteration divides by zero). Multiplier bounds for every kernel and data; outputs for finite data and kernels, positive lambda and at least one iteration. optim_iters = 0 breaks the outputs claim: C58_zero_iters_violation."
  },
  {
   "property": "C59",
   "status": "proved",
   "theorems": [
    "RM.C59_kernels",
    "RM.C59_mean",
    "RM.C59_predict",
    "RM.C59_regular",
    "RM.C59_interpolates",
    "RM.C59_train_iff",
    "RM.C59_train_psd",
    "RM.C59_posterior",
    "RM.C59_posterior_psd",
    "RM.C59_columns",
    "RM.C59_count",
    "RM.C59_untrained",
    "RM.C59_retrain"
   ],
   "note": "Exact arithmetic; any kernel that is a symmetric function (all library kernels, C59_kernels), any mean of the right length; Cholesky and triangular solvers by contract, met by choleskyFactor and Gaussian elimination. A target count mismatch is not an error: it panics (C59_count)."
  },
  {
   "property": "C60",
   "status": "proved",
   "theorems": [
    "RM.C60_symmetric",
    "RM.C60_composition",
    "RM.C60_panics",
    "RM.C60_values"
   ],
   "note": "symmetry for any arithmetic with commutative operations"
  },
  {
   "property": "C61",
   "status": "proved",
   "theorems": [
    "RM.C61_gram",
    "RM.C61_composition",
    "RM.C61_sqExp_range",
    "RM.C61_others_not_psd"
   ],
   "note": "exact real arithmetic"
  },
  {
   "property": "C62",
   "status": "proved",
   "theorems": [
    "RM.C62_panics",
    "RM.C62_consistent",
    "RM.C62_sample",
    "RM.C62_no_validation"
   ],
   "note": "exact real arithmetic; C62_no_validation shows the constructor accepts any rate"
  },
  {
   "property": "C63",
   "status": "proved",
   "theorems": [
    "RM.C63_constructors",
    "RM.C63_logpdf",
    "RM.C63_pdf",
    "RM.C63_pdf_integral",
    "RM.C63_cdf",
    "RM.C63_sample"
   ],
   "note": "exact real arithmetic, with the library's decimal constants"
  },
  {
   "property": "C64",
   "status": "partial",
   "theorems": [
    "RM.C64_gaussian_violation",
    "RM.C64_bernoulli_violation",
    "RM.C64_multinomial"
   ],
   "note": "VIOLATED by Gaussian and Bernoulli models for every training set without class 0 (C64_gaussian_violation, C64_bernoulli_violation). Proved for multinomial models."
  },
  {
   "property": "C65",
   "status": "partial",
   "theorems": [
    "RM.C65_violation",
    "RM.C65_partial"
   ],
   "note": "VIOLATED: C65_violation. C65_partial proves the bound 0.0032 and the direction of the error, exact arithmetic"
  },
  {
   "property": "C66",
   "status": "partial",
   "theorems": [
    "RM.C66_linear_partial",
    "RM.C66_logistic_partial",
    "RM.C66_violation"
   ],
   "note": "VIOLATED for large inputs (C66_violation); proved when the mean of 1+|x|^2 is at most 2/step (linear) or 8/step (logistic)"
  },
  {
   "property": "C67",
   "status": "partial",
   "theorems": [
    "RM.C67_normal",
    "RM.C67_pass_partial",
    "RM.C67_violation",
    "RM.C67_one_pass_partial",
    "RM.C67_poisson_violation"
   ],
   "note": "VIOLATED for the Bernoulli family (C67_violation) and the Poisson family (C67_poisson_violation: counts 1, 2 at 0, 1 are predicted as e, e^2); for every family, training on targets that are their own starting means returns one weighted least squares fit of the targets themselves (C67_one_pass_partial); proved for the normal family (C67_normal); for all families the fixed points of a correctly fed pass are exactly the maxima (C67_pass_partial)"
  },
  {
   "property": "C68",
   "status": "partial",
   "theorems": [
    "RM.C68_multipliers_partial",
    "RM.C68_long_run",
    "RM.C68_violation",
    "RM.C68_misclassified_violation",
    "RM.C68_kernel_mean"
   ],
   "note": "Violated by the code: C68_violation, C68_misclassified_violation. Proved instead: the exact multipliers (C68_multipliers_partial) what they approach (C68_long_run), and that with fair independent draws long trainings almost surely predict the sign of the mean of target times kernel, whatever the regularisation (C68_kernel_mean)."
  },
  {
   "property": "C69",
   "status": "proved",
   "theorems": [
    "RM.C69_uncorrelated",
    "RM.C69_most_variance",
    "RM.C69_reconstruction"
   ],
   "note": "Exact arithmetic; rulinalg's svd as a contract (SvdExact), met by someSvd for every matrix."
  },
  {
   "property": "C70",
   "status": "partial",
   "theorems": [
    "RM.C70_regularized",
    "RM.C70_few_samples",
    "RM.C70_few_samples_violation",
    "RM.C70_singular_violation",
    "RM.C70_width_violation"
   ],
   "note": "Violated by the code: C70_few_samples_violation, C70_singular_violation, C70_width_violation (panics). Proved: with a positive regularisation constant training and predicting succeed (C70_regularized)."
  },
  {
   "property": "C71",
   "status": "proved",
   "theorems": [
    "RM.C71_likelihood"
   ],
   "note": "Exact arithmetic; for pairs of iteration counts whose training succeeds and when the later model can predict (regular covariances)."
  },
  {
   "property": "C72",
   "status": "partial",
   "theorems": [
    "RM.C72_partial",
    "RM.C72_violation"
   ],
   "note": "Violated by the code: C72_violation. Proved instead: the constant is divided by the total weight of the component after the first iteration (C72_partial)."
  },
  {
   "property": "C73",
   "status": "partial",
   "theorems": [
    "RM.C73_partial",
    "RM.C73_violation"
   ],
   "note": "Violated by the code: C73_violation (the likelihood of the earlier training stops the new one at once; weights are kept as well). Proved: means and covariances of earlier training do not matter (C73_partial)."
  },
  {
   "property": "C74",
   "status": "partial",
   "theorems": [
    "RM.C74_training",
    "RM.C74_partial",
    "RM.C74_one_sample",
    "RM.C74_violation"
   ],
   "note": "Violated by the code: C74_violation (two rows, L1: the returned gradient has the opposite sign). Proved: it is the gradient of n times the data cost plus the textbook penalty (C74_partial), and of the reported cost on one row with L1 or no regularisation (C74_one_sample). Exact arithmetic."
  },
  {
   "property": "C75",
   "status": "proved",
   "theorems": [
    "RM.C75_lin_reg",
    "RM.C75_logistic",
    "RM.C75_glm",
    "RM.C75_svm",
    "RM.C75_gp",
    "RM.C75_const_mean",
    "RM.C75_knn",
    "RM.C75_kmeans",
    "RM.C75_dbscan",
    "RM.C75_minmax",
    "RM.C75_minmax_inv",
    "RM.C75_standardizer",
    "RM.C75_standardizer_inv",
    "RM.C75_normalizer",
    "RM.C75_pca",
    "RM.C75_gmm",
    "RM.C75_nnet",
    "RM.C75_nb_gaussian",
    "RM.C75_nb_multinomial",
    "RM.C75_nb_bernoulli",
    "RM.C75_split",
    "RM.C75_order"
   ],
   "note": "Over any scalar arithmetic (rounding, NaN, infinities). One theorem per model; the Gaussian process for mean functions of single samples (C75_const_mean: the built-in one is). Naive Bayes for the three built-in distributions."
  },
  {
   "property": "C76",
   "status": "proved",
   "theorems": [
    "RM.C76_lin_reg",
    "RM.C76_logistic",
    "RM.C76_glm",
    "RM.C76_gp",
    "RM.C76_svm",
    "RM.C76_kmeans",
    "RM.C76_knn_brute",
    "RM.C76_knn_tree",
    "RM.C76_never_trained",
    "RM.C76_pca_failed",
    "RM.C76_gmm_success",
    "RM.C76_gmm_failed",
    "RM.C76_gmm_failed_any"
   ],
   "note": "Over any scalar arithmetic. External routines (solver, inverse, optimiser, Cholesky, initialiser, SVD) are arbitrary functions of their arguments. The mixture model part assumes that the inverse of a decomposed matrix does not fail. The model after a panic is not represented."
  },
  {
   "property": "C77",
   "status": "proved",
   "theorems": [
    "RM.C77_lin_reg",
    "RM.C77_lin_reg_descent",
    "RM.C77_logistic",
    "RM.C77_glm",
    "RM.C77_standardizer",
    "RM.C77_minmax",
    "RM.C77_accuracy",
    "RM.C77_scores",
    "RM.C77_mse",
    "RM.C77_confusion",
    "RM.C77_kmeans",
    "RM.C77_naive_bayes",
    "RM.C77_distributions",
    "RM.C77_gp"
   ],
   "note": "Exact arithmetic, for most models also with infinities and NaN (class SumsReorder, XR); accuracy, precision, recall, F1 and the confusion matrix in any arithmetic. Generalised linear models for the families other than the binomial one (whose trial counts are fixed per position); Gaussian processes for mean functions of single samples; naive Bayes: after an error the leftover counts may depend on the order."
  },
  {
   "property": "C78",
   "status": "proved",
   "theorems": [
    "RM.C78_exponential",
    "RM.C78_gaussian"
   ],
   "note": "Exact arithmetic; the raw draws of rand's Exp1 and StandardNormal are random variables assumed to have the standard laws. Gaussian pdf up to 1e-20 (the code's constants), cdf up to 0.0032."
  },
  {
   "property": "C79",
   "status": "proved",
   "theorems": [
    "RM.C79_next",
    "RM.C79_expected_cost"
   ],
   "note": "Exact arithmetic on finite data; draws as independent uniform random variables (rand's gen_range and gen by contract). Panics (fewer than k different rows, C33) count as cost 0."
  },
  {
   "property": "C80",
   "status": "proved",
   "theorems": [
    "RM.C80_forgy",
    "RM.C80_random_partition"
   ],
   "note": "Forgy over any arithmetic, as equal counts among the n^N sequences of N draws; random partition in exact arithmetic as a formula for the centroids in terms of the draws."
  },
  {
   "property": "C81",
   "status": "proved",
   "theorems": [
    "RM.C81_wolfe_path",
    "RM.C81_path_descends",
    "RM.C81_first_move",
    "RM.C81_interpolate",
    "RM.C81_extrapolate"
   ],
   "note": "The path is proved in arithmetic with special values (NaN and infinities inside the search are covered), the formulas for trial points in exact arithmetic, where the discriminant is not negative."
  },
  {
   "property": "C82",
   "status": "partial",
   "theorems": [
    "RM.C82_fresh",
    "RM.C82_naive_bayes",
    "RM.C82_first_fold_partial",
    "RM.C82_nnet_violation"
   ],
   "note": "Proved for every model whose training does not depend on earlier training, and for naive Bayes with every class distribution. Neural networks, the other model that k_fold_validate accepts, violate it (C82_nnet_violation): training goes on from the weights left by the fold before. For every model the first fold is scored as stated."
  },
  {
   "property": "C83",
   "status": "proved",
   "theorems": [
    "RM.C83_stationary",
    "RM.C83_geometric",
    "RM.C83_both_ways",
    "RM.C83_rate",
    "RM.C83_linear",
    "RM.C83_logistic"
   ],
   "note": "Over the reals. The condition on the size of the inputs is needed: see C66_violation."
  },
  {
   "property": "C84",
   "status": "proved",
   "theorems": [
    "RM.C84_standardizer",
    "RM.C84_minmax",
    "RM.C84_linear",
    "RM.C84_linear_targets",
    "RM.C84_gaussian_bayes"
   ],
   "note": "Over the reals, for any exact linear solver. Models that measure distances between rows depend on the units by design and are not claimed."
  },
  {
   "property": "C85",
   "status": "proved",
   "theorems": [
    "RM.C85_search",
    "RM.C85_knn",
    "RM.C85_dbscan",
    "RM.C85_kernels",
    "RM.C85_gp",
    "RM.C85_svm",
    "RM.C85_rigid_kernels",
    "RM.C85_svm_rigid",
    "RM.C85_gp_rigid",
    "RM.C85_kmeans",
    "RM.C85_forgy_start",
    "RM.C85_partition_start",
    "RM.C85_kplusplus_start"
   ],
   "note": "Over the reals (k-means: reals with NaN, so that empty clusters are included). Tree searches are left out: their results are wrong already without a motion, C21 and C22."
  },
  {
   "property": "C86",
   "status": "proved",
   "theorems": [
    "RM.C86_growth",
    "RM.C86_sum",
    "RM.C86_sum_any_order",
    "RM.C86_dot",
    "RM.C86_linear_predict",
    "RM.C86_logistic_predict",
    "RM.C86_squared_distance",
    "RM.C86_distance",
    "RM.C86_dbscan_distance",
    "RM.C86_knn",
    "RM.C86_knn_exact",
    "RM.C86_kmeans_predict",
    "RM.C86_kmeans_exact",
    "RM.C86_dbscan",
    "RM.C86_dbscan_exact",
    "RM.C86_mse",
    "RM.C86_mean",
    "RM.C86_minmax",
    "RM.C86_standardizer",
    "RM.C86_witness",
    "RM.C86_gradient_descent",
    "RM.C86_linear_gradient",
    "RM.C86_linear_descent",
    "RM.C86_network",
    "RM.C86_activations",
    "RM.C86_network_limit",
    "RM.C86_svm",
    "RM.C86_linear_kernel",
    "RM.C86_accuracy",
    "RM.C86_exponential_cdf",
    "RM.C86_variance",
    "RM.C86_normalizer",
    "RM.C86_pca",
    "RM.C86_exp_kernels",
    "RM.C86_multiquadric",
    "RM.C86_rational_quadratic",
    "RM.C86_hyperbolic_kernel",
    "RM.C86_glm",
    "RM.C86_gp",
    "RM.C86_nb_gaussian",
    "RM.C86_nb_multinomial",
    "RM.C86_scores"
   ],
   "note": "Standard model of floating-point arithmetic without overflow and underflow, with exp, ln, tanh, powf and sqrt of the same relative accuracy. C86_witness: truncation to 53 bits meets it."
  },
  {
   "property": "C87",
   "status": "proved",
   "theorems": [
    "RM.C87_kmeans_train",
    "RM.C87_forgy",
    "RM.C87_random_partition",
    "RM.C87_kmeans_predict",
    "RM.C87_kmeans_predict_panics",
    "RM.C87_dbscan_train",
    "RM.C87_dbscan_predict",
    "RM.C87_lin_reg_train",
    "RM.C87_lin_reg_predict",
    "RM.C87_lin_reg_predict_panics",
    "RM.C87_gradient_desc",
    "RM.C87_conjugate_gd",
    "RM.C87_lin_reg_optimization",
    "RM.C87_log_reg_train",
    "RM.C87_log_reg_predict",
    "RM.C87_lin_reg_train_panics",
    "RM.C87_stochastic_gd",
    "RM.C87_adagrad",
    "RM.C87_rmsprop",
    "RM.C87_cross_validation",
    "RM.C87_glm_train",
    "RM.C87_glm_predict",
    "RM.C87_kernels",
    "RM.C87_svm_train",
    "RM.C87_svm_predict",
    "RM.C87_gp_train",
    "RM.C87_gp_predict",
    "RM.C87_gp_posterior",
    "RM.C87_naive_bayes_train",
    "RM.C87_naive_bayes_predict",
    "RM.C87_gaussian",
    "RM.C87_bernoulli",
    "RM.C87_multinomial",
    "RM.C87_brute_force",
    "RM.C87_knn_predict",
    "RM.C87_nnet_gradient",
    "RM.C87_nnet_train",
    "RM.C87_nnet_predict",
    "RM.C87_nnet_no_layers",
    "RM.C87_transformers",
    "RM.C87_pca_train",
    "RM.C87_pca_predict",
    "RM.C87_gmm_train",
    "RM.C87_gmm_predict"
   ],
   "note": "Generic in the number type; rulinalg's solvers enter through contracts on shapes. Where the code unwraps their results (GLM inverse, Gaussian process solves, PCA's decomposition, the mixture's factorisation) the theorems name the one matrix on which a failure makes it panic. Random initialisation of k-means by k-means++ and the tree searchers are covered by C33 and C20-C23."
  },
  {
   "property": "C88",
   "status": "proved",
   "theorems": [
    "RM.C88_nesterov",
    "RM.C88_constant_gradient"
   ],
   "note": "Over exact reals."
  },
  {
   "property": "C89",
   "status": "proved",
   "theorems": [
    "RM.C89_adagrad",
    "RM.C89_adagrad_rate",
    "RM.C89_sgd",
    "RM.C89_data"
   ],
   "note": "Over exact reals. The constructor of StochasticGD accepts momentum of 1 and more; the bound needs less than 1."
  },
  {
   "property": "C90",
   "status": "proved",
   "theorems": [
    "RM.C90_strict_kernels",
    "RM.C90_gp_interpolates",
    "RM.C90_linear",
    "RM.C90_linear_trains",
    "RM.C90_nearest_brute",
    "RM.C90_nearest_kd",
    "RM.C90_nearest_ball"
   ],
   "note": "Over exact reals, under the contracts of the external solver and Cholesky decomposition (met by exactLib and Gaussian elimination). The tree searches assume distances below the largest float."
  },
  {
   "property": "C91",
   "status": "proved",
   "theorems": [
    "RM.C91_kernels",
    "RM.C91_distributions",
    "RM.C91_optimisers",
    "RM.C91_conjugate_gradient",
    "RM.C91_transformers",
    "RM.C91_gp",
    "RM.C91_knn",
    "RM.C91_kmeans",
    "RM.C91_dbscan",
    "RM.C91_knn_specified",
    "RM.C91_network_mse",
    "RM.C91_network",
    "RM.C91_logistic"
   ],
   "note": "Over exact reals; the nearest neighbour part assumes distances below the largest float, the Gaussian process part the contracts of the external decomposition."
  },
  {
   "property": "C92",
   "status": "proved",
   "theorems": [
    "RM.C92_naive_bayes",
    "RM.C92_linear_regression",
    "RM.C92_rescaling"
   ],
   "note": "Over exact reals; extends C84 from units to all invertible affine maps. The naive Bayes part assumes that every class has samples and no feature is constant within a class; the regression part uses the contracts of the external solver."
  },
  {
   "property": "C93",
   "status": "partial",
   "theorems": [
    "RM.C93_normal_partial",
    "RM.C93_violation",
    "RM.C93_interior_partial"
   ],
   "note": "Proved for the normal family (C93_normal_partial) and for all families when the targets are their own starting means, i.e. positive counts or fractions strictly between 0 and 1 (C93_interior_partial). False for Bernoulli targets 0 and 1 (C93_violation): the loop stops when the sum of the absolute changes of the parameters is below 1e-10, an absolute threshold, so multiplying a feature by 4 changes a predicted class."
  },
  {
   "property": "C94",
   "status": "partial",
   "theorems": [
    "RM.C94_iteration_limit",
    "RM.C94_rest_partial",
    "RM.C94_small_data",
    "RM.C94_tolerance_violation"
   ],
   "note": "That the limit has no influence from k^n + 4 on is proved for every initialisation, including runs with empty clusters (C94_iteration_limit). Rest is proved when cluster 0 never runs empty and no iteration lowers the objective by a positive amount below 1e-14 (C94_rest_partial). False without the latter (C94_tolerance_violation): the tolerance is absolute, so training on data of size 1e-7 stops after one iteration (C94_small_data)."
  },
  {
   "property": "C95",
   "status": "partial",
   "theorems": [
    "RM.C95_naive_bayes_bernoulli",
    "RM.C95_naive_bayes_multinomial",
    "RM.C95_naive_bayes_gaussian",
    "RM.C95_knn_monotone",
    "RM.C95_knn",
    "RM.C95_knn_tie",
    "RM.C95_accuracy",
    "RM.C95_confusion",
    "RM.C95_confusion_default",
    "RM.C95_logistic_partial",
    "RM.C95_logistic_violation",
    "RM.C95_glm_violation",
    "RM.C95_svm_violation"
   ],
   "note": "Proved for naive Bayes, nearest neighbours, accuracy and the confusion matrix. Violated by logistic regression (C95_logistic_violation: every weight starts at 1/2 rather than 0, so a feature without information in training favours the class called 1), the Bernoulli model (C95_glm_violation: the fit is of the mean, not of its logit) and the support vector machine (C95_svm_violation). C95_logistic_partial: from opposite starting points descent ends at opposite parameters, so the starting point is the only cause. C95_knn_tie: ties go to the smaller label."
  },
  {
   "property": "C96",
   "status": "partial",
   "theorems": [
    "RM.C96_lin_reg",
    "RM.C96_lin_reg_descent",
    "RM.C96_logistic",
    "RM.C96_glm",
    "RM.C96_minmax",
    "RM.C96_accuracy",
    "RM.C96_scores",
    "RM.C96_mse",
    "RM.C96_confusion",
    "RM.C96_network_gradient",
    "RM.C96_network_descent",
    "RM.C96_network_violation",
    "RM.C96_class_priors"
   ],
   "note": "Proved, in exact arithmetic, for everything but the network. The gradient of a network is not divided by the number of samples although its cost is: on k copies the cost is the same and the gradient k times as large (C96_network_gradient), so gradient descent on k copies is gradient descent on one copy with a step k times as long (C96_network_descent), and the trained weights differ (C96_network_violation)."
  },
  {
   "property": "C97",
   "status": "proved",
   "theorems": [
    "RM.C97_rigid",
    "RM.C97_kernels",
    "RM.C97_svm",
    "RM.C97_gp",
    "RM.C97_lin_reg",
    "RM.C97_lin_reg_descent",
    "RM.C97_logistic",
    "RM.C97_predictions",
    "RM.C97_glm",
    "RM.C97_optimisers",
    "RM.C97_normalizer",
    "RM.C97_norm",
    "RM.C97_standardizer",
    "RM.C97_minmax",
    "RM.C97_naive_bayes",
    "RM.C97_knn",
    "RM.C97_dbscan",
    "RM.C97_kmeans",
    "RM.C97_network_gradient",
    "RM.C97_network_predictions",
    "RM.C97_network",
    "RM.C97_mixture"
   ],
   "note": "In exact arithmetic; mixture models with an LU decomposition, linear regression with a solver, and generalised linear models with an inversion, that are exact and succeed on regular matrices. Not covered: PCA (its decomposition is only specified, not computed, in the model), and networks whose first layer is an activation."
  },
  {
   "property": "C98",
   "status": "proved",
   "theorems": [
    "RM.C98_second_scaler",
    "RM.C98_refit",
    "RM.C98_minmax_range"
   ],
   "note": "In exact arithmetic, for numbers (before and after the first scaler) within the range of the floating point type, which the min-max fit starts its search from."
  },
  {
   "property": "C99",
   "status": "proved",
   "theorems": [
    "RM.C99_linear_regression",
    "RM.C99_glm_normal",
    "RM.C99_gp",
    "RM.C99_gp_units",
    "RM.C99_score"
   ],
   "note": "In exact arithmetic, with the contracts of the linear algebra library. Training by gradient descent is C100."
  },
  {
   "property": "C100",
   "status": "partial",
   "theorems": [
    "RM.C100_same_steps_partial",
    "RM.C100_violation"
   ],
   "note": "True when the three runs make the same number of steps (C100_same_steps_partial, which also says exactly when a run stops). False in general: the tolerance of the early stop is absolute, so with targets near 1e-11 nothing is learnt at all (C100_violation)."
  },
  {
   "property": "C101",
   "status": "partial",
   "theorems": [
    "RM.C101_likelihood",
    "RM.C101_predict",
    "RM.C101_same_volume",
    "RM.C101_units_partial",
    "RM.C101_violation"
   ],
   "note": "Proved without a condition when the change keeps volumes, |det M| = 1 (C101_same_volume), and for all changes when neither training stops before its first step (C101_units_partial). False otherwise: the first iteration compares the likelihood of the start, which depends on the units, with 0, so there is a unit in which a new model makes no step at all (C101_violation). In exact arithmetic, with the contract of the LU decomposition."
  },
  {
   "property": "C102",
   "status": "proved",
   "theorems": [
    "RM.C102_linear_predict",
    "RM.C102_logistic_predict",
    "RM.C102_glm_predict",
    "RM.C102_linear_gradient",
    "RM.C102_logistic_gradient",
    "RM.C102_logistic_train",
    "RM.C102_linear_train",
    "RM.C102_normal_train",
    "RM.C102_bernoulli_cost",
    "RM.C102_one_cluster",
    "RM.C102_one_component",
    "RM.C102_one_covariance",
    "RM.C102_gp_ridge",
    "RM.C102_gp_ridge_origin"
   ],
   "note": "Predictions and the claim on one cluster hold in any arithmetic; costs, gradients, training, the Gaussian process and the mixture in exact arithmetic with the contracts of the solvers. The mixture may also stop before its first step, when it keeps its starting point (see C101)."
  },
  {
   "property": "C103",
   "status": "proved",
   "theorems": [
    "RM.C103_moved",
    "RM.C103_copies",
    "RM.C103_signs",
    "RM.C103_distances",
    "RM.C103_variances",
    "RM.C103_again",
    "RM.C103_prefix"
   ],
   "note": "In exact arithmetic under the contract of the decomposition, except for the claim on fewer components, which holds in any arithmetic. The components kept must have singular values different from those left out, otherwise they are not determined by the data."
  },
  {
   "property": "C104",
   "status": "proved",
   "theorems": [
    "RM.C104_independent",
    "RM.C104_law",
    "RM.C104_outputs",
    "RM.C104_distinct",
    "RM.C104_mlp"
   ],
   "note": "In exact arithmetic. The draws of rand's StandardNormal (external) are assumed independent and standard normal; that such draws exist is proved (draws_exist)."
  },
  {
   "property": "C105",
   "status": "proved",
   "theorems": [
    "RM.C105_predictions",
    "RM.C105_training",
    "RM.C105_alike",
    "RM.C105_one_unit"
   ],
   "note": "In exact arithmetic. Training is assumed to succeed (C40 and C87 say when). Activations must satisfy the contract of ActivationFunc (all provided ones do), with the cross entropy the outputs must lie between 0 and 1 (they do after a sigmoid)."
  },
  {
   "property": "C106",
   "status": "proved",
   "theorems": [
    "RM.C106_knn_search",
    "RM.C106_knn",
    "RM.C106_dbscan_wider",
    "RM.C106_dbscan_far",
    "RM.C106_lin_features",
    "RM.C106_lin_samples",
    "RM.C106_lin_same",
    "RM.C106_gp_part",
    "RM.C106_gp"
   ],
   "note": "The linear solver and the Cholesky decomposition are assumed to be exact (C48, C59). For trees see C22."
  },
  {
   "property": "C107",
   "status": "proved",
   "theorems": [
    "RM.C107_accuracy",
    "RM.C107_row_accuracy",
    "RM.C107_squared_error",
    "RM.C107_parts",
    "RM.C107_confusion",
    "RM.C107_from_confusion",
    "RM.C107_cross_validation",
    "RM.C107_plain_mean",
    "RM.C107_mean_accuracy"
   ],
   "note": "In exact arithmetic. That the model was trained before on the rows of earlier folds too is C82."
  },
  {
   "property": "C108",
   "status": "proved",
   "theorems": [
    "RM.C108_linear",
    "RM.C108_logistic",
    "RM.C108_slopes",
    "RM.C108_network",
    "RM.C108_knn",
    "RM.C108_knn_brute",
    "RM.C108_kmeans",
    "RM.C108_dbscan",
    "RM.C108_linear_fitted",
    "RM.C108_gp_fitted",
    "RM.C108_gp",
    "RM.C108_kernels",
    "RM.C108_svm",
    "RM.C108_accuracy"
   ],
   "note": "In exact arithmetic. Network slopes are proved for the linear, sigmoid and tanh functions; exp has no bound. The kernel slopes are those of the linear and squared exponential kernels."
  },
  {
   "property": "C109",
   "status": "proved",
   "theorems": [
    "RM.C109_number",
    "RM.C109_test_set",
    "RM.C109_sample",
    "RM.C109_pair",
    "RM.C109_mean",
    "RM.C109_cross_validation",
    "RM.C109_cross_validation_mean"
   ],
   "note": "The generator's draws gen_range(0, m) are taken as uniform: each sequence of admissible draws is counted once."
  },
  {
   "property": "C110",
   "status": "proved",
   "theorems": [
    "RM.C110_position",
    "RM.C110_sgd_step",
    "RM.C110_svm",
    "RM.C110_sample"
   ],
   "note": "The generator's draws are taken as uniform. Steps after the first are not claimed to be unbiased: they are taken at parameters that depend on earlier samples. Exact real arithmetic; (d) describes the multipliers that the code computes (C68)."
  },
  {
   "property": "C111",
   "status": "proved",
   "theorems": [
    "RM.C111_held_out",
    "RM.C111_redundant",
    "RM.C111_leave_one_out",
    "RM.C111_leverages",
    "RM.C111_gp"
   ],
   "note": "Exact real arithmetic; any exact solver of linear systems and any exact Cholesky decomposition."
  },
  {
   "property": "C112",
   "status": "proved",
   "theorems": [
    "RM.C112_linear",
    "RM.C112_leverage",
    "RM.C112_residuals",
    "RM.C112_gp"
   ],
   "note": "Exact real arithmetic; any exact solver of linear systems and any exact Cholesky decomposition. Errors and random functions are square-integrable functions on a Mathlib probability space."
  },
  {
   "property": "C113",
   "status": "proved",
   "theorems": [
    "RM.C113_bernoulli",
    "RM.C113_multinomial",
    "RM.C113_gaussian",
    "RM.C113_bernoulli_fit",
    "RM.C113_multinomial_fit",
    "RM.C113_gaussian_fit"
   ],
   "note": "Exact real arithmetic. The Gaussian statements assume that training succeeded (C35 says when)."
  },
  {
   "property": "C114",
   "status": "proved",
   "theorems": [
    "RM.C114_accuracy",
    "RM.C114_accuracy_limit",
    "RM.C114_choice",
    "RM.C114_two_class_limit",
    "RM.C114_squared_error"
   ],
   "note": "Exact real arithmetic. The predictor is any function of a sample; models predict row by row (C75)."
  },
  {
   "property": "C115",
   "status": "proved",
   "theorems": [
    "RM.C115_linear",
    "RM.C115_standardizer",
    "RM.C115_gaussian",
    "RM.C115_bernoulli",
    "RM.C115_multinomial",
    "RM.C115_neighbours",
    "RM.C115_knn",
    "RM.C115_minmax",
    "RM.C115_pca"
   ],
   "note": "Exact real arithmetic; linear regression with an exact solver (SolvesExactly, SolvesRegular, as in C48), principal components with an exact singular value decomposition that always succeeds (SvdExact, SvdTotal, as in C56)."
  },
  {
   "property": "C116",
   "status": "proved",
   "theorems": [
    "RM.C116_first_nearest",
    "RM.C116_one_neighbour",
    "RM.C116_standardizer",
    "RM.C116_minmax",
    "RM.C116_training_error",
    "RM.C116_cross_validation"
   ],
   "note": "Exact real arithmetic; linear regression with an exact solver (SolvesExactly, as in C48). The min-max statement leaves out fitted samples with a constant feature, which have no scale. Cross validation: models whose training and scoring succeed on all nonempty data; Bernoulli naive Bayes is one (bernoulli_scores)."
  },
  {
   "property": "C117",
   "status": "proved",
   "theorems": [
    "RM.C117_gradient_descent",
    "RM.C117_early_stop",
    "RM.C117_network",
    "RM.C117_momentum"
   ],
   "note": "The model must return the same cost and gradient for the same parameters. The momentum clause is a statement about one cost, all momentum factors and learning rates."
  },
  {
   "property": "C118",
   "status": "proved",
   "theorems": [
    "RM.C118_two_clusters",
    "RM.C118_kplusplus",
    "RM.C118_forgy",
    "RM.C118_random_partition"
   ],
   "note": "Exact arithmetic extended by NaN, as in C30 and C31; data of finite numbers with at least one column."
  },
  {
   "property": "C119",
   "status": "proved",
   "theorems": [
    "RM.C119_generate",
    "RM.C119_kmeans",
    "RM.C119_kmeans_almost_surely",
    "RM.C119_dogs",
    "RM.C119_dogs_failures",
    "RM.C119_dog_rand",
    "RM.C119_and_gate",
    "RM.C119_sign",
    "RM.C119_sign_rare"
   ],
   "note": "K-means and the sign learner in exact arithmetic with infinities and NaN, the other two in real arithmetic. That an example can panic (all samples equal, one dog of a colour) is part of the statement."
  },
  {
   "property": "C120",
   "status": "proved",
   "theorems": [
    "RM.C120_enough",
    "RM.C120_tight",
    "RM.C120_ends"
   ],
   "note": "One unit of stack is one call of expand_cluster; the bytes of a call are not modelled."
  },
  {
   "property": "C121",
   "status": "partial",
   "theorems": [
    "RM.C121_small",
    "RM.C121_never_worse",
    "RM.C121_returns",
    "RM.C121_wrapped",
    "RM.C121_largest_violation",
    "RM.C121_middle_violation",
    "RM.C121_parabola_violation"
   ],
   "note": "The code casts the limits to i32. Proved for all limits: what it returns is never worse than the start and is reached by Wolfe steps; it returns if max, cast, is not negative and iters, cast, is not i32::MIN. Limits below 2^31 work as documented. Violated from 2^31 on: a negative iters counts evaluations, so that usize::MAX evaluates the model at most twice (on a parabola the start is returned), and 2^31 panics where overflows are checked."
  },
  {
   "property": "C122",
   "status": "partial",
   "theorems": [
    "RM.C122_sigmoid",
    "RM.C122_logistic_predict",
    "RM.C122_logistic_train",
    "RM.C122_cost_violation",
    "RM.C122_network_violation",
    "RM.C122_far_sample_violation",
    "RM.C122_near_sample",
    "RM.C122_outlier_violation",
    "RM.C122_kernel"
   ],
   "note": "In an arithmetic where exp is 0 below -746 and infinite above 710. Proved: the logistic function and logistic predictions within exp(-710), finite parameters from gradient descent, the squared exponential kernel, and memberships adding up to 1 for a sample within a squared distance of 1492 of some component. Violated: the cross-entropy cost of data with one saturated, rightly classified sample is NaN; the cross-entropy gradient is 0/0 there and a network gets NaN weights in one step; beyond the squared distance 1492 all memberships are NaN, and one such sample among 1493 makes every weight, mean and covariance of the mixture NaN in one iteration. (With rounding, the outputs saturate earlier: the limits here are sufficient, not sharp.)"
  },
  {
   "property": "C123",
   "status": "proved",
   "theorems": [
    "RM.C123_enough",
    "RM.C123_kd_tight",
    "RM.C123_ball_tight"
   ],
   "note": "The lower bound is in exact arithmetic, on samples 0, 1, 3, 7, ... The recursive drop of the finished tree is as deep; it is not modelled."
  },
  {
   "property": "C124",
   "status": "partial",
   "theorems": [
    "RM.C124_knn_search",
    "RM.C124_knn_predict",
    "RM.C124_knn_far",
    "RM.C124_knn_violation",
    "RM.C124_tree_violation",
    "RM.C124_kmeans_predict",
    "RM.C124_kmeans_far",
    "RM.C124_kmeans_mean_violation",
    "RM.C124_minmax_violation",
    "RM.C124_standardizer_violation",
    "RM.C124_normalizer"
   ],
   "note": "In an arithmetic whose results beyond f64::MAX are infinite (no rounding). Proved: with entries up to R and c (2R)^2 <= MAX for c features, brute force search, classification by neighbours and the labels of k-means are those of exact arithmetic; the scaler to unit length reports an error when a square is infinite. Violated: beyond that, the search returns the first k samples whichever are nearest; a tree returns fewer than k neighbours; k-means gives every such sample the label 0, and a finite cluster an infinite centre; the min-max scaler maps every value to the upper end, and the standardiser maps different samples to the same point, without an error."
  },
  {
   "property": "C125",
   "status": "partial",
   "theorems": [
    "RM.C125_shuffle",
    "RM.C125_brute_force",
    "RM.C125_tree_build",
    "RM.C125_tree_search",
    "RM.C125_tree_search_violation",
    "RM.C125_knn_brute",
    "RM.C125_knn_kd",
    "RM.C125_knn_violation",
    "RM.C125_dbscan",
    "RM.C125_kmeans",
    "RM.C125_net",
    "RM.C125_net_violation",
    "RM.C125_pca",
    "RM.C125_pca_same",
    "RM.C125_pca_violation"
   ],
   "note": "Proved for every number type: shuffles, brute force search and its classifier, building both trees, DBSCAN, k-means with its three initialisers, and networks made with the library's constructors and trained with its optimisers never reach undefined behaviour, whatever the data; a tree search does not for at least one neighbour and a query as wide as the data; PCA does not as long as no train call panicked. Violated, each with the exact or a general condition: a tree search whose query is too short for a split on its way, or for no neighbours in a tree with a split (a classifier with k = 0 trains and then predicts into undefined behaviour; in builds with overflow checks it panics instead); a user-written optimiser that returns too few weights; PCA after a caught panic of train on narrower data."
  },
  {
   "property": "C126",
   "status": "partial",
   "theorems": [
    "RM.C126_kept",
    "RM.C126_kmeans_same",
    "RM.C126_kmeans",
    "RM.C126_kmeans_violation",
    "RM.C126_gmm_same",
    "RM.C126_gmm_rows_violation",
    "RM.C126_gmm_singular_violation",
    "RM.C126_naive_bayes",
    "RM.C126_naive_bayes_violation",
    "RM.C126_dbscan",
    "RM.C126_pca_violation"
   ],
   "note": "Proved: linear, logistic and generalised linear regression, Gaussian processes, SVM, networks, nearest neighbours with any search structure are kept; k-means with at least one cluster is kept; DBSCAN does not panic; naive Bayes does not panic with as many targets as inputs. Violated: k-means with no clusters takes itself for trained after the panic; a mixture model has the covariances of the new data with the means of the old (fewer rows than components), or random rows as means (singular covariance); naive Bayes with targets but no inputs loses its distributions and goes on predicting; PCA has the new centers with the old components (with undefined behaviour as a consequence: C125)."
  },
  {
   "property": "C127",
   "status": "partial",
   "theorems": [
    "RM.C127_builtin",
    "RM.C127_count",
    "RM.C127_lengths",
    "RM.C127_fixed_point",
    "RM.C127_trains_partial",
    "RM.C127_dispersion",
    "RM.C127_identity",
    "RM.C127_poisson",
    "RM.C127_ends_violation"
   ],
   "note": "Proved: training succeeds where link and variance are regular; a pass keeps the parameters exactly at the solutions of the estimating equations; factors of the variance do not matter; identity link with constant variance is least squares; the Poisson family through the defaults is the built-in one on positive targets; the built-in families are instances. Violated: the default starting means are the targets, so one zero count (log link), or one target 0 or 1 (logit link), turns all parameters into NaN and train reports success, or panics."
  },
  {
   "property": "C128",
   "status": "partial",
   "theorems": [
    "RM.C128_builtin",
    "RM.C128_gradient",
    "RM.C128_gradient_regularized",
    "RM.C128_activation_contract",
    "RM.C128_linear_contract",
    "RM.C128_criterion_contract",
    "RM.C128_defined",
    "RM.C128_short_params_violation",
    "RM.C128_long_params_violation",
    "RM.C128_count_checked",
    "RM.C128_errors"
   ],
   "note": "Proved: the gradient (chain rule through arbitrary layers, with and without a regularisation), the built-in layers and criteria as instances that meet the contract, the size check, the errors of predict, and that no undefined behaviour is reached when each layer's default_params and num_params agree with its param_shape. Violated: nothing checks that agreement; a layer of safe code with too few default parameters makes predict and train read beyond the weights, one with too many makes compute_grad return uninitialised memory."
  },
  {
   "property": "C129",
   "status": "proved",
   "theorems": [
    "RM.C129_builtin",
    "RM.C129_train",
    "RM.C129_bad_target",
    "RM.C129_predict",
    "RM.C129_posterior",
    "RM.C129_rows_checked"
   ],
   "note": "The distribution is a record of its three methods; a failing update may leave any state behind. Distributions with interior mutability are outside the model."
  },
  {
   "property": "C130",
   "status": "proved",
   "theorems": [
    "RM.C130_search_results",
    "RM.C130_dbscan_results",
    "RM.C130_kernel_results",
    "RM.C130_kd_search",
    "RM.C130_ball_search",
    "RM.C130_search_all",
    "RM.C130_brute_force",
    "RM.C130_knn_predict",
    "RM.C130_dbscan",
    "RM.C130_dbscan_ends",
    "RM.C130_gp_train",
    "RM.C130_gp_predict",
    "RM.C130_gp_posterior",
    "RM.C130_svm_train",
    "RM.C130_svm_predict"
   ],
   "note": "Work is counted in distances, neighbourhood queries and kernel calls, not in time. Calls of a kernel or searcher written by the user are observable; distances inside the crate's own searchers are not, except as time. The lists are part of separate models, proved to give the same results."
  },
  {
   "property": "C131",
   "status": "proved",
   "theorems": [
    "RM.C131_iris",
    "RM.C131_trees",
    "RM.C131_means",
    "RM.C131_iris_separable",
    "RM.C131_iris_search_trees",
    "RM.C131_trees_search_trees",
    "RM.C131_iris_kplusplus",
    "RM.C131_linear_regression",
    "RM.C131_scalers",
    "RM.C131_iris_naive_bayes"
   ],
   "note": "The tables are read as exact decimals over the reals. The facts about the tables themselves are evaluated by the kernel on the whole table; everything about the learners is an instance of the general theorems of C13, C14, C16, C17, C23, C32-C35, C48."
  },
  {
   "property": "C132",
   "status": "partial",
   "theorems": [
    "RM.C132_add",
    "RM.C132_add_debug",
    "RM.C132_add_too_many",
    "RM.C132_mlp",
    "RM.C132_mlp_no_sizes",
    "RM.C132_weights",
    "RM.C132_predict",
    "RM.C132_gradient",
    "RM.C132_debug_packed",
    "RM.C132_release_add",
    "RM.C132_release_weights",
    "RM.C132_release_predict",
    "RM.C132_release_gradient",
    "RM.C132_two_to_the_32",
    "RM.C132_largest_size",
    "RM.C132_search"
   ],
   "note": "Violated by the code in release builds for layers with 2^64 weights or more (C132_release_weights, C132_release_predict, C132_release_gradient, C132_two_to_the_32), and by the search for 2^60 neighbours or more (C132_search). The number of columns of data is exact; memory that runs out below isize::MAX bytes is not modelled."
  },
  {
   "property": "C133",
   "status": "proved",
   "theorems": [
    "RM.C133_feature_predictions",
    "RM.C133_feature_training",
    "RM.C133_odd",
    "RM.C133_unit_predictions",
    "RM.C133_unit_training",
    "RM.C133_unit_at_rest",
    "RM.C133_l1",
    "RM.C133_logistic"
   ],
   "note": "Networks over the reals. The L1 term and logistic regression are shown by counterexample to depend on the sign."
  },
  {
   "property": "C134",
   "status": "proved",
   "theorems": [
    "RM.C134_good_start",
    "RM.C134_new_rows",
    "RM.C134_kplusplus",
    "RM.C134_different_rows",
    "RM.C134_bad_start"
   ],
   "note": "Over the reals. The dependence on the start is part of the statement (C134_bad_start)."
  },
  {
   "property": "C135",
   "status": "proved",
   "theorems": [
    "RM.C135_knn",
    "RM.C135_knn_groups",
    "RM.C135_dbscan",
    "RM.C135_dbscan_predict"
   ],
   "note": "Over the reals. For the tree searchers see C21 and C22: with three neighbours or more they need not find the nearest ones."
  },
  {
   "property": "C136",
   "status": "proved",
   "theorems": [
    "RM.C136_kmeans",
    "RM.C136_knn",
    "RM.C136_dbscan"
   ],
   "note": "The rounding is monotone and relative (no overflow and no underflow), as in C86."
  },
  {
   "property": "C137",
   "status": "proved",
   "theorems": [
    "RM.C137_logistic",
    "RM.C137_only_separable",
    "RM.C137_network",
    "RM.C137_no_best"
   ],
   "note": "Over the reals."
  },
  {
   "property": "C138",
   "status": "partial",
   "theorems": [
    "RM.C138_apart",
    "RM.C138_probability",
    "RM.C138_blind_violation",
    "RM.C138_default",
    "RM.C138_default_violation"
   ],
   "note": "Violated by the code for larger samples: C138_blind_violation, C138_default_violation. Proved: the two groups are told apart when the samples of target 1 are counted (C138_apart, C138_default) and how likely that is (C138_probability). Exact arithmetic with infinities and NaN."
  },
  {
   "property": "C139",
   "status": "proved",
   "theorems": [
    "RM.C139_far",
    "RM.C139_near",
    "RM.C139_fit",
    "RM.C139_forgets"
   ],
   "note": "In exact arithmetic with the contracts of the Cholesky decomposition and the triangular solvers (C59)."
  },
  {
   "property": "C140",
   "status": "proved",
   "theorems": [
    "RM.C140_regression",
    "RM.C140_naive_bayes",
    "RM.C140_axes_knn",
    "RM.C140_axes_dbscan",
    "RM.C140_axes_kmeans",
    "RM.C140_axes_svm",
    "RM.C140_axes_gp"
   ],
   "note": "In exact arithmetic with the contracts of the external solver and singular value decomposition. Data before each step must be numbers a float can hold; the rigid part needs at least as many rows as columns."
  },
  {
   "property": "C141",
   "status": "proved",
   "theorems": [
    "RM.C141_values",
    "RM.C141_labels",
    "RM.C141_cost",
    "RM.C141_no_hidden",
    "RM.C141_logistic"
   ],
   "note": "In exact arithmetic. That training finds such weights is not claimed (the cost of a network with hidden units is not convex)."
  },
  {
   "property": "C142",
   "status": "proved",
   "theorems": [
    "RM.C142_apart",
    "RM.C142_training_points",
    "RM.C142_overlap_free_not_enough"
   ],
   "note": "In exact arithmetic."
  },
  {
   "property": "C143",
   "status": "proved",
   "theorems": [
    "RM.C143_wrong_labels",
    "RM.C143_one_target",
    "RM.C143_squeezed",
    "RM.C143_priors",
    "RM.C143_one_entry"
   ],
   "note": "In exact arithmetic; the linear solver as in C48."
  },
  {
   "property": "C144",
   "status": "proved",
   "theorems": [
    "RM.C144_all_neighbours",
    "RM.C144_kd_one_leaf",
    "RM.C144_ball_one_leaf",
    "RM.C144_every_sample_core",
    "RM.C144_all_or_nothing",
    "RM.C144_one_cluster",
    "RM.C144_all_noise"
   ],
   "note": "In exact arithmetic; K-means over the reals with infinities and NaN, started from finite centroids and with a positive limit of iterations; tree queries as in C21 and C22 (k between 1 and the number of samples, distances below f64::MAX); the radius is positive; the solver of the Gaussian process as in C59."
  },
  {
   "property": "C145",
   "status": "proved",
   "theorems": [
    "RM.C145_kmeans",
    "RM.C145_nearest_neighbour",
    "RM.C145_dbscan",
    "RM.C145_linear",
    "RM.C145_logistic",
    "RM.C145_svm",
    "RM.C145_counts",
    "RM.C145_gaussian_equal_spread",
    "RM.C145_gaussian_not_convex"
   ],
   "note": "In exact arithmetic. The nearest neighbours statement holds for every search that returns a nearest sample (C19; C21 and C22 say when the trees do)."
  },
  {
   "property": "C146",
   "status": "partial",
   "theorems": [
    "RM.C146_neighbours_partial",
    "RM.C146_dbscan_partial",
    "RM.C146_kernel_methods_partial",
    "RM.C146_kmeans_partial",
    "RM.C146_linear_violation",
    "RM.C146_gaussian_violation",
    "RM.C146_gaussian_never_violation"
   ],
   "note": "Holds for the learners that look at distances (_partial); the violations are proved: C146_linear_violation, C146_gaussian_violation, C146_gaussian_never_violation. The last two are stated over reals with infinities and NaN, so for data whose class mean and variance are computed exactly."
  },
  {
   "property": "C147",
   "status": "partial",
   "theorems": [
    "RM.C147_linear_partial",
    "RM.C147_logistic_partial",
    "RM.C147_kernels",
    "RM.C147_svm_partial",
    "RM.C147_gp_partial",
    "RM.C147_dbscan_partial",
    "RM.C147_kmeans_violation",
    "RM.C147_knn_violation",
    "RM.C147_gaussian_violation",
    "RM.C147_multinomial_violation",
    "RM.C147_bernoulli_violation",
    "RM.C147_activations",
    "RM.C147_network_partial"
   ],
   "note": "Holds for the learners that compute a number, and for DBSCAN (_partial, queries of one row; C75 gives batches); the violations are proved for k-means, naive Bayes and nearest neighbours. Polynomial, multiquadric and rational quadratic kernels are not covered (a power with exponent 0 of NaN is 1)."
  },
  {
   "property": "C148",
   "status": "partial",
   "theorems": [
    "RM.C148_multinomial_violation",
    "RM.C148_bernoulli_violation",
    "RM.C148_network_violation",
    "RM.C148_dbscan_partial",
    "RM.C148_stochastic_violation",
    "RM.C148_kernels",
    "RM.C148_svm_violation",
    "RM.C148_kmeans_violation",
    "RM.C148_nearest_violation",
    "RM.C148_neighbours_violation",
    "RM.C148_neighbours_partial",
    "RM.C148_gaussian_violation",
    "RM.C148_gaussian_never_violation",
    "RM.C148_linear_violation",
    "RM.C148_logistic_violation"
   ],
   "note": "Proved for DBSCAN (C148_dbscan_partial) and for samples after the first k with nearest neighbours (C148_neighbours_partial). The violations are proved: C148_kmeans_violation, C148_nearest_violation, C148_neighbours_violation, C148_gaussian_violation, C148_gaussian_never_violation, C148_multinomial_violation, C148_bernoulli_violation, C148_linear_violation, C148_logistic_violation, C148_svm_violation (for the kernels of C148_kernels), C148_stochastic_violation, C148_network_violation. Learners that train by a call of the linear algebra library are not covered."
  },
  {
   "property": "C149",
   "status": "proved",
   "theorems": [
    "RM.C149_accuracy",
    "RM.C149_costs",
    "RM.C149_two_class"
   ],
   "note": "C149_accuracy, C149_costs, C149_two_class, over numbers with infinities and NaN."
  }
 ]
}