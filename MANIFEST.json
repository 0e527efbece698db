{
 "claims": [
  {
   "property": "C01",
   "status": "proved",
   "theorems": [
    "Bartz.C01_traverse_tree"
   ],
   "note": "for h < 64 (node indices representable in 64 bits)"
  },
  {
   "property": "C02",
   "status": "proved",
   "theorems": [
    "Bartz.C02_partition",
    "Bartz.C02_counts"
   ],
   "note": ""
  },
  {
   "property": "C03",
   "status": "proved",
   "theorems": [
    "Bartz.C03_evaluate_trees",
    "Bartz.C03_evaluate_forest"
   ],
   "note": "any value type; sum in the order of the trees"
  },
  {
   "property": "C04",
   "status": "proved",
   "theorems": [
    "Bartz.C04_is_actual_leaf"
   ],
   "note": ""
  },
  {
   "property": "C05",
   "status": "proved",
   "theorems": [
    "Bartz.C05_is_leaves_parent"
   ],
   "note": ""
  },
  {
   "property": "C06",
   "status": "proved",
   "theorems": [
    "Bartz.C06_depths"
   ],
   "note": ""
  },
  {
   "property": "C07",
   "status": "proved",
   "theorems": [
    "Bartz.C07_count",
    "Bartz.C07_prunable"
   ],
   "note": ""
  },
  {
   "property": "C08",
   "status": "proved",
   "theorems": [
    "Bartz.C08_minimal_unsigned_dtype"
   ],
   "note": ""
  },
  {
   "property": "C09",
   "status": "partial",
   "theorems": [
    "Bartz.C09_not_unique",
    "Bartz.C09_truncated_partial",
    "Bartz.C09_unique_partial",
    "Bartz.C09_nodup_partial"
   ],
   "note": "false of the code when size < len(x) and there are repeated values: C09_not_unique is the witness; the others state what holds"
  },
  {
   "property": "C10",
   "status": "proved",
   "theorems": [
    "Bartz.C10_autobatch",
    "Bartz.C10_not_batched",
    "Bartz.C10_accepts_only",
    "Bartz.C10_checked"
   ],
   "note": "C10_not_batched: it fails if no argument is batched; C10_accepts_only: the hypotheses on the axes and sizes are needed; pytrees are lists of leaves; functions that act independently along the batched axes"
  },
  {
   "property": "C11",
   "status": "proved",
   "theorems": [
    "Bartz.C11_nbatches",
    "Bartz.C11_autobatch"
   ],
   "note": ""
  },
  {
   "property": "C12",
   "status": "proved",
   "theorems": [
    "Bartz.C12_bin",
    "Bartz.C12_decision",
    "Bartz.C12_monotone"
   ],
   "note": ""
  },
  {
   "property": "C13",
   "status": "proved",
   "theorems": [
    "Bartz.C13_lossless"
   ],
   "note": "for any type of predictor with midpoints inbetween; lawful_int and lawful_float are the instances for integers up to 32 bits (or unsigned) and exact floating point"
  },
  {
   "property": "C14",
   "status": "proved",
   "theorems": [
    "Bartz.C14_balanced",
    "Bartz.C14_difference"
   ],
   "note": "the error on the indices due to floating point numbers is a parameter"
  },
  {
   "property": "C15",
   "status": "partial",
   "theorems": [
    "Bartz.C15_midpoint_partial",
    "Bartz.C15_not_int64",
    "Bartz.C15_int64_partial",
    "Bartz.C15_int64_near"
   ],
   "note": "false for int64 (with jax_enable_x64) because JAX promotes int64 + uint64 to float64: C15_not_int64 is the witness; proved for all the other types, and for int64 up to 2**53 (C15_int64_partial); the error is at most 3072 in any case (C15_int64_near)"
  },
  {
   "property": "C16",
   "status": "proved",
   "theorems": [
    "Bartz.C16_uniform",
    "Bartz.C16_error",
    "Bartz.C16_matrix"
   ],
   "note": "exact arithmetic (any ordered field)"
  },
  {
   "property": "C17",
   "status": "proved",
   "theorems": [
    "Bartz.C17_range",
    "Bartz.C17_uniform"
   ],
   "note": ""
  },
  {
   "property": "C18",
   "status": "partial",
   "theorems": [
    "Bartz.C18_not",
    "Bartz.C18_max_split_partial"
   ],
   "note": "false of the code without observations: C18_not is the witness; C18_max_split_partial covers all other cases"
  },
  {
   "property": "C19",
   "status": "partial",
   "theorems": [
    "Bartz.C19_valid_trees_partial",
    "Bartz.C19_not_cpu",
    "Bartz.C19_valid_trees"
   ],
   "note": "false in single precision with the order of the sums used by JAX on CPU: C19_not_cpu is the witness, an event with very small probability; at least one of the theorems assumes FloatLaws, which holds in exact arithmetic, and in single precision with cumulative sums done from left to right (C79), but not with the order used by JAX on CPU (C80)"
  },
  {
   "property": "C20",
   "status": "partial",
   "theorems": [
    "Bartz.C20_leaf_indices_partial",
    "Bartz.C20_not_cpu",
    "Bartz.C20_leaf_indices"
   ],
   "note": "false in single precision with the order of the sums used by JAX on CPU: C20_not_cpu is the witness, an event with very small probability; at least one of the theorems assumes FloatLaws, which holds in exact arithmetic, and in single precision with cumulative sums done from left to right (C79), but not with the order used by JAX on CPU (C80)"
  },
  {
   "property": "C21",
   "status": "proved",
   "theorems": [
    "Bartz.C21_residuals"
   ],
   "note": "exact arithmetic (any commutative ring); at least one of the theorems assumes FloatLaws, which holds in exact arithmetic, and in single precision with cumulative sums done from left to right (C79), but not with the order used by JAX on CPU (C80)"
  },
  {
   "property": "C22",
   "status": "proved",
   "theorems": [
    "Bartz.C22_min_points"
   ],
   "note": "at least one of the theorems assumes FloatLaws, which holds in exact arithmetic, and in single precision with cumulative sums done from left to right (C79), but not with the order used by JAX on CPU (C80)"
  },
  {
   "property": "C23",
   "status": "proved",
   "theorems": [
    "Bartz.C23_growable"
   ],
   "note": "at least one of the theorems assumes FloatLaws, which holds in exact arithmetic, and in single precision with cumulative sums done from left to right (C79), but not with the order used by JAX on CPU (C80)"
  },
  {
   "property": "C24",
   "status": "proved",
   "theorems": [
    "Bartz.C24_randint_masked",
    "Bartz.C24_randint_masked_empty"
   ],
   "note": ""
  },
  {
   "property": "C25",
   "status": "partial",
   "theorems": [
    "Bartz.C25_randint_exclude",
    "Bartz.C25_not_sup",
    "Bartz.C25_all_excluded_partial"
   ],
   "note": "the documented result when all values are excluded is false: C25_not_sup is the witness, C25_all_excluded_partial is what holds"
  },
  {
   "property": "C26",
   "status": "proved",
   "theorems": [
    "Bartz.C26_categorical",
    "Bartz.C26_categorical_zero"
   ],
   "note": "exact arithmetic (real numbers)"
  },
  {
   "property": "C27",
   "status": "partial",
   "theorems": [
    "Bartz.C27_overflow",
    "Bartz.C27_split_range_partial"
   ],
   "note": "false of the code when the largest cutpoint index is the maximum of the integer type of the decision trees: the lower end of the range wraps around to 0; C27_overflow is the witness, C27_split_range_partial what holds"
  },
  {
   "property": "C28",
   "status": "partial",
   "theorems": [
    "Bartz.C28_not_uniform",
    "Bartz.C28_overflow",
    "Bartz.C28_first",
    "Bartz.C28_choose_variable_partial"
   ],
   "note": "false of the code: predictors without cutpoints that do not appear in the ancestors are not excluded (C28_not_uniform), and neither are predictors used up to the last cutpoint when that is the maximum of the integer type (C28_overflow); with 256 predictors the one that has index 0 and no cutpoints is excluded only at some nodes because the filler of ancestor_variables wraps around (C28_first); C28_choose_variable_partial is what holds"
  },
  {
   "property": "C29",
   "status": "proved",
   "theorems": [
    "Bartz.C29_rules"
   ],
   "note": "at least one of the theorems assumes FloatLaws, which holds in exact arithmetic, and in single precision with cumulative sums done from left to right (C79), but not with the order used by JAX on CPU (C80)"
  },
  {
   "property": "C30",
   "status": "proved",
   "theorems": [
    "Bartz.C30_ratio",
    "Bartz.C30_accept"
   ],
   "note": "exact arithmetic (real numbers); predictors without cutpoints are counted in the prior (because of C28), with 2^8, 2^16 or 2^32 predictors all of them must have cutpoints (C28_first); the probabilities of non-terminal nodes are < 1; for the prior see treePrior_standard and C86"
  },
  {
   "property": "C31",
   "status": "proved",
   "theorems": [
    "Bartz.C31_likelihood_ratio",
    "Bartz.C31_in_step",
    "Bartz.C31_split_pos"
   ],
   "note": "exact arithmetic (real numbers)"
  },
  {
   "property": "C32",
   "status": "proved",
   "theorems": [
    "Bartz.C32_leaf_values"
   ],
   "note": "exact arithmetic (real numbers)"
  },
  {
   "property": "C33",
   "status": "proved",
   "theorems": [
    "Bartz.C33_sigma2"
   ],
   "note": "exact arithmetic (real numbers)"
  },
  {
   "property": "C34",
   "status": "proved",
   "theorems": [
    "Bartz.C34_counters"
   ],
   "note": "at least one of the theorems assumes FloatLaws, which holds in exact arithmetic, and in single precision with cumulative sums done from left to right (C79), but not with the order used by JAX on CPU (C80)"
  },
  {
   "property": "C35",
   "status": "proved",
   "theorems": [
    "Bartz.C35_batch_size",
    "Bartz.C35_count",
    "Bartz.C35_sum",
    "Bartz.C35_auto"
   ],
   "note": "exact arithmetic for the residuals; in C35_auto log2 is arbitrary"
  },
  {
   "property": "C36",
   "status": "proved",
   "theorems": [
    "Bartz.C36_one_node"
   ],
   "note": "at least one of the theorems assumes FloatLaws, which holds in exact arithmetic, and in single precision with cumulative sums done from left to right (C79), but not with the order used by JAX on CPU (C80)"
  },
  {
   "property": "C37",
   "status": "proved",
   "theorems": [
    "Bartz.C37_configuration"
   ],
   "note": "at least one of the theorems assumes FloatLaws, which holds in exact arithmetic, and in single precision with cumulative sums done from left to right (C79), but not with the order used by JAX on CPU (C80)"
  },
  {
   "property": "C38",
   "status": "proved",
   "theorems": [
    "Bartz.C38_init",
    "Bartz.C38_positive"
   ],
   "note": "exact arithmetic (real numbers); the Gamma variates are assumed positive"
  },
  {
   "property": "C39",
   "status": "proved",
   "theorems": [
    "Bartz.C39_few_points"
   ],
   "note": "at least one of the theorems assumes FloatLaws, which holds in exact arithmetic, and in single precision with cumulative sums done from left to right (C79), but not with the order used by JAX on CPU (C80)"
  },
  {
   "property": "C40",
   "status": "proved",
   "theorems": [
    "Bartz.C40_program",
    "Bartz.C40_keys",
    "Bartz.C40_number",
    "Bartz.C40_nodup",
    "Bartz.C40_any_values"
   ],
   "note": ""
  },
  {
   "property": "C41",
   "status": "partial",
   "theorems": [
    "Bartz.C41_not",
    "Bartz.C41_unmodified_partial",
    "Bartz.C41_only_ratios_partial",
    "Bartz.C41_result"
   ],
   "note": "false of the code when save_ratios is on: C41_not shows that the input state is modified; proved without ratios, and that the ratios are the only thing modified"
  },
  {
   "property": "C42",
   "status": "proved",
   "theorems": [
    "Bartz.C42_final",
    "Bartz.C42_trace",
    "Bartz.C42_ratios",
    "Bartz.C42_same_chain",
    "Bartz.C42_burnin",
    "Bartz.C42_reachable"
   ],
   "note": ""
  },
  {
   "property": "C43",
   "status": "proved",
   "theorems": [
    "Bartz.C43_calls",
    "Bartz.C43_print"
   ],
   "note": "the acceptance rates in the printed line are not modelled"
  },
  {
   "property": "C44",
   "status": "partial",
   "theorems": [
    "Bartz.C44_not_burnin",
    "Bartz.C44_not_main",
    "Bartz.C44_fields_partial"
   ],
   "note": "false of the code without iterations: C44_not_burnin and C44_not_main show that there are additional fields; C44_fields_partial covers the other cases"
  },
  {
   "property": "C45",
   "status": "proved",
   "theorems": [
    "Bartz.C45_evaluate_trace",
    "Bartz.C45_run"
   ],
   "note": "at least one of the theorems assumes FloatLaws, which holds in exact arithmetic, and in single precision with cumulative sums done from left to right (C79), but not with the order used by JAX on CPU (C80)"
  },
  {
   "property": "C46",
   "status": "proved",
   "theorems": [
    "Bartz.C46_predict_train",
    "Bartz.C46_residuals"
   ],
   "note": "The relation with the residuals is in exact arithmetic.; at least one of the theorems assumes FloatLaws, which holds in exact arithmetic, and in single precision with cumulative sums done from left to right (C79), but not with the order used by JAX on CPU (C80)"
  },
  {
   "property": "C47",
   "status": "proved",
   "theorems": [
    "Bartz.C47_affine",
    "Bartz.C47_not"
   ],
   "note": "Given a specification of jnp.linalg.lstsq (LawfulLstsq). C47_not is about a single datapoint, out of the quantifier."
  },
  {
   "property": "C48",
   "status": "proved",
   "theorems": [
    "Bartz.C48_settings"
   ],
   "note": "Given a specification of jnp.linalg.lstsq (LawfulLstsq). The rank is that of the centered predictors."
  },
  {
   "property": "C49",
   "status": "partial",
   "theorems": [
    "Bartz.C49_shapes_partial",
    "Bartz.C49_not"
   ],
   "note": "All sizes but n=0 with usequants=False (the default), in which case gbart fails (C49_not).; at least one of the theorems assumes FloatLaws, which holds in exact arithmetic, and in single precision with cumulative sums done from left to right (C79), but not with the order used by JAX on CPU (C80)"
  },
  {
   "property": "C50",
   "status": "proved",
   "theorems": [
    "Bartz.C50_check_tree",
    "Bartz.C50_valid"
   ],
   "note": "For any arrays with a representable number of nodes, valid or not; the meaning of each check is in checkList."
  },
  {
   "property": "C51",
   "status": "partial",
   "theorems": [
    "Bartz.C51_tree_depth",
    "Bartz.C51_forest_depth",
    "Bartz.C51_points_per_leaf_partial",
    "Bartz.C51_points_per_leaf",
    "Bartz.C51_forest_points",
    "Bartz.C51_not"
   ],
   "note": "The depth statistics are as stated. The histogram of datapoints per leaf is computed in uint8, so its entries are right only modulo 256 (C51_not); it is right if the maximum depth is at most 8 or the tree has less than 256 leaves."
  },
  {
   "property": "C52",
   "status": "proved",
   "theorems": [
    "Bartz.C52_no_overflow"
   ],
   "note": "at least one of the theorems assumes FloatLaws, which holds in exact arithmetic, and in single precision with cumulative sums done from left to right (C79), but not with the order used by JAX on CPU (C80)"
  },
  {
   "property": "C53",
   "status": "proved",
   "theorems": [
    "Bartz.C53_print_tree",
    "Bartz.C53_print_all",
    "Bartz.C53_aligned",
    "Bartz.C53_show_tree"
   ],
   "note": "The lines are modelled as records; the formatting of numbers is a parameter.; at least one of the theorems assumes FloatLaws, which holds in exact arithmetic, and in single precision with cumulative sums done from left to right (C79), but not with the order used by JAX on CPU (C80)"
  },
  {
   "property": "C54",
   "status": "proved",
   "theorems": [
    "Bartz.C54_detailed_balance",
    "Bartz.treePrior_standard"
   ],
   "note": "same assumptions as C30; the prior on the variables is the standard one if no variable has as many cutpoints as the largest value of the type (treePrior_standard, see C86)"
  },
  {
   "property": "C55",
   "status": "proved",
   "theorems": [
    "Bartz.C55_checks"
   ],
   "note": "at least one of the theorems assumes FloatLaws, which holds in exact arithmetic, and in single precision with cumulative sums done from left to right (C79), but not with the order used by JAX on CPU (C80)"
  },
  {
   "property": "C56",
   "status": "proved",
   "theorems": [
    "Bartz.C56_prior"
   ],
   "note": "Given the specification of gammainccinv (IsGammainccinv)."
  },
  {
   "property": "C57",
   "status": "proved",
   "theorems": [
    "Bartz.C57_format"
   ],
   "note": "pandas Index objects with the same identity have the same names (hypothesis hid); at least one of the theorems assumes FloatLaws, which holds in exact arithmetic, and in single precision with cumulative sums done from left to right (C79), but not with the order used by JAX on CPU (C80)"
  },
  {
   "property": "C58",
   "status": "proved",
   "theorems": [
    "Bartz.C58_sequential"
   ],
   "note": "at least one of the theorems assumes FloatLaws, which holds in exact arithmetic, and in single precision with cumulative sums done from left to right (C79), but not with the order used by JAX on CPU (C80)"
  },
  {
   "property": "C59",
   "status": "proved",
   "theorems": [
    "Bartz.C59_few_points"
   ],
   "note": "at least one of the theorems assumes FloatLaws, which holds in exact arithmetic, and in single precision with cumulative sums done from left to right (C79), but not with the order used by JAX on CPU (C80)"
  },
  {
   "property": "C60",
   "status": "proved",
   "theorems": [
    "Bartz.C60_depth_distr",
    "Bartz.C60_min_points"
   ],
   "note": "at least one of the theorems assumes FloatLaws, which holds in exact arithmetic, and in single precision with cumulative sums done from left to right (C79), but not with the order used by JAX on CPU (C80)"
  },
  {
   "property": "C61",
   "status": "proved",
   "theorems": [
    "Bartz.C61_check_trees"
   ],
   "note": "at least one of the theorems assumes FloatLaws, which holds in exact arithmetic, and in single precision with cumulative sums done from left to right (C79), but not with the order used by JAX on CPU (C80)"
  },
  {
   "property": "C62",
   "status": "proved",
   "theorems": [
    "Bartz.C62_averages",
    "Bartz.C62_move"
   ],
   "note": "_avg_move is nan for a type of move never proposed (C62_move).; at least one of the theorems assumes FloatLaws, which holds in exact arithmetic, and in single precision with cumulative sums done from left to right (C79), but not with the order used by JAX on CPU (C80)"
  },
  {
   "property": "C63",
   "status": "proved",
   "theorems": [
    "Bartz.C63_compare_resid"
   ],
   "note": "at least one of the theorems assumes FloatLaws, which holds in exact arithmetic, and in single precision with cumulative sums done from left to right (C79), but not with the order used by JAX on CPU (C80)"
  },
  {
   "property": "C64",
   "status": "proved",
   "theorems": [
    "Bartz.C64_harmonic_mean"
   ],
   "note": ""
  },
  {
   "property": "C65",
   "status": "partial",
   "theorems": [
    "Bartz.C65_same_columns_partial",
    "Bartz.C65_not"
   ],
   "note": "Fails for pandas dataframes with two or more columns unless they share the same Index object: the assertion compares dictionaries that contain Index objects, and the truth value of an array is an error. Proved for arrays, polars dataframes, shared Index objects, and one column.; at least one of the theorems assumes FloatLaws, which holds in exact arithmetic, and in single precision with cumulative sums done from left to right (C79), but not with the order used by JAX on CPU (C80)"
  },
  {
   "property": "C66",
   "status": "proved",
   "theorems": [
    "Bartz.C66_ensemble"
   ],
   "note": "predictors in exact arithmetic, rounding in linspace bounded (AccurateLinspace); at least one of the theorems assumes FloatLaws, which holds in exact arithmetic, and in single precision with cumulative sums done from left to right (C79), but not with the order used by JAX on CPU (C80)"
  },
  {
   "property": "C67",
   "status": "proved",
   "theorems": [
    "Bartz.C67_clip"
   ],
   "note": "predictors in exact arithmetic, rounding in linspace bounded (AccurateLinspace); at least one of the theorems assumes FloatLaws, which holds in exact arithmetic, and in single precision with cumulative sums done from left to right (C79), but not with the order used by JAX on CPU (C80)"
  },
  {
   "property": "C68",
   "status": "proved",
   "theorems": [
    "Bartz.C68_invariant",
    "Bartz.C68_consistent",
    "Bartz.C68_support"
   ],
   "note": "Real numbers; the numbers drawn at each site are taken to be independent and with the nominal distributions (StepSites). Requires that a decision rule is always available (ProperSettings.rules), otherwise the prior is not defined, see C28. The prior on the variables takes into account the overflow in split_range and counts the predictors without cutpoints, see C86."
  },
  {
   "property": "C69",
   "status": "proved",
   "theorems": [
    "Bartz.C69_markov_chain",
    "Bartz.C69_run_mcmc"
   ],
   "note": "As C68. ExQ.runRng_sites: a random number generator as required exists for all settings."
  },
  {
   "property": "C70",
   "status": "proved",
   "theorems": [
    "Bartz.C70_irreducible",
    "Bartz.C70_unique",
    "Bartz.C70_not"
   ],
   "note": "As C68, with one tree or a minimum number of datapoints per leaf (C70_not: without this condition there are settings and data such that the chain is not irreducible). The stationary distributions considered are those on possible parameters (consistent states)."
  },
  {
   "property": "C71",
   "status": "proved",
   "theorems": [
    "Bartz.C71_aperiodic",
    "Bartz.C71_null"
   ],
   "note": "As C68, with a minimum number of datapoints per leaf."
  },
  {
   "property": "C72",
   "status": "proved",
   "theorems": [
    "Bartz.C72_law_of_large_numbers",
    "Bartz.C72_one_tree",
    "Bartz.C72_sigma",
    "Bartz.C72_moments"
   ],
   "note": "As C68, with a minimum number of datapoints per leaf, or one tree without thinning. ExQ.endlessRng_sites: an endless random number generator as required exists for all settings."
  },
  {
   "property": "C73",
   "status": "proved",
   "theorems": [
    "Bartz.C73_evaluate_trace",
    "Bartz.C73_gbart"
   ],
   "note": "As C72; the hypotheses are on the arguments of gbart (ProperGbart), with exact arithmetic and bounded rounding of the cutpoints (AccurateLinspace)."
  },
  {
   "property": "C74",
   "status": "proved",
   "theorems": [
    "Bartz.C74_total_variation",
    "Bartz.C74_run_mcmc",
    "Bartz.C74_gbart"
   ],
   "note": "As C71, C73. No rate of convergence is given."
  },
  {
   "property": "C75",
   "status": "proved",
   "theorems": [
    "Bartz.C75_fails_iff",
    "Bartz.C75_predict_fails_iff"
   ],
   "note": "The failures modelled are those of the assertions and of the minimum of an empty array (C16). Arguments out of the domain (e.g., maxdepth < 2) are excluded by InDomain.; at least one of the theorems assumes FloatLaws, which holds in exact arithmetic, and in single precision with cumulative sums done from left to right (C79), but not with the order used by JAX on CPU (C80)"
  },
  {
   "property": "C76",
   "status": "partial",
   "theorems": [
    "Bartz.C76_finite_partial",
    "Bartz.C76_not"
   ],
   "note": "Arithmetic without rounding, overflow and underflow, with the special values of IEEE 754 but only one zero. C76_not: the code violates the unconditional property if all responses are equal (scale 0, division by zero). The ratios saved optionally in the state (save_ratios) are not claimed to be finite."
  },
  {
   "property": "C77",
   "status": "proved",
   "theorems": [
    "Bartz.C77_affine",
    "Bartz.C77_monotone",
    "Bartz.ExP.C77_not_uniform"
   ],
   "note": "C77_affine: real numbers, given a specification of jnp.linalg.lstsq (LawfulLstsq). C77_monotone: cutpoints in exact arithmetic, any arithmetic for the rest. C77_not_uniform shows that the restriction to quantiles is needed.; at least one of the theorems assumes FloatLaws, which holds in exact arithmetic, and in single precision with cumulative sums done from left to right (C79), but not with the order used by JAX on CPU (C80)"
  },
  {
   "property": "C78",
   "status": "proved",
   "theorems": [
    "Bartz.C78_reorder"
   ],
   "note": "Real numbers, given a specification of jnp.linalg.lstsq (LawfulLstsq). In floating point arithmetic the sums over datapoints depend on the order."
  },
  {
   "property": "C79",
   "status": "proved",
   "theorems": [
    "Bartz.C79_single_precision",
    "Bartz.ieee_add",
    "Bartz.ieee_neg",
    "Bartz.ieee_sub",
    "Bartz.ieee_mul",
    "Bartz.ieee_div",
    "Bartz.ieee_sqrt",
    "Bartz.ieee_natCast",
    "Bartz.ieee_fma",
    "Bartz.ieee_lt",
    "Bartz.ieee_le",
    "Bartz.ieee_result_unique"
   ],
   "note": "IEEE 754 binary32 without flush to zero of subnormal numbers. The theorems ieee_... prove, for all operands, that the arithmetic of the model, used in all the claims about single precision, satisfies the requirements of the standard, written down independently in Spec/Ieee with real numbers, and that the requirements determine the results."
  },
  {
   "property": "C80",
   "status": "partial",
   "theorems": [
    "Bartz.C80_cpu_partial",
    "Bartz.C80_cpu_violation",
    "Bartz.C80_cpu_violation_accurate",
    "Bartz.exists_accurateLog"
   ],
   "note": "False for the code: counterexample with the default settings of gbart (C80_cpu_violation), for any implementation of the logarithms which is not grossly wrong. C80_cpu_partial: the invariants hold along the runs in which the leaf chosen by choose_leaf is growable, for any order of the sums. Missing: that this is always the case, which is what fails."
  },
  {
   "property": "C81",
   "status": "partial",
   "theorems": [
    "Bartz.C81_lossless_partial",
    "Bartz.C81_merged_partial",
    "Bartz.C81_adjacent",
    "Bartz.C81_overflow",
    "Bartz.midpoint_ne_nan"
   ],
   "note": "False for the code: C81_adjacent (adjacent floating point numbers), C81_overflow (values above 2 ** 127). The partial theorems cover all predictors with absolute values below 2 ** 127: C81_lossless_partial if no two values are adjacent floating point numbers, C81_merged_partial in general (only adjacent ones may be merged; binning monotone). Missing: the cases in which the property fails."
  },
  {
   "property": "C82",
   "status": "partial",
   "theorems": [
    "Bartz.C82_uniform_partial",
    "Bartz.C82_bins",
    "Bartz.C82_unsorted",
    "Bartz.C82_constant",
    "Bartz.grid_ne_nan"
   ],
   "note": "False for the code: C82_unsorted (predictor 10000000, 10000006, 10000092, 10000100 with 256 bins), C82_constant (constant predictor 2023 with 101 bins), in all ways of fusing the operations. C82_uniform_partial: the whole property if num_bins * M <= range * 2 ** 20, with M the maximum absolute value of the predictor, 2 ** -126 <= M <= 2 ** 125. C82_bins: what holds without conditions (monotone binning, each value within the two cutpoints of its bin). Missing: the cases with small range."
  },
  {
   "property": "C83",
   "status": "proved",
   "theorems": [
    "Bartz.C83_residuals",
    "Bartz.C83_left",
    "Bartz.C83_factor",
    "Bartz.C83_not_exact"
   ],
   "note": "The bounds Y and L on the data and on the values of the trees, and the absence of overflow, are hypotheses. C83_residuals: any order of the sums in jnp.cumsum, along the runs in which choose_leaf chooses growable leaves; C83_left: all runs, if jnp.cumsum adds from the left. C83_not_exact: the residuals are not exact in general. The subtraction and the sum are assumed to be rounded separately, as written in the code."
  },
  {
   "property": "C84",
   "status": "proved",
   "theorems": [
    "Bartz.C84_left",
    "Bartz.C84_cpu",
    "Bartz.C84_choose_leaf"
   ],
   "note": "The 23 random bits are assumed to be uniformly distributed (Spec.bitsProb counts them). The weights have values given by HasValue, so they are finite. C84_choose_leaf assumes that the probabilities that a node is nonterminal are at least 2 ** -125, just above the smallest normal number required by ValidArgs."
  },
  {
   "property": "C85",
   "status": "partial",
   "theorems": [
    "Bartz.C85_overflow",
    "Bartz.C85_not",
    "Bartz.C85_partial"
   ],
   "note": "False for the code: C85_overflow, in single precision, for any implementation of jnp.cumsum adding from the left and any logarithm with the precision RoughLog. C85_partial: with a minimum number of datapoints per leaf (always the case in gbart), or without the largest number of cutpoints.; at least one of the theorems assumes FloatLaws, which holds in exact arithmetic, and in single precision with cumulative sums done from left to right (C79), but not with the order used by JAX on CPU (C80)"
  },
  {
   "property": "C86",
   "status": "partial",
   "theorems": [
    "Bartz.C86_iff",
    "Bartz.C86_invariant",
    "Bartz.C86_constant",
    "Bartz.C86_partial",
    "Bartz.C86_not",
    "Bartz.C86_default"
   ],
   "note": "False for the code: C86_not. C86_iff characterizes when it is true; C86_partial: without predictors with the largest number of cutpoints or no cutpoints. C86_constant: it is false with any predictor without cutpoints, unless only trees without decision nodes are possible. C86_default: the largest number of cutpoints is used with the default settings of gbart."
  },
  {
   "property": "C87",
   "status": "proved",
   "theorems": [
    "Bartz.C87_posterior",
    "Bartz.C87_predictions",
    "Bartz.C87_gbart"
   ],
   "note": "in exact arithmetic; lstsq is assumed to return the minimum of the residual sum of squares and the rank"
  },
  {
   "property": "C88",
   "status": "proved",
   "theorems": [
    "Bartz.C88_fit",
    "Bartz.C88_pointwise"
   ],
   "note": "at least one of the theorems assumes FloatLaws, which holds in exact arithmetic, and in single precision with cumulative sums done from left to right (C79), but not with the order used by JAX on CPU (C80)"
  },
  {
   "property": "C89",
   "status": "proved",
   "theorems": [
    "Bartz.C89_sum",
    "Bartz.C89_predict",
    "Bartz.C89_residuals",
    "Bartz.C89_compare_resid"
   ],
   "note": "C89_sum and C89_predict are about any order of the sum; C89_compare_resid is for the order in the model, C89_residuals for any order"
  },
  {
   "property": "C90",
   "status": "proved",
   "theorems": [
    "Bartz.C90_range",
    "Bartz.C90_randint",
    "Bartz.C90_large",
    "Bartz.C90_choose_variable",
    "Bartz.C90_choose_split",
    "Bartz.C90_randint_masked",
    "Bartz.C90_state"
   ],
   "note": "C90_state is in exact arithmetic. The random bits are assumed uniform: threefry is not modelled"
  },
  {
   "property": "C91",
   "status": "proved",
   "theorems": [
    "Bartz.C91_quantilize",
    "Bartz.C91_quantilized",
    "Bartz.C91_bin_batches",
    "Bartz.C91_bin",
    "Bartz.C91_evaluate_trees",
    "Bartz.C91_evaluate_trace",
    "Bartz.C91_run"
   ],
   "note": "at least one of the theorems assumes FloatLaws, which holds in exact arithmetic, and in single precision with cumulative sums done from left to right (C79), but not with the order used by JAX on CPU (C80)"
  },
  {
   "property": "C92",
   "status": "proved",
   "theorems": [
    "Bartz.C92_leaves",
    "Bartz.C92_left",
    "Bartz.C92_sigma",
    "Bartz.C92_any_order",
    "Bartz.C92_total",
    "Bartz.C92_draw"
   ],
   "note": "C92_leaves assumes that choose_leaf chose growable leaves, see C80; C92_left has no such assumption, with cumsum from the left. C92_any_order, C92_total, C92_draw are about the single operations, in any order"
  },
  {
   "property": "C93",
   "status": "proved",
   "theorems": [
    "Bartz.C93_likelihood",
    "Bartz.C93_accept",
    "Bartz.C93_trans",
    "Bartz.C93_probability"
   ],
   "note": "the accuracy of log and log1p of the platform is a hypothesis; C93_likelihood and C93_accept assume that choose_leaf chose growable leaves, see C80; C93_accept takes as exact the log ratio of prior and transition probabilities saved in the state, whose error is in C93_trans"
  },
  {
   "property": "C94",
   "status": "partial",
   "theorems": [
    "Bartz.C94_quantiles_partial",
    "Bartz.C94_last_partial",
    "Bartz.C94_test_partial",
    "Bartz.C94_not",
    "Bartz.C94_ties"
   ],
   "note": "the property does not hold with usequants=False, which is the default (C94_not), and the position of the nans depends on the repeated values (C94_ties); C94_quantiles_partial assumes that there are enough bins"
  },
  {
   "property": "C95",
   "status": "proved",
   "theorems": [
    "Bartz.C95_normal",
    "Bartz.C95_correlation",
    "Bartz.C95_no_data",
    "Bartz.C95_gbart"
   ],
   "note": "in exact arithmetic; the a priori distribution is that whose posterior is sampled by the MCMC, see C68, C70"
  },
  {
   "property": "C96",
   "status": "partial",
   "theorems": [
    "Bartz.C96_normalized_partial",
    "Bartz.C96_nonterminal_partial",
    "Bartz.C96_node_partial",
    "Bartz.C96_rule_partial",
    "Bartz.C96_gbart_partial",
    "Bartz.C96_at_most_partial",
    "Bartz.C96_node_at_most_partial",
    "Bartz.C96_gbart_at_most_partial",
    "Bartz.C96_not",
    "Bartz.C96_not_gbart"
   ],
   "note": "False for the code with a minimum number of datapoints per leaf, as by default: C96_not, C96_not_gbart. The theorems C96_..at_most.. prove that the stated probability is an upper bound with any settings. The other theorems prove the equality without the minimum, with at least as many predictors with cutpoints as levels of the tree. Missing: the cases in which it fails"
  },
  {
   "property": "C97",
   "status": "proved",
   "theorems": [
    "Bartz.C97_grow_move"
   ],
   "note": "for events that require that there are decision rules left for the leaf; independence of the random bits obtained from different keys is a hypothesis"
  },
  {
   "property": "C98",
   "status": "proved",
   "theorems": [
    "Bartz.C98_count",
    "Bartz.C98_compute_count_trees",
    "Bartz.C98_thresholds",
    "Bartz.C98_masks",
    "Bartz.C98_step"
   ],
   "note": "a minimum number of datapoints per leaf of 2**30 makes a signed comparison overflow (example); at least one of the theorems assumes FloatLaws, which holds in exact arithmetic, and in single precision with cumulative sums done from left to right (C79), but not with the order used by JAX on CPU (C80)"
  },
  {
   "property": "C99",
   "status": "proved",
   "theorems": [
    "Bartz.C99_move"
   ],
   "note": "for events that require that there are decision rules left for the leaf to grow; independence of the random bits obtained from different keys is a hypothesis"
  },
  {
   "property": "C100",
   "status": "proved",
   "theorems": [
    "Bartz.C100_update"
   ],
   "note": "the accuracy of the log Metropolis-Hastings ratio is a hypothesis (bounded by C93); independence of the random bits obtained from different keys is a hypothesis"
  },
  {
   "property": "C101",
   "status": "proved",
   "theorems": [
    "Bartz.C101_balance",
    "Bartz.C101_likelihood"
   ],
   "note": "the accuracy of the log likelihood ratio is a hypothesis (bounded by C93); independence of the random bits obtained from different keys is a hypothesis"
  },
  {
   "property": "C102",
   "status": "proved",
   "theorems": [
    "Bartz.C102_power",
    "Bartz.C102_predictions",
    "Bartz.ExU.C102_three"
   ],
   "note": "the conditions on overflow and underflow are in the structure UnitRange; that jnp.linalg.lstsq is exactly subject to the change of unit is a hypothesis, used only if neither sigest nor lamda are given"
  },
  {
   "property": "C103",
   "status": "proved",
   "theorems": [
    "Bartz.C103_reflect",
    "Bartz.C103_posterior",
    "Bartz.C103_gbart",
    "Bartz.C103_law",
    "Bartz.C103_run_law"
   ],
   "note": "in exact arithmetic; that jnp.linalg.lstsq gives the least squares residuals is a hypothesis (LawfulLstsq)"
  },
  {
   "property": "C104",
   "status": "proved",
   "theorems": [
    "Bartz.C104_posterior",
    "Bartz.C104_average",
    "Bartz.C104_frequency",
    "Bartz.C104_contribution"
   ],
   "note": "in exact arithmetic; a minimum number of datapoints per leaf is required, as in C72"
  },
  {
   "property": "C105",
   "status": "proved",
   "theorems": [
    "Bartz.C105_gbart",
    "Bartz.C105_negate",
    "Bartz.C105_run",
    "Bartz.C105_step",
    "Bartz.C105_zeros",
    "Bartz.C105_value",
    "Bartz.C105_inspect"
   ],
   "note": "in IEEE single precision; the additions are done in a fixed order, the same in the two runs; the least squares solver of the library is assumed to give the same results with opposite responses (EvenLstsq)"
  }
 ]
}