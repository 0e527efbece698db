{"id": "C01", "title": "Tree traversal finds the leaf the point belongs to", "statement": "For any tree arrays of size 2**(d-1) and any point, grove.traverse_tree returns the index of a leaf of the tree, all the decisions on the path from the root to it are satisfied by the point (left iff x < split), and no other leaf has this property.", "quantifier": "every depth d, every content of the var/split arrays, every point", "why_tests_cant": "the number of trees is exponential in 2**d and the loop has a fixed trip count that must be enough for the deepest tree; tests evaluate a handful of trees.", "anchors": ["src/bartz/grove.py:traverse_tree", "src/bartz/grove.py:tree_depth"]}
{"id": "C02", "title": "The leaves of a tree partition the predictor space", "statement": "Every point falls into exactly one leaf of a tree, so the numbers of datapoints in the leaves of a tree always add up to the number of datapoints.", "quantifier": "every tree, every dataset", "why_tests_cant": "it is a statement about all points of the space at once.", "anchors": ["src/bartz/grove.py:traverse_tree", "src/bartz/grove.py:is_actual_leaf", "src/bartz/debug.py:points_per_leaf_distr"]}
{"id": "C03", "title": "Forest evaluation is the sum of the tree functions", "statement": "grove.evaluate_forest(X, ...) at point j equals the sum over the trees of the value stored in the leaf the point falls into, where the trees are read from the arrays as recursive decision trees as documented at the top of grove.py; with sum_trees=False it returns the individual terms.", "quantifier": "every forest, every depth, every matrix of points", "why_tests_cant": "needs all trees and points.", "anchors": ["src/bartz/grove.py:evaluate_forest", "src/bartz/grove.py:traverse_forest"]}
{"id": "C04", "title": "is_actual_leaf marks exactly the leaves", "statement": "For every valid tree, grove.is_actual_leaf marks index i iff i is a node reachable from the root and is a leaf; with add_bottom_level the bottom level is included, without it exactly the non-bottom leaves are marked.", "quantifier": "every depth, every valid split array, every index", "why_tests_cant": "exponentially many trees.", "anchors": ["src/bartz/grove.py:is_actual_leaf"]}
{"id": "C05", "title": "is_leaves_parent marks exactly the prunable nodes", "statement": "For every valid tree, grove.is_leaves_parent marks index i iff i is a decision node of the tree whose two children are both leaves.", "quantifier": "every depth, every valid split array, every index", "why_tests_cant": "exponentially many trees; boundary between the last stored level and the bottom level.", "anchors": ["src/bartz/grove.py:is_leaves_parent"]}
{"id": "C06", "title": "tree_depths, tree_depth and make_tree agree on depths", "statement": "tree_depths(n)[i] is the number of steps from the root (index 1) to node i via i -> i//2, for all 0 < i < n, element 0 is 0; tree_depth(make_tree(d)) == d and make_tree(d) is a valid tree made of the root only.", "quantifier": "every length n (power of two or not), every index, every depth", "why_tests_cant": "unbounded sizes.", "anchors": ["src/bartz/grove.py:tree_depths", "src/bartz/grove.py:tree_depth", "src/bartz/grove.py:make_tree"]}
{"id": "C07", "title": "A tree can be pruned iff it is not just a root", "statement": "In every valid tree the number of leaves is the number of decision nodes plus one, and there is at least one node that can be pruned iff the root is a decision node (the code tests the latter to decide the former).", "quantifier": "every valid tree of any depth", "why_tests_cant": "exponentially many trees; the code relies on the equivalence when deciding whether prune is allowed.", "anchors": ["src/bartz/mcmcstep.py:prune_move", "src/bartz/mcmcstep.py:choose_leaf_parent", "src/bartz/grove.py:is_leaves_parent"]}
{"id": "C08", "title": "minimal_unsigned_dtype is the smallest type that fits", "statement": "For every max_value < 2**64 the returned unsigned type can represent max_value, and no smaller unsigned type can.", "quantifier": "every integer max_value", "why_tests_cant": "the domain is unbounded; off-by-one at powers of two.", "anchors": ["src/bartz/jaxext.py:minimal_unsigned_dtype"]}
{"id": "C09", "title": "jaxext.unique returns the sorted unique values, padded", "statement": "unique(x, size, fill_value) returns the sorted distinct values of x truncated/right-padded with fill_value to length size, together with the number of used values.", "quantifier": "every array x (any length, any multiplicities), every size, every fill value", "why_tests_cant": "all lengths and multiplicity patterns. (The code violates it when size < len(x) and x has repeated values: the input, not the output, is truncated.)", "anchors": ["src/bartz/jaxext.py:unique"]}
{"id": "C10", "title": "autobatch is transparent", "statement": "autobatch(func, max_io_nbytes, in_axes, out_axes)(*args) equals func(*args) for every function that acts independently along the batched axes, whatever the memory limit, the axes, and the number and shapes of the arguments, including non-batched ones. Whatever the function, when no exception is raised the results are as many as those of the function, with the same shapes and types.", "quantifier": "every batch-compatible function, every number and shape of arguments, every axes choice, every memory limit", "why_tests_cant": "number of batches and layout depend on sizes; tests try a few shapes.", "anchors": ["src/bartz/jaxext.py:autobatch"]}
{"id": "C11", "title": "autobatch never trips its own assertions and respects the memory limit", "statement": "The number of batches divides the batched size, is between 1 and max(1,size), and each batch takes at most max_io_nbytes bytes unless the batches already consist of one element each (in which case and only then the warning is emitted).", "quantifier": "every size, every number of bytes per element, every limit > 0", "why_tests_cant": "arithmetic over all integers (divisor search with two search directions).", "anchors": ["src/bartz/jaxext.py:autobatch"]}
{"id": "C12", "title": "Binning contract, and binned decisions are raw threshold decisions", "statement": "bin_predictors maps x to bin i iff splits[i-1] < x <= splits[i]; hence it is monotone, and a decision \"bin >= s\" with 1 <= s <= len(splits) is the same as \"x > splits[s-1]\".", "quantifier": "every sorted row of splits, every x, every s", "why_tests_cant": "all values including ties with the boundaries and outside of the range.", "anchors": ["src/bartz/prepcovars.py:bin_predictors", "src/bartz/grove.py:traverse_tree"]}
{"id": "C13", "title": "Quantile binning is lossless when there are enough bins", "statement": "If a predictor has at most max_bins distinct values, quantilized_splits_from_matrix yields one cutpoint between each pair of consecutive distinct values (and padding after), and binning the training values with them gives their rank among the distinct values.", "quantifier": "every predictor row with repeated values in any order, every max_bins", "why_tests_cant": "all lengths, orders and multiplicities.", "anchors": ["src/bartz/prepcovars.py:quantilized_splits_from_matrix", "src/bartz/prepcovars.py:bin_predictors", "src/bartz/jaxext.py:unique"]}
{"id": "C14", "title": "Quantile binning with too many distinct values is balanced", "statement": "If a predictor has more than max_bins distinct values, exactly max_bins-1 cutpoints are returned, strictly increasing, each between two consecutive distinct values, and the numbers of distinct values in any two bins differ by at most 2 (they are all within 1 of the ideal fractional size).", "quantifier": "every number of distinct values and of bins", "why_tests_cant": "rounding of the index grid for all pairs of integers.", "anchors": ["src/bartz/prepcovars.py:quantilized_splits_from_matrix"]}
{"id": "C15", "title": "Integer midpoints do not overflow", "statement": "For integer predictors of any bit width, the cutpoint computed with wrap-around arithmetic between two values a < b is floor((a+b)/2), thus a <= cut < b, even when b - a overflows the signed type. With 64 bit signed integers, which are converted to floating point, the midpoint is right up to 2**53, and its error is at most 3072 in any case.", "quantifier": "every bit width, every a < b representable", "why_tests_cant": "2**64 pairs for 32 bit already.", "anchors": ["src/bartz/prepcovars.py:_quantilized_splits_from_matrix", "src/bartz/jaxext.py:ensure_unsigned"]}
{"id": "C16", "title": "Uniform grid contract", "statement": "uniform_splits_from_matrix returns num_bins-1 equally spaced cutpoints strictly between the minimum and maximum of the predictor (when they differ), max_split = num_bins-1, the minimum falls in the first bin and the maximum in the last one. An empty predictor row is an error.", "quantifier": "every predictor row, every num_bins >= 1", "why_tests_cant": "all data and grid sizes.", "anchors": ["src/bartz/prepcovars.py:uniform_splits_from_matrix"]}
{"id": "C17", "title": "Binned predictors stay within 0..max_split and within their type", "statement": "With the cutpoints from quantilized_splits_from_matrix, any value of the predictor type (training or test, even the largest one) is binned to an integer in 0..max_split of that predictor; with either method the bin fits the small unsigned integer type chosen for the output.", "quantifier": "every training row, every test value", "why_tests_cant": "the padding with the maximum value must interact correctly with every x including the maximum itself.", "anchors": ["src/bartz/prepcovars.py:bin_predictors", "src/bartz/prepcovars.py:quantilized_splits_from_matrix", "src/bartz/jaxext.py:huge_value"]}
{"id": "C18", "title": "max_split counts the cutpoints of each predictor", "statement": "max_split[i] is the number of actually used cutpoints in row i, hence never larger than the row length, for any shape of X.", "quantifier": "every shape of X including n=0, every max_bins", "why_tests_cant": "corner cases of all shapes. (The code violates it for n == 0: it returns 255.)", "anchors": ["src/bartz/prepcovars.py:quantilized_splits_from_matrix"]}
{"id": "C19", "title": "The MCMC only ever produces valid trees", "statement": "In every state reachable with init and any number of steps, all arrays of each tree have the documented sizes, the unused 0-th entries are zero, and every decision node other than the root has a decision node as parent (the checks of debug.check_tree about structure pass).", "quantifier": "every dataset, every configuration, every random stream, every number of steps", "why_tests_cant": "unbounded histories and random choices; tests run 100 iterations with one seed.", "anchors": ["src/bartz/mcmcstep.py:init", "src/bartz/mcmcstep.py:step", "src/bartz/debug.py:check_tree", "src/bartz/BART.py:_check_trees"]}
{"id": "C20", "title": "The cached leaf indices are always those obtained by traversing the trees", "statement": "In every reachable state leaf_indices == traverse_forest(X, var_trees, split_trees), even though steps only update them incrementally and var_trees is overwritten also when a move is rejected.", "quantifier": "every dataset, configuration, random stream, number of steps", "why_tests_cant": "unbounded histories.", "anchors": ["src/bartz/mcmcstep.py:apply_grow_to_indices", "src/bartz/mcmcstep.py:apply_moves_to_leaf_indices", "src/bartz/mcmcstep.py:apply_moves_to_split_trees", "src/bartz/mcmcstep.py:step"]}
{"id": "C21", "title": "The residuals are always data minus forest", "statement": "In every reachable state resid == y - evaluate_forest(X, leaf_trees, var_trees, split_trees), in exact arithmetic, although residuals and leaves are only updated incrementally.", "quantifier": "every dataset, configuration, random stream, number of steps", "why_tests_cant": "unbounded histories; test_residuals_accuracy checks one run.", "anchors": ["src/bartz/mcmcstep.py:accept_move_and_sample_leaves", "src/bartz/BART.py:_compare_resid"]}
{"id": "C22", "title": "No leaf ever has less than min_points_per_leaf datapoints", "statement": "In every reachable state, each leaf of each tree contains at least min_points_per_leaf datapoints, unless the tree is just a root; so it contains either all n or at most n - min_points_per_leaf.", "quantifier": "every dataset, min_points_per_leaf, random stream, number of steps", "why_tests_cant": "unbounded histories.", "anchors": ["src/bartz/mcmcstep.py:accept_move_and_sample_leaves", "src/bartz/mcmcstep.py:growable_leaves"]}
{"id": "C23", "title": "The growable leaves are exactly those with room and enough datapoints", "statement": "In every reachable state the leaves proposed for growth are exactly the non-bottom leaves with at least twice min_points_per_leaf datapoints (all the non-bottom leaves if the option is not used); at such a leaf the flag is recomputed correctly after accepted and rejected grow and prune moves.", "quantifier": "every reachable state, every leaf", "why_tests_cant": "unbounded histories; the cached flags of non-leaves are stale and must not matter.", "anchors": ["src/bartz/mcmcstep.py:growable_leaves", "src/bartz/mcmcstep.py:accept_moves_parallel_stage", "src/bartz/mcmcstep.py:compute_count_trees"]}
{"id": "C24", "title": "Masked random integers are uniform over the mask", "statement": "randint_masked maps the underlying uniform integer one to one onto the indices where the mask is True; if there is none it returns the mask length.", "quantifier": "every mask", "why_tests_cant": "exponentially many masks; distributional claim.", "anchors": ["src/bartz/mcmcstep.py:randint_masked"]}
{"id": "C25", "title": "Excluding random integers are uniform over the allowed values", "statement": "randint_exclude maps the underlying uniform integer one to one onto [0, sup) minus the excluded values, and returns sup if everything is excluded.", "quantifier": "every sup, every array of excluded values with repetitions and out of range values", "why_tests_cant": "exponentially many sets; distributional claim. (The last part is violated by the code: it may return more than sup.)", "anchors": ["src/bartz/mcmcstep.py:randint_exclude"]}
{"id": "C26", "title": "categorical samples index i with probability proportional to its weight", "statement": "The set of uniform variates mapped to index i by categorical has measure proportional to the weight of i, zero-weight indices are never returned, and if all the weights are zero the length is returned.", "quantifier": "every vector of nonnegative weights", "why_tests_cant": "distributional claim over all weight vectors.", "anchors": ["src/bartz/mcmcstep.py:categorical", "src/bartz/mcmcstep.py:choose_leaf"]}
{"id": "C27", "title": "The allowed split range is exactly the set of non-redundant splits", "statement": "For a node of a valid tree and a variable v, split_range returns [l, r) such that s is in it iff among the predictor values 0..max_split[v] compatible with the decisions on v in the ancestors there is one that goes left and one that goes right of s.", "quantifier": "every tree, node, variable", "why_tests_cant": "exponentially many trees. (The code violates it when max_split[v] is the maximum of the integer type of the cutpoint indices, like with the default numcut=255 of gbart: the lower end of the range wraps around to 0 in the right descendants of a node split at the last cutpoint.)", "anchors": ["src/bartz/mcmcstep.py:split_range", "src/bartz/mcmcstep.py:ancestor_variables"]}
{"id": "C28", "title": "New decision variables always have a non-empty split range", "statement": "The variable proposed for a new decision node is uniform among the variables with a non-empty split range at that node.", "quantifier": "every tree, node, max_split vector", "why_tests_cant": "exponentially many trees. (The code violates it if some predictor has no cutpoints at all, max_split = 0: such variables are not excluded; and also because of the overflow described in C27.)", "anchors": ["src/bartz/mcmcstep.py:choose_variable", "src/bartz/mcmcstep.py:fully_used_variables", "src/bartz/mcmcstep.py:ancestor_variables"]}
{"id": "C29", "title": "All decision rules in the forest are meaningful", "statement": "In every reachable state every decision node has var < p and 1 <= split <= max_split[var], and no decision is redundant given its ancestors, provided either that all predictors have cutpoints and enough room, or that min_points_per_leaf >= 1.", "quantifier": "every reachable state", "why_tests_cant": "unbounded histories. (Without min_points_per_leaf the unrestricted claim is violated by the code.)", "anchors": ["src/bartz/mcmcstep.py:grow_move", "src/bartz/mcmcstep.py:choose_split", "src/bartz/mcmcstep.py:choose_variable", "src/bartz/mcmcstep.py:accept_move_and_sample_leaves"]}
{"id": "C30", "title": "The Metropolis-Hastings transition/prior ratio is the exact one, and grow and prune are mutually inverse", "statement": "The ratio computed for a grow move equals prior(new)/prior(old) * P(propose the reverse prune)/P(propose this grow), with the BART tree prior and the actual proposal probabilities of the sampler; the ratio computed for the reverse prune move, started from the grown tree, is exactly its reciprocal. If some max_split[v] is the largest value of its integer type, the number of variables in the prior counts v also where only its highest value is left; likewise a predictor without cutpoints is counted where it does not appear in the ancestors, i.e., everywhere (see C28); otherwise the prior is the standard one.", "quantifier": "every valid tree with up to date datapoint counts, every growable leaf, rule, and min_points setting", "why_tests_cant": "the MCMC targets the right posterior only if this holds for all pairs of trees; a wrong factor is invisible to unit tests.", "anchors": ["src/bartz/mcmcstep.py:compute_partial_ratio", "src/bartz/mcmcstep.py:compute_p_prune", "src/bartz/mcmcstep.py:complete_ratio", "src/bartz/mcmcstep.py:choose_leaf", "src/bartz/mcmcstep.py:choose_leaf_parent", "src/bartz/mcmcstep.py:sample_moves"]}
{"id": "C31", "title": "The likelihood ratio is the ratio of integrated likelihoods", "statement": "compute_likelihood_ratio, with its precomputed terms, equals the log ratio of the probability density of the datapoints of the node under separate left/right normal leaf means vs. under a common mean, integrating the means over their N(0, 1/ntree) prior with noise variance sigma2.", "quantifier": "every residuals vector, number of datapoints, noise variance, number of trees", "why_tests_cant": "identity over the reals.", "anchors": ["src/bartz/mcmcstep.py:precompute_likelihood_terms", "src/bartz/mcmcstep.py:compute_likelihood_ratio"]}
{"id": "C32", "title": "Leaves are sampled from their exact conditional posterior", "statement": "Given standard normal variates, the new leaf values are mean + sd * z, with the mean and variance of the normal posterior of the leaf value given the partial residuals (data minus the other trees) of the datapoints in that leaf.", "quantifier": "every reachable state, tree, leaf, variate", "why_tests_cant": "identity over the reals for all states.", "anchors": ["src/bartz/mcmcstep.py:precompute_leaf_terms", "src/bartz/mcmcstep.py:accept_move_and_sample_leaves"]}
{"id": "C33", "title": "The noise variance is sampled from its exact conditional posterior", "statement": "Given a Gamma(alpha) variate, sigma2 = beta / variate with alpha and beta the parameters of the inverse gamma posterior given the residuals.", "quantifier": "every state", "why_tests_cant": "identity over the reals for all states.", "anchors": ["src/bartz/mcmcstep.py:sample_sigma"]}
{"id": "C34", "title": "Proposal and acceptance counters are consistent", "statement": "After each step 0 <= grow_acc_count <= grow_prop_count, 0 <= prune_acc_count <= prune_prop_count, grow_prop_count + prune_prop_count <= num_trees, and the counters refer to that step only: the accepted counts equal the numbers of trees that gained/lost one decision node.", "quantifier": "every reachable state", "why_tests_cant": "unbounded histories.", "anchors": ["src/bartz/mcmcstep.py:accept_moves_parallel_stage", "src/bartz/mcmcstep.py:accept_moves_final_stage"]}
{"id": "C35", "title": "Batch sizes do not change results", "statement": "Datapoint counts per leaf do not depend on count_batch_size, and residual sums per leaf do not depend on resid_batch_size (in exact arithmetic); hence the MCMC output is the same for any batch size setting, and the automatic choice is always a valid positive integer (or no batching).", "quantifier": "every batch size >= 1 or None, every n including 0", "why_tests_cant": "all sizes and remainders.", "anchors": ["src/bartz/mcmcstep.py:_aggregate_batched_alltrees", "src/bartz/mcmcstep.py:_aggregate_batched_onetree", "src/bartz/mcmcstep.py:_aggregate_scatter", "src/bartz/mcmcstep.py:_choose_suffstat_batch_size"]}
{"id": "C36", "title": "A step changes each tree by at most one node", "statement": "In one step each tree either keeps its decisions and its assignment of datapoints to leaves (move rejected or impossible), or one non-bottom leaf becomes a decision node with two leaf children (accepted grow), or one decision node with two leaf children becomes a leaf (accepted prune).", "quantifier": "every reachable state, every random stream", "why_tests_cant": "all states and random outcomes.", "anchors": ["src/bartz/mcmcstep.py:accept_moves_final_stage", "src/bartz/mcmcstep.py:apply_moves_to_split_trees"]}
{"id": "C37", "title": "Steps preserve configuration and shapes", "statement": "No step changes X, y, max_split, the prior parameters or options, and all array shapes stay as set by init.", "quantifier": "every reachable state", "why_tests_cant": "unbounded histories.", "anchors": ["src/bartz/mcmcstep.py:step", "src/bartz/mcmcstep.py:init"]}
{"id": "C38", "title": "The noise variance is always positive", "statement": "sigma2 is positive in every reachable state if the prior scale is positive, or if the residuals are non zero; init replaces a non-finite or non-positive initial value by 1.", "quantifier": "every configuration, history", "why_tests_cant": "unbounded histories.", "anchors": ["src/bartz/mcmcstep.py:init", "src/bartz/mcmcstep.py:sample_sigma"]}
{"id": "C39", "title": "With too few datapoints the trees never grow", "statement": "If n < 2 * min_points_per_leaf all trees remain a root forever, so predictions are the same at all points.", "quantifier": "every dataset with few points, every history", "why_tests_cant": "unbounded histories; test_few_datapoints runs one.", "anchors": ["src/bartz/mcmcstep.py:growable_leaves", "src/bartz/mcmcstep.py:init", "src/bartz/BART.py:gbart"]}
{"id": "C40", "title": "No random key is ever reused", "statement": "In a run of any length, all the random draws (over trees, sites within a tree update, and iterations) use different keys, none of which is ever split as well; so the draws can take any combination of values.", "quantifier": "every number of trees and iterations", "why_tests_cant": "key reuse causes silent correlations, not failures.", "anchors": ["src/bartz/mcmcstep.py:step", "src/bartz/mcmcstep.py:sample_trees", "src/bartz/mcmcstep.py:sample_moves", "src/bartz/mcmcstep.py:_sample_moves_vmap_trees", "src/bartz/mcmcstep.py:grow_move", "src/bartz/mcmcloop.py:run_mcmc"]}
{"id": "C41", "title": "Steps do not modify their input state", "statement": "Calling step (outside of jit) leaves the input dictionary, including nested ones, unmodified, as stated in the module documentation.", "quantifier": "every state", "why_tests_cant": "aliasing; tests do not compare the input before and after. (The code violates it when save_ratios is on.)", "anchors": ["src/bartz/mcmcstep.py:accept_moves_sequential_stage", "src/bartz/mcmcstep.py:step"]}
{"id": "C42", "title": "Sequential guarantee: traces are subsequences of one Markov chain", "statement": "run_mcmc performs n_burn + n_save*n_skip steps; the k-th saved sample is the state after n_burn + (k+1)*n_skip steps of a chain that depends only on the initial state and the key. Hence moving iterations from burn-in to main, or changing the thinning, only changes which states of the same chain are saved.", "quantifier": "every n_burn, n_save, n_skip >= 0, key, initial state", "why_tests_cant": "all combinations of lengths including zero.", "anchors": ["src/bartz/mcmcloop.py:run_mcmc"]}
{"id": "C43", "title": "The callback is called once per iteration with the right counters", "statement": "The callback is invoked exactly once per iteration, with i_total = 0, 1, 2, ... in order, burnin true exactly for the first n_burn calls, i_skip the number of iterations since the last save, and the state just computed; the default callback prints exactly at the iterations i_total+1 that are multiples of printevery.", "quantifier": "every n_burn, n_save, n_skip, printevery", "why_tests_cant": "all combinations.", "anchors": ["src/bartz/mcmcloop.py:run_mcmc", "src/bartz/mcmcloop.py:make_simple_print_callback"]}
{"id": "C44", "title": "Traces contain the documented fields", "statement": "burnin_trace contains sigma2 and the counters (and ratios if saved), main_trace in addition the tree arrays, whatever the number of iterations, including zero.", "quantifier": "every n_burn, n_save", "why_tests_cant": "tests do not look at the empty case. (The code violates it: with zero iterations the trace has all the fields of the state.)", "anchors": ["src/bartz/mcmcloop.py:run_mcmc"]}
{"id": "C45", "title": "Trace evaluation evaluates each saved forest", "statement": "evaluate_trace(trace, X)[k] is the sum of tree functions of the k-th saved forest at the columns of X, independently of how the trees are batched.", "quantifier": "every trace, X, memory limit", "why_tests_cant": "all sizes.", "anchors": ["src/bartz/mcmcloop.py:evaluate_trace"]}
{"id": "C46", "title": "Predicting at the training points gives yhat_train", "statement": "predict(x_train) == yhat_train, and it equals offset + scale * (y - resid) for the last saved state.", "quantifier": "every dataset and configuration", "why_tests_cant": "unbounded.", "anchors": ["src/bartz/BART.py:gbart.predict", "src/bartz/BART.py:gbart.yhat_train"]}
{"id": "C47", "title": "Affine equivariance in the response", "statement": "Replacing y_train by a*y_train + b with a > 0 changes offset, scale, sigest, lamda to a*offset+b, a*scale, a*sigest, a^2*lamda, feeds the MCMC with the identical initial state, and so changes predictions to a*yhat + b and sigma to a*sigma (defaults for offset and lamda, exact arithmetic).", "quantifier": "every dataset with at least two distinct responses (with less than two datapoints the scale is fixed to 1 by design), a > 0, b, seed, number of iterations", "why_tests_cant": "unbounded; the unit test uses one pair a, b with tolerance.", "anchors": ["src/bartz/BART.py:gbart", "src/bartz/BART.py:_process_noise_variance_settings", "src/bartz/BART.py:_process_offset_settings", "src/bartz/BART.py:_process_scale_settings"]}
{"id": "C48", "title": "Settings are resolved as documented", "statement": "User-specified offset, lamda, sigest take precedence over automatic values; with less than two datapoints scale is 1 and sigest 1; with n <= p sigest^2 is the variance of the response; otherwise sigest^2 is the residual sum of squares of the linear regression with intercept over n - rank.", "quantifier": "every dataset shape, every combination of options", "why_tests_cant": "combinatorial.", "anchors": ["src/bartz/BART.py:_process_noise_variance_settings", "src/bartz/BART.py:_process_offset_settings", "src/bartz/BART.py:_process_scale_settings"]}
{"id": "C49", "title": "Output shapes", "statement": "yhat_train has shape (ndpost, n), yhat_test (ndpost, m), sigma (ndpost,), first_sigma (nskip,), for any sizes including zero.", "quantifier": "every n, m, ndpost, nskip, keepevery", "why_tests_cant": "all sizes.", "anchors": ["src/bartz/BART.py:gbart", "src/bartz/mcmcloop.py:run_mcmc", "src/bartz/mcmcloop.py:evaluate_trace"]}
{"id": "C50", "title": "check_tree and describe_error identify exactly the failing checks", "statement": "The error code returned by debug.check_tree is zero iff all the checks pass, and describe_error of it lists exactly the failed checks in order.", "quantifier": "every tree arrays, valid or not", "why_tests_cant": "all combinations.", "anchors": ["src/bartz/debug.py:check_tree", "src/bartz/debug.py:describe_error", "src/bartz/debug.py:check_stray_nodes"]}
{"id": "C51", "title": "Tree statistics are correct", "statement": "tree_actual_depth is the depth of the deepest leaf; forest_depth_distr counts trees by depth and sums to the number of trees; points_per_leaf_distr[k] is the number of leaves with exactly k datapoints.", "quantifier": "every valid tree/forest, dataset", "why_tests_cant": "all trees.", "anchors": ["src/bartz/debug.py:tree_actual_depth", "src/bartz/debug.py:forest_depth_distr", "src/bartz/debug.py:points_per_leaf_distr"]}
{"id": "C52", "title": "The small integer types never overflow", "statement": "In every reachable state and in every intermediate computation of a step, the variable indices, split indices and leaf indices fit the minimal unsigned types chosen to store them, so that the casts and shifts never wrap around, provided the proposed rule is valid.", "quantifier": "every reachable state", "why_tests_cant": "depends on sizes at the 2**8, 2**16 boundaries.", "anchors": ["src/bartz/mcmcstep.py:init", "src/bartz/mcmcstep.py:grow_move", "src/bartz/mcmcstep.py:apply_grow_to_indices", "src/bartz/mcmcstep.py:apply_moves_to_split_trees", "src/bartz/grove.py:traverse_tree"]}
{"id": "C53", "title": "print_tree shows exactly the nodes of the tree", "statement": "debug.print_tree lists each node of the tree exactly once, parents before children and left before right, and never reaches its internal assertion failure. The indices of the nodes are written in a column of fixed width. gbart._show_tree does this for any tree of any saved iteration.", "quantifier": "every tree", "why_tests_cant": "all trees.", "anchors": ["src/bartz/debug.py:print_tree", "src/bartz/BART.py:gbart._show_tree"]}
{"id": "C54", "title": "The tree update satisfies detailed balance", "statement": "Conditionally on the other trees and the noise variance, the probability of going from tree T to tree T' under the posterior and one grow/prune update equals that of going from T' to T, with acceptance probability min(1, ratio) realized by comparing log(1-u) with the log ratio. If some max_split[v] is the largest value of its integer type, the number of variables in the prior counts v also where only its highest value is left; likewise a predictor without cutpoints is counted where it does not appear in the ancestors, i.e., everywhere (see C28); otherwise the prior is the standard one.", "quantifier": "every pair of trees related by a grow move, every dataset", "why_tests_cant": "distributional claim over all pairs of trees.", "anchors": ["src/bartz/mcmcstep.py:accept_move_and_sample_leaves", "src/bartz/mcmcstep.py:sample_moves"]}
{"id": "C55", "title": "The MCMC never violates the checks of the debug module", "statement": "On all the trees of any state reachable by the MCMC, debug.check_forest returns 0, or only the bit of check_leaf_values if some leaf value is not finite.", "quantifier": "every reachable state, every configuration, dataset, seed", "why_tests_cant": "The unit tests check a few runs; the states are unboundedly many.", "anchors": ["src/bartz/debug.py:check_forest", "src/bartz/debug.py:check_trace", "src/bartz/mcmcstep.py:step"]}
{"id": "C56", "title": "The prior on the error variance has the documented quantile", "statement": "If lamda is not specified, the inverse gamma prior used by the MCMC, converted to the units of the response, assigns probability sigquant to the error standard deviation being less than sigest.", "quantifier": "every dataset, sigdf, sigquant, sigest (exact arithmetic)", "why_tests_cant": "continuous parameters.", "anchors": ["src/bartz/BART.py:gbart._process_noise_variance_settings", "src/bartz/BART.py:gbart._setup_mcmc"]}
{"id": "C57", "title": "predict rejects incompatible predictors", "statement": "predict raises instead of returning numbers if the test predictors have a different number of rows than x_train, if only one of the two is a dataframe, or if the dataframe columns differ.", "quantifier": "every dataset and configuration, every x_test", "why_tests_cant": "unbounded combinations of formats.", "anchors": ["src/bartz/BART.py:gbart.predict", "src/bartz/BART.py:gbart._process_predictor_input", "src/bartz/BART.py:gbart._check_compatible_formats"]}
{"id": "C58", "title": "The results do not depend on the number of iterations requested", "statement": "Two runs of gbart that differ only in ndpost, nskip, keepevery give identical sigma, yhat_train and predictions for the iterations in common, also when the iteration is burn-in in one and saved in the other.", "quantifier": "every pair of (nskip, ndpost, keepevery), every iteration in common, every dataset", "why_tests_cant": "relates unboundedly many pairs of runs.", "anchors": ["src/bartz/BART.py:gbart", "src/bartz/BART.py:gbart._run_mcmc"]}
{"id": "C59", "title": "With few datapoints the predictions are constant", "statement": "With less than 2*min_points_per_leaf datapoints (10 with default options) each row of predict(x) is constant, with the same value for all x.", "quantifier": "every dataset with n < 2*min_points_per_leaf, every number of iterations, every x", "why_tests_cant": "unbounded.", "anchors": ["src/bartz/BART.py:gbart", "src/bartz/BART.py:gbart.predict"]}
{"id": "C60", "title": "Inspection of depth and leaf occupancy", "statement": "_depth_distr counts the trees by depth in each saved iteration, each row summing to ntree; _points_per_leaf_distr reports zero leaves with less than min_points_per_leaf datapoints.", "quantifier": "every run of gbart", "why_tests_cant": "unbounded.", "anchors": ["src/bartz/BART.py:gbart._depth_distr", "src/bartz/BART.py:gbart._points_per_leaf_distr"]}
{"id": "C61", "title": "A fitted model passes its own checks", "statement": "_check_trees returns 0 for all trees of all saved iterations if the leaves are finite, and else only the bit of the check on leaf values; _tree_goes_bad is false everywhere if the leaves are finite.", "quantifier": "every run of gbart", "why_tests_cant": "The unit tests run the check on a few datasets.", "anchors": ["src/bartz/BART.py:gbart._check_trees", "src/bartz/BART.py:gbart._tree_goes_bad"]}
{"id": "C62", "title": "Acceptance and proposal averages", "statement": "In _avg_acc the accepted moves do not exceed the proposed ones; in _avg_prop the fractions of grow and prune have common denominator the total number of proposals, at most ntree per saved iteration. _avg_move returns the accepted moves of each type over the total number of proposals, and nan for a type of move that was never proposed.", "quantifier": "every run of gbart", "why_tests_cant": "unbounded.", "anchors": ["src/bartz/BART.py:gbart._avg_acc", "src/bartz/BART.py:gbart._avg_prop", "src/bartz/BART.py:gbart._avg_move"]}
{"id": "C63", "title": "The residuals in the final state agree with the predictions", "statement": "The two arrays returned by _compare_resid (residuals as updated through all the iterations, and as recomputed from the trees) are equal.", "quantifier": "every run of gbart (exact arithmetic)", "why_tests_cant": "unbounded number of iterations.", "anchors": ["src/bartz/BART.py:gbart._compare_resid"]}
{"id": "C64", "title": "Harmonic mean of the error variance", "statement": "_sigma_harmonic_mean returns the square root of the inverse of the expected inverse error variance, under the prior, or conditionally on the residuals of the final state; a priori it is sqrt(lamda).", "quantifier": "every run of gbart (exact arithmetic)", "why_tests_cant": "continuous parameters.", "anchors": ["src/bartz/BART.py:gbart._sigma_harmonic_mean"]}
{"id": "C65", "title": "predict accepts the columns of the training set", "statement": "predict (and the x_test argument) accepts any test predictors with the same columns as x_train: an array with the same number of rows, or a dataframe with the same column names, and returns one row of predictions per saved iteration and one column per test point.", "quantifier": "every dataset and configuration, every x_test with the same columns, in the array, polars and pandas formats", "why_tests_cant": "the existing tests never pass dataframes; acceptance depends on the identity of the column index object.", "anchors": ["src/bartz/BART.py:gbart.predict", "src/bartz/BART.py:gbart._check_compatible_formats", "src/bartz/BART.py:gbart._process_predictor_input"]}
{"id": "C66", "title": "Predictions are sums of shallow trees on the raw predictors", "statement": "For each saved iteration there are ntree decision trees on the original (not binned) predictors, with depth less than maxdepth and not depending on the test set, each node comparing one predictor with one of its cutpoints (or infinity), such that predict(x_test) = offset + scale * sum of the trees, at any test points.", "quantifier": "every dataset, configuration, random numbers, test set", "why_tests_cant": "holds for every test point simultaneously; combines binning, index arithmetic, traversal, trace storage.", "anchors": ["src/bartz/BART.py:gbart.predict", "src/bartz/prepcovars.py:bin_predictors", "src/bartz/mcmcloop.py:evaluate_trace", "src/bartz/grove.py:evaluate_forest"]}
{"id": "C67", "title": "No extrapolation", "statement": "The predictions do not change if the values of the test predictors that are outside the range of the training data are moved anywhere beyond the same end of the range, e.g. clipped to it.", "quantifier": "every dataset, configuration, random numbers, test set; if usequants=False no predictor is constant", "why_tests_cant": "continuous infinity of test points; the cutpoints must be shown to be strictly inside the range of the data for every dataset.", "anchors": ["src/bartz/BART.py:gbart.predict", "src/bartz/prepcovars.py:quantilized_splits_from_matrix", "src/bartz/prepcovars.py:uniform_splits_from_matrix"]}
{"id": "C68", "title": "The posterior distribution is invariant under a step", "statement": "Let the posterior distribution be the measure on (decision rules, leaf values, noise variance) defined by the BART prior (independent trees with the Chipman-George-McCulloch prior on the available rules and at least min_points_per_leaf datapoints per leaf, normal leaves with variance 1/num_trees, inverse gamma variance) and the normal likelihood of the data. There is a Markov kernel that gives the distribution of the parameters after mcmcstep.step given those before it, for any consistent state, and the posterior is invariant under it. The states reached from init are consistent, step keeps them consistent, and the consistent states cover the support of the posterior. If some max_split[v] is the largest value of its integer type, the number of variables in the prior counts v also where only its highest value is left; likewise a predictor without cutpoints is counted where it does not appear in the ancestors, i.e., everywhere (see C28); otherwise the prior is the standard one.", "quantifier": "every dataset, number of trees, tree size, prior settings with rules always available (ProperSettings), consistent state; all random numbers as a probability space; exact arithmetic", "why_tests_cant": "equality of measures on a space with discrete and continuous components, for every dataset and setting; a test can only compare noisy samples in a few cases, and small errors in the proposal or in the likelihood ratio are not visible.", "anchors": ["src/bartz/mcmcstep.py:step", "src/bartz/mcmcstep.py:sample_trees", "src/bartz/mcmcstep.py:sample_moves", "src/bartz/mcmcstep.py:accept_moves_and_sample_leaves", "src/bartz/mcmcstep.py:sample_sigma"]}
{"id": "C69", "title": "The MCMC is a Markov chain with the posterior as invariant distribution", "statement": "Starting from any consistent state (in particular from init), the parameters of the successive states are a Markov chain: those after each iteration are a fixed measurable function of those before it and of random numbers independent of all the previous ones. The distribution after n iterations, and of the final state of run_mcmc, is given by the n-th power of a Markov kernel, with n = n_burn + n_save * n_skip, and the posterior distribution is invariant under all powers.", "quantifier": "every dataset and settings as in C68, initial state, random key, number of iterations", "why_tests_cant": "statement on the joint law of all random numbers for any number of iterations; reuse of a random key would be invisible in most tests.", "anchors": ["src/bartz/mcmcloop.py:run_mcmc", "src/bartz/mcmcstep.py:step", "src/bartz/mcmcstep.py:init"]}
{"id": "C70", "title": "The posterior is the only stationary distribution", "statement": "With one tree, or with a minimum number of datapoints per leaf of at least one (always set by gbart), the MCMC is irreducible: from any consistent state, any event with positive posterior probability is reached with positive probability after some number of iterations. As a consequence the posterior distribution is the only distribution of the parameters left unchanged by a step. The condition is necessary: with two trees and no minimum number of datapoints per leaf there are settings and data such that an event of positive posterior probability is never reached.", "quantifier": "every dataset and settings as in C68 with one tree or min_points_per_leaf >= 1; every initial state, every event, every invariant distribution", "why_tests_cant": "a chain that can not reach some of the trees still runs and gives plausible predictions; uniqueness is about all distributions and all events.", "anchors": ["src/bartz/mcmcstep.py:step", "src/bartz/mcmcstep.py:sample_moves", "src/bartz/mcmcstep.py:accept_moves_and_sample_leaves", "src/bartz/BART.py:gbart"]}
{"id": "C71", "title": "The chain is aperiodic", "statement": "With a minimum number of datapoints per leaf of at least one (always set by gbart), for any event with positive posterior probability there is a number of iterations after which the event always has positive probability, at every later iteration, from any consistent state. Conversely, an event with posterior probability zero has probability zero at every iteration after the first step: the distribution of the state is absolutely continuous w.r.t. the posterior.", "quantifier": "every dataset and settings as in C68 with min_points_per_leaf >= 1; every initial state, event, number of iterations past a threshold", "why_tests_cant": "periodicity or a lower-dimensional state distribution is a property of the law of the chain at all times, and can not be seen in finite samples.", "anchors": ["src/bartz/mcmcstep.py:step", "src/bartz/mcmcloop.py:run_mcmc"]}
{"id": "C72", "title": "Law of large numbers for the MCMC", "statement": "For any function of the parameters with a posterior expected value, almost surely, the average of the function over the states saved by the MCMC converges to the posterior expected value as the number of saved states increases, for any consistent initial state, number of burn-in iterations, and thinning, with min_points_per_leaf >= 1. With one tree and no thinning the condition on min_points_per_leaf is not necessary. The powers of the variance with exponent less than the shape parameter of its conditional distribution, and all the moments of the predictions, have a posterior expected value.", "quantifier": "every dataset and settings as in C68 with min_points_per_leaf >= 1; every integrable function, initial state, n_burn, n_skip >= 1; almost all infinite sequences of random numbers", "why_tests_cant": "a limit for the number of samples that goes to infinity, almost surely, for every initial state and integrable function.", "anchors": ["src/bartz/mcmcloop.py:run_mcmc", "src/bartz/mcmcstep.py:step", "src/bartz/mcmcstep.py:init"]}
{"id": "C73", "title": "The results of gbart converge to the posterior expected values", "statement": "Almost surely, as ndpost increases, gbart(...).yhat_test_mean and yhat_train_mean converge, at each datapoint, to the posterior expected value of the sum of trees, in units of the data (offset + scale * sum of trees), and the average of gbart(...).sigma converges to the posterior expected value of the standard deviation of the noise. Likewise the average over the trace of evaluate_trace converges to the posterior expected value of the sum of trees, at any point.", "quantifier": "every dataset with finite predictors (not constant if there are 2^8, 2^16 or 2^32 of them), settings of gbart with base < 1, positive numbers of trees and cutpoints, positive scale, sigdf, lamda (ProperGbart); nskip, keepevery; almost all infinite sequences of random numbers; exact arithmetic", "why_tests_cant": "end to end limit statement: it ties the user facing output to the posterior defined by the prior and likelihood, for every dataset; no finite computation gives the exact posterior to compare with.", "anchors": ["src/bartz/BART.py:gbart", "src/bartz/mcmcloop.py:run_mcmc", "src/bartz/mcmcloop.py:evaluate_trace"]}
{"id": "C74", "title": "The distribution of the samples converges to the posterior in total variation", "statement": "With a minimum number of datapoints per leaf of at least one (always set by gbart), from any consistent state, the largest difference over all events between the probability that the state after n steps is in the event and the posterior probability of the event goes to zero as n increases. This holds for the final state of run_mcmc, and for the samples returned by gbart: the joint distribution of yhat_test[k, :] and sigma[k] converges to the posterior distribution of the regression function at the test points and of the noise standard deviation as nskip + (k + 1) * keepevery increases, uniformly over all events.", "quantifier": "every dataset and settings as in C68/C73; every initial state, event, n_burn, n_save, n_skip, sample; all random numbers as a probability space; exact arithmetic", "why_tests_cant": "a limit of probabilities, uniform over an uncountable family of events; tests only see finite samples.", "anchors": ["src/bartz/mcmcstep.py:step", "src/bartz/mcmcloop.py:run_mcmc", "src/bartz/BART.py:gbart"]}
{"id": "C75", "title": "Inconsistent arguments are rejected", "statement": "gbart(...) raises if and only if x_train and y_train do not have the same number of datapoints, or there are no datapoints and usequants=False, or x_test does not have the same columns as x_train. predict(x) raises if and only if x does not have the same columns as x_train. Same columns means: arrays with the same number of rows, polars dataframes with the same names, pandas dataframes that share the Index object, or dataframes with one column with the same name.", "quantifier": "every dataset, settings with 2 <= maxdepth <= 64 and positive splitting probabilities, random numbers; any floating point arithmetic", "why_tests_cant": "an if and only if over all the possible shapes and column formats; tests try a few malformed inputs.", "anchors": ["src/bartz/BART.py:gbart", "src/bartz/BART.py:gbart.predict", "src/bartz/BART.py:gbart._check_same_length", "src/bartz/BART.py:gbart._check_compatible_formats"]}
{"id": "C76", "title": "Results are finite", "statement": "With finite data and settings in the allowed range, no infinity or NaN is in the results of gbart: sigma, first_sigma, yhat_train, yhat_test, the settings, and the trees, residuals and variance in the final state. The divisions by zero and logarithms of zero in the code (e.g., in the ratio of a move that is not possible) only affect values that are masked. This requires that the responses are not all equal: otherwise, with two or more datapoints, the scale is zero and every value of sigma is NaN.", "quantifier": "every finite dataset and settings, every value of the random numbers in the documented range with positive gamma variates, every number of iterations; arithmetic without rounding but with the special cases of IEEE 754 (infinities, NaN)", "why_tests_cant": "NaN appears in masked intermediate values in ordinary runs; that it never gets out of the mask is a statement about all states and all random numbers.", "anchors": ["src/bartz/BART.py:gbart", "src/bartz/BART.py:gbart._process_scale_settings", "src/bartz/mcmcstep.py:step", "src/bartz/mcmcstep.py:compute_partial_ratio", "src/bartz/mcmcstep.py:accept_move_and_sample_leaves", "src/bartz/mcmcstep.py:sample_sigma"]}
{"id": "C77", "title": "Only the order of the predictors matters", "statement": "A change of unit and origin of each predictor, with the same direction, on both the training and test set, has no effect on the results: settings, trees, sigma, yhat_train, yhat_test are identical and the cutpoints are converted. If the cutpoints are quantiles and the linear regression is not used to set the prior (lamda or sigest specified, or fewer datapoints than predictors), any strictly increasing transformation of each predictor has no effect on the settings, the MCMC, sigma, yhat_train, and on the predictions at values that appear in the training set.", "quantifier": "every dataset, settings, random numbers, every choice of increasing functions (one per predictor); the second part holds in any floating point arithmetic for the MCMC, with exact cutpoints", "why_tests_cant": "equality of complete runs for all increasing transformations; a test would try one transformation on one dataset and be affected by rounding of the cutpoints.", "anchors": ["src/bartz/BART.py:gbart", "src/bartz/BART.py:gbart._determine_splits", "src/bartz/BART.py:gbart._process_noise_variance_settings", "src/bartz/prepcovars.py:quantilized_splits_from_matrix", "src/bartz/prepcovars.py:uniform_splits_from_matrix", "src/bartz/prepcovars.py:bin_predictors", "src/bartz/jaxext.py:unique"]}
{"id": "C78", "title": "The order of the datapoints does not matter", "statement": "If the datapoints of the training set are given in another order (the same for x_train and y_train), with the same seed, the object returned by gbart is the same: settings, cutpoints, samples of the trees and of the error variance, predictions on the test set; the only differences are that the arrays with one item per datapoint (y, residuals, predictors, leaf indices in the MCMC state, yhat_train, yhat_train_mean) are reordered in the same way.", "quantifier": "every dataset, settings, random numbers, every permutation of the datapoints, every batch size; real arithmetic", "why_tests_cant": "equality of complete runs for all datasets and n! orderings; in floating point the sums change with the order, so that a test could only check approximate equality, that is destroyed after a few iterations by the accept/reject steps.", "anchors": ["src/bartz/BART.py:gbart", "src/bartz/mcmcstep.py:step", "src/bartz/mcmcstep.py:sum_resid", "src/bartz/mcmcstep.py:count_datapoints_per_leaf", "src/bartz/mcmcstep.py:sample_sigma", "src/bartz/mcmcloop.py:run_mcmc", "src/bartz/prepcovars.py:quantilized_splits_from_matrix"]}
{"id": "C79", "title": "The invariants of the MCMC hold in single precision arithmetic if jnp.cumsum sums from the left", "statement": "With float32 numbers (IEEE 754, round to nearest even, overflow, infinities, nan), with uniform variates computed from random bits like jax.random.uniform does, and jnp.cumsum adding the terms one at a time from the left, in every state produced by init followed by steps: the trees are valid, leaf_indices is what is obtained by traversing the trees, each leaf has at least min_points_per_leaf datapoints, and the leaves considered growable are exactly those above the bottom with at least 2 * min_points_per_leaf datapoints.", "quantifier": "every valid argument of init, every number of steps, every key, every outcome of the random bits, every implementation of the logarithms", "why_tests_cant": "involves all the roundings that can happen in the sums of the weights and in the comparison with the random number, over all the random bits and sequences of steps.", "anchors": ["src/bartz/mcmcstep.py:step", "src/bartz/mcmcstep.py:init", "src/bartz/mcmcstep.py:categorical", "src/bartz/mcmcstep.py:choose_leaf"]}
{"id": "C80", "title": "The invariants of the MCMC hold in single precision arithmetic on CPU", "statement": "Like C79, with jnp.cumsum computed like JAX does on CPU, with lax.associative_scan.", "quantifier": "every valid argument of init, every number of steps, every key, every outcome of the random bits, every implementation of the logarithms", "why_tests_cant": "the violation requires a particular shape of the tree and one out of millions of values of the random number; when it happens the trees are still arrays of the right shape and predictions look reasonable.", "anchors": ["src/bartz/mcmcstep.py:step", "src/bartz/mcmcstep.py:init", "src/bartz/mcmcstep.py:categorical", "src/bartz/mcmcstep.py:choose_leaf"]}
{"id": "C81", "title": "Quantile binning in single precision keeps distinct values of a predictor distinguishable", "statement": "With float32 predictors (midpoints (u[1:] + u[:-1]) / 2 computed with rounding and overflow), if a predictor has at most max_bins distinct finite values, then quantilized_splits_from_matrix followed by bin_predictors puts two datapoints in the same bin if and only if their values are equal, and the order of bins is that of the values.", "quantifier": "every matrix of finite float32 predictors, every max_bins, every row with at most max_bins distinct values", "why_tests_cant": "the violations require adjacent floating point numbers with a given parity of the mantissa, or values above half of the largest finite number; conversely for all other values there are 2^64 pairs for each midpoint.", "anchors": ["src/bartz/prepcovars.py:quantilized_splits_from_matrix", "src/bartz/prepcovars.py:bin_predictors", "src/bartz/prepcovars.py:_quantilized_splits_from_matrix"]}
{"id": "C82", "title": "Evenly spaced binning in single precision", "statement": "With predictors in single precision (the default of gbart with usequants=False), the cutpoints made by uniform_splits_from_matrix are num_bins - 1, in increasing order, strictly inbetween the minimum and maximum of the predictor, close to the evenly spaced ones, and a decision rule on the bin of a value (bin >= s) is equivalent to the decision rule on the value (splits[s-1] < x), taking into account the rounding of the grid, however the compiler fuses multiplications and additions. Irrespective of rounding, the binning is monotone and splits[i-1] < x <= splits[i] for the bin i assigned to x.", "quantifier": "every predictor in single precision, every number of bins, every way of fusing the operations", "why_tests_cant": "The failures depend on the low bits of the minimum and maximum of the predictor and on the fusion choices of the compiler.", "anchors": ["src/bartz/prepcovars.py:uniform_splits_from_matrix", "src/bartz/prepcovars.py:bin_predictors", "src/bartz/BART.py:gbart._determine_splits"]}
{"id": "C83", "title": "Accumulated rounding error of the residuals in single precision", "statement": "In single precision, after any number k of steps of the MCMC from the initial state, the residuals stored in the state are finite and differ from the data minus the sum of the trees (both computed without rounding) by at most (Y + (num_trees + 3) L) ((1 + 2^-24)^(k num_trees) - 1), where Y bounds the absolute value of the data and L that of the values of the trees at the datapoints in all the states so far, if the total does not overflow; in particular the error grows at most linearly, by at most about 2^-23 (Y + (num_trees + 3) L) for each update of a tree, as long as there are at most 2^24 updates. On platforms where jnp.cumsum is not computed from the left, the runs are those in which the leaf chosen by choose_leaf is growable (see C80).", "quantifier": "all valid arguments of init, all numbers of steps, all random draws, all implementations of jnp.cumsum and of the logarithms", "why_tests_cant": "The code never recomputes the residuals, so the error accumulates over the whole run; a test sees the error of one run of limited length, not the worst case.", "anchors": ["src/bartz/mcmcstep.py:accept_move_and_sample_leaves", "src/bartz/mcmcstep.py:accept_moves_sequential_stage", "src/bartz/BART.py:gbart._compare_resid"]}
{"id": "C84", "title": "Probability of choosing each leaf in single precision", "statement": "In single precision, with the uniform variates made from 23 random bits like JAX does, categorical applied to nonnegative finite weights with sum W (2^-125 <= W <= 2^126) always returns an index in the range, the probability of index i exceeds w_i / W by at most (2 D + 1) / 2^22, and is below w_i / W by at most n times that, where D is the number n of weights if jnp.cumsum adds from the left, 2 log2(n) if it is computed with lax.associative_scan as on CPU. So on CPU, in a step of the MCMC from a state in which all the choices so far were of growable leaves, choose_leaf proposes each growable leaf with the intended probability, and the others with probability zero, up to an error at most 2^h (4 h + 1) / 2^22 with h = maxdepth - 1, and the probability that the leaf chosen is not growable (the event which breaks the invariants, see C80) is at most that: less than 1/6000 for each proposal with the default maxdepth=6.", "quantifier": "all weights, all numbers of weights up to 2^21, all valid arguments of init, all the states reachable by choosing growable leaves, all trees", "why_tests_cant": "The errors are of order one in a million or less, so they can not be distinguished by sampling from the exact probabilities, and the event that breaks the invariants can not be excluded by not observing it.", "anchors": ["src/bartz/mcmcstep.py:categorical", "src/bartz/mcmcstep.py:choose_leaf"]}
{"id": "C85", "title": "States stay consistent for any number of cutpoints that fits in its type", "statement": "Whatever the number of cutpoints max_split[v], as long as it can be represented in the integer type used for the cutpoints of the trees, in all the states produced by init and step the cached leaf indices are those found by traversing the trees, and a node has a cutpoint only if its parent has one. False: with max_split[v] equal to the largest value of the type and no minimum number of datapoints per leaf, the lower end of the range of cutpoints overflows to 0, a cutpoint 0 may be drawn and accepted, and the cached leaf indices then disagree with the tree.", "quantifier": "every dataset, max_split vector, settings, initial key and number of steps", "why_tests_cant": "the corruption needs a node split at the very last cutpoint, its right child chosen for growth, and the draw 0 out of 256; and it is silent", "anchors": ["src/bartz/mcmcstep.py:split_range", "src/bartz/mcmcstep.py:choose_split", "src/bartz/mcmcstep.py:grow_move"]}
{"id": "C86", "title": "The stationary distribution is the posterior with the standard BART prior", "statement": "The posterior distribution of C68, to which the MCMC converges, is the one with the prior of Chipman, George and McCulloch (2010), in which the variable of a decision node is uniform among those that can be split given the ancestors of the node. False: with max_split[v] equal to the largest value of the integer type of the cutpoints, v is counted among the available variables of the nodes where only its highest value is left, and with max_split[v] = 0 v is counted at all nodes. The two posteriors are equal if and only if this does not happen at the decision nodes of any tree with positive prior probability; if it happens, the standard posterior is not invariant under a step. With the default settings of gbart (numcut=255, usequants=False) all the predictors have 255 cutpoints represented with 8 bits.", "quantifier": "every dataset and settings as in C68 (as in C70 for the non-invariance)", "why_tests_cant": "it is about the limit of the distribution of the samples; the difference is tiny and only in trees that split at the last cutpoint", "anchors": ["src/bartz/mcmcstep.py:split_range", "src/bartz/mcmcstep.py:fully_used_variables", "src/bartz/mcmcstep.py:choose_variable", "src/bartz/prepcovars.py:uniform_splits_from_matrix"]}
{"id": "C87", "title": "The order of the predictors does not matter", "statement": "With the predictors in another order (the same in the training and test set), the posterior distribution targeted by the MCMC is the original one with the names of the variables changed in the decision rules; the joint posterior distribution of the regression function at any test points and of the error variance is the same; and almost surely the differences of yhat_test_mean, yhat_train_mean, and of the average of sigma, between a run of gbart with the predictors in one order and a run with another order, go to zero as ndpost grows, whatever the random numbers in the two runs. The settings derived from the data (offset, scale, lamda, sigest) are the same.", "quantifier": "every dataset, every permutation of the predictors, valid settings as in C73, every pair of random streams with the right distribution", "why_tests_cant": "the samples are different with the predictors in a different order, only the limits agree, so a test can only be statistical", "anchors": ["src/bartz/BART.py:gbart", "src/bartz/mcmcstep.py:step", "src/bartz/mcmcstep.py:choose_variable"]}
{"id": "C88", "title": "Each prediction depends only on its test point, and the fit does not depend on the test set", "statement": "The prediction of gbart at a test point depends only on the predictors of that test point: it is the same if the other test points are changed, removed, added or reordered. The other attributes of the fitted model are the same with and without x_test, and yhat_test is what predict(x_test) of the model fitted without x_test returns, yhat_test_mean its average.", "quantifier": "every dataset and configuration, every pair of test sets, random numbers", "why_tests_cant": "all the pairs of test sets; the batching of the traversal depends on the size of the test set.", "anchors": ["src/bartz/BART.py:gbart.__init__", "src/bartz/BART.py:gbart.predict", "src/bartz/mcmcloop.py:evaluate_trace", "src/bartz/prepcovars.py:bin_predictors"]}
{"id": "C89", "title": "Rounding errors of the predictions and of the recomputed residuals in single precision", "statement": "In single precision, whatever the order in which jnp.sum adds the terms, the sum over m trees of finite values differs from the exact one by at most (1 + 2^-24)^(m-1) - 1 times the sum of the absolute values, and the prediction offset + scale * sum (with two roundings or fused in one) from the exact one by at most (1 + 2^-24)^(m+2) - 1 times |offset| + |scale| * sum of the absolute values + 2^-126, if that is not too near overflow. So after k steps the two arrays returned by _compare_resid differ by at most (Y + (num_trees + 3) L) ((1 + 2^-24)^(k num_trees) + (1 + 2^-24)^(num_trees + 1) - 2), with Y and L the bounds to the data and to the trees as in C83.", "quantifier": "all values of the trees, all numbers of trees, all orders of the sums; all valid arguments of init, all numbers of steps, all random draws in which the leaves chosen are growable (see C80)", "why_tests_cant": "The order of the sums depends on the platform and on the shapes, and the error on all the values; test_residuals_accuracy checks one short run on one platform.", "anchors": ["src/bartz/grove.py:evaluate_forest", "src/bartz/mcmcloop.py:evaluate_trace", "src/bartz/BART.py:gbart._transform_output", "src/bartz/BART.py:gbart._compare_resid"]}
{"id": "C90", "title": "The integers proposed by the MCMC are uniform up to 2^-64, with the algorithm of jax.random.randint", "statement": "If jax.random.randint is computed with the algorithm of JAX from uniformly distributed random bits, its values are always in [minval, maxval), and, if maxval - minval <= 2^16, the probability of each differs from 1 / (maxval - minval) by less than 2^-64, and not at all if maxval - minval is a power of two; for larger ranges, the probability is at most 2 / (maxval - minval) + 2^-31. So the variables proposed by choose_variable, the cutpoints proposed by choose_split, and the nodes proposed by choose_leaf_parent are always among the possible ones, and the probability of each differs from the inverse of their number, used to compute the acceptance ratio, by less than 2^-64, in all the states of the MCMC with at most 2^16 predictors, less than 2^16 cutpoints, and trees with at most 2^16 nodes.", "quantifier": "all ranges; all trees that satisfy the invariants, all states reachable by the MCMC, all numbers of predictors and of cutpoints up to the limits, all random bits", "why_tests_cant": "A difference of 2^-64 can not be seen with any number of samples; the bias of randint depends on the range, and a wrong algorithm that is biased only for some ranges would pass the tests with other ranges.", "anchors": ["src/bartz/mcmcstep.py:choose_variable", "src/bartz/mcmcstep.py:randint_exclude", "src/bartz/mcmcstep.py:choose_split", "src/bartz/mcmcstep.py:choose_leaf_parent", "src/bartz/mcmcstep.py:randint_masked"]}
{"id": "C91", "title": "The cutpoints, the binning, and the predictions do not depend on the batches", "statement": "quantilized_splits_from_matrix, bin_predictors and evaluate_trace, that apply autobatch with a limit of 2^29 bytes to the predictors and to the trees, do not fail and return exactly the result of the same function without autobatch, whatever the size of the data, of the types, and the error of the square root used to choose the number of batches. The number of batches divides the number of predictors or of trees, and each batch has at most 2^29 bytes, or consists of only one predictor or tree, in which case there is a warning.", "quantifier": "all predictor matrices with at least one observation, all numbers of bins >= 1, all matrices of cutpoints, all traces of forests, including those produced by run_mcmc from any reachable state; all element sizes", "why_tests_cant": "More than one batch occurs only with more than half a gigabyte of data, so the tests never batch these functions.", "anchors": ["src/bartz/prepcovars.py:quantilized_splits_from_matrix", "src/bartz/prepcovars.py:bin_predictors", "src/bartz/mcmcloop.py:evaluate_trace", "src/bartz/jaxext.py:autobatch"]}
{"id": "C92", "title": "Rounding errors of the leaves and of the error variance drawn in a step, in single precision", "statement": "In single precision, in each step of the MCMC, the new value of a tree at a datapoint differs from the value that would be drawn with exact arithmetic, with the same normal variate z, the same tree, and the same values of the other trees, by at most B ((1 + 2^-24)^((k + 1) n) - 1) + (B (1 + 2^-24)^((k + 1) n) + |z|) (c + 8) / 2^23 + 2^-148, where n is the number of trees, k the number of previous steps, c the number of datapoints in the leaf, and B = Y + (n + 3) L, with Y and L upper bounds to the absolute value of the data and of the trees. The error variance drawn differs from the one obtained with exact arithmetic from the residuals in the state and the same gamma variate by a relative error of at most (N + 3) / 2^23, with N the number of datapoints. The bounds of the single operations hold for any order of the sums, and also if a product and a sum are rounded once.", "quantifier": "all valid arguments with at most 2^20 datapoints and 2^24 trees, all random draws, all numbers of steps, all trees and datapoints, if the error variance is between 2^-80 and 2^80 and there is no overflow, and choose_leaf chose growable leaves (always if cumsum adds from the left)", "why_tests_cant": "The rounding errors depend on all the data and on the history of the MCMC; tests compare a few values with a tolerance.", "anchors": ["src/bartz/mcmcstep.py:accept_move_and_sample_leaves", "src/bartz/mcmcstep.py:precompute_leaf_terms", "src/bartz/mcmcstep.py:sum_resid", "src/bartz/mcmcstep.py:sample_sigma"]}
{"id": "C93", "title": "Rounding errors of the Metropolis-Hastings ratio and of the decision on a move, in single precision", "statement": "In single precision, if the error of the logarithms is at most d (1 + |log|), in each step of the MCMC the log likelihood ratio of the move proposed for a tree differs from the one calculated in exact arithmetic from the data, the error variance, and the values of the other trees, at most by 36 d + 27/8 (P - 1 + (c + 3) / 2^23) S + (100 + 60 S) / 2^24, where P = (1 + 2^-24)^((k + 1) n), n is the number of trees, k the number of previous steps, c the number of datapoints in the two leaves, S = c (B P)^2 / sigma2, and B = Y + (n + 3) L, with Y and L upper bounds to the absolute value of the data and of the trees. The log ratio of the prior and transition probabilities has error at most 20 / 2^24 + d (2 + |log ratio|). The move is accepted if and only if it would be accepted with exact arithmetic, unless the logarithm of the uniform variate is closer to the log ratio than the errors. If the bits of the uniform variate are uniform, the probability that the decision is different is at most 2 (b + 17 d) + 2^-23, where b is the error of the log ratio.", "quantifier": "all valid arguments with at most 2^18 datapoints and 2^24 trees, all random draws, all numbers of steps such that P ≤ 17/16, all trees, if the error variance is between 2^-30 and 2^30, there is no overflow, and choose_leaf chose growable leaves (always if cumsum adds from the left)", "why_tests_cant": "Whether the decision is right depends on the rounding errors of all the previous operations and on how close the random variate is to the ratio; a wrong decision is very rare and does not raise errors.", "anchors": ["src/bartz/mcmcstep.py:accept_move_and_sample_leaves", "src/bartz/mcmcstep.py:compute_likelihood_ratio", "src/bartz/mcmcstep.py:complete_ratio", "src/bartz/mcmcstep.py:compute_partial_ratio", "src/bartz/mcmcstep.py:sample_moves"]}
{"id": "C94", "title": "Missing values in a predictor do not affect the other values", "statement": "If some values of a predictor are nan, the other values of the predictor, in the training and test set, are binned as if the datapoints with nan were not there. (With usequants=True it holds if the distinct values plus the missing values are at most max_bins, and there is an additional cutpoint for each missing value; a nan is never put in a lower bin than another value, and a nan in the test set goes after all cutpoints if there were none in the training set. It does not hold with usequants=False, the default: a single nan in the training set makes all the cutpoints nan, and all values of the predictor are put in the first bin, so the predictor is silently ignored. With usequants=True a nan in the training set is put in the same bin as the maximum or after it depending on how many values are repeated.)", "quantifier": "all single precision predictors with any number of nans and other values of absolute value lower than 2^127, all numbers of bins", "why_tests_cant": "There are no errors: the results are only less accurate, and depend on where the nans are and on how many values are repeated.", "anchors": ["src/bartz/prepcovars.py:quantilized_splits_from_matrix", "src/bartz/prepcovars.py:uniform_splits_from_matrix", "src/bartz/prepcovars.py:bin_predictors", "src/bartz/jaxext.py:unique"]}
{"id": "C95", "title": "A priori the regression function has mean offset and standard deviation scale", "statement": "The a priori distribution of the regression function at any point is normal, with mean the attribute offset and standard deviation the attribute scale (documented as the prior mean and standard deviation of the latent mean function), whatever the number of trees and the settings of the prior on the trees. The covariance of the values at two points is scale**2 times the a priori probability that a tree does not separate them. The a priori distribution is the one such that the MCMC samples its posterior.", "quantifier": "all training sets and settings with proper priors, all numbers of trees, all points (or pairs of points) in the training set or not", "why_tests_cant": "The prior is never sampled by the code, it is only implicit in the acceptance probabilities and in the distribution of the leaves.", "anchors": ["src/bartz/BART.py:gbart", "src/bartz/mcmcstep.py:init", "src/bartz/mcmcstep.py:precompute_leaf_terms"]}
{"id": "C96", "title": "A priori a node at depth d is nonterminal with probability base / (1 + d) ** power", "statement": "A priori, given that a node at depth d exists, and given anything about the nodes less deep and those at its left, it is nonterminal with probability base / (1 + d) ** power; its variable is uniformly distributed on those which can be split, and its cutpoint on the available ones; the prior is normalized. (True without a minimum number of datapoints per leaf and if the predictors, each with cutpoints, are at least the levels of the tree. False with the minimum number of datapoints per leaf, 5 by default: the prior is truncated, e.g. with less than 10 datapoints the root is never nonterminal; the formula is then an upper bound.)", "quantifier": "all settings of the prior, all nodes of the tree, all conditions on the preceding nodes", "why_tests_cant": "The prior on the trees is never sampled by the code; it would take many very long runs without data to see it.", "anchors": ["src/bartz/BART.py:gbart", "src/bartz/mcmcstep.py:compute_partial_ratio", "src/bartz/mcmcstep.py:grow_move"]}
{"id": "C97", "title": "Joint distribution of the proposal to grow a tree in single precision", "statement": "In single precision, with the uniform variates made from 23 random bits and the integers from 64 random bits like JAX does, independently for the three keys obtained in grow_move, and jnp.cumsum computed with lax.associative_scan as on CPU: in a step of the MCMC from a state in which all the choices so far were of growable leaves, for a tree with growable leaves, the probability that the leaf, variable and cutpoint proposed by grow_move satisfy any condition (which requires that there are decision rules left for the leaf) differs from the intended one (leaf proportional to the a priori probability that a node at its depth is nonterminal, variable uniform among those counted as available, cutpoint uniform among those available) by at most 2^h (4 h + 1) / 2^22 + 2^-47, with h = maxdepth - 1: less than 1/6000 with the default maxdepth=6. In other words, this bounds the total variation distance between the actual and the intended distribution of the proposals.", "quantifier": "all valid arguments of init with at most 2^16 predictors and less than 2^16 cutpoints for each, all the states reachable by choosing growable leaves, all trees, all events about the proposal", "why_tests_cant": "There are many possible proposals and each has a low probability, so a wrong joint distribution (e.g., choices correlated because a random key is used twice) would be visible only with a specific test for it; the difference from the exact probabilities is lower than the statistical error of any practical test.", "anchors": ["src/bartz/mcmcstep.py:grow_move", "src/bartz/mcmcstep.py:choose_leaf", "src/bartz/mcmcstep.py:choose_variable", "src/bartz/mcmcstep.py:choose_split"]}
{"id": "C98", "title": "The counts of datapoints do not overflow, and counting all the trees together is the same as counting each one", "statement": "With less than 2^31 datapoints, count_datapoints_per_leaf (which works on all the trees together, with any batch size, in 32 bit arithmetic with wrap around) returns the number of datapoints in each leaf of each tree; compute_count_trees returns for each tree the same results that would be obtained on each tree separately with unlimited integers, including those used for the moves (left, right, total); thus in any step of the MCMC the counts are those that determine the next state in the model. If moreover the minimum number of datapoints per leaf is lower than 2^30, the comparisons with it (and with twice it) do not overflow, and the leaves marked as affluent are the same. With less than 2^31 elements, count_nonzero of a mask and its cumulative sums do not overflow.", "quantifier": "all leaf indices, any number of trees, all moves, all batch sizes, all states reachable by the MCMC, all random draws", "why_tests_cant": "Overflows appear only with numbers of datapoints or thresholds that do not fit in the memory or the time of a test; and the scatter over (tree, leaf, batch) could mix trees only for particular combinations of sizes.", "anchors": ["src/bartz/mcmcstep.py:count_datapoints_per_leaf", "src/bartz/mcmcstep.py:_count_scan", "src/bartz/mcmcstep.py:_count_vec", "src/bartz/mcmcstep.py:_aggregate_batched_alltrees", "src/bartz/mcmcstep.py:compute_count_trees"]}
{"id": "C99", "title": "Distribution of the move proposed for a tree in single precision", "statement": "In single precision, with the uniform variates made from 23 random bits and the integers from 64 random bits like JAX does, independently for the keys used, and jnp.cumsum computed with lax.associative_scan as on CPU: in a step of the MCMC from a state in which all the choices so far were of growable leaves, the probability that the move proposed by sample_moves for a tree is either to grow a leaf with a decision rule in any given set, or to prune a node in any given set, differs from the intended one (grow or prune with probability 1/2 each if both are possible, otherwise the one possible; leaf proportional to the a priori probability of being nonterminal, variable and cutpoint uniform; node to prune uniform among the decision nodes with two leaf children) by at most 2^h (4 h + 1) / 2^22 + 2^-47, with h = maxdepth - 1. The choice between growing and pruning has exactly probability 1/2.", "quantifier": "all valid arguments of init with at most 2^16 predictors, less than 2^16 cutpoints for each, and maxdepth at most 17; all the states reachable by choosing growable leaves, all trees, all sets of moves", "why_tests_cant": "The number of possible moves is large; a difference from the intended distribution makes the results of the MCMC wrong in a way which is not visible without knowing the posterior distribution.", "anchors": ["src/bartz/mcmcstep.py:sample_moves", "src/bartz/mcmcstep.py:grow_move", "src/bartz/mcmcstep.py:prune_move", "src/bartz/mcmcstep.py:choose_leaf_parent"]}
{"id": "C100", "title": "Probability of modifying a tree in a step of the MCMC in single precision", "statement": "In single precision, with the uniform variates made from 23 random bits and the integers from 64 random bits like JAX does, independently for the keys used and for the variate used to decide, jnp.cumsum computed with lax.associative_scan as on CPU, and a platform logarithm with absolute error at most delta: in a step of the MCMC from a state in which all the choices so far were of growable leaves, if for all the moves of a given set (decision rules to add to leaves, nodes to prune) the log of the Metropolis-Hastings ratio calculated and saved by the code is within b of l(move), then the probability that the step proposes a move of the set and modifies the decision rules of the tree differs from the one of the exact algorithm (the average over the intended distribution of the proposal of min(1, exp(l)), or 0 where the children would have less than min_points_per_leaf datapoints) by at most 2^h (4 h + 1) / 2^22 + 2^-47 + 2 (b + 17 delta) + 2^-22, with h = maxdepth - 1.", "quantifier": "all valid arguments of init with at most 2^16 predictors, less than 2^16 cutpoints for each, and maxdepth at most 17; all the states reachable by choosing growable leaves, all trees, all sets of moves, all platforms with bounded logarithm error", "why_tests_cant": "The transition probabilities can not be measured with enough accuracy by sampling; an error in combining proposal and decision (e.g., a variate shared by them) changes the stationary distribution without visible malfunctions.", "anchors": ["src/bartz/mcmcstep.py:step", "src/bartz/mcmcstep.py:sample_moves", "src/bartz/mcmcstep.py:accept_move_and_sample_leaves", "src/bartz/mcmcstep.py:apply_moves_to_split_trees"]}
{"id": "C101", "title": "Detailed balance of the update of a tree in single precision", "statement": "In single precision, with the variates made from independent random bits like JAX does, jnp.cumsum computed with lax.associative_scan as on CPU, and a platform logarithm with error at most delta: let T1 and T2 be the trees in a given position of two states in which all the choices so far were of growable leaves, such that T2 is T1 with a leaf grown. Let p(T) be the prior probability of the tree times its likelihood given the other trees and the error variance. If the log likelihood ratio calculated and saved by the code when proposing to grow T1 into T2, or to prune T2 into T1, is within beta of log(likelihood(T2)/likelihood(T1)), then |p(T1) P(T1 -> T2) - p(T2) P(T2 -> T1)| <= (p(T1) + p(T2)) epsilon, where P are the probabilities that the step changes one tree into the other, and epsilon is an explicit bound that vanishes with the unit roundoff, delta and beta. The exact log likelihood ratio is the same considered in C93, which bounds beta.", "quantifier": "all valid arguments of init with at most 2^16 predictors, less than 2^16 cutpoints for each, maxdepth at most 17, probabilities of the decisions between 2^-13 and 1 - 2^-24; all pairs of states reachable by choosing growable leaves with trees which differ by a grow move with a rule on an existing predictor with cutpoints, all trees, all platforms with bounded logarithm error", "why_tests_cant": "Detailed balance is an equality between probabilities of rare events in specific pairs of states; the deviation due to rounding is far below the resolution of any simulation, while a deviation due to a bug may be as well.", "anchors": ["src/bartz/mcmcstep.py:step", "src/bartz/mcmcstep.py:sample_moves", "src/bartz/mcmcstep.py:compute_partial_ratio", "src/bartz/mcmcstep.py:complete_ratio", "src/bartz/mcmcstep.py:accept_move_and_sample_leaves"]}
{"id": "C102", "title": "Changing the unit of the response by a power of two changes nothing but the unit, bit by bit, in single precision", "statement": "In single precision, if the response and the options offset and sigest given to gbart are multiplied by 2^j, and the option lamda by 2^(2j), then the MCMC is exactly the same, bit by bit (same final state, same trace, same cutpoints), and the attributes offset, scale, sigest, sigma, first_sigma, yhat_train and the output of predict are exactly multiplied by 2^j, and lamda by 2^(2j), provided that nothing overflows or underflows; the conditions for this are explicit, and they are given on the arguments and on the attributes. With other units this is false: multiplying by 3 changes the data given to the MCMC.", "quantifier": "all arguments of gbart with 2 to 2^24 datapoints with finite responses that are zero or at least 2^-79 in absolute value, all j, all random draws, all platforms, all test points", "why_tests_cant": "Tests compare a few units on a few datasets, with a tolerance. That the equality is exact, and what are the conditions for it, depends on the rounding of each operation for all the values of the data.", "anchors": ["src/bartz/BART.py:gbart._process_offset_settings", "src/bartz/BART.py:gbart._process_scale_settings", "src/bartz/BART.py:gbart._process_noise_variance_settings", "src/bartz/BART.py:gbart._transform_input", "src/bartz/BART.py:gbart._transform_output", "src/bartz/BART.py:gbart._extract_sigma", "src/bartz/BART.py:gbart.predict"]}
{"id": "C103", "title": "Changing the sign of the response changes the sign of the predictions and nothing else", "statement": "If the sign of the response (and of the option offset, if given) is changed, and the normal variates used to draw the leaves change sign as well, which does not change their distribution, then in exact arithmetic gbart gives the same trees, the same acceptances, the same error variance, the same cutpoints, sigest, lamda and scale, and the offset, the leaves, yhat_train, yhat_test, their means, and the output of predict on any points change sign. The posterior distribution with the opposite response is the original one with the opposite leaves, and, whatever the random numbers used in the two runs, almost surely the averages over the iterations of the predictions of the two runs become opposite, and the averages of sigma equal, as ndpost grows. The distribution of the parameters after any given number of iterations with the opposite response is exactly the original one with the opposite leaves, whatever the random number generators used in the two runs.", "quantifier": "all valid arguments of gbart, all lawful random number generators, all test points", "why_tests_cant": "A test compares averages of the two chains on a few datasets, with a tolerance due to the Monte Carlo error. That each step of the chain treats the two signs in the same way, for all data and all draws, is beyond it.", "anchors": ["src/bartz/BART.py:gbart", "src/bartz/mcmcstep.py:step", "src/bartz/mcmcstep.py:precompute_leaf_terms", "src/bartz/mcmcstep.py:compute_likelihood_ratio", "src/bartz/mcmcstep.py:accept_move_and_sample_leaves", "src/bartz/mcmcstep.py:sample_sigma"]}
{"id": "C104", "title": "The MCMC does not distinguish the trees in the long run", "statement": "The posterior distribution does not change if the trees are permuted. Although the trees are updated one after the other, in order, almost surely, as the number of iterations grows, the average over the saved states of any function of the parameters with a posterior expected value becomes the same if the trees are permuted; the frequency of any event about a tree is the same for all trees; and the average of the value of each tree at any point converges to the posterior expected value of the sum of trees divided by the number of trees.", "quantifier": "all valid and proper arguments of init with a minimum number of datapoints per leaf, all starting states, burn-in and thinning, all permutations, functions, events, points, all random draws but for a set of probability zero", "why_tests_cant": "A test can only compare a few statistics of a few trees in finite runs, with the Monte Carlo error.", "anchors": ["src/bartz/mcmcstep.py:step", "src/bartz/mcmcstep.py:accept_moves_sequential_stage", "src/bartz/mcmcloop.py:run_mcmc"]}
{"id": "C105", "title": "Changing the sign of the response changes the sign of the predictions exactly, in single precision", "statement": "In IEEE single precision, the results of gbart with response -y_train (and -offset, if offset is specified), and with the opposite normal variates, are the same as with y_train, apart from the leaves, the residuals, the offset and the predictions (yhat_train, yhat_test, predict, and their averages), which are exactly opposite, bit by bit apart from the sign of the zeros. One call raises an exception if and only if the other one does. Each step of the MCMC has this property in any state, even if there are infinities and nans. If there are two or more responses which are all zero, but with different sign, the scale is a zero whose sign depends on the order of the responses, so this case is excluded. The methods for inspection (_sigma_harmonic_mean, _avg_acc, _avg_prop, _avg_move, _depth_distr, _points_per_leaf_distr) give the same results, and those of _compare_resid are opposite.", "quantifier": "all arguments of gbart without nans in y_train and with some nonzero response (or less than two responses), all random draws, all states and numbers of iterations", "why_tests_cant": "A test can compare two runs, but an asymmetric rounding or a comparison with the wrong sign is visible only for particular values, and the random numbers can not be reflected without changing the code.", "anchors": ["src/bartz/BART.py:gbart", "src/bartz/mcmcstep.py:step", "src/bartz/mcmcloop.py:run_mcmc"]}
