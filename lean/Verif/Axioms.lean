import Verif.Props.Grove
import Verif.Props.Sampling
import Verif.Props.Rules
import Verif.Props.Mcmc
import Verif.Props.Exact
import Verif.Props.Balance
import Verif.Props.Jaxext
import Verif.Props.Prepcovars
import Verif.Props.Mcmcloop
import Verif.Props.Keys
import Verif.Props.Heap
import Verif.Props.Debug
import Verif.Props.Gbart
import Verif.Props.GbartExact
import Verif.Props.Ensemble
import Verif.Props.Posterior
import Verif.Props.Irreducible
import Verif.Props.Convergence
import Verif.Props.TotalVariation
import Verif.Props.Reject
import Verif.Props.Finite
import Verif.Props.PredictorMap
import Verif.Props.Reorder
import Verif.Props.Binary32
import Verif.Props.Binning32
import Verif.Props.Uniform32
import Verif.Props.Drift
import Verif.Props.Choice32
import Verif.Props.Overflow
import Verif.Props.Standard
import Verif.Props.Relabel
import Verif.Props.Pointwise
import Verif.Props.Sums
import Verif.Props.Randint
import Verif.Props.Batched
import Verif.Props.Ieee
import Verif.Props.StepError
import Verif.Props.AcceptError
import Verif.Props.Missing
import Verif.Props.Prior
import Verif.Props.PriorTree
import Verif.Props.Proposal32
import Verif.Props.Counts32
import Verif.Props.Move32
import Verif.Props.Update32
import Verif.Props.Kernel32
import Verif.Props.PowerScale
import Verif.Props.Reflect
import Verif.Props.ReflectPost
import Verif.Props.Exchange
import Verif.Props.Opposite
import Verif.Props.ReflectLaw
import Verif.Props.Int64
import Verif.Props.OppositeInspect
import Verif.Props.Checked
import Verif.Props.CpuCaveat
/-! # Axioms used by each property theorem -/

#print axioms Bartz.C01_traverse_tree
#print axioms Bartz.C02_counts
#print axioms Bartz.C02_partition
#print axioms Bartz.C03_evaluate_forest
#print axioms Bartz.C03_evaluate_trees
#print axioms Bartz.C04_is_actual_leaf
#print axioms Bartz.C05_is_leaves_parent
#print axioms Bartz.C06_depths
#print axioms Bartz.C07_count
#print axioms Bartz.C07_prunable
#print axioms Bartz.C08_minimal_unsigned_dtype
#print axioms Bartz.C09_nodup_partial
#print axioms Bartz.C09_not_unique
#print axioms Bartz.C09_truncated_partial
#print axioms Bartz.C09_unique_partial
#print axioms Bartz.C100_update
#print axioms Bartz.C101_balance
#print axioms Bartz.C101_likelihood
#print axioms Bartz.C102_power
#print axioms Bartz.C102_predictions
#print axioms Bartz.C103_gbart
#print axioms Bartz.C103_law
#print axioms Bartz.C103_posterior
#print axioms Bartz.C103_reflect
#print axioms Bartz.C103_run_law
#print axioms Bartz.C104_average
#print axioms Bartz.C104_contribution
#print axioms Bartz.C104_frequency
#print axioms Bartz.C104_posterior
#print axioms Bartz.C105_gbart
#print axioms Bartz.C105_inspect
#print axioms Bartz.C105_negate
#print axioms Bartz.C105_run
#print axioms Bartz.C105_step
#print axioms Bartz.C105_value
#print axioms Bartz.C105_zeros
#print axioms Bartz.C10_accepts_only
#print axioms Bartz.C10_autobatch
#print axioms Bartz.C10_checked
#print axioms Bartz.C10_not_batched
#print axioms Bartz.C11_autobatch
#print axioms Bartz.C11_nbatches
#print axioms Bartz.C12_bin
#print axioms Bartz.C12_decision
#print axioms Bartz.C12_monotone
#print axioms Bartz.C13_lossless
#print axioms Bartz.C14_balanced
#print axioms Bartz.C14_difference
#print axioms Bartz.C15_int64_near
#print axioms Bartz.C15_int64_partial
#print axioms Bartz.C15_midpoint_partial
#print axioms Bartz.C15_not_int64
#print axioms Bartz.C16_error
#print axioms Bartz.C16_matrix
#print axioms Bartz.C16_uniform
#print axioms Bartz.C17_range
#print axioms Bartz.C17_uniform
#print axioms Bartz.C18_max_split_partial
#print axioms Bartz.C18_not
#print axioms Bartz.C19_not_cpu
#print axioms Bartz.C19_valid_trees
#print axioms Bartz.C19_valid_trees_partial
#print axioms Bartz.C20_leaf_indices
#print axioms Bartz.C20_leaf_indices_partial
#print axioms Bartz.C20_not_cpu
#print axioms Bartz.C21_residuals
#print axioms Bartz.C22_min_points
#print axioms Bartz.C23_growable
#print axioms Bartz.C24_randint_masked
#print axioms Bartz.C24_randint_masked_empty
#print axioms Bartz.C25_all_excluded_partial
#print axioms Bartz.C25_not_sup
#print axioms Bartz.C25_randint_exclude
#print axioms Bartz.C26_categorical
#print axioms Bartz.C26_categorical_zero
#print axioms Bartz.C27_overflow
#print axioms Bartz.C27_split_range_partial
#print axioms Bartz.C28_choose_variable_partial
#print axioms Bartz.C28_first
#print axioms Bartz.C28_not_uniform
#print axioms Bartz.C28_overflow
#print axioms Bartz.C29_rules
#print axioms Bartz.C30_accept
#print axioms Bartz.C30_ratio
#print axioms Bartz.C31_in_step
#print axioms Bartz.C31_likelihood_ratio
#print axioms Bartz.C31_split_pos
#print axioms Bartz.C32_leaf_values
#print axioms Bartz.C33_sigma2
#print axioms Bartz.C34_counters
#print axioms Bartz.C35_auto
#print axioms Bartz.C35_batch_size
#print axioms Bartz.C35_count
#print axioms Bartz.C35_sum
#print axioms Bartz.C36_one_node
#print axioms Bartz.C37_configuration
#print axioms Bartz.C38_init
#print axioms Bartz.C38_positive
#print axioms Bartz.C39_few_points
#print axioms Bartz.C40_any_values
#print axioms Bartz.C40_keys
#print axioms Bartz.C40_nodup
#print axioms Bartz.C40_number
#print axioms Bartz.C40_program
#print axioms Bartz.C41_not
#print axioms Bartz.C41_only_ratios_partial
#print axioms Bartz.C41_result
#print axioms Bartz.C41_unmodified_partial
#print axioms Bartz.C42_burnin
#print axioms Bartz.C42_final
#print axioms Bartz.C42_ratios
#print axioms Bartz.C42_reachable
#print axioms Bartz.C42_same_chain
#print axioms Bartz.C42_trace
#print axioms Bartz.C43_calls
#print axioms Bartz.C43_print
#print axioms Bartz.C44_fields_partial
#print axioms Bartz.C44_not_burnin
#print axioms Bartz.C44_not_main
#print axioms Bartz.C45_evaluate_trace
#print axioms Bartz.C45_run
#print axioms Bartz.C46_predict_train
#print axioms Bartz.C46_residuals
#print axioms Bartz.C47_affine
#print axioms Bartz.C47_not
#print axioms Bartz.C48_settings
#print axioms Bartz.C49_not
#print axioms Bartz.C49_shapes_partial
#print axioms Bartz.C50_check_tree
#print axioms Bartz.C50_valid
#print axioms Bartz.C51_forest_depth
#print axioms Bartz.C51_forest_points
#print axioms Bartz.C51_not
#print axioms Bartz.C51_points_per_leaf
#print axioms Bartz.C51_points_per_leaf_partial
#print axioms Bartz.C51_tree_depth
#print axioms Bartz.C52_no_overflow
#print axioms Bartz.C53_aligned
#print axioms Bartz.C53_print_all
#print axioms Bartz.C53_print_tree
#print axioms Bartz.C53_show_tree
#print axioms Bartz.C54_detailed_balance
#print axioms Bartz.C55_checks
#print axioms Bartz.C56_prior
#print axioms Bartz.C57_format
#print axioms Bartz.C58_sequential
#print axioms Bartz.C59_few_points
#print axioms Bartz.C60_depth_distr
#print axioms Bartz.C60_min_points
#print axioms Bartz.C61_check_trees
#print axioms Bartz.C62_averages
#print axioms Bartz.C62_move
#print axioms Bartz.C63_compare_resid
#print axioms Bartz.C64_harmonic_mean
#print axioms Bartz.C65_not
#print axioms Bartz.C65_same_columns_partial
#print axioms Bartz.C66_ensemble
#print axioms Bartz.C67_clip
#print axioms Bartz.C68_consistent
#print axioms Bartz.C68_invariant
#print axioms Bartz.C68_support
#print axioms Bartz.C69_markov_chain
#print axioms Bartz.C69_run_mcmc
#print axioms Bartz.C70_irreducible
#print axioms Bartz.C70_not
#print axioms Bartz.C70_unique
#print axioms Bartz.C71_aperiodic
#print axioms Bartz.C71_null
#print axioms Bartz.C72_law_of_large_numbers
#print axioms Bartz.C72_moments
#print axioms Bartz.C72_one_tree
#print axioms Bartz.C72_sigma
#print axioms Bartz.C73_evaluate_trace
#print axioms Bartz.C73_gbart
#print axioms Bartz.C74_gbart
#print axioms Bartz.C74_run_mcmc
#print axioms Bartz.C74_total_variation
#print axioms Bartz.C75_fails_iff
#print axioms Bartz.C75_predict_fails_iff
#print axioms Bartz.C76_finite_partial
#print axioms Bartz.C76_not
#print axioms Bartz.C77_affine
#print axioms Bartz.C77_monotone
#print axioms Bartz.C78_reorder
#print axioms Bartz.C79_single_precision
#print axioms Bartz.C80_cpu_partial
#print axioms Bartz.C80_cpu_violation
#print axioms Bartz.C80_cpu_violation_accurate
#print axioms Bartz.C81_adjacent
#print axioms Bartz.C81_lossless_partial
#print axioms Bartz.C81_merged_partial
#print axioms Bartz.C81_overflow
#print axioms Bartz.C82_bins
#print axioms Bartz.C82_constant
#print axioms Bartz.C82_uniform_partial
#print axioms Bartz.C82_unsorted
#print axioms Bartz.C83_factor
#print axioms Bartz.C83_left
#print axioms Bartz.C83_not_exact
#print axioms Bartz.C83_residuals
#print axioms Bartz.C84_choose_leaf
#print axioms Bartz.C84_cpu
#print axioms Bartz.C84_left
#print axioms Bartz.C85_not
#print axioms Bartz.C85_overflow
#print axioms Bartz.C85_partial
#print axioms Bartz.C86_constant
#print axioms Bartz.C86_default
#print axioms Bartz.C86_iff
#print axioms Bartz.C86_invariant
#print axioms Bartz.C86_not
#print axioms Bartz.C86_partial
#print axioms Bartz.C87_gbart
#print axioms Bartz.C87_posterior
#print axioms Bartz.C87_predictions
#print axioms Bartz.C88_fit
#print axioms Bartz.C88_pointwise
#print axioms Bartz.C89_compare_resid
#print axioms Bartz.C89_predict
#print axioms Bartz.C89_residuals
#print axioms Bartz.C89_sum
#print axioms Bartz.C90_choose_split
#print axioms Bartz.C90_choose_variable
#print axioms Bartz.C90_large
#print axioms Bartz.C90_randint
#print axioms Bartz.C90_randint_masked
#print axioms Bartz.C90_range
#print axioms Bartz.C90_state
#print axioms Bartz.C91_bin
#print axioms Bartz.C91_bin_batches
#print axioms Bartz.C91_evaluate_trace
#print axioms Bartz.C91_evaluate_trees
#print axioms Bartz.C91_quantilize
#print axioms Bartz.C91_quantilized
#print axioms Bartz.C91_run
#print axioms Bartz.C92_any_order
#print axioms Bartz.C92_draw
#print axioms Bartz.C92_leaves
#print axioms Bartz.C92_left
#print axioms Bartz.C92_sigma
#print axioms Bartz.C92_total
#print axioms Bartz.C93_accept
#print axioms Bartz.C93_likelihood
#print axioms Bartz.C93_probability
#print axioms Bartz.C93_trans
#print axioms Bartz.C94_last_partial
#print axioms Bartz.C94_not
#print axioms Bartz.C94_quantiles_partial
#print axioms Bartz.C94_test_partial
#print axioms Bartz.C94_ties
#print axioms Bartz.C95_correlation
#print axioms Bartz.C95_gbart
#print axioms Bartz.C95_no_data
#print axioms Bartz.C95_normal
#print axioms Bartz.C96_at_most_partial
#print axioms Bartz.C96_gbart_at_most_partial
#print axioms Bartz.C96_gbart_partial
#print axioms Bartz.C96_node_at_most_partial
#print axioms Bartz.C96_node_partial
#print axioms Bartz.C96_nonterminal_partial
#print axioms Bartz.C96_normalized_partial
#print axioms Bartz.C96_not
#print axioms Bartz.C96_not_gbart
#print axioms Bartz.C96_rule_partial
#print axioms Bartz.C97_grow_move
#print axioms Bartz.C98_compute_count_trees
#print axioms Bartz.C98_count
#print axioms Bartz.C98_masks
#print axioms Bartz.C98_step
#print axioms Bartz.C98_thresholds
#print axioms Bartz.C99_move
#print axioms Bartz.ExP.C77_not_uniform
#print axioms Bartz.ExU.C102_three
#print axioms Bartz.exists_accurateLog
#print axioms Bartz.grid_ne_nan
#print axioms Bartz.ieee_add
#print axioms Bartz.ieee_div
#print axioms Bartz.ieee_fma
#print axioms Bartz.ieee_le
#print axioms Bartz.ieee_lt
#print axioms Bartz.ieee_mul
#print axioms Bartz.ieee_natCast
#print axioms Bartz.ieee_neg
#print axioms Bartz.ieee_result_unique
#print axioms Bartz.ieee_sqrt
#print axioms Bartz.ieee_sub
#print axioms Bartz.midpoint_ne_nan
#print axioms Bartz.treePrior_standard
