# Formal model of bartz (v0.4.0) in Lean 4 — design

## Architecture

`lean/Verif/` contains

| directory | content |
|---|---|
| `Model/` | definitions only; one file per python module, function by function, each citing `/repo` lines |
| `Spec/`  | small independent specifications (recursive decision trees, reachability, leaf regions, priors, integrals) that do not mention the model |
| `Lemmas/`| helper lemmas and invariants |
| `Props/` | the property theorems (one file per group), each followed by `example`s that meet the hypotheses |

### How Python/JAX is represented

* Arrays are `List`s (2-d arrays: lists of rows). `jax.vmap` over trees is a map over the tree index;
  `lax.scan` is a left fold that also collects outputs.
* Indexing follows the JAX rules: gathers clamp out-of-range indices (`Jax.gather`), scatters drop
  out-of-range updates (`List.set`, `Jax.scatterAdd`), `mode='fill'` gathers return the fill value.
* Integers are `Nat`/`Int`. Casts to small unsigned types and shifts in them are explicit (`Jax.astype bits v = v % 2^bits`),
  with the bit widths computed as in the code. int32 arithmetic on indices is *not* wrapped (sizes < 2^30 assumed); the counts of datapoints in 32 bit arithmetic are in `Model/Counts32`.
* Floating point numbers are an abstract type `F` with operations (`+ - * /`, `log`, `sqrt`, `cumsum`, comparisons, `isfinite`) and
  **no laws**: the structural theorems (tree validity, cached indices, minimum points, counters, ...) hold for any `F`
  satisfying only the few laws of the order and of `jnp.cumsum` used by `categorical` (`FloatLaws` in `Verif/Spec/Float.lean`), thus
  they do not depend on rounding. `Verif/Model/Binary32.lean` defines IEEE 754 binary32 (single precision) with rounding to nearest even,
  overflow, infinities and nan; `Verif/Spec/Ieee.lean` states what the standard requires in terms of real numbers, and
  `Verif/Props/Ieee.lean` proves that the model conforms for all operands, special values included (`Verif/Model/Binning32.lean` uses it for predictors, with `jnp.linspace` as
  `start * (1 - step) + stop * step`, where the sum may or may not be fused with either product), and `Verif/Lemmas/Binary32.lean` proves that it satisfies these laws if sums are
  accumulated from left to right (C79). With the order of the sums used on CPU the laws do *not* hold, and the structural theorems fail
  with a very small probability (C80): the theorems which assume `FloatLaws` must be read with this caveat. C19 and C20 are listed as partial for this reason (`C19_not_cpu`, `C20_not_cpu`); for the other
  claims which assume `FloatLaws` (see the notes in MANIFEST.json) it has not been determined which ones fail on CPU. In exact arithmetic
  the order of the sums is irrelevant (`associativeScan_eq`). The numerical theorems (residuals, MH ratios, likelihood, posterior parameters, equivariance)
  instantiate `F := ℝ`: they are statements in exact arithmetic, and rounding is out of their scope.
* Random numbers: a type of keys with `split`, and a function from keys to *draws* (uniform, randint, normal, gamma).
  Theorems quantify over all draws that respect the documented ranges. Distributional statements are proved by
  showing how the code maps the underlying uniform variate (bijections, lengths of intervals).
  JAX's pseudo random generator itself is not modelled.
* Exceptions are values (`Except`/`Option`) where a property is about rejected inputs.
* Dictionaries are structures or association lists; where aliasing matters (`Model/Heap.lean`) they are mutable objects
  at an address, while arrays are immutable values.
* The callback of `run_mcmc` is represented by the list of its calls.
* Multidimensional arrays in `autobatch` are functions of multi-indices with a shape (`NDArray`).
* In `prepcovars`, predictors are elements of a linear order: integers of a given width with wrap-around, or an ordered field
  with an infinity (floating point in exact arithmetic). The rounding of `jnp.linspace` is an arbitrary function `fl`. There are no nans, apart from `Model/Missing` (C94).
* In `BART.py`, functions of external libraries (`jnp.linalg.lstsq`, `gammainccinv`, powers) are fields of a structure `Lib`;
  theorems that need to know what they compute have their specification as hypothesis (`LawfulLstsq`, `IsGammainccinv`).

### Trusted base

* Lean 4 kernel; axioms `propext`, `Classical.choice`, `Quot.sound` only (see `#print axioms` in `Verif/Axioms.lean`).
* The reading of the python source (the model files cite lines), and of the semantics of JAX 0.4.30 primitives used:
  clamping gathers, dropping scatters, `jnp.searchsorted` (the bisection of its default method), `jnp.unique(size, fill_value)`,
  `jnp.sort`, `jnp.cumsum` (a platform dependent function; `Jax.associativeScan` is its algorithm on CPU), `jnp.around` (half to even), `jnp.linspace`, `jnp.bincount`,
  `random.randint` (returns `minval` if `maxval <= minval`; its algorithm only for C90), `random.uniform` in `[minval, maxval)`.
* Hypotheses that specify the outside world: `LawfulRng` (ranges of the random variates), `FloatLaws` (laws of the order
  of floating point numbers and of sums of nonnegative ones), `LawfulLstsq`, `IsGammainccinv`, `JaxDraws` (how random bits
  are turned into uniform variates), `AccurateLog`/`RoughLog` (accuracy of the logarithms in C80), `LogError` (the same in C93).
* Not modelled: compilation, devices, dtype promotion of floats, flush to zero of subnormal numbers, threefry, the R wrappers in tests, docs, text of
  warnings and of the log (only when and with what numbers it is printed).
* Simplifications to be aware of:
  * in the model of `step`, arithmetic on sizes and counts does not wrap, and the functions that count datapoints work on one tree; C98 proves that this is the
    same as the code with less than 2^31 datapoints; the arithmetic on indices of nodes, cutpoints and variables wraps, in the types used by the code;
  * `jaxext.unique` accepts any fill value; in the code, `jnp.iinfo(jnp.uint32).max` as a python integer may be refused by JAX for
    32 bit unsigned predictors;
  * `autobatch` is left out of `prepcovars` functions since it does not change results, and appears in `evaluate_trace`
    as division of the trees in groups; C91 proves that these are equal to the functions written with `autobatch`;
  * the attribute `columns` of a dataframe is a list (polars) or an object with identity (pandas `Index`). Comparing two different
    `Index` objects gives an array, whose truth value is an error if there are two or more columns. This makes C65 partial;
  * `jnp.bincount` with weights accumulates in the type of the weights (from the source of JAX 0.4.30), which makes C51 partial;
  * for 64 bit signed integer predictors the sum of `int64` and `uint64` is `float64`, which makes C15 partial.

## Properties: what is modelled and how it is proved

| id | model | proof |
|---|---|---|
| C01,C02 | `traverse_tree` as a fold with fixed trip count and index type width | loop invariant: `leaf_found`→leaf reached, else at depth k; uniqueness by induction on the reachability relation |
| C03,C45 | `evaluate_forest`, `evaluate_trace` | refinement to recursive evaluation of a tree read from the arrays |
| C04,C05,C07 | masks as maps over `arange` | characterization by heap arithmetic; counting by induction on the decoded tree |
| C06 | the python loop of `tree_depths` | loop invariant, `Nat.log2` |
| C08 | decision logic | omega |
| C09 | the `scan` in `unique` over the sorted input | fold invariant; **false as documented** for `size < len(x)`: negation + `_partial` |
| C10,C11 | `next_divisor*`, `batch/unbatch/moveaxis` on index functions | divisor search invariants, index arithmetic |
| C12–C18 | `bin_predictors`, both split generators | order lemmas over a linear order / ℚ / BitVec w; C18 **false** at n=0 |
| C19,C20,C22,C23,C29,C34,C36,C37,C39,C52 | `init`, `step` complete | invariant by induction over steps; per-tree step lemma by cases on (grow/prune/none, accepted) |
| C21,C32,C33,C38 | same, `F := ℝ` | invariant/algebra |
| C24–C26 | sampling helpers as functions of the underlying variate | bijection / interval length |
| C27,C28 | `split_range`, `fully_used_variables` | loop invariant over ancestors; C28 **false** with `max_split = 0`, in a way that depends on the ancestors with 2^8, 2^16, 2^32 predictors (`C28_first`, the filler wraps around); both **false** when `max_split` is the maximum of the integer type (the lower end of the range wraps around) |
| C30,C54 | MH ratio code | tree prior as product over nodes, proposal probabilities from C24–C28; algebra |
| C31 | likelihood terms | Gaussian integral from Mathlib |
| C35 | batched/unbatched aggregation | sum over residue classes |
| C40 | free key model (keys are paths of splits) | prefix-freeness; any assignment of draws is realizable |
| C41 | heap of dictionaries with references | **false** when ratios are saved: witness; `_partial` otherwise |
| C42–C44 | `run_mcmc` with callback log | induction; C44 **false** for empty traces |
| C46–C49 | `gbart.__init__`, `predict` pipeline over ℝ with least squares as a minimum | algebra |
| C50,C51,C53 | `debug.py` | bit arithmetic, counting, structural recursion |
| C55 | `check_forest` on reachable states | from the invariant of C19 |
| C56,C64 | prior settings | change of variables gamma/inverse gamma, Mathlib's gamma distribution |
| C57–C62,C65 | `gbart` and its inspection methods, any floating point | from C42–C45, C19, C22, C51, C55 |
| C66,C67 | predictions as functions of the raw predictors | translate bins to cutpoints in the tree read from the heap (C12); cutpoints are in the range of the data (C13, C14, C16) |
| C68 | posterior invariant | `Spec/Bart.lean` defines prior, likelihood and posterior as measures. A step is refined to a function of parameters and independent draws (`step_params`); the tree moves satisfy detailed balance with the leaves integrated out, the leaf and variance updates are exact conditional draws; composed by Tonelli on the product measure. The prior on the variables counts those with an overflow in `split_range` and those without cutpoints (`availVars`), it is the standard one if there are none (`treePrior_standard`, C86) |
| C69 | Markov chain | induction on the iterations with the product measure on the draws of all iterations (`lintegral_sweep`), C42 to go to `run_mcmc` |
| C70 | irreducibility | graph of the trees connected by moves of positive probability; a tree may also stay the same because of the values of the other trees (quadratic growth of the log likelihood ratio), which removes the parity constraint between trees; uniqueness from the Hahn decomposition of two invariant measures; `C70_not`: two trees of depth 2 with all the datapoints on one side of the only cutpoint always change at the same time |
| C71 | aperiodicity | as C70, plus two return times that are coprime; absolute continuity of a step from the densities of the conditional draws of leaves and variance |
| C72 | law of large numbers | `Lemmas/Birkhoff.lean` proves the pointwise ergodic theorem (maximal ergodic inequality), `Lemmas/MarkovErgodic.lean` the law of large numbers for a Markov chain with an irreducible kernel started from the invariant distribution; absolute continuity (C71) moves it to any starting state. Draws of an endless run: `Spec/Endless.lean` |
| C73 | convergence of `gbart` | C72 applied to the sum of trees and to the standard deviation, C45/C46 to go to the output; `Spec/GbartProper.lean` has the conditions on the arguments of `gbart`, from which those of C68 follow |
| C74 | convergence in total variation | `Lemmas/TotalVariation.lean`: the total variation distance between two chains started at different points, as a function of the points, decreases to a subharmonic function of two independent chains, which is constant because they are irreducible together (from C71); the constant is zero because the distributions of the two chains have a common part (Hahn decomposition of kernels) |
| C75 | failures of `gbart`, `predict` | cases on the assertions |
| C76 | results are finite | `Spec/Extended.lean` defines real numbers with infinities and NaN (`XReal`). The step on `XReal` simulates the step on the real numbers: all arrays are images of real ones, but for the ratios of moves that are not allowed; partial because with constant responses the results are NaN (`C76_not`) |
| C77 | transformations of the predictors | `unique` commutes with increasing functions; each cutpoint separates the training values in the same way before and after (`SameSide`), so the bins are the same and the rest of the code gets the same input. For affine functions the cutpoints are converted exactly, and the regression is unchanged because column scaling preserves residuals and rank. `C77_not_uniform`: false for other functions with a uniform grid |
| C78 | order of the datapoints | `step_reorder`: one step of the MCMC commutes with a permutation of the datapoints, because sums over leaves (`sumAt_reorder`), counts and the sum of squared residuals do not change, and the rest acts on one datapoint at a time; induction over the chain with `StateInv`. Settings, least squares and cutpoints are functions of the multiset of the datapoints |
| C79 | invariants in single precision | `Binary32.floatLaws`: rounded addition is monotone and adding zero is exact, so that a cumulative sum from the left satisfies `FloatLaws`; `Binary32.uniform_lawful`: the uniform variate of JAX is lower than the upper end if that is not subnormal; then C19-C23 apply |
| C80 | invariants in single precision on CPU | false: with `lax.associative_scan` the prefix sums may increase at a term equal to zero, since rounded addition is not associative, so `categorical` may return an item with zero weight, and `choose_leaf` a decision node. The counterexample uses the default prior and `min_points_per_leaf`, 80 datapoints, and 9 steps, computed by the kernel with concrete logarithms and transferred to any accurate ones with `step_platform` and `acc_true`. Partial: the invariants hold along runs in which `choose_leaf` always returns a growable leaf |
| C81 | quantile binning in single precision | false: the midpoint of adjacent floating point numbers is rounded to even, so it may be equal to the larger one, and then the two are put in the same bin; also, the sum overflows for values above `2 ** 127`. Partial: lossless if no two values are adjacent floating point numbers and all are below `2 ** 127`; without the first condition, only adjacent numbers may be merged and the binning is monotone |
| C82 | evenly spaced binning in single precision | false: if the range of the predictor is small compared to its absolute value, the cutpoints computed by `jnp.linspace` are not sorted, so the bisection of `searchsorted` finds a bin inconsistent with other cutpoints; a constant predictor may have cutpoints on both sides of its value. Partial: with `M` the maximum absolute value, if the range is at least `num_bins * M / 2 ** 20`, the rounding errors are at most `7 * M / 2 ** 24` and the property holds, however the compiler fuses the operations. In any case the binning is monotone and each value is within the two cutpoints of its bin |
| C83 | accumulated rounding error of the residuals in single precision | each update of the residuals makes two roundings, the change of the tree and the sum; the error after an update is at most `(1 + u) E + u B` with `u = 2 ** -24`, `B = Y + (num_trees + 3) L`; induction on the updates of a step and then on the steps; also a run in which the residuals are not exact |
| C84 | probability of choosing each leaf in single precision | the cumulative sums of nonnegative terms have relative error `(1 ± u) ** D`, with `D` the number of consecutive additions (`Lemmas/SumError`); `uniform k (sum)` differs from `k / 2 ** 23` times the sum by a rounding; the bits for which index `i` is chosen are in an interval, so their number is at most its length plus 1; the lower bound on the probability of an item is 1 minus the upper bounds on the others |
| C85 | cutpoints up to the largest value of their type | false without a minimum number of datapoints per leaf: a run in single precision in which a decision rule with cutpoint 0, due to the overflow in `split_range`, is accepted. Partial: the invariants are proved with the overflow (`ValidArgs.overflow`), because the proposals have an empty side, so they are rejected if there is a minimum |
| C86 | standard prior | the posterior probabilities of configurations of decision rules with one prior and the other have a common factor that does not depend on the prior (`joint_config`); equality on the configuration without decision nodes fixes the normalization, so the priors agree on all possible trees, which by `prior_eq_iff` excludes that variables are counted by mistake (`Lemmas/Weighted`: posterior with any prior on the rules). Non-invariance from the uniqueness of the stationary distribution (C70); a concrete counterexample with 255 cutpoints |
| C87 | order of the predictors | `Spec/Relabel`: relabelling of the variables in a tree. The possible trees correspond one to one, with the same prior probability and the same regions; so prior, likelihood and posterior are transported by the relabelling (`posterior_relabel`). The settings, cutpoints and bins of `gbart` are reordered; the limits of C73 are then equal |
| C88 | independence of the test points | `GbartSpec.predict_eq` gives the predictions in closed form; the binned values of a test point depend only on it (`bin_column`). The statement on the fit by unfolding `gbart` |
| C89 | rounding of the predictions | `Spec.Sums`: the results of adding some numbers in any order and grouping. Induction on how the sum is made, with the relative error of each sum (`add_rel_error`) and the exactness of the sum with zero; then the multiplication by the scale, and the bound of C83 for the residuals |
| C90 | bias of the random integers | `Model.Randint`: the algorithm of `random.randint` in JAX. For spans up to `2^16` nothing overflows, and the integer is the 64 random bits modulo the span: counting of a residue class (`Nat.count_modEq_card`). Composed with the bijections of C24, C28 for the functions that use it |
| C91 | batched functions | `Model.Batched`: the functions of `prepcovars.py` and `mcmcloop.py` written with `autobatch` on arrays; each acts independently on the rows (`slice_ofRows`), then C10 and C11 |
| C92 | rounding of the leaves and of the error variance drawn | relative errors of the precomputed terms (`Approx`, a calculus of products of factors `1 + e`), of the sum of the residuals in a leaf (`Sums`, any order), of the two products and of their sum; the residuals are those of C83 stopped in the middle of a step (`drift_inner`); the sum of squares is in any order, also with fused operations (`SumSquares`) |
| C93 | rounding of the Metropolis-Hastings ratio and wrong decisions | the accuracy of `log` and `log1p` is a hypothesis (`LogError`); the log likelihood ratio is compared with the marginal likelihoods of C31 (`leafMarginal`) of the data in the two leaves (`sideData`), the residuals are those of C83 in the middle of a step as in C92; the sums `a ± e` are propagated with `add_near`, `sub_near`, and the products with `Approx`; the probability counts the 2^23 values of the bits |
| C94 | missing values in the predictors | single precision with nan (`Model/Missing`): the order of `jnp.sort` and `jnp.searchsorted` has the nans at the end, `==` does not consider them equal; `unique` then counts each nan as a distinct value (`unique_nan_spec`), which gives the cutpoints explicitly (`nan_row`). False with the evenly spaced cutpoints |
| C95 | a priori distribution of the regression function | each point is in exactly one leaf (`exists_leaf`), whose value is normal with variance 1 / number of trees whatever the tree; sums of independent normals; the measures are those of C68 (`treeDist`, `priorDist`), normalized |
| C96 | a priori distribution of the trees | the nodes are added one at a time in order of index: bijection between the trees with decisions before `m + 1` and pairs of a tree with decisions before `m` and a rule (`sum_decision`), so the sum of the weights telescopes (`sum_all`). For the upper bound, the same with the nodes of one subtree, with inequalities (`sum_all_le`). False with a minimum number of datapoints per leaf |
| C97 | `grow_move` in single precision: total variation distance between the distribution of leaf, variable and cutpoint proposed and the intended one | chain of the bounds of C84 and C90 with independent random bits; averages of functions of the choices (`Lemmas/Proposal32`) |
| C98 | `count_datapoints_per_leaf`, `compute_count_trees` on all the trees in 32 bit arithmetic; thresholds, `count_nonzero`, `cumsum` of masks | model with `BitVec 32` (`Model/Counts32`) proved equal to the one for single trees with natural numbers; the counts are at most the number of datapoints |
| C99 | `sample_moves` in single precision: total variation distance between the distribution of the proposed move and the intended one | C97 conditionally on the other random bits; the choice between growing and pruning is exact; C90 for the node to prune |
| C100 | `step` in single precision: the probability of modifying a tree with a move of a given set, compared with proposal times Metropolis-Hastings acceptance in exact arithmetic | C99 generalized to averages of functions of the move (`move_mean`); conditionally on the proposal, the number of variates that accept it, with the error of the logarithm (`accept_near`) |
| C101 | `step` in single precision: detailed balance between a tree and the same tree with a leaf grown, up to an explicit error | C100 applied to the two opposite moves; the saved log ratio of prior and transition probabilities is near the exact one, with the sums of the weights of the growable leaves done in two different orders (`grow_trans32`, `prune_trans32`); the events differ only if the leaf chosen is not growable (`update_picks`); the exact balance as in C54 |
| C102 | `gbart` in single precision: a change of unit of the response by a power of two is passed on to the results without any error | rounding commutes with the multiplication by a power of two, except for the subnormal results of multiplications and divisions (`RoundsTo.scale`); the sums of responses are multiples of a power of two, so the divisions in the settings do not underflow (`Multiple.noUnderflow`); an overflow is never undone by a later operation (`Scales`); hence the standardized data are the same (`input_scale`, `settings_scale`); `C102_three` shows that with the unit divided by 3 they are not |
| C103 | `gbart`: the two signs of the response are treated in the same way | coupling of the two runs: the settings (`settings_neg`), the initial state (`init_neg`) and each step (`step_reflect`, by induction over the trees) commute with the change of sign, because the residuals enter the likelihood ratio and the error variance squared, and the leaves linearly; with different random numbers, the posterior distributions correspond because the prior of the leaves is symmetric (`posterior_reflect`), the distributions after a finite number of iterations because the normal distribution is symmetric and a step determines the transition kernel (`C103_law`), and then the averages converge to opposite limits by C73 |
| C104 | `step`: the trees are exchangeable in the long run | the prior is a product of equal factors and the likelihood depends on the sum of the trees (`posterior_permute`); then the law of large numbers of C72 |
| C105 | `gbart`: change of sign of the response in single precision | relation between opposite numbers, up to the sign of zero, preserved by all the operations (`SignRel`); relational version of C103; the least squares solver is assumed to give the same results with opposite responses (`EvenLstsq`) |
| C63 | `_compare_resid` | from C21 |

## Negative results

Where the code does not satisfy a property as stated in `properties.jsonl`, there is a theorem that says so with a witness
(names `Cnn_not…`), and the property is proved under an additional hypothesis (`…_partial`): C09, C15, C18, C19, C20, C25, C27, C28, C41, C44, C49, C51, C65, C76, C80, C81, C82, C85, C86, C94, C96.

## Testing of the theorems

`seeded/LOG.jsonl` lists the wrong programs that have been tried in place of the model, in a scratch copy, with the theorems whose
proof fails, or were tightened. A theorem is listed as failed if Lean reports an error in its proof; the theorems in modules
that depend on the failed ones are not rebuilt, so they are not listed.

Limits of the log:
- The list of failed theorems is not complete: in most of the attempts the build was stopped 45 seconds after the first error, or
  only one module and its dependencies were built.
- The name of the theorem was obtained from the line of the error. Lean reports some errors, for example timeouts, at the doc comment,
  and these were attributed to the declaration before. The line numbers were not kept. It was checked that each theorem listed
  depends on the definition edited; two entries did not pass (`step`, attributed to `sample_trees_eq` in addition to `step_eq`), and they were
  repeated and corrected. An attribution to the wrong theorem can remain if that theorem depends on the definition as well.
- Some failures are timeouts of the proof, rather than goals that became false.
- Six attempts are not listed: in five the edited model did not compile, in one the build took too long, so it has no result.
- Four edits are not detected by any theorem about the results: two are equivalent programs, and two change the conversion of nans to cutpoints,
  which does not happen with finite predictors. A fifth one (`State.dict`, value of `y`) changes nothing in the results of `run_mcmc`, and is detected
  only by `dict_others`, which is close to the definition.
