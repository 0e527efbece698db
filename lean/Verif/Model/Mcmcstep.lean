import Verif.Model.Grove
/-!
# Model of `/repo/src/bartz/mcmcstep.py`

Floating point values live in an arbitrary type `F` with operations but no laws. A random key is
an element of an arbitrary type `K`; `rng : Rng K F` says what one gets by using a key.

Simplifications common to the whole file:
* the dictionaries are structures; a dictionary of arrays with leading axis `num_trees` (`moves`,
  `move_counts`, `prelkv`, `prelf`) is a list of structures;
* `jax.vmap` over trees is `Jax.vmap num_trees` with access by index;
* int32 and uint32 arithmetic does not wrap (but the small unsigned types do, see `Jax.astype`);
* float dtypes (`small_float`, `large_float`) are a single type `F`.
-/

set_option autoImplicit false

namespace Bartz
open Jax

section
variable {K F : Type} [KeyLike K] [Inhabited F] [Zero F] [One F] [Add F] [Sub F] [Mul F] [Div F]
  [Neg F] [NatCast F] [FltFun F]

/-- The BART mcmc state dictionary (mcmcstep.py:96-159, 176-215). The dtypes of the integer arrays
are represented by their widths. `opt.require_min_points` is `min_points_per_leaf.isSome`. -/
structure State (F : Type) where
  leaf_trees : List (List F)
  var_trees : List (List Nat)
  split_trees : List (List Nat)
  resid : List F
  sigma2 : F
  grow_prop_count : Nat
  grow_acc_count : Nat
  prune_prop_count : Nat
  prune_acc_count : Nat
  p_nonterminal : List F
  p_propose_grow : List F
  sigma2_alpha : F
  sigma2_beta : F
  max_split : List Nat
  y : List F
  X : List (List Nat)
  leaf_indices : List (List Nat)
  min_points_per_leaf : Option Nat
  affluence_trees : Option (List (List Bool))
  resid_batch_size : Option Nat
  count_batch_size : Option Nat
  /-- `ratios['log_trans_prior']`, `ratios['log_likelihood']` -/
  ratios : Option (List F × List F)
  /-- dtype of `var_trees` -/
  var_bits : Nat
  /-- dtype of `split_trees` and `max_split` -/
  split_bits : Nat
  /-- dtype of `leaf_indices` -/
  idx_bits : Nat

/-- The arguments of `mcmcstep.init` (mcmcstep.py:47-61). `split_bits` is the width of
`max_split.dtype`; `nan` the float NaN; the batch sizes are already resolved (the resolution of
'auto' is modelled in `Bartz.choose_suffstat_batch_size`). -/
structure InitArgs (F : Type) where
  X : List (List Nat)
  y : List F
  max_split : List Nat
  split_bits : Nat
  num_trees : Nat
  p_nonterminal : List F
  sigma2_alpha : F
  sigma2_beta : F
  min_points_per_leaf : Option Nat
  resid_batch_size : Option Nat
  count_batch_size : Option Nat
  save_ratios : Bool
  nan : F

/-- `make_forest` (mcmcstep.py:165-167) -/
def make_forest {α : Type} (num_trees max_depth : Nat) (zero : α) : List (List α) :=
  vmap num_trees fun _ => make_tree max_depth zero

/-- `mcmcstep.init` (mcmcstep.py:161-217) -/
def init (a : InitArgs F) : State F :=
  let p_nonterminal := a.p_nonterminal ++ [0]
  let max_depth := p_nonterminal.length
  let sigma2 := a.sigma2_beta / a.sigma2_alpha
  let sigma2 := if FltFun.isFinite sigma2 && FltFun.ltb 0 sigma2 then sigma2 else 1
  { leaf_trees := make_forest a.num_trees max_depth 0
    var_trees := make_forest a.num_trees (max_depth - 1) 0
    split_trees := make_forest a.num_trees (max_depth - 1) 0
    resid := a.y
    sigma2 := sigma2
    grow_prop_count := 0
    grow_acc_count := 0
    prune_prop_count := 0
    prune_acc_count := 0
    p_nonterminal := p_nonterminal
    p_propose_grow := (tree_depths (2 ^ (max_depth - 1))).map fun d => gather p_nonterminal d
    sigma2_alpha := a.sigma2_alpha
    sigma2_beta := a.sigma2_beta
    max_split := a.max_split
    y := a.y
    X := a.X
    leaf_indices := vmap a.num_trees fun _ => List.replicate a.y.length 1
    min_points_per_leaf := a.min_points_per_leaf
    affluence_trees := a.min_points_per_leaf.map fun m =>
      (make_forest a.num_trees (max_depth - 1) false).map fun tree =>
        setDrop tree 1 (decide (a.y.length ≥ 2 * m))
    resid_batch_size := a.resid_batch_size
    count_batch_size := a.count_batch_size
    ratios := if a.save_ratios then
        some (List.replicate a.num_trees a.nan, List.replicate a.num_trees a.nan) else none
    var_bits := minimal_unsigned_dtype (a.X.length - 1 : Int)
    split_bits := a.split_bits
    idx_bits := minimal_unsigned_dtype (2 ^ max_depth - 1 : Int) }

/-- `mcmcstep.categorical` (mcmcstep.py:508-527) -/
def categorical (draw : Draws F) (distr : List F) : Nat × F :=
  let ecdf := FltFun.cumsum distr
  let u := draw.uniformTo (last ecdf)
  (searchsortedRight (fun x => FltFun.leb x u) ecdf, last ecdf)

/-- `mcmcstep.randint_masked` (mcmcstep.py:847-866); `jnp.cumsum` of a boolean array counts -/
def randint_masked (draw : Draws F) (mask : List Bool) : Nat :=
  let ecdf := cumsum (mask.map Bool.toNat)
  let u := draw.randint 0 (last ecdf)
  searchsortedRight (fun x => decide (x ≤ u)) ecdf

/-- `mcmcstep.randint_exclude` (mcmcstep.py:658-685) -/
def randint_exclude (draw : Draws F) (sup : Nat) (exclude : List Nat) : Nat :=
  let exclude := Jax.unique exclude exclude.length sup
  let num_allowed := sup - (exclude.countP fun i => decide (i < sup))
  let u := draw.randint 0 num_allowed
  exclude.foldl (fun u i => if i ≤ u then u + 1 else u) u

/-- `mcmcstep.growable_leaves` (mcmcstep.py:485-506) -/
def growable_leaves (split_tree : List Nat) (affluence_tree : Option (List Bool)) : List Bool :=
  let is_growable := is_actual_leaf split_tree false
  match affluence_tree with
  | none => is_growable
  | some affluence_tree => List.zipWith (· && ·) is_growable affluence_tree

/-- the output of `choose_leaf` -/
structure ChosenLeaf (F : Type) where
  leaf_to_grow : Nat
  num_growable : Nat
  prob_choose : F
  num_prunable : Nat

/-- `mcmcstep.choose_leaf` (mcmcstep.py:447-483) -/
def choose_leaf (split_tree : List Nat) (affluence_tree : Option (List Bool))
    (p_propose_grow : List F) (draw : Draws F) : ChosenLeaf F :=
  let is_growable := growable_leaves split_tree affluence_tree
  let num_growable := countNonzero is_growable
  let distr := List.zipWith (fun g p => if g then p else 0) is_growable p_propose_grow
  let (leaf_to_grow, distr_norm) := categorical draw distr
  let leaf_to_grow := if num_growable ≠ 0 then leaf_to_grow else 2 * split_tree.length
  let prob_choose := gather distr leaf_to_grow / distr_norm
  let is_parent := is_leaves_parent (setDrop split_tree leaf_to_grow 1)
  let num_prunable := countNonzero is_parent
  { leaf_to_grow, num_growable, prob_choose, num_prunable }

/-- `mcmcstep.ancestor_variables` (mcmcstep.py:589-619). The carry is `(i, index, ancestor_vars)`;
`i` starts at `size - 1` and is decremented `size` times (the last decrement, to -1, is unused). If
`var_tree` has length 1 the code raises (array of negative length). `var_bits` is the width of
`var_tree.dtype`: `jnp.where(index, var, max_split.size)` has the type of `var`, because a Python integer
does not determine the type, so `p` is reduced modulo `2 ^ var_bits`. The cast to the minimal unsigned type
for `p` that follows is the identity on the values written if those of `var_tree` fit. -/
def ancestor_variables (var_bits : Nat) (var_tree max_split : List Nat) (node_index : Nat) : List Nat :=
  let max_num_ancestors := tree_depth var_tree - 1
  let bits := minimal_unsigned_dtype (max_split.length : Int)
  let loop (carry : Nat × Nat × List Nat) : Nat × Nat × List Nat :=
    let (i, index, ancestor_vars) := carry
    let index := index >>> 1
    let var := gather var_tree index
    let var := if index ≠ 0 then var else astype var_bits max_split.length
    (i - 1, index, setDrop ancestor_vars i (astype bits var))
  (scanN loop (max_num_ancestors - 1, node_index, List.replicate max_num_ancestors 0)
    max_num_ancestors).2.2

/-- the loop of `mcmcstep.split_range` (mcmcstep.py:646-654), carry `(l, r, index)` -/
def split_range_loop (var_tree split_tree : List Nat) (ref_var : Nat) (carry : Nat × Nat × Nat) :
    Nat × Nat × Nat :=
  let (l, r, index) := carry
  let right_child : Bool := index &&& 1 ≠ 0
  let index := index >>> 1
  let split := gather split_tree index
  let cond : Bool := gather var_tree index == ref_var && index != 0
  let l := if cond && right_child then max l split else l
  let r := if cond && !right_child then min r split else r
  (l, r, index)

/-- `mcmcstep.split_range` (mcmcstep.py:621-656); returns `(l, r)`, the range is `[l, r)`. `split_bits` is
the width of `split_tree.dtype`: `l` starts from the Python integer 0, which does not determine the type, so in
the loop it takes the type of `split_tree` due to `jnp.maximum(l, split)`, and `l + 1` is computed modulo
`2 ^ split_bits`; `r` is a 32 bit integer, assumed not to overflow. -/
def split_range (split_bits : Nat) (var_tree split_tree max_split : List Nat) (node_index ref_var : Nat) : Nat × Nat :=
  let max_num_ancestors := tree_depth var_tree - 1
  let initial_r := 1 + getFill max_split ref_var 0
  let out := scanN (split_range_loop var_tree split_tree ref_var) (0, initial_r, node_index)
    max_num_ancestors
  (astype split_bits (out.1 + 1), out.2.1)

/-- `mcmcstep.fully_used_variables` (mcmcstep.py:559-587) -/
def fully_used_variables (var_bits split_bits : Nat) (var_tree split_tree max_split : List Nat)
    (leaf_index : Nat) : List Nat :=
  (ancestor_variables var_bits var_tree max_split leaf_index).map fun v =>
    let (l, r) := split_range split_bits var_tree split_tree max_split leaf_index v
    let num_split : Int := (r : Int) - (l : Int)
    if num_split = 0 then v else max_split.length

/-- `mcmcstep.choose_variable` (mcmcstep.py:529-557) -/
def choose_variable (var_bits split_bits : Nat) (var_tree split_tree max_split : List Nat)
    (leaf_index : Nat) (draw : Draws F) : Nat :=
  let var_to_ignore := fully_used_variables var_bits split_bits var_tree split_tree max_split leaf_index
  randint_exclude draw max_split.length var_to_ignore

/-- `mcmcstep.choose_split` (mcmcstep.py:687-712) -/
def choose_split (split_bits : Nat) (var_tree split_tree max_split : List Nat) (leaf_index : Nat)
    (draw : Draws F) : Nat :=
  let var := gather var_tree leaf_index
  let (l, r) := split_range split_bits var_tree split_tree max_split leaf_index var
  draw.randint l r

/-- the constant `0.5` -/
def half : F := 1 / ((2 : Nat) : F)

/-- `mcmcstep.compute_partial_ratio` (mcmcstep.py:714-758) -/
def compute_partial_ratio (prob_choose : F) (num_prunable : Nat) (p_nonterminal : List F)
    (leaf_to_grow : Nat) : F :=
  let prune_allowed : Bool := leaf_to_grow ≠ 1
  let p_grow : F := if prune_allowed then half else 1
  let inv_trans_ratio := p_grow * prob_choose * (num_prunable : F)
  let depth := gather (tree_depths (2 ^ (p_nonterminal.length - 1))) leaf_to_grow
  let p_parent := gather p_nonterminal depth
  let cp_children := 1 - gather p_nonterminal (depth + 1)
  let tree_ratio := cp_children * cp_children * p_parent / (1 - p_parent)
  tree_ratio / inv_trans_ratio

/-- the output of `grow_move` (mcmcstep.py:407-425) -/
structure GrowMove (F : Type) where
  num_growable : Nat
  node : Nat
  var : Nat
  split : Nat
  partial_ratio : F
  var_tree : List Nat

/-- `mcmcstep.grow_move` (mcmcstep.py:382-445); `var_bits` and `split_bits` are the widths
of `var_tree.dtype` and `split_tree.dtype` -/
def grow_move (rng : Rng K F) (var_bits split_bits : Nat) (var_tree split_tree : List Nat)
    (affluence_tree : Option (List Bool)) (max_split : List Nat)
    (p_nonterminal p_propose_grow : List F) (key : K) : GrowMove F :=
  let key0 := KeyLike.split key 3 0
  let key1 := KeyLike.split key 3 1
  let key2 := KeyLike.split key 3 2
  let chosen := choose_leaf split_tree affluence_tree p_propose_grow (rng key0)
  let var := choose_variable var_bits split_bits var_tree split_tree max_split chosen.leaf_to_grow (rng key1)
  let var_tree := setDrop var_tree chosen.leaf_to_grow (astype var_bits var)
  let split := choose_split split_bits var_tree split_tree max_split chosen.leaf_to_grow (rng key2)
  let ratio := compute_partial_ratio chosen.prob_choose chosen.num_prunable p_nonterminal
    chosen.leaf_to_grow
  { num_growable := chosen.num_growable, node := chosen.leaf_to_grow, var, split,
    partial_ratio := ratio, var_tree }

/-- the output of `choose_leaf_parent` -/
structure ChosenParent (F : Type) where
  node_to_prune : Nat
  num_prunable : Nat
  prob_choose : F

/-- `jnp.sum(a, where=mask)` -/
def sumWhere (a : List F) (mask : List Bool) : F :=
  Jax.sum (List.zipWith (fun p g => if g then p else 0) a mask)

/-- `mcmcstep.choose_leaf_parent` (mcmcstep.py:806-845) -/
def choose_leaf_parent (split_tree : List Nat) (affluence_tree : Option (List Bool))
    (p_propose_grow : List F) (draw : Draws F) : ChosenParent F :=
  let is_prunable := is_leaves_parent split_tree
  let num_prunable := countNonzero is_prunable
  let node_to_prune := randint_masked draw is_prunable
  let node_to_prune := if num_prunable ≠ 0 then node_to_prune else 2 * split_tree.length
  let split_tree := setDrop split_tree node_to_prune 0
  let affluence_tree := affluence_tree.map fun a => setDrop a node_to_prune true
  let is_growable_leaf := growable_leaves split_tree affluence_tree
  let prob_choose := gather p_propose_grow node_to_prune
  let prob_choose := prob_choose / sumWhere p_propose_grow is_growable_leaf
  { node_to_prune, num_prunable, prob_choose }

/-- the output of `prune_move` (mcmcstep.py:781-794) -/
structure PruneMove (F : Type) where
  allowed : Bool
  node : Nat
  partial_ratio : F

/-- `mcmcstep.prune_move` (mcmcstep.py:760-804) -/
def prune_move (rng : Rng K F) (split_tree : List Nat) (affluence_tree : Option (List Bool))
    (p_nonterminal p_propose_grow : List F) (key : K) : PruneMove F :=
  let chosen := choose_leaf_parent split_tree affluence_tree p_propose_grow (rng key)
  let allowed : Bool := gather split_tree 1 != 0
  let ratio := compute_partial_ratio chosen.prob_choose chosen.num_prunable p_nonterminal
    chosen.node_to_prune
  { allowed, node := chosen.node_to_prune, partial_ratio := ratio }

/-- one tree's entry of the `moves` dictionary (mcmcstep.py:312-340) -/
structure Move (F : Type) where
  allowed : Bool
  grow : Bool
  num_growable : Nat
  node : Nat
  left : Nat
  right : Nat
  partial_ratio : F
  grow_var : Nat
  grow_split : Nat
  var_tree : List Nat
  logu : F

/-- the part of `mcmcstep.sample_moves` (mcmcstep.py:348-372) that combines the two proposals of
one tree, given its two uniform variates -/
def combine_moves (grow_move : GrowMove F) (prune_move : PruneMove F) (u logu : F) : Move F :=
  let grow_allowed : Bool := grow_move.num_growable ≠ 0
  let p_grow : F := if grow_allowed && prune_move.allowed then half else
    if grow_allowed then 1 else 0
  let grow : Bool := FltFun.ltb u p_grow
  let node := if grow then grow_move.node else prune_move.node
  let left := node <<< 1
  let right := left + 1
  { allowed := grow || prune_move.allowed
    grow := grow
    num_growable := grow_move.num_growable
    node := node
    left := left
    right := right
    partial_ratio := if grow then grow_move.partial_ratio else prune_move.partial_ratio
    grow_var := grow_move.var
    grow_split := grow_move.split
    var_tree := grow_move.var_tree
    logu := FltFun.log1p (-logu) }

/-- `mcmcstep.sample_moves` and `mcmcstep._sample_moves_vmap_trees` (mcmcstep.py:301-380) -/
def sample_moves (rng : Rng K F) (bart : State F) (key : K) : List (Move F) :=
  let ntree := bart.leaf_trees.length
  let key0 := KeyLike.split key (1 + ntree) 0
  vmap ntree fun t =>
    let subkey := KeyLike.split key (1 + ntree) (1 + t)
    let k0 := KeyLike.split subkey 2 0
    let k1 := KeyLike.split subkey 2 1
    let var_tree := bart.var_trees.getD t []
    let split_tree := bart.split_trees.getD t []
    let affluence_tree := bart.affluence_trees.map fun a => a.getD t []
    let grow := grow_move rng bart.var_bits bart.split_bits var_tree split_tree affluence_tree
      bart.max_split bart.p_nonterminal bart.p_propose_grow k0
    let prune := prune_move rng split_tree affluence_tree bart.p_nonterminal bart.p_propose_grow k1
    combine_moves grow prune ((rng key0).uniform2 0 t) ((rng key0).uniform2 1 t)

/-- `mcmcstep.apply_grow_to_indices` for one tree (mcmcstep.py:942-969); `bits` is the width of
`leaf_indices.dtype` -/
def apply_grow_to_indices (bits : Nat) (move : Move F) (leaf_indices : List Nat)
    (X : List (List Nat)) : List Nat :=
  let left_child := astype bits (astype bits move.node <<< 1)
  let row := gather X move.grow_var
  let tree_size := 2 * move.var_tree.length
  let node_to_update := if move.grow then move.node else tree_size
  List.zipWith (fun leaf_index x =>
    let go_right : Nat := if x ≥ move.grow_split then 1 else 0
    if leaf_index = node_to_update then astype bits (left_child + go_right) else leaf_index)
    leaf_indices row

/-- `mcmcstep._aggregate_scatter` (mcmcstep.py:1041-1046) -/
def aggregate_scatter {α : Type} [Zero α] [Add α] (values : List α) (indices : List Nat)
    (size : Nat) : List α :=
  scatterAdd (List.replicate size 0) indices values

/-- the number of batches (mcmcstep.py:1055, 1420) -/
def num_batches (n batch_size : Nat) : Nat := n / batch_size + (if n % batch_size ≠ 0 then 1 else 0)

/-- `mcmcstep._aggregate_batched_onetree` (mcmcstep.py:1418-1427) -/
def aggregate_batched_onetree {α : Type} [Zero α] [Add α] (values : List α) (indices : List Nat)
    (size batch_size : Nat) : List α :=
  let n := indices.length
  let nbatches := num_batches n batch_size
  let batch_indices := (List.range n).map (· % nbatches)
  (scatterAdd2 (List.replicate size (List.replicate nbatches 0)) indices batch_indices values).map
    Jax.sum

/-- `mcmcstep.count_datapoints_per_leaf`, with `_count_scan`, `_count_vec` and
`_aggregate_batched_alltrees` (mcmcstep.py:1012-1062), for one tree. Simplification: the scan over
trees and the three-dimensional scatter with `tree_indices = arange(ntree)` act on each tree
separately, so they are written for a single tree. -/
def count_datapoints_per_leaf (leaf_indices : List Nat) (tree_size : Nat)
    (batch_size : Option Nat) : List Nat :=
  let ones := List.replicate leaf_indices.length 1
  match batch_size with
  | none => aggregate_scatter ones leaf_indices tree_size
  | some b => aggregate_batched_onetree ones leaf_indices tree_size b

/-- one tree's entry of `move_counts` (mcmcstep.py:1002-1005) -/
structure MoveCounts where
  left : Nat
  right : Nat
  total : Nat

/-- `mcmcstep.compute_count_trees` for one tree (mcmcstep.py:971-1010) -/
def compute_count_tree (leaf_indices : List Nat) (move : Move F) (batch_size : Option Nat) :
    List Nat × MoveCounts :=
  let tree_size := move.var_tree.length * 2
  let count_tree := count_datapoints_per_leaf leaf_indices tree_size batch_size
  let left := gather count_tree move.left
  let right := gather count_tree move.right
  let counts : MoveCounts := { left, right, total := left + right }
  (setDrop count_tree move.node counts.total, counts)

/-- `mcmcstep.adapt_leaf_trees_to_grow_indices` for one tree (mcmcstep.py:1126-1151) -/
def adapt_leaf_tree_to_grow_indices (leaf_tree : List F) (move : Move F) : List F :=
  let values_at_node := gather leaf_tree move.node
  let leaf_tree' := setDrop leaf_tree (if move.grow then move.left else leaf_tree.length)
    values_at_node
  setDrop leaf_tree' (if move.grow then move.right else leaf_tree.length) values_at_node

/-- `mcmcstep.compute_p_prune` for one tree (mcmcstep.py:1091-1124) -/
def compute_p_prune (move : Move F) (left_count right_count : Nat)
    (min_points_per_leaf : Option Nat) : F :=
  let other_growable_leaves : Bool := move.num_growable ≥ 2
  let new_leaves_growable : Bool := move.node < move.var_tree.length / 2
  let new_leaves_growable : Bool := match min_points_per_leaf with
    | none => new_leaves_growable
    | some m => new_leaves_growable && (decide (left_count ≥ 2 * m) || decide (right_count ≥ 2 * m))
  let grow_again_allowed := other_growable_leaves || new_leaves_growable
  let grow_p_prune : F := if grow_again_allowed then half else 1
  let prune_p_prune : F := if move.num_growable ≠ 0 then half else 1
  if move.grow then grow_p_prune else prune_p_prune

/-- `mcmcstep.complete_ratio` for one tree (mcmcstep.py:1064-1089): the `log_trans_prior_ratio` -/
def complete_ratio (move : Move F) (counts : MoveCounts) (min_points_per_leaf : Option Nat) : F :=
  let p_prune := compute_p_prune move counts.left counts.right min_points_per_leaf
  FltFun.log (move.partial_ratio * p_prune)

/-- one tree's entry of `prelkv` (mcmcstep.py:1178-1185) -/
structure Prelkv (F : Type) where
  sigma2_left : F
  sigma2_right : F
  sigma2_total : F
  sqrt_term : F

/-- `mcmcstep.precompute_likelihood_terms`, per tree part (mcmcstep.py:1176-1185) -/
def precompute_likelihood_terms (ntree : Nat) (sigma2 : F) (counts : MoveCounts) : Prelkv F :=
  let sigma_mu2 : F := 1 / (ntree : F)
  let sigma2_left := sigma2 + (counts.left : F) * sigma_mu2
  let sigma2_right := sigma2 + (counts.right : F) * sigma_mu2
  let sigma2_total := sigma2 + (counts.total : F) * sigma_mu2
  { sigma2_left, sigma2_right, sigma2_total
    sqrt_term := FltFun.log (sigma2 * sigma2_total / (sigma2_left * sigma2_right))
      / ((2 : Nat) : F) }

/-- `prelk['exp_factor']` (mcmcstep.py:1186-1188) -/
def exp_factor (ntree : Nat) (sigma2 : F) : F :=
  (1 / (ntree : F)) / (((2 : Nat) : F) * sigma2)

/-- one tree's entry of `prelf` -/
structure Prelf (F : Type) where
  mean_factor : List F
  centered_leaves : List F

/-- `mcmcstep.precompute_leaf_terms` (mcmcstep.py:1190-1222), for the tree `t`, with the normal
variates `z` of that tree -/
def precompute_leaf_terms (ntree : Nat) (count_tree : List Nat) (sigma2 : F) (z : Nat → F) :
    Prelf F :=
  let var_post := count_tree.map fun (c : Nat) => 1 / ((c : F) / sigma2 + (ntree : F))
  { mean_factor := var_post.map fun v => v / sigma2
    centered_leaves := var_post.mapIdx fun i v => z i * FltFun.sqrt v }

/-- `mcmcstep.sum_resid` (mcmcstep.py:1391-1416) -/
def sum_resid (resid : List F) (leaf_indices : List Nat) (tree_size : Nat)
    (batch_size : Option Nat) : List F :=
  match batch_size with
  | none => aggregate_scatter resid leaf_indices tree_size
  | some b => aggregate_batched_onetree resid leaf_indices tree_size b

/-- `mcmcstep.compute_likelihood_ratio` (mcmcstep.py:1429-1453) -/
def compute_likelihood_ratio (total_resid left_resid right_resid : F) (prelkv : Prelkv F)
    (exp_factor : F) : F :=
  let exp_term := exp_factor * (
    left_resid * left_resid / prelkv.sigma2_left +
    right_resid * right_resid / prelkv.sigma2_right -
    total_resid * total_resid / prelkv.sigma2_total)
  prelkv.sqrt_term + exp_term

/-- everything computed for one tree by the parallel stage -/
structure TreeWork (F : Type) where
  move : Move F
  leaf_indices : List Nat
  leaf_tree : List F
  count_tree : List Nat
  counts : MoveCounts
  log_trans_prior_ratio : F
  prelkv : Prelkv F
  prelf : Prelf F

/-- `mcmcstep.accept_moves_parallel_stage` (mcmcstep.py:890-940), the computations for the tree
`t`. -/
def parallel_stage_tree (rng : Rng K F) (bart : State F) (key : K) (t : Nat) (move : Move F) :
    TreeWork F :=
  let ntree := bart.leaf_trees.length
  let leaf_indices := apply_grow_to_indices bart.idx_bits move (bart.leaf_indices.getD t []) bart.X
  let leaf_tree := adapt_leaf_tree_to_grow_indices (bart.leaf_trees.getD t []) move
  let (count_tree, counts) := compute_count_tree leaf_indices move bart.count_batch_size
  { move, leaf_indices, leaf_tree, count_tree, counts
    log_trans_prior_ratio := complete_ratio move counts bart.min_points_per_leaf
    prelkv := precompute_likelihood_terms ntree bart.sigma2 counts
    prelf := precompute_leaf_terms ntree count_tree bart.sigma2 ((rng key).normal t) }

/-- the output of `accept_move_and_sample_leaves` other than the residuals -/
structure Accepted (F : Type) where
  leaf_tree : List F
  acc : Bool
  to_prune : Bool
  log_trans_prior : F
  log_likelihood : F

/-- `mcmcstep.accept_move_and_sample_leaves` (mcmcstep.py:1288-1389). The ratios are always
returned; whether to save them is decided by the caller. -/
def accept_move_and_sample_leaves (resid_batch_size : Option Nat) (min_points_per_leaf : Option Nat)
    (exp_factor : F) (resid : List F) (w : TreeWork F) : List F × Accepted F :=
  let leaf_tree := w.leaf_tree
  let resid_tree := sum_resid resid w.leaf_indices leaf_tree.length resid_batch_size
  let resid_tree := List.zipWith (· + ·) resid_tree
    (List.zipWith (fun (c : Nat) v => (c : F) * v) w.count_tree leaf_tree)
  let node := w.move.node
  let left := w.move.left
  let right := w.move.right
  let resid_left := gather resid_tree left
  let resid_right := gather resid_tree right
  let resid_total := resid_left + resid_right
  let resid_tree := setDrop resid_tree node resid_total
  let log_lk_ratio := compute_likelihood_ratio resid_total resid_left resid_right w.prelkv
    exp_factor
  let log_ratio := w.log_trans_prior_ratio + log_lk_ratio
  let log_ratio := if w.move.grow then log_ratio else -log_ratio
  let acc : Bool := w.move.allowed && FltFun.leb w.move.logu log_ratio
  let acc : Bool := match min_points_per_leaf with
    | none => acc
    | some m => acc && decide (w.counts.left ≥ m) && decide (w.counts.right ≥ m)
  let initial_leaf_tree := leaf_tree
  let mean_post := List.zipWith (· * ·) resid_tree w.prelf.mean_factor
  let leaf_tree := List.zipWith (· + ·) mean_post w.prelf.centered_leaves
  let to_prune : Bool := acc ^^ w.move.grow
  let value_at_node := gather leaf_tree node
  let leaf_tree :=
    setDrop (setDrop leaf_tree (if to_prune then left else leaf_tree.length) value_at_node)
      (if to_prune then right else leaf_tree.length) value_at_node
  let diff := List.zipWith (· - ·) initial_leaf_tree leaf_tree
  let resid := List.zipWith (fun r i => r + gather diff i) resid w.leaf_indices
  (resid, { leaf_tree, acc, to_prune, log_trans_prior := w.log_trans_prior_ratio,
            log_likelihood := log_lk_ratio })

/-- `mcmcstep.apply_moves_to_leaf_indices` for one tree (mcmcstep.py:1481-1506) -/
def apply_moves_to_leaf_indices (bits : Nat) (leaf_indices : List Nat) (move : Move F)
    (to_prune : Bool) : List Nat :=
  let mask := 2 ^ bits - 1 - 1 -- `~1` in the unsigned type
  leaf_indices.map fun leaf_index =>
    let is_child : Bool := (leaf_index &&& mask) == move.left
    if is_child && to_prune then astype bits move.node else leaf_index

/-- `mcmcstep.apply_moves_to_split_trees` for one tree (mcmcstep.py:1508-1539); `bits` is the width
of `split_trees.dtype` -/
def apply_moves_to_split_tree (bits : Nat) (split_tree : List Nat) (move : Move F)
    (to_prune : Bool) : List Nat :=
  let split_tree' := setDrop split_tree (if move.grow then move.node else split_tree.length)
    (astype bits move.grow_split)
  setDrop split_tree' (if to_prune then move.node else split_tree.length) 0

/-- `mcmcstep.accept_moves_and_sample_leaves` (mcmcstep.py:868-888): the parallel stage
(890-940), the sequential stage (1224-1286) and the final stage (1455-1479). -/
def accept_moves_and_sample_leaves (rng : Rng K F) (bart : State F) (moves : List (Move F))
    (key : K) : State F :=
  let ntree := bart.leaf_trees.length
  -- parallel stage
  let work := moves.mapIdx fun t move => parallel_stage_tree rng bart key t move
  let half_size := (bart.var_trees.getD 0 []).length
  let affluence_trees := match bart.min_points_per_leaf with
    | none => bart.affluence_trees
    | some m => some (work.map fun w =>
        (w.count_tree.take half_size).map fun c => decide (c ≥ 2 * m))
  let grow_prop_count := countNonzero (moves.map fun m => m.grow)
  let prune_prop_count := countNonzero (moves.map fun m => m.allowed && !m.grow)
  -- sequential stage
  let (resid, accepted) := scan
    (accept_move_and_sample_leaves bart.resid_batch_size bart.min_points_per_leaf
      (exp_factor ntree bart.sigma2)) bart.resid work
  -- final stage
  { bart with
    var_trees := moves.map fun m => m.var_tree
    affluence_trees := affluence_trees
    grow_prop_count := grow_prop_count
    prune_prop_count := prune_prop_count
    resid := resid
    leaf_trees := accepted.map fun a => a.leaf_tree
    ratios := bart.ratios.map fun _ =>
      (accepted.map fun a => a.log_trans_prior, accepted.map fun a => a.log_likelihood)
    grow_acc_count := countNonzero
      (List.zipWith (fun (a : Accepted F) (m : Move F) => a.acc && m.grow) accepted moves)
    prune_acc_count := countNonzero
      (List.zipWith (fun (a : Accepted F) (m : Move F) => a.acc && !m.grow) accepted moves)
    leaf_indices := List.zipWith (fun (w : TreeWork F) (a : Accepted F) =>
      apply_moves_to_leaf_indices bart.idx_bits w.leaf_indices w.move a.to_prune) work accepted
    split_trees := (List.zipWith (fun (m : Move F) (a : Accepted F) => (m, a)) moves
      accepted).mapIdx fun t ma =>
        apply_moves_to_split_tree bart.split_bits (bart.split_trees.getD t []) ma.1 ma.2.to_prune }

/-- `mcmcstep.sample_trees` (mcmcstep.py:277-299) -/
def sample_trees (rng : Rng K F) (bart : State F) (key : K) : State F :=
  let key0 := KeyLike.split key 2 0
  let subkey := KeyLike.split key 2 1
  let moves := sample_moves rng bart subkey
  accept_moves_and_sample_leaves rng bart moves key0

/-- `mcmcstep.sample_sigma` (mcmcstep.py:1541-1567) -/
def sample_sigma (rng : Rng K F) (bart : State F) (key : K) : State F :=
  let resid := bart.resid
  let alpha := bart.sigma2_alpha + (resid.length : F) / ((2 : Nat) : F)
  let norm2 := Jax.sum (resid.map fun r => r * r)
  let beta := bart.sigma2_beta + norm2 / ((2 : Nat) : F)
  { bart with sigma2 := beta / (rng key).gamma alpha }

/-- `mcmcstep.step` (mcmcstep.py:257-275) -/
def step (rng : Rng K F) (bart : State F) (key : K) : State F :=
  let key0 := KeyLike.split key 2 0
  let subkey := KeyLike.split key 2 1
  let bart := sample_trees rng bart subkey
  sample_sigma rng bart key0

end
end Bartz
