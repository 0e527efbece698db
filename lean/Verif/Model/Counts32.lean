import Verif.Model.Mcmcstep
import Mathlib.Data.BitVec
/-!
# The counts, with all the trees together and in 32 bit arithmetic

In `Model/Mcmcstep` the functions that count the datapoints are written for a single tree, and with natural numbers. Here they are
like in the code: the arrays have an axis for the trees, and the elements are 32 bit integers with wrap around. Also the other counts
used in a step (`jnp.count_nonzero`, `jnp.cumsum` of a mask) are in 32 bit arithmetic. The integers are `BitVec 32`, whether signed or
not, because the bits of sums and products are the same; `BitVec.toNat` and `BitVec.toInt` are their values.
-/

set_option autoImplicit false

namespace Bartz
open Jax

variable {F : Type}

/-- `a.at[t, i, b].add(v)` with nonnegative indices, the update is dropped if out of range -/
def addAt3 {α : Type} [Add α] (a : List (List (List α))) (t i b : Nat) (v : α) : List (List (List α)) :=
  a.modify t fun m => m.modify i fun row => row.modify b (· + v)

/-- `mcmcstep._aggregate_batched_alltrees` (mcmcstep.py:1052-1062) with a scalar in place of `values`. `n` is the second dimension of
`indices`. The index arrays are broadcasted to `(ntree, n)`. -/
def aggregate_batched_alltrees {α : Type} [Zero α] [Add α] (value : α) (indices : List (List Nat)) (n size batch_size : Nat) :
    List (List α) :=
  let ntree := indices.length
  let nbatches := num_batches n batch_size
  let batch_indices := (List.range n).map (· % nbatches)
  let zeros := List.replicate ntree (List.replicate size (List.replicate nbatches 0))
  let at_ := (List.range ntree).flatMap fun t => List.zipWith (fun i b => (t, i, b)) (indices.getD t []) batch_indices
  (at_.foldl (fun a p => addAt3 a p.1 p.2.1 p.2.2 value) zeros).map fun m => m.map Jax.sum

/-- `mcmcstep._count_scan` (mcmcstep.py:1035-1039) -/
def count_scan (leaf_indices : List (List Nat)) (tree_size : Nat) : List (List (BitVec 32)) :=
  (scan (fun (_ : Unit) idx => ((), aggregate_scatter (List.replicate idx.length 1) idx tree_size)) () leaf_indices).2

/-- `mcmcstep._count_vec` (mcmcstep.py:1048-1050) -/
def count_vec (leaf_indices : List (List Nat)) (n tree_size batch_size : Nat) : List (List (BitVec 32)) :=
  aggregate_batched_alltrees 1 leaf_indices n tree_size batch_size

/-- `mcmcstep.count_datapoints_per_leaf` (mcmcstep.py:1012-1033) -/
def count_datapoints_per_leaf32 (leaf_indices : List (List Nat)) (n tree_size : Nat) (batch_size : Option Nat) :
    List (List (BitVec 32)) :=
  match batch_size with
  | none => count_scan leaf_indices tree_size
  | some b => count_vec leaf_indices n tree_size b

/-- the counts in the nodes modified by the moves, for each tree -/
structure MoveCounts32 where
  left : List (BitVec 32)
  right : List (BitVec 32)
  total : List (BitVec 32)

/-- `mcmcstep.compute_count_trees` (mcmcstep.py:971-1010); `half_size` is the second dimension of `moves['var_trees']`, the
first one is the number of moves -/
def compute_count_trees32 (leaf_indices : List (List Nat)) (moves : List (Move F)) (n half_size : Nat) (batch_size : Option Nat) :
    List (List (BitVec 32)) × MoveCounts32 :=
  let ntree := moves.length
  let tree_size := half_size * 2
  let count_trees := count_datapoints_per_leaf32 leaf_indices n tree_size batch_size
  let left := vmap ntree fun t => gather (gather count_trees t) ((moves.map fun m => m.left).getD t 0)
  let right := vmap ntree fun t => gather (gather count_trees t) ((moves.map fun m => m.right).getD t 0)
  let total := List.zipWith (· + ·) left right
  -- `count_trees.at[tree_indices, moves['node']].set(counts['total'])`
  let count_trees := (List.range ntree).foldl (fun a t =>
    a.modify t fun row => setDrop row ((moves.map fun m => m.node).getD t 0) (total.getD t 0)) count_trees
  (count_trees, { left, right, total })

/-- `count >= 2 * min_points_per_leaf` (mcmcstep.py:930, 1115, 1116), compared as unsigned or signed integers, depending on whether
the type of `min_points_per_leaf` is weak -/
def above32 (signed : Bool) (count min_points : BitVec 32) : Bool :=
  if signed then decide ((2 * min_points).toInt ≤ count.toInt) else decide ((2 * min_points).toNat ≤ count.toNat)

/-- `count >= min_points_per_leaf` (mcmcstep.py:1369-1370) -/
def enough32 (signed : Bool) (count min_points : BitVec 32) : Bool :=
  if signed then decide (min_points.toInt ≤ count.toInt) else decide (min_points.toNat ≤ count.toNat)

/-- `mask.astype(int32)` -/
def maskInts (mask : List Bool) : List (BitVec 32) := mask.map fun b => if b then 1 else 0

/-- `jnp.count_nonzero(mask)`, `jnp.sum(mask)` -/
def countNonzero32 (mask : List Bool) : BitVec 32 := Jax.sum (maskInts mask)

/-- `jnp.cumsum(mask)` (mcmcstep.py:864) -/
def cumsum32 (mask : List Bool) : List (BitVec 32) := cumsum (maskInts mask)

end Bartz
