import Verif.Model.Mcmcloop
/-!
# Model of the mutation of dictionaries in `/repo/src/bartz/mcmcstep.py`

The state of the MCMC is a Python dictionary, i.e., a mutable object which is passed by reference. Here the
functions of `mcmcstep` are modelled as operations on the memory. Arrays are immutable, so they are
represented by their value, while dictionaries are represented by their address in memory. The values of
the arrays are the ones computed by the functions in `Verif.Model.Mcmcstep`.

The static dictionary `opt` is never modified, so it is treated like an array. The dictionary `moves` is
created at each step and not returned, so it is left out.
-/

set_option autoImplicit false

namespace Bartz
open Jax

/-- value in a dictionary: an immutable array, or a reference to another dictionary -/
inductive HVal (F : Type) where
  | val (v : Value F)
  | ref (address : Nat)

/-- a Python dictionary, as a list of items in order of insertion -/
abbrev HDict (F : Type) := List (String × HVal F)

/-- the memory: dictionary at each address, and the first unused address -/
structure Heap (F : Type) where
  dicts : Nat → HDict F
  size : Nat

section
variable {K F : Type} [KeyLike K] [Inhabited F] [Zero F] [One F] [Add F] [Sub F] [Mul F] [Div F]
  [Neg F] [NatCast F] [FltFun F]

omit [Inhabited F] [Zero F] [One F] [Add F] [Sub F] [Mul F] [Div F] [Neg F] [NatCast F] [FltFun F] in
/-- `d[key] = v` -/
def setItem (d : HDict F) (key : String) (v : HVal F) : HDict F :=
  match d with
  | [] => [(key, v)]
  | (k, w) :: d => if k == key then (k, v) :: d else (k, w) :: setItem d key v

/-- `d.copy()` -/
def Heap.copy (h : Heap F) (a : Nat) : Heap F × Nat :=
  ({ dicts := fun x => if x = h.size then h.dicts a else h.dicts x, size := h.size + 1 }, h.size)

/-- `d[key] = v` for an array -/
def Heap.set (h : Heap F) (a : Nat) (key : String) (v : Value F) : Heap F :=
  { h with dicts := fun x => if x = a then setItem (h.dicts a) key (.val v) else h.dicts x }

/-- effect of `accept_moves_parallel_stage` (mcmcstep.py:919-935) -/
def heap_parallel_stage (rng : Rng K F) (bart : State F) (moves : List (Move F)) (key : K)
    (h : Heap F) (a : Nat) : Heap F × Nat :=
  let (h, a) := h.copy a
  let work := moves.mapIdx fun t move => parallel_stage_tree rng bart key t move
  let h := h.set a "var_trees" (.intTrees (moves.map fun m => m.var_tree))
  let h := h.set a "leaf_indices" (.intTrees (work.map fun w => w.leaf_indices))
  let h := h.set a "leaf_trees" (.floatTrees (work.map fun w => w.leaf_tree))
  let h : Heap F := match bart.min_points_per_leaf with
    | none => h
    | some m => h.set a "affluence_trees" (.boolTrees (work.map fun w =>
        (w.count_tree.take (bart.var_trees.getD 0 []).length).map fun c => decide (c ≥ 2 * m)))
  let h := h.set a "grow_prop_count" (.int (countNonzero (moves.map fun m => m.grow)))
  let h := h.set a "prune_prop_count" (.int (countNonzero (moves.map fun m => m.allowed && !m.grow)))
  (h, a)

/-- effect of `accept_moves_sequential_stage` (mcmcstep.py:1256,1280-1282). The statement
`bart.get('ratios', {}).update(ratios)` modifies the dictionary contained in `bart`, which `bart.copy()`
has not copied. `final` contains the new values. -/
def heap_sequential_stage (final : State F) (h : Heap F) (a : Nat) : Heap F × Nat :=
  let (h, a) := h.copy a
  let h := h.set a "resid" (.floats final.resid)
  let h := h.set a "leaf_trees" (.floatTrees final.leaf_trees)
  let h : Heap F := match (h.dicts a).lookup "ratios", final.ratios with
    | some (.ref r), some (log_trans_prior, log_likelihood) =>
      (h.set r "log_trans_prior" (.floats log_trans_prior)).set r "log_likelihood" (.floats log_likelihood)
    | _, _ => h
  (h, a)

/-- effect of `accept_moves_final_stage` (mcmcstep.py:1474-1478) -/
def heap_final_stage (final : State F) (h : Heap F) (a : Nat) : Heap F × Nat :=
  let (h, a) := h.copy a
  let h := h.set a "grow_acc_count" (.int final.grow_acc_count)
  let h := h.set a "prune_acc_count" (.int final.prune_acc_count)
  let h := h.set a "leaf_indices" (.intTrees final.leaf_indices)
  let h := h.set a "split_trees" (.intTrees final.split_trees)
  (h, a)

/-- effect of `sample_sigma` (mcmcstep.py:1557,1565) -/
def heap_sample_sigma (final : State F) (h : Heap F) (a : Nat) : Heap F × Nat :=
  let (h, a) := h.copy a
  (h.set a "sigma2" (.float final.sigma2), a)

/-- effect of `step` (mcmcstep.py:257-275) outside of `jax.jit`, on the dictionary at address `a`, which
contains the state `bart`. Returns the address of the result. -/
def heap_step (rng : Rng K F) (bart : State F) (key : K) (h : Heap F) (a : Nat) : Heap F × Nat :=
  let key0 := KeyLike.split key 2 0
  let subkey := KeyLike.split key 2 1
  let moves := sample_moves rng bart (KeyLike.split subkey 2 1)
  let final := accept_moves_and_sample_leaves rng bart moves (KeyLike.split subkey 2 0)
  let (h, a) := heap_parallel_stage rng bart moves (KeyLike.split subkey 2 0) h a
  let (h, a) := heap_sequential_stage final h a
  let (h, a) := heap_final_stage final h a
  heap_sample_sigma (sample_sigma rng final key0) h a

end
end Bartz
