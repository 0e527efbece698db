import Verif.Model.Mcmcstep
import Verif.Model.Autobatch
/-!
# Model of `/repo/src/bartz/mcmcloop.py`

The effect of the callback is represented by the list of its calls, carried along by the loops.
The traces are dictionaries, i.e., lists of keys and values. A dictionary of stacked arrays has, for
each key, the list of values along the first axis.

Not modelled: `jax.jit`, the text printed by the default callback (only when it prints).
-/

set_option autoImplicit false

namespace Bartz
open Jax

/-- value in a state dictionary -/
inductive Value (F : Type) where
  | float (v : F)
  | int (v : Nat)
  | floats (v : List F)
  | ints (v : List Nat)
  | floatTrees (v : List (List F))
  | intTrees (v : List (List Nat))
  | boolTrees (v : List (List Bool))
  | ratios (log_trans_prior log_likelihood : List F)
  | none
  | static

/-- dictionary with a subset of the fields of the state -/
abbrev Dict (F : Type) := List (String × Value F)

/-- dictionary with fields stacked along the first axis -/
abbrev Trace (F : Type) := List (String × List (Value F))

section
variable {K F : Type} [KeyLike K] [Inhabited F] [Zero F] [One F] [Add F] [Sub F] [Mul F] [Div F]
  [Neg F] [NatCast F] [FltFun F]

omit [Inhabited F] [Zero F] [One F] [Add F] [Sub F] [Mul F] [Div F] [Neg F] [NatCast F] [FltFun F] in
/-- the state as a dictionary (mcmcstep.py:176-215) -/
def State.dict (s : State F) : Dict F :=
  [("leaf_trees", .floatTrees s.leaf_trees),
   ("var_trees", .intTrees s.var_trees),
   ("split_trees", .intTrees s.split_trees),
   ("resid", .floats s.resid),
   ("sigma2", .float s.sigma2),
   ("grow_prop_count", .int s.grow_prop_count),
   ("grow_acc_count", .int s.grow_acc_count),
   ("prune_prop_count", .int s.prune_prop_count),
   ("prune_acc_count", .int s.prune_acc_count),
   ("p_nonterminal", .floats s.p_nonterminal),
   ("p_propose_grow", .floats s.p_propose_grow),
   ("sigma2_alpha", .float s.sigma2_alpha),
   ("sigma2_beta", .float s.sigma2_beta),
   ("max_split", .ints s.max_split),
   ("y", .floats s.y),
   ("X", .intTrees s.X),
   ("leaf_indices", .intTrees s.leaf_indices),
   ("min_points_per_leaf", match s.min_points_per_leaf with | Option.none => .none | some m => .int m),
   ("affluence_trees", match s.affluence_trees with | Option.none => .none | some t => .boolTrees t),
   ("opt", .static)] ++
  match s.ratios with
  | Option.none => []
  | some (log_trans_prior, log_likelihood) => [("ratios", .ratios log_trans_prior log_likelihood)]

/-- `{key: bart[key] for key in tracelist if key in bart}` (mcmcloop.py:95,114) -/
def select_fields (bart : State F) (tracelist : List String) : Dict F :=
  tracelist.filterMap fun key => (bart.dict.lookup key).map fun v => (key, v)

/-- stack of the outputs of a scan with at least one iteration -/
def stack_outputs (outputs : List (Dict F)) : Trace F :=
  match outputs with
  | [] => []
  | first :: _ => first.map fun (key, _) =>
      (key, outputs.map fun output => (output.lookup key).getD .none)

/-- arguments of the callback (mcmcloop.py:94) -/
structure Call (F : Type) where
  bart : State F
  burnin : Bool
  i_total : Nat
  i_skip : Nat
  n_burn : Nat
  n_save : Nat
  n_skip : Nat

/-- `tracelist_burnin` (mcmcloop.py:85) -/
def tracelist_burnin : List String :=
  ["sigma2", "grow_prop_count", "grow_acc_count", "prune_prop_count", "prune_acc_count", "ratios"]

/-- `tracelist_main` (mcmcloop.py:87) -/
def tracelist_main : List String := tracelist_burnin ++ ["leaf_trees", "var_trees", "split_trees"]

/-- the numbers of iterations -/
structure Iterations where
  n_burn : Nat
  n_save : Nat
  n_skip : Nat

/-- carry of the inner loop, together with the calls to the callback, last one first -/
structure InnerCarry (K F : Type) where
  bart : State F
  i_total : Nat
  i_skip : Nat
  key : K
  calls : List (Call F)

/-- `inner_loop` in `run_mcmc` (mcmcloop.py:90-96) -/
def inner_loop (rng : Rng K F) (n : Iterations) (tracelist : List String) (burnin : Bool)
    (carry : InnerCarry K F) (_ : Unit) : InnerCarry K F × Dict F :=
  let key := KeyLike.split carry.key 2 0
  let subkey := KeyLike.split carry.key 2 1
  let bart := step rng carry.bart subkey
  let call : Call F :=
    { bart := bart, burnin := burnin, i_total := carry.i_total, i_skip := carry.i_skip
      n_burn := n.n_burn, n_save := n.n_save, n_skip := n.n_skip }
  let output := select_fields bart tracelist
  ({ bart := bart
     i_total := carry.i_total + 1
     i_skip := carry.i_skip + 1
     key := key
     calls := call :: carry.calls }, output)

/-- `empty_trace` in `run_mcmc` (mcmcloop.py:98-99): the `tracelist` argument is not used -/
def empty_trace (bart : State F) (_tracelist : List String) : Trace F :=
  bart.dict.map fun (key, _) => (key, [])

/-- carry of the outer loop -/
structure OuterCarry (K F : Type) where
  bart : State F
  i_total : Nat
  key : K
  calls : List (Call F)

/-- `outer_loop` in `run_mcmc` (mcmcloop.py:109-115) -/
def outer_loop (rng : Rng K F) (n : Iterations) (carry : OuterCarry K F) (_ : Unit) :
    OuterCarry K F × Dict F :=
  let inner_carry : InnerCarry K F :=
    { bart := carry.bart, i_total := carry.i_total, i_skip := 0, key := carry.key, calls := carry.calls }
  let (inner_carry, _) := scan (inner_loop rng n [] false) inner_carry (List.replicate n.n_skip ())
  let output := select_fields inner_carry.bart tracelist_main
  ({ bart := inner_carry.bart
     i_total := inner_carry.i_total
     key := inner_carry.key
     calls := inner_carry.calls }, output)

/-- output of `run_mcmc`, plus the list of calls to the callback -/
structure RunOutput (F : Type) where
  bart : State F
  burnin_trace : Trace F
  main_trace : Trace F
  calls : List (Call F)

/-- `run_mcmc` (mcmcloop.py:41-125) -/
def run_mcmc (rng : Rng K F) (bart : State F) (n_burn n_save n_skip : Nat) (key : K) : RunOutput F :=
  let n : Iterations := { n_burn := n_burn, n_save := n_save, n_skip := n_skip }
  let (carry, burnin_trace) : OuterCarry K F × Trace F :=
    if n_burn > 0 then
      let carry : InnerCarry K F := { bart := bart, i_total := 0, i_skip := 0, key := key, calls := [] }
      let (carry, outputs) := scan (inner_loop rng n tracelist_burnin true) carry
        (List.replicate n_burn ())
      ({ bart := carry.bart, i_total := carry.i_total, key := carry.key, calls := carry.calls },
        stack_outputs outputs)
    else
      ({ bart := bart, i_total := 0, key := key, calls := [] }, empty_trace bart tracelist_burnin)
  if n_save > 0 then
    let (carry, outputs) := scan (outer_loop rng n) carry (List.replicate n_save ())
    { bart := carry.bart, burnin_trace := burnin_trace, main_trace := stack_outputs outputs
      calls := carry.calls.reverse }
  else
    { bart := carry.bart, burnin_trace := burnin_trace
      main_trace := empty_trace carry.bart tracelist_main, calls := carry.calls.reverse }

/-- what the callback made by `make_simple_print_callback(printevery)` prints
(mcmcloop.py:152-174): the iteration number (from 1), the total number of iterations, and whether it is a
burn-in one; the acceptance statistics are omitted. `printevery` is positive. -/
def simple_print_callback (printevery : Nat) (call : Call F) : Option (Nat × Nat × Bool) :=
  let n_total := call.n_burn + call.n_save * call.n_skip
  let printcond := (call.i_total + 1) % printevery == 0
  if printcond then some (call.i_total + 1, n_total, call.burnin) else Option.none

end

/-! ### `evaluate_trace` -/

section
variable {F : Type} [Inhabited F] [Zero F] [Add F]

/-- `jaxext.autobatch(evaluate_trees, 2 ** 29, (None, 0, 0, 0))` (mcmcloop.py:191-192), in terms of
lists: the trees are divided in `nbatches` groups of the same size. -/
def evaluate_trees_batched (nbatches n : Nat) (X : List (List Nat)) (leaf_trees : List (List F))
    (var_trees split_trees : List (List Nat)) : List (List F) :=
  let batch := leaf_trees.length / nbatches
  (List.range nbatches).flatMap fun i =>
    evaluate_forest_trees n X ((leaf_trees.drop (i * batch)).take batch)
      ((var_trees.drop (i * batch)).take batch) ((split_trees.drop (i * batch)).take batch)

/-- `loop` in `evaluate_trace` (mcmcloop.py:193-195). `nbytes` is the number of bytes of inputs and outputs
for each tree. -/
def evaluate_trace_loop (isqrt : Nat → Nat) (nbytes n : Nat) (X : List (List Nat))
    (leaf_trees var_trees split_trees : Value F) : Option (List F) :=
  match leaf_trees, var_trees, split_trees with
  | .floatTrees leaf_trees, .intTrees var_trees, .intTrees split_trees => do
    let (nbatches, _) ← choose_nbatches isqrt leaf_trees.length (leaf_trees.length * nbytes) (2 ^ 29)
    let values := evaluate_trees_batched nbatches n X leaf_trees var_trees split_trees
    return vmap n fun j => Jax.sum (values.map fun row => gather row j)
  | _, _, _ => Option.none

/-- `evaluate_trace` (mcmcloop.py:174-197). `n` is the number of columns of `X`. Fails if the fields are
missing. -/
def evaluate_trace (isqrt : Nat → Nat) (nbytes n : Nat) (trace : Trace F) (X : List (List Nat)) :
    Option (List (List F)) := do
  let leaf_trees ← trace.lookup "leaf_trees"
  let var_trees ← trace.lookup "var_trees"
  let split_trees ← trace.lookup "split_trees"
  guard (var_trees.length = leaf_trees.length ∧ split_trees.length = leaf_trees.length)
  (List.range leaf_trees.length).mapM fun k =>
    evaluate_trace_loop isqrt nbytes n X (leaf_trees.getD k .none) (var_trees.getD k .none)
      (split_trees.getD k .none)

end

end Bartz
