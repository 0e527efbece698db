import Verif.Model.Mcmcloop
/-!
# The documented contents of the traces
-/

set_option autoImplicit false

namespace Spec
open Bartz

variable {F : Type}

/-- fields of `burnin_trace` according to the documentation of `run_mcmc` (mcmcloop.py:76-80) -/
def burninFields : List (String × (State F → Value F)) :=
  [("sigma2", fun s => .float s.sigma2),
   ("grow_prop_count", fun s => .int s.grow_prop_count),
   ("grow_acc_count", fun s => .int s.grow_acc_count),
   ("prune_prop_count", fun s => .int s.prune_prop_count),
   ("prune_acc_count", fun s => .int s.prune_acc_count)]

/-- additional fields of `main_trace` (mcmcloop.py:81-85) -/
def treeFields : List (String × (State F → Value F)) :=
  [("leaf_trees", fun s => .floatTrees s.leaf_trees),
   ("var_trees", fun s => .intTrees s.var_trees),
   ("split_trees", fun s => .intTrees s.split_trees)]

/-- the acceptance ratios, if saved -/
def ratiosOf (s : State F) : Value F :=
  match s.ratios with
  | some (log_trans_prior, log_likelihood) => .ratios log_trans_prior log_likelihood
  | none => .none

end Spec
