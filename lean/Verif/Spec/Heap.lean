import Verif.Model.Heap
/-!
# What it means for a dictionary in memory to represent a state
-/

set_option autoImplicit false

namespace Spec
open Bartz

variable {F : Type}

/-- the fields of the state which are arrays -/
def arrayFields (s : State F) : HDict F :=
  [("leaf_trees", .val (.floatTrees s.leaf_trees)),
   ("var_trees", .val (.intTrees s.var_trees)),
   ("split_trees", .val (.intTrees s.split_trees)),
   ("resid", .val (.floats s.resid)),
   ("sigma2", .val (.float s.sigma2)),
   ("grow_prop_count", .val (.int s.grow_prop_count)),
   ("grow_acc_count", .val (.int s.grow_acc_count)),
   ("prune_prop_count", .val (.int s.prune_prop_count)),
   ("prune_acc_count", .val (.int s.prune_acc_count)),
   ("p_nonterminal", .val (.floats s.p_nonterminal)),
   ("p_propose_grow", .val (.floats s.p_propose_grow)),
   ("sigma2_alpha", .val (.float s.sigma2_alpha)),
   ("sigma2_beta", .val (.float s.sigma2_beta)),
   ("max_split", .val (.ints s.max_split)),
   ("y", .val (.floats s.y)),
   ("X", .val (.intTrees s.X)),
   ("leaf_indices", .val (.intTrees s.leaf_indices)),
   ("min_points_per_leaf", .val (match s.min_points_per_leaf with | none => .none | some m => .int m)),
   ("affluence_trees", .val (match s.affluence_trees with | none => .none | some t => .boolTrees t)),
   ("opt", .val .static)]

/-- The dictionary at address `a` contains the state `s`. The ratios, if present, are in another
dictionary at address `r`. -/
def HoldsAt (h : Heap F) (a r : Nat) (s : State F) : Prop :=
  a < h.size ∧
  match s.ratios with
  | none => h.dicts a = arrayFields s
  | some (log_trans_prior, log_likelihood) =>
      r < h.size ∧ r ≠ a ∧ h.dicts a = arrayFields s ++ [("ratios", .ref r)] ∧
      h.dicts r = [("log_trans_prior", .val (.floats log_trans_prior)),
        ("log_likelihood", .val (.floats log_likelihood))]

end Spec
