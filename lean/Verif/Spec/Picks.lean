import Verif.Spec.Mcmc
/-! # The choice of the leaf to grow is one of the growable leaves -/

set_option autoImplicit false

namespace Spec
open Jax Bartz

section
variable {K F : Type} [KeyLike K] [Inhabited F] [Zero F] [Sub F] [Div F] [NatCast F] [FltFun F]

/-- If the tree `t` has growable leaves, the leaf chosen by `choose_leaf` to be grown is one of them. `key` is the argument
of `sample_moves`, split like in the code to obtain the key used to choose the leaf. -/
def Picks (rng : Rng K F) (s : State F) (key : K) (t : Nat) : Prop :=
  let c := choose_leaf (s.split_trees.getD t []) (s.affluence_trees.map fun x => x.getD t []) s.p_propose_grow
    (rng (KeyLike.split (KeyLike.split (KeyLike.split key (1 + s.leaf_trees.length) (1 + t)) 2 0) 3 0))
  c.num_growable ≠ 0 → (growable_leaves (s.split_trees.getD t [])
    (s.affluence_trees.map fun x => x.getD t [])).getD c.leaf_to_grow false = true

end
end Spec
