import Verif.Spec.Mcmc
import Mathlib.Algebra.BigOperators.Group.Finset.Basic
import Mathlib.Algebra.Ring.Defs
import Mathlib.Order.Interval.Finset.Nat
/-!
# Data entering the full conditional distributions

The value of a tree at a point, the residuals left over by the other trees, and the datapoints in a
leaf.
-/

set_option autoImplicit false

namespace Spec
open Jax Bartz

section
variable {F : Type} [CommRing F]

/-- the value at the point `x` of tree `t` of a state -/
def treeAt (h : Nat) (s : State F) (t : Nat) (x : List Nat) : F :=
  (readTree 0 (s.leaf_trees.getD t []) (s.var_trees.getD t []) (s.split_trees.getD t []) h 1).eval x

/-- The residual of datapoint `j` without tree `t`, when the trees `0, ..., t-1` have already been
updated: old state `s`, new state `s'`, number of trees `nt`. -/
def partialResid (h nt : Nat) (s s' : State F) (t j : Nat) : F :=
  s.y.getD j 0 - ∑ u ∈ Finset.range t, treeAt h s' u (point s.X j) -
    ∑ u ∈ Finset.Ico (t + 1) nt, treeAt h s u (point s.X j)

open Classical in
/-- the values `r j` of the datapoints in leaf `i` of a tree -/
noncomputable def leafData (X : List (List Nat)) (n : Nat) (var split : List Nat) (r : Nat → F)
    (i : Nat) : List F :=
  ((List.range n).filter fun j => decide (FallsInto (point X j) var split i)).map r

end
end Spec
