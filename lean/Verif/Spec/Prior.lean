import Verif.Spec.Bart
/-!
# The a priori distribution of the regression function

The distribution of the parameters before taking the data into account, normalized, see `priorDist` in `Verif/Spec/Bart.lean`.
-/

set_option autoImplicit false

namespace Spec
open Jax Bartz MeasureTheory ProbabilityTheory

/-- the a priori distribution of a tree, normalized -/
noncomputable def treePriorDist (a : InitArgs ℝ) : Measure (Tree (nodes a)) :=
  (treeDist a Set.univ)⁻¹ • treeDist a

/-- the a priori distribution of the parameters, normalized -/
noncomputable def prior (a : InitArgs ℝ) : Measure (Params a.num_trees (nodes a)) :=
  (priorDist a Set.univ)⁻¹ • priorDist a

/-- The points `j` and `k` are in the same leaf of the tree. -/
def SameLeaf (X : List (List Nat)) (j k : Nat) (T : Rules) : Prop :=
  ∃ i, FallsInto (point X j) T.var T.split i ∧ FallsInto (point X k) T.var T.split i

/-- The condition on the tree involves only the nodes with index less than `i`; these are all the nodes less deep than `i`, and those at
the left of `i` at the same depth. -/
def SettledBefore (i : Nat) (E : Rules → Prop) : Prop :=
  ∀ T U : Rules, (∀ k, k < i → at0 T.var k = at0 U.var k ∧ at0 T.split k = at0 U.split k) → (E T ↔ E U)

/-- Conditions under which there is always a decision possible at all nodes: there is no minimum number of datapoints per leaf, each predictor
has cutpoints, and the predictors are not less than the levels of the tree. The probabilities that nodes are nonterminal are less than 1. -/
structure Untruncated (a : InitArgs ℝ) : Prop where
  no_min : a.min_points_per_leaf = none
  cutpoints : ∀ v, v < a.max_split.length → 1 ≤ at0 a.max_split v
  predictors : a.p_nonterminal.length ≤ a.max_split.length
  nonterminal : ∀ x ∈ a.p_nonterminal, x < 1

end Spec
