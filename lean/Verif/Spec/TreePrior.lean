import Verif.Spec.Rules
import Verif.Spec.Normal
import Verif.Spec.Posterior
import Mathlib.Data.Set.Card
/-!
# The BART posterior of a tree

The prior of Chipman, George and McCulloch (2010), section 2.2: a node at depth `d` is a decision
node with probability `p d` (zero at the bottom level), independently of the others; the variable of
a decision node is uniform among those that can be split, given the ancestors of the node; the
cutpoint is uniform among those available. The leaf values are integrated away.

There is a difference from the standard prior if some variable has as many cutpoints as the largest value of
their type (`max_split[v] = 2 ^ bits - 1`, this is the case with the default settings of `gbart`): where only the highest value of the
variable is left, the variable can not be split, but it is counted anyway in the number of variables, due to an overflow
(see `C27_overflow`). There is also a difference if some variable has no cutpoints (a constant predictor, with quantiles as
cutpoints): it is counted in the number of variables (see `C28_not_uniform`). Without such variables the prior is the standard
one, see `treePrior_standard`.
-/

set_option autoImplicit false

namespace Spec
open Classical in
/-- a priori probability of the kind of a node (1 if `i` is not a node of the tree); `Nat.log2 i` is
the depth of node `i` -/
noncomputable def nodeProb (p : List ℝ) (split : List Nat) (i : Nat) : ℝ :=
  if IsDecision split i then p.getD (Nat.log2 i) 0
  else if IsLeaf split i then 1 - p.getD (Nat.log2 i) 0 else 1

/-- a priori probability of the shape of the tree -/
noncomputable def shapePrior (p : List ℝ) (split : List Nat) : ℝ :=
  ∏ i ∈ Finset.range (2 * split.length), nodeProb p split i

/-- The variable `v` is counted at node `i`, although it can not be split, because its only value compatible with the
ancestors of `i` is the largest one of its type. -/
def Overflows (bits : Nat) (max_split var split : List Nat) (i v : Nat) : Prop :=
  at0 max_split v + 1 = 2 ^ bits ∧
  ∀ x, x ≤ at0 max_split v → ValueReaches v x var split i → x = at0 max_split v

/-- The variable `v` is counted at node `i`, although it can not be split: due to an overflow, or because it has no cutpoints
at all. -/
def Miscounted (bits : Nat) (max_split var split : List Nat) (i v : Nat) : Prop :=
  Overflows bits max_split var split i v ∨ at0 max_split v = 0

/-- The variables without cutpoints, if any, are counted at all nodes. This is not the case if the number of variables is
the number of values of an integer type, see `C28_first`. -/
def FillerOK (max_split : List Nat) : Prop :=
  (max_split.length ≠ 2 ^ 8 ∧ max_split.length ≠ 2 ^ 16 ∧ max_split.length ≠ 2 ^ 32) ∨
    ∀ v, v < max_split.length → 1 ≤ at0 max_split v

/-- the variables that can be split at node `i`, and those counted by mistake -/
def availVars (bits : Nat) (max_split var split : List Nat) (i : Nat) : Set Nat :=
  {v | v < max_split.length ∧ (HasSplit max_split var split i v ∨ Miscounted bits max_split var split i v)}

/-- the cutpoints available at node `i` for variable `v` -/
def availSplits (max_split var split : List Nat) (i v : Nat) : Set Nat :=
  {s | NonRedundant max_split var split i v s}

/-- a priori probability of the decision rule at node `i`, given the ancestors of `i` -/
noncomputable def ruleProb (bits : Nat) (max_split var split : List Nat) (i : Nat) : ℝ :=
  1 / ((availVars bits max_split var split i).ncard : ℝ) *
    (1 / ((availSplits max_split var split i (at0 var i)).ncard : ℝ))

open Classical in
/-- a priori probability of the decision rules, given the shape of the tree -/
noncomputable def rulesPrior (bits : Nat) (max_split var split : List Nat) : ℝ :=
  ∏ i ∈ Finset.range (2 * split.length),
    if IsDecision split i then ruleProb bits max_split var split i else 1

/-- a priori probability of the tree -/
noncomputable def treePrior (p : List ℝ) (bits : Nat) (max_split var split : List Nat) : ℝ :=
  shapePrior p split * rulesPrior bits max_split var split

open Classical in
/-- The prior of Chipman, George and McCulloch: the variables of the decision nodes are uniform among those that can be
split. -/
noncomputable def standardPrior (p : List ℝ) (max_split var split : List Nat) : ℝ :=
  (∏ i ∈ Finset.range (2 * split.length), nodeProb p split i) *
  ∏ i ∈ Finset.range (2 * split.length), if IsDecision split i then
    1 / ({v | v < max_split.length ∧ HasSplit max_split var split i v}.ncard : ℝ) *
      (1 / ((availSplits max_split var split i (at0 var i)).ncard : ℝ)) else 1

open Classical in
/-- probability density of the data `r 0, ..., r (n - 1)` given the tree; `tau` is the prior variance
of a leaf -/
noncomputable def treeLikelihood (tau sigma2 : ℝ) (X : List (List Nat)) (n : Nat) (r : Nat → ℝ)
    (var split : List Nat) : ℝ :=
  ∏ i ∈ Finset.range (2 * split.length),
    if IsLeaf split i then leafMarginal tau sigma2 (leafData X n var split r i) else 1

end Spec
