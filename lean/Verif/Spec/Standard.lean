import Verif.Spec.Bart
/-!
# The posterior distribution with the prior of Chipman, George and McCulloch

The same as `posterior` in `Verif/Spec/Bart.lean`, apart from the variables of the decision nodes, that are uniform among those
that can be split, without counting the ones with an overflow or without cutpoints.
-/

set_option autoImplicit false

namespace Spec
open Jax Bartz MeasureTheory ProbabilityTheory

open Classical in
/-- The a priori distribution of a tree. -/
noncomputable def standardTreeDist (a : InitArgs ℝ) : Measure (Tree (nodes a)) :=
  Measure.sum fun T : Rules =>
    (if PossibleTree a T then
      ENNReal.ofReal (standardPrior a.p_nonterminal a.max_split T.var T.split) else 0) •
    (leafPrior a T).map (Prod.mk T)

/-- The joint distribution of data and parameters, as a function of the parameters. -/
noncomputable def standardJoint (a : InitArgs ℝ) : Measure (Params a.num_trees (nodes a)) :=
  ((Measure.pi fun _ => standardTreeDist a).prod
    (volume.withDensity fun v => ENNReal.ofReal (invGammaPdf a.sigma2_alpha a.sigma2_beta v))).withDensity
  (dataDensity a)

/-- The posterior distribution of the parameters. -/
noncomputable def standardPosterior (a : InitArgs ℝ) : Measure (Params a.num_trees (nodes a)) :=
  (standardJoint a Set.univ)⁻¹ • standardJoint a

/-- There is a tree with positive a priori probability that has a decision node where some variable is counted although it can not
be split. -/
def MiscountPossible (a : InitArgs ℝ) : Prop :=
  ∃ T i v, PossibleTree a T ∧ IsDecision T.split i ∧ v < a.max_split.length ∧
    Miscounted a.split_bits a.max_split T.var T.split i v

end Spec
