import Verif.Spec.TreePrior
import Verif.Spec.InvGamma
import Verif.Spec.Sites
import Verif.Spec.Real
import Verif.Spec.Chain
import Mathlib.MeasureTheory.Measure.GiryMonad
/-!
# The posterior distribution of the BART regression

The model of Chipman, George and McCulloch (2010), as a measure on the parameters, and the random
numbers used by a step of the MCMC, as a probability space. The data, the predictors and the prior
settings are those passed to `mcmcstep.init`.
-/

set_option autoImplicit false

namespace Spec
open Jax Bartz MeasureTheory ProbabilityTheory

/-- The settings are such that the posterior distribution is defined: there are trees, the prior parameters are in the
allowed range, and a leaf is never grown without a decision rule left (see `C28_exhausted`), because of the minimum number of
datapoints per leaf, or because there are enough predictors and all of them have cutpoints. If the number of predictors is
the number of values of an integer type, they must all have cutpoints (see `C28_first`). -/
structure ProperSettings (a : InitArgs ℝ) : Prop where
  trees : 0 < a.num_trees
  counts : FillerOK a.max_split
  nonterminal : ∀ x ∈ a.p_nonterminal, x < 1
  alpha : 0 < a.sigma2_alpha
  beta : 0 < a.sigma2_beta
  rules : ((∀ v j, v < a.max_split.length → j < a.y.length →
        (a.X.getD v []).getD j 0 ≤ at0 a.max_split v) ∧
      ∃ m, 1 ≤ m ∧ a.min_points_per_leaf = some m) ∨
    ((∀ v, v < a.max_split.length → 1 ≤ at0 a.max_split v) ∧ a.p_nonterminal.length ≤ a.max_split.length)

/-- The decision rules of a tree: axis and cutpoint of each node. -/
@[ext] structure Rules where
  var : List Nat
  split : List Nat

instance : MeasurableSpace Rules := ⊤

/-- The decision rules of a tree, and the values of the nodes. -/
abbrev Tree (N : Nat) : Type := Rules × (Fin N → ℝ)

/-- The parameters: trees and noise variance. -/
abbrev Params (nt N : Nat) : Type := (Fin nt → Tree N) × ℝ

/-- number of nodes in the arrays of the leaves -/
abbrev nodes (a : InitArgs ℝ) : Nat := 2 ^ (a.p_nonterminal.length + 1)

/-- The tree has a positive a priori probability: the decision rules are among the available ones, and
there are enough datapoints in each leaf, if required and unless the root is a leaf. The entries of the
arrays that are not part of the tree are zero. -/
structure PossibleTree (a : InitArgs ℝ) (T : Rules) : Prop where
  split : ValidSplit a.p_nonterminal.length T.split
  var_length : T.var.length = 2 ^ a.p_nonterminal.length
  var_unused : ∀ i, ¬ IsDecision T.split i → at0 T.var i = 0
  var_avail : ∀ i, IsDecision T.split i → at0 T.var i ∈ availVars a.split_bits a.max_split T.var T.split i
  split_avail : ∀ i, IsDecision T.split i →
    at0 T.split i ∈ availSplits a.max_split T.var T.split i (at0 T.var i)
  points : ∀ m, a.min_points_per_leaf = some m → at0 T.split 1 ≠ 0 → ∀ i, IsLeaf T.split i →
    m ≤ pointsIn a.X a.y.length T.var T.split i

open Classical in
/-- The a priori distribution of the values: the leaves are independent and normal with variance
`1 / num_trees`, the nodes that are not leaves are set to zero. -/
noncomputable def leafPrior (a : InitArgs ℝ) (T : Rules) : Measure (Fin (nodes a) → ℝ) :=
  Measure.pi fun i => if IsLeaf T.split i then gaussianReal 0 (1 / (a.num_trees : NNReal))
    else Measure.dirac 0

open Classical in
/-- The a priori distribution of a tree. It is not normalized if there is a minimum number of
datapoints per leaf, which makes some trees impossible. -/
noncomputable def treeDist (a : InitArgs ℝ) : Measure (Tree (nodes a)) :=
  Measure.sum fun T : Rules =>
    (if PossibleTree a T then
      ENNReal.ofReal (treePrior a.p_nonterminal a.split_bits a.max_split T.var T.split) else 0) •
    (leafPrior a T).map (Prod.mk T)

open Classical in
/-- the value of a tree at datapoint `j` -/
noncomputable def treeValue {N : Nat} (X : List (List Nat)) (j : Nat) (x : Tree N) : ℝ :=
  ∑ i : Fin N, if FallsInto (point X j) x.1.var x.1.split i then x.2 i else 0

/-- probability density of the data given the parameters -/
noncomputable def dataDensity (a : InitArgs ℝ) (θ : Params a.num_trees (nodes a)) : ENNReal :=
  ∏ j ∈ Finset.range a.y.length, ENNReal.ofReal
    (normalPdf (∑ t, treeValue a.X j (θ.1 t)) θ.2 (a.y.getD j 0))

/-- The a priori distribution: the trees are independent and identically distributed, the variance has
an inverse gamma distribution. -/
noncomputable def priorDist (a : InitArgs ℝ) : Measure (Params a.num_trees (nodes a)) :=
  (Measure.pi fun _ => treeDist a).prod
    (volume.withDensity fun v => ENNReal.ofReal (invGammaPdf a.sigma2_alpha a.sigma2_beta v))

/-- The joint distribution of data and parameters, as a function of the parameters. -/
noncomputable def jointDist (a : InitArgs ℝ) : Measure (Params a.num_trees (nodes a)) :=
  (priorDist a).withDensity (dataDensity a)

/-- The posterior distribution of the parameters. -/
noncomputable def posterior (a : InitArgs ℝ) : Measure (Params a.num_trees (nodes a)) :=
  (jointDist a Set.univ)⁻¹ • jointDist a

/-- The parameters are in the support of the posterior distribution. -/
structure PossibleParams (a : InitArgs ℝ) (θ : Params a.num_trees (nodes a)) : Prop where
  tree : ∀ t, PossibleTree a (θ.1 t).1
  leaf : ∀ t (i : Fin (nodes a)), ¬ IsLeaf (θ.1 t).1.split i → (θ.1 t).2 i = 0
  sigma2 : 0 < θ.2

/-! ### The parameters in the state of the MCMC -/

open Classical in
/-- Tree `t` in the state, with the unused entries of the arrays set to zero. -/
noncomputable def treeOf (a : InitArgs ℝ) (s : State ℝ) (t : Nat) : Tree (nodes a) :=
  (⟨(List.range (2 ^ a.p_nonterminal.length)).map fun i =>
      if IsDecision (s.split_trees.getD t []) i then at0 (s.var_trees.getD t []) i else 0,
    s.split_trees.getD t []⟩,
   fun i => if IsLeaf (s.split_trees.getD t []) i then (s.leaf_trees.getD t []).getD i 0 else 0)

/-- the parameters in the state -/
noncomputable def paramsOf (a : InitArgs ℝ) (s : State ℝ) : Params a.num_trees (nodes a) :=
  (fun t => treeOf a s t, s.sigma2)

/-- The state is consistent with the arguments of `init`: the settings and the data are unchanged, the
arrays have the right size, the trees are possible, and the redundant information (the leaves the
datapoints are in, whether a leaf has enough datapoints to be split, the residuals) is right. -/
structure Consistent (a : InitArgs ℝ) (s : State ℝ) : Prop where
  settings : s = { init a with
    leaf_trees := s.leaf_trees, var_trees := s.var_trees, split_trees := s.split_trees,
    resid := s.resid, sigma2 := s.sigma2, grow_prop_count := s.grow_prop_count,
    grow_acc_count := s.grow_acc_count, prune_prop_count := s.prune_prop_count,
    prune_acc_count := s.prune_acc_count, leaf_indices := s.leaf_indices,
    affluence_trees := s.affluence_trees, ratios := s.ratios }
  ratios : s.ratios.isSome = a.save_ratios ∧ ∀ x, s.ratios = some x →
    x.1.length = a.num_trees ∧ x.2.length = a.num_trees
  leaf_length : s.leaf_trees.length = a.num_trees
  var_length : s.var_trees.length = a.num_trees
  split_length : s.split_trees.length = a.num_trees
  indices_length : s.leaf_indices.length = a.num_trees
  leaf_size : ∀ t, t < a.num_trees →
    (s.leaf_trees.getD t []).length = 2 ^ (a.p_nonterminal.length + 1)
  var_size : ∀ t, t < a.num_trees →
    (s.var_trees.getD t []).length = 2 ^ a.p_nonterminal.length
  indices_size : ∀ t, t < a.num_trees → (s.leaf_indices.getD t []).length = a.y.length
  /-- this is about the unused entries as well, the other ones are predictors -/
  var_range : ∀ t, t < a.num_trees → at0 (s.var_trees.getD t []) 0 = 0 ∧
    ∀ i, at0 (s.var_trees.getD t []) i < a.max_split.length ∨
      at0 (s.var_trees.getD t []) i < a.p_nonterminal.length
  possible : ∀ t, t < a.num_trees → PossibleTree a (treeOf a s t).1
  indices : ∀ t, t < a.num_trees → ∀ j, j < a.y.length → FallsInto (point a.X j)
    (s.var_trees.getD t []) (s.split_trees.getD t []) (at0 (s.leaf_indices.getD t []) j)
  affluence : s.affluence_trees.isSome = a.min_points_per_leaf.isSome ∧
    ∀ x, s.affluence_trees = some x → x.length = a.num_trees ∧ ∀ t, t < a.num_trees →
      (x.getD t []).length = 2 ^ a.p_nonterminal.length ∧
      ∀ m, a.min_points_per_leaf = some m → ∀ i, i < 2 ^ a.p_nonterminal.length →
        IsLeaf (s.split_trees.getD t []) i → ((x.getD t []).getD i false = true ↔
          2 * m ≤ pointsIn a.X a.y.length (s.var_trees.getD t []) (s.split_trees.getD t []) i)
  resid_length : s.resid.length = a.y.length
  resid : ∀ j, j < a.y.length → s.resid.getD j 0 =
    a.y.getD j 0 - ∑ t ∈ Finset.range a.num_trees, treeValue a.X j (treeOf a s t)

/-! ### The random numbers of a step -/

/-- For each tree, six numbers uniform in `[0, 1)` and one standard normal variate for each node;
and a gamma variate. -/
abbrev StepDraws (nt N : Nat) : Type := (Fin nt → (Fin 6 → ℝ) × (Fin N → ℝ)) × ℝ

/-- distribution of the numbers used for a tree -/
noncomputable def treeDraws (N : Nat) : Measure ((Fin 6 → ℝ) × (Fin N → ℝ)) :=
  (Measure.pi fun _ => volume.restrict (Set.Ico 0 1)).prod (Measure.pi fun _ => gaussianReal 0 1)

/-- All the random numbers are independent. The shape parameter of the gamma variate is fixed by the
prior settings and the number of datapoints. -/
noncomputable def stepDraws (a : InitArgs ℝ) : Measure (StepDraws a.num_trees (nodes a)) :=
  (Measure.pi fun _ => treeDraws (nodes a)).prod
    (gammaMeasure (a.sigma2_alpha + a.y.length / 2) 1)

/-- The random number generator uses the given numbers at each place where a random variate is needed
in `step(key, ...)`; for the rest it may be anything. -/
structure StepSites {K : Type} [KeyLike K] (a : InitArgs ℝ) (key : K)
    (rng : StepDraws a.num_trees (nodes a) → Rng K ℝ) : Prop where
  tree : ∀ (t : Fin a.num_trees) (o : StepDraws a.num_trees (nodes a)),
    TreeSites a.num_trees t key fun w => rng (Function.update o.1 t (w, (o.1 t).2), o.2)
  normal : ∀ o (t : Fin a.num_trees) (i : Fin (nodes a)),
    (rng o (KeyLike.split (KeyLike.split key 2 1) 2 0)).normal t i = (o.1 t).2 i
  gamma : ∀ o, (rng o (KeyLike.split key 2 0)).gamma (a.sigma2_alpha + a.y.length / 2) = o.2
  lawful : ∀ o, (∀ t, (o.1 t).1 ∈ unitCube) → LawfulRng (rng o)

/-- The random number generator uses the numbers `O i` for step `i` of the Markov chain. -/
def RunSites {K : Type} [KeyLike K] (a : InitArgs ℝ) (key : K) (n : Nat)
    (rng : (Fin n → StepDraws a.num_trees (nodes a)) → Rng K ℝ) : Prop :=
  ∀ (i : Fin n) (O : Fin n → StepDraws a.num_trees (nodes a)),
    (∀ k t, k ≠ i → ((O k).1 t).1 ∈ unitCube) →
    StepSites a (KeyLike.split (chainKey key i) 2 1) fun o => rng (Function.update O i o)

end Spec
