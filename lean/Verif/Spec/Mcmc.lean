import Verif.Model.Mcmcstep
import Verif.Spec.Float
import Verif.Spec.Tree
import Mathlib.Data.Set.Card
/-!
# Reachable states of the MCMC

What it means for the arguments of `mcmcstep.init` to be valid, and for a state to be reachable by
calling `mcmcstep.init` and then `mcmcstep.step` any number of times with any random keys.
-/

set_option autoImplicit false

namespace Spec
open Jax Bartz

/-- No predictor has as many cutpoints as the largest value of the type of `max_split`, such that the ranges
of cutpoints are computed without overflow (see `C27_overflow`). -/
def NoOverflow {F : Type} (a : InitArgs F) : Prop := ∀ m ∈ a.max_split, m + 1 < 2 ^ a.split_bits

/-- The arguments of `mcmcstep.init` are valid (mcmcstep.py:62-95): the maximum depth is at least 2
(otherwise `init` raises), there is at least one predictor, shapes match, `max_split` fits its
type, and the a priori splitting probabilities are in (0, 1] and not too small to be represented with full
precision. Furthermore, either there can not be overflows, or a minimum number of datapoints per leaf is
required, and the predictors are within their bounds. -/
structure ValidArgs {F : Type} [Zero F] [One F] [FltFun F] (a : InitArgs F) : Prop where
  depth_pos : 1 ≤ a.p_nonterminal.length
  depth_lt : a.p_nonterminal.length < 64
  predictors_pos : 0 < a.max_split.length
  predictors_lt : a.max_split.length < 2 ^ 64
  X_length : a.X.length = a.max_split.length
  X_row : ∀ row ∈ a.X, row.length = a.y.length
  max_split_fits : ∀ m ∈ a.max_split, m < 2 ^ a.split_bits
  split_bits : 8 ≤ a.split_bits
  overflow : NoOverflow a ∨ ((∀ v j, v < a.max_split.length → j < a.y.length →
      (a.X.getD v []).getD j 0 ≤ at0 a.max_split v) ∧ ∃ m, 1 ≤ m ∧ a.min_points_per_leaf = some m)
  nonterminal_pos : ∀ x ∈ a.p_nonterminal, FltFun.leb FltFun.tiny x = true ∧ FltFun.leb x 0 = false ∧
    FltFun.leb x 1 = true

/-- The states that can be produced from `init a` with any number of steps, each with any key and
any (lawful) outcome of the random draws. -/
inductive Reachable (K : Type) {F : Type} [KeyLike K] [Inhabited F] [Zero F] [One F] [Add F] [Sub F]
    [Mul F] [Div F] [Neg F] [NatCast F] [FltFun F] (a : InitArgs F) : State F → Prop
  | init : Reachable K a (Bartz.init a)
  | step {s : State F} (rng : Rng K F) (key : K) : Reachable K a s → LawfulRng rng →
      Reachable K a (Bartz.step rng s key)

/-- The `j`-th datapoint, i.e., the `j`-th column of a matrix stored by rows. -/
def point (X : List (List Nat)) (j : Nat) : List Nat := X.map fun row => row.getD j 0

/-- The number of the first `n` datapoints that fall into the leaf `i` of a tree. -/
noncomputable def pointsIn (X : List (List Nat)) (n : Nat) (var split : List Nat) (i : Nat) : Nat :=
  {j | j < n ∧ FallsInto (point X j) var split i}.ncard

/-- The number of decision nodes of a tree. -/
noncomputable def numDecisions (split : List Nat) : Nat := {i | IsDecision split i}.ncard

/-- The decisions of the two trees are the same. -/
def SameTree (var split var' split' : List Nat) : Prop :=
  split' = split ∧ ∀ i, IsDecision split i → at0 var' i = at0 var i

/-- The second tree is obtained from the first one by turning the leaf `i`, not at the bottom level
of the arrays of half-depth `h`, into a decision node with two leaves. -/
structure Grown (h : Nat) (var split var' split' : List Nat) (i : Nat) : Prop where
  leaf : IsLeaf split i
  not_bottom : i < 2 ^ h
  decision : IsDecision split' i
  left : IsLeaf split' (2 * i)
  right : IsLeaf split' (2 * i + 1)
  same_split : ∀ k, k ≠ i → at0 split' k = at0 split k
  same_var : ∀ k, IsDecision split k → at0 var' k = at0 var k

end Spec
