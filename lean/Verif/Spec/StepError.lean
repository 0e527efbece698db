import Verif.Spec.Drift
import Mathlib.Analysis.SpecialFunctions.Pow.Real
/-!
# The values a step of the MCMC would produce in exact arithmetic

Given the same random draws, and given the previous values of the other variables: the trees are updated one at a time, and
the leaves of a tree are drawn from their conditional distribution given the other trees.
-/

set_option autoImplicit false

namespace Spec
open Jax Bartz

/-- the datapoints in the same leaf of tree `t` as datapoint `j` -/
def sameLeaf (a : InitArgs Binary32) (s : State Binary32) (t j : Nat) : Finset Nat :=
  (Finset.range a.y.length).filter fun i => (s.leaf_indices.getD t []).getD i 0 = (s.leaf_indices.getD t []).getD j 0

/-- a datapoint minus the values of the trees other than `t`, when the trees before `t` have already been updated -/
noncomputable def otherTrees (n t : Nat) (y : ℝ) (before after : Nat → ℝ) : ℝ :=
  y - ∑ u ∈ Finset.range n, if u < t then after u else if u = t then 0 else before u

/-- the value of a leaf with `c` datapoints, the sum `ρ` of which is known, in a regression with `n` trees and error variance
`σ`, with standard normal variate `ζ`: the conditional mean plus the conditional standard deviation times `ζ`. -/
noncomputable def exactLeaf (n c : Nat) (σ ρ ζ : ℝ) : ℝ :=
  ρ / (c + n * σ) + ζ / Real.sqrt (c / σ + n)

end Spec
