import Verif.Spec.Binary32
import Verif.Spec.Tree
/-!
# Runs of the MCMC in single precision, and the values of the trees

The value of a number in single precision is given by a relation with the real numbers, rather than a function, such that
infinities and NaN do not have a value.
-/

set_option autoImplicit false

namespace Spec
open Jax Bartz

/-- `x` is finite and its value is `v` -/
def HasValue (x : Binary32) (v : ℝ) : Prop :=
  ∃ (neg : Bool) (bits : Fin (infBits + 1)), x = .num neg bits ∧ bits.val < infBits ∧ v = toReal neg bits

/-- A sequence of states, each obtained from the previous one with `step`, with any keys and any outcomes of the random draws. -/
structure Run32 {K : Type} [KeyLike K] [Binary32.Platform] (a : InitArgs Binary32) (steps : Nat) (rng : Nat → Rng K Binary32)
    (key : Nat → K) (s : Nat → State Binary32) : Prop where
  init : s 0 = Bartz.init a
  step : ∀ k, k < steps → s (k + 1) = Bartz.step (rng k) (s k) (key k)
  draws : ∀ k, k < steps → ∀ key, JaxDraws (rng k key)

/-- the value of tree `t` of a state at datapoint `j` -/
def leafAt (a : InitArgs Binary32) (s : State Binary32) (t j : Nat) : Binary32 :=
  (readTree 0 (s.leaf_trees.getD t []) (s.var_trees.getD t []) (s.split_trees.getD t []) a.p_nonterminal.length 1).eval
    (a.X.map fun row => row.getD j 0)

end Spec
