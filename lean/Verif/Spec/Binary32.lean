import Verif.Model.Binary32
import Verif.Spec.Picks
import Mathlib.Analysis.SpecialFunctions.Log.Basic
/-!
# Single precision arithmetic and uniform random variates as carried out by JAX

Assumptions on the parts of the arithmetic not determined by IEEE 754, and on how JAX turns random bits into floating
point numbers.
-/

set_option autoImplicit false

namespace Spec
open Jax Bartz

/-- The variates obtained from one key, when the uniform ones are computed like JAX does from some random bits. -/
structure JaxDraws (d : Draws Binary32) : Prop where
  uniform2 : ∃ k : Nat → Nat → Fin (2 ^ 23), ∀ r t, d.uniform2 r t = Binary32.uniform (k r t) 1
  uniformTo : ∃ k : Fin (2 ^ 23), ∀ hi, d.uniformTo hi = Binary32.uniform k hi
  randint_mem : ∀ lo hi, lo < hi → lo ≤ d.randint lo hi ∧ d.randint lo hi < hi
  randint_empty : ∀ lo hi, hi ≤ lo → d.randint lo hi = lo

/-- The states that can be produced from `init a` with any number of steps in single precision, each with any key and any
outcome of the random draws of JAX. -/
inductive ReachableJax (K : Type) [KeyLike K] [Binary32.Platform] (a : InitArgs Binary32) : State Binary32 → Prop
  | init : ReachableJax K a (Bartz.init a)
  | step {s : State Binary32} (rng : Rng K Binary32) (key : K) : ReachableJax K a s → (∀ key, JaxDraws (rng key)) →
      ReachableJax K a (Bartz.step rng s key)

/-- Like `ReachableJax`, but in each step the leaf chosen to be grown in each tree is one of the growable ones (the key is the one
passed by `step` to `sample_moves`). -/
inductive ReachablePicks (K : Type) [KeyLike K] [Binary32.Platform] (a : InitArgs Binary32) : State Binary32 → Prop
  | init : ReachablePicks K a (Bartz.init a)
  | step {s : State Binary32} (rng : Rng K Binary32) (key : K) : ReachablePicks K a s → (∀ key, JaxDraws (rng key)) →
      (∀ t, t < a.num_trees → Picks rng s (KeyLike.split (KeyLike.split key 2 1) 2 1) t) →
      ReachablePicks K a (Bartz.step rng s key)

/-- A rough requirement on the accuracy of the logarithms: that `log(x) >= -7` for `x >= 2 ** -10`, where actually
`log(2 ** -10) > -6.94`, and that `log1p(-(1 - 2 ** -23)) <= -15`, where actually it is lower than `-15.9`. -/
structure RoughLog (P : Binary32.Platform) : Prop where
  log : ∀ x, Binary32.le (1 / ((2 ^ 10 : Nat) : Binary32)) x = true → Binary32.le (-((7 : Nat) : Binary32)) (P.log x) = true
  log1p : Binary32.le (P.log1p (-(1 - 1 / ((2 ^ 23 : Nat) : Binary32)))) (-((15 : Nat) : Binary32)) = true

/-- The value of a finite number. -/
noncomputable def toReal (neg : Bool) (bits : Fin (infBits + 1)) : ℝ := Binary32.value neg bits / 2 ^ 149

/-- The logarithms are computed with an absolute error of at most 1/32 (to compare, the largest error due to rounding to
nearest is lower than 0.000004). -/
structure AccurateLog (P : Binary32.Platform) : Prop where
  log_inf : P.log (.num false (Binary32.clip infBits)) = .num false (Binary32.clip infBits)
  log : ∀ b : Fin (infBits + 1), 0 < b.val → b.val < infBits → ∃ s c, P.log (.num false b) = .num s c ∧ c.val < infBits ∧
    |toReal s c - Real.log (toReal false b)| ≤ 1 / 32
  log1p : ∀ (s : Bool) (b : Fin (infBits + 1)), b.val < infBits → -1 < toReal s b → ∃ s' c, P.log1p (.num s b) = .num s' c ∧
    c.val < infBits ∧ |toReal s' c - Real.log (1 + toReal s b)| ≤ 1 / 32

end Spec
