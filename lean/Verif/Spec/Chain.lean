import Verif.Model.Jax
/-!
# The Markov chain
-/

set_option autoImplicit false

namespace Spec
open Jax

variable {K S : Type} [KeyLike K]

/-- random key before iteration `t` -/
def chainKey (key : K) : Nat → K
  | 0 => key
  | t + 1 => KeyLike.split (chainKey key t) 2 0

/-- state after `t` iterations, starting from `s`, given the function that does one step -/
def chain (step : S → K → S) (s : S) (key : K) : Nat → S
  | 0 => s
  | t + 1 => step (chain step s key t) (KeyLike.split (chainKey key t) 2 1)

end Spec
