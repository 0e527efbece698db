import Verif.Spec.Drift
import Verif.Model.Gbart
/-!
# Change of unit of the response by a power of two

In single precision multiplying by a power of two changes only the exponent, so it is exact unless it overflows.
-/

set_option autoImplicit false

namespace Spec
open Jax Bartz

/-- `x` and `x'` are finite, they have the same sign, and `x'` is `2 ** j` times `x` -/
def TimesPow (j : Nat) (x x' : Binary32) : Prop :=
  ∃ (neg : Bool) (bits bits' : Fin (infBits + 1)), x = .num neg bits ∧ x' = .num neg bits' ∧ bits.val < infBits ∧ bits'.val < infBits ∧
    toReal neg bits' = 2 ^ j * toReal neg bits

/-- `x'` is `2 ** j` times `x`, unless it overflows -/
def TimesPowUnless (j : Nat) (x x' : Binary32) : Prop := ∀ v', HasValue x' v' → TimesPow j x x'

/-- The arguments of `gbart` with the response in another unit, `2 ** j` times smaller: the response, `offset`, and `sigest` are `2 ** j`
times larger, and `lamda`, which is a variance, `2 ** (2 * j)` times. -/
structure TimesPowArgs {K : Type} (j : Nat) (a a' : GbartArgs K Binary32) : Prop where
  y_train : List.Forall₂ (TimesPow j) a.y_train a'.y_train
  offset : Option.Rel (TimesPow j) a.offset a'.offset
  sigest : Option.Rel (TimesPow j) a.sigest a'.sigest
  lamda : Option.Rel (TimesPow (2 * j)) a.lamda a'.lamda
  other : a' = { a with y_train := a'.y_train, offset := a'.offset, sigest := a'.sigest, lamda := a'.lamda }

end Spec
