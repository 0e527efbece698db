import Verif.Spec.Drift
/-!
# Probability of an event determined by the random bits of a uniform variate

JAX makes a uniform variate in single precision out of 23 random bits.
-/

set_option autoImplicit false

namespace Spec
open Jax Bartz

open scoped Classical in
/-- the probability of an event, if the 23 random bits are uniformly distributed -/
noncomputable def bitsProb (p : Fin (2 ^ 23) → Prop) : ℝ := ((Finset.univ.filter p).card : ℝ) / 2 ^ 23

/-- the variate in a range is the one made by JAX from the given random bits -/
def UsesBits (draw : Fin (2 ^ 23) → Draws Binary32) : Prop := ∀ k hi, (draw k).uniformTo hi = Binary32.uniform k hi

end Spec
