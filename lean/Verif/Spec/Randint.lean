import Verif.Model.Randint
import Mathlib.Data.Real.Basic
import Mathlib.Data.Fintype.Card
import Mathlib.Data.Fintype.Prod
/-!
# Probability of an event determined by the random bits of an integer variate

JAX makes an integer in a range out of 64 random bits.
-/

set_option autoImplicit false

namespace Spec
open Jax

/-- random bits: two words of 32 bits -/
abbrev Words : Type := Fin (2 ^ 32) × Fin (2 ^ 32)

open scoped Classical in
/-- the probability of an event, if the 64 random bits are uniformly distributed -/
noncomputable def wordsProb (p : Words → Prop) : ℝ := ((Finset.univ.filter p).card : ℝ) / 2 ^ 64

/-- the integers in a range are those made by JAX from the given random bits -/
def UsesWords {F : Type} (draw : Words → Draws F) : Prop :=
  ∀ w lo hi, lo < 2 ^ 31 → hi < 2 ^ 31 → (draw w).randint lo hi = randint32 w.1 w.2 lo hi

end Spec
