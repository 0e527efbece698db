import Verif.Spec.Drift
import Mathlib.Analysis.SpecialFunctions.Log.Basic
/-! # Accuracy of the logarithms -/

set_option autoImplicit false

namespace Spec
open Jax

/-- The error of the logarithms of a platform is at most `δ` times one plus the absolute value of the logarithm. With rounding
to nearest it holds with `δ = 2 ** -24`. It is not required of subnormal arguments. -/
structure LogError (P : Binary32.Platform) (δ : ℝ) : Prop where
  log : ∀ x v, HasValue x v → 1 / 2 ^ 126 ≤ v → ∃ r, HasValue (P.log x) r ∧ |r - Real.log v| ≤ δ * (1 + |Real.log v|)
  log1p : ∀ x v, HasValue x v → -1 < v → v ≤ 0 → ∃ r, HasValue (P.log1p x) r ∧ |r - Real.log (1 + v)| ≤ δ * (1 + |Real.log (1 + v)|)

end Spec
