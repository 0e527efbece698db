import Mathlib.Data.Real.Basic
/-! # Bounds to the errors of the transition probabilities in single precision -/

set_option autoImplicit false

namespace Spec

/-- The bound to the error of the log of the Metropolis-Hastings ratio, with half-depth `h` of the trees, accuracy `δ` of the logarithms,
and a log likelihood ratio of magnitude `M` and accuracy `β`. -/
noncomputable def scoreError (h : Nat) (δ β M : ℝ) : ℝ :=
  2 * ((2 ^ h + 11) / 2 ^ 23 + 72 * δ + β) + (70 + M) / 2 ^ 24

/-- The bound to the error of the probability of modifying the tree in a given way. -/
noncomputable def kernelError (h : Nat) (δ β M : ℝ) : ℝ :=
  2 * (2 ^ h * ((4 * h + 1) / 2 ^ 22)) + 1 / 2 ^ 47 + (2 * (scoreError h δ β M + 17 * δ) + 1 / 2 ^ 22)

end Spec
