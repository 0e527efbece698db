import Verif.Spec.LogError
import Verif.Spec.StepError
import Verif.Spec.Normal
import Verif.Spec.Posterior
/-!
# The decision on a move in exact arithmetic
-/

set_option autoImplicit false

namespace Spec
open Jax Bartz

/-- the values `z j` of the datapoints which fall into node `k` of a tree, with the decision rule proposed by the move if growing -/
noncomputable def sideData {F : Type} (a : InitArgs F) (split : List Nat) (mv : Move F) (z : Nat → ℝ) (k : Nat) : List ℝ :=
  leafData a.X a.y.length mv.var_tree (if mv.grow then setDrop split mv.node mv.grow_split else split) z k

/-- the log ratio of the marginal likelihoods of two leaves with data `L` and `R` and of a leaf with all the data, with `n`
trees and error variance `σ` -/
noncomputable def logLikRatio (n : Nat) (σ : ℝ) (L R : List ℝ) : ℝ :=
  Real.log (leafMarginal (1 / (n : ℝ)) σ L * leafMarginal (1 / (n : ℝ)) σ R / leafMarginal (1 / (n : ℝ)) σ (L ++ R))

/-- The bound to the error of the log likelihood ratio, with accuracy `δ` of the logarithms, values of the residuals at most
`B`, growth of the error of the residuals at most `P`, and `c` datapoints in the leaves. -/
noncomputable def ratioBound (δ B P σ : ℝ) (c : Nat) : ℝ :=
  36 * δ + 27 / 8 * (P - 1 + (c + 3) / 2 ^ 23) * (c * (B * P) ^ 2 / σ) + (100 + 60 * (c * (B * P) ^ 2 / σ)) / 2 ^ 24

end Spec
