import Verif.Spec.Ensemble
import Verif.Spec.Real
/-!
# Arguments of `gbart` for which the posterior distribution is defined
-/

set_option autoImplicit false

namespace Spec
open Jax Bartz

/-- There are trees; if the number of predictors is the number of values of an integer type, each predictor has at least one
cutpoint, i.e., it is not constant if the cutpoints are quantiles (see `C28_first`); the prior settings are in the allowed range;
the data is not all equal; there is a minimum number of datapoints per leaf, as is the case by default. -/
structure ProperGbart {K P : Type} (lib : Lib ℝ P) (a : GbartArgs K ℝ) : Prop where
  trees : 0 < a.ntree
  cuts : 1 ≤ a.numcut
  predictors : a.usequants = true →
    a.x_train.x.length = 2 ^ 8 ∨ a.x_train.x.length = 2 ^ 16 ∨ a.x_train.x.length = 2 ^ 32 →
    ∀ row ∈ a.x_train.x, ∃ v ∈ row, ∃ w ∈ row, lib.exact v ≠ lib.exact w
  nonterminal : ∀ d, d < a.maxdepth - 1 → a.base / lib.pow ((1 + d : Nat) : ℝ) a.power < 1
  sigdf : 0 < a.sigdf
  scale : (gbart_settings lib a).scale ≠ 0
  lamda : 0 < (gbart_settings lib a).lamda
  points : ∃ m, 1 ≤ m ∧ a.initkw.min_points_per_leaf.getD (some 5) = some m

end Spec
