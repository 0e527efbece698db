import Verif.Model.Gbart
import Verif.Spec.Mcmc
import Verif.Spec.Chain
/-!
# Valid arguments of `gbart`
-/

set_option autoImplicit false

namespace Spec
open Jax Bartz

/-- The predictors `x'` have the same columns as `x`: the same number, and the same attribute `columns` if they are
dataframes (with pandas, this means the same object, see C65). -/
def Compatible {F : Type} (x x' : Predictors F) : Prop :=
  x'.columns = x.columns ∧ x'.x.length = x.x.length

/-- the maximum number of cutpoints of a predictor, with `n` datapoints -/
def maxCuts (usequants : Bool) (numcut n : Nat) : Nat :=
  if usequants then min (numcut + 1) n - 1 else numcut

/-- The arguments of `gbart` are valid: the maximum depth is at least 2, there is at least one predictor,
the shapes match, the a priori splitting probabilities are positive, and the test set has the same columns
of the training set. If the cutpoints are not quantiles, there is at least one datapoint. There is a minimum number
of datapoints per leaf (by default 5), or the maximum number of cutpoints is not the largest number represented by an
unsigned type, because otherwise it may overflow (see `C27_overflow`). -/
structure ValidGbart {K F P : Type} [Zero F] [One F] [Div F] [NatCast F] [FltFun F] (lib : Lib F P)
    (a : GbartArgs K F) : Prop where
  depth_ge : 2 ≤ a.maxdepth
  depth_le : a.maxdepth ≤ 64
  predictors_pos : 0 < a.x_train.x.length
  predictors_lt : a.x_train.x.length < 2 ^ 64
  length : a.x_train.n = a.y_train.length
  row : ∀ row ∈ a.x_train.x, row.length = a.y_train.length
  datapoints : a.usequants = false → 0 < a.y_train.length
  nonterminal_pos : ∀ d, d < a.maxdepth - 1 →
    FltFun.leb FltFun.tiny (a.base / lib.pow ((1 + d : Nat) : F) a.power) = true ∧
    FltFun.leb (a.base / lib.pow ((1 + d : Nat) : F) a.power) 0 = false ∧
    FltFun.leb (a.base / lib.pow ((1 + d : Nat) : F) a.power) 1 = true
  x_test : ∀ x, a.x_test = some x → Compatible a.x_train x
  numcut_lt : a.numcut + 1 < 2 ^ 64
  overflow : (∃ m, 1 ≤ m ∧ a.initkw.min_points_per_leaf.getD (some 5) = some m) ∨ 0 < a.y_train.length ∧
    ∀ b ∈ [8, 16, 32], maxCuts a.usequants a.numcut a.y_train.length ≠ 2 ^ b - 1

/-- The predictors `x` are accepted for a model trained on `x'`: two arrays with the same number of rows; two dataframes
with names in lists, equal; two dataframes that share the `Index` object of the names; or two dataframes with only one
column, with the same name. -/
def SameFormat {F : Type} (x x' : Predictors F) : Prop :=
  (x.columns = none ∧ x'.columns = none ∧ x.x.length = x'.x.length) ∨
  (∃ names, x.columns = some (.list names) ∧ x'.columns = some (.list names)) ∨
  (∃ id names names', x.columns = some (.index id names) ∧ x'.columns = some (.index id names')) ∨
  ∃ c c' name, x.columns = some c ∧ x'.columns = some c' ∧ c.names = [name] ∧ c'.names = [name]

/-- The arguments of `gbart` are in the domain, without requiring that the various arguments are consistent with each
other: the predictors are a matrix with at least one row, the maximum depth is at least 2, the a priori splitting
probabilities are positive, the integers do not overflow. -/
structure InDomain {K F P : Type} [Zero F] [One F] [Div F] [NatCast F] [FltFun F] (lib : Lib F P)
    (a : GbartArgs K F) : Prop where
  depth_ge : 2 ≤ a.maxdepth
  depth_le : a.maxdepth ≤ 64
  predictors_pos : 0 < a.x_train.x.length
  predictors_lt : a.x_train.x.length < 2 ^ 64
  row : ∀ row ∈ a.x_train.x, row.length = a.x_train.n
  nonterminal_pos : ∀ d, d < a.maxdepth - 1 →
    FltFun.leb FltFun.tiny (a.base / lib.pow ((1 + d : Nat) : F) a.power) = true ∧
    FltFun.leb (a.base / lib.pow ((1 + d : Nat) : F) a.power) 0 = false ∧
    FltFun.leb (a.base / lib.pow ((1 + d : Nat) : F) a.power) 1 = true
  numcut_lt : a.numcut + 1 < 2 ^ 64
  overflow : (∃ m, 1 ≤ m ∧ a.initkw.min_points_per_leaf.getD (some 5) = some m) ∨ 0 < a.y_train.length ∧
    ∀ b ∈ [8, 16, 32], maxCuts a.usequants a.numcut a.y_train.length ≠ 2 ^ b - 1

end Spec
