import Verif.Spec.Gbart
/-!
# Transformation of the predictors
-/

set_option autoImplicit false

namespace Spec
open Jax Bartz

/-- apply a function to each predictor -/
def mapPredictors {F : Type} (φ : Nat → F → F) (x : Predictors F) : Predictors F :=
  { x with x := x.x.mapIdx fun j row => row.map (φ j) }

/-- apply a function to each predictor, both in the training set and in the test set -/
def mapArgs {K F : Type} (φ : Nat → F → F) (a : GbartArgs K F) : GbartArgs K F :=
  { a with x_train := mapPredictors φ a.x_train, x_test := a.x_test.map (mapPredictors φ) }

/-- All the values of the predictors `x'` appear in the same predictor in `x`, possibly for a different datapoint. -/
def ValuesIn {F : Type} (x x' : Predictors F) : Prop :=
  ∀ (j : Nat) row', x'.x[j]? = some row' → ∃ row, x.x[j]? = some row ∧ ∀ v ∈ row', v ∈ row

/-- The settings do not depend on the values of the predictors: `lamda` or `sigest` are specified, or there
is not enough data to do a linear regression. -/
def NoRegression {K F : Type} (a : GbartArgs K F) : Prop :=
  a.lamda ≠ none ∨ a.sigest ≠ none ∨ a.y_train.length < 2 ∨ a.y_train.length ≤ a.x_train.x.length

/-- Two `gbart` objects have the same settings, the same MCMC history, and the same results on the training set. -/
structure SameFit {F P : Type} [Inhabited F] [Zero F] [Add F] [Mul F] (lib : Lib F P) (g g' : Gbart F P) : Prop where
  offset : g'.offset = g.offset
  scale : g'.scale = g.scale
  lamda : g'.lamda = g.lamda
  sigest : g'.sigest = g.sigest
  ntree : g'.ntree = g.ntree
  maxdepth : g'.maxdepth = g.maxdepth
  sigma : g'.sigma = g.sigma
  first_sigma : g'.first_sigma = g.first_sigma
  main_trace : g'.main_trace = g.main_trace
  mcmc_state : g'.mcmc_state = g.mcmc_state
  yhat_train : g'.yhat_train lib = g.yhat_train lib

end Spec
