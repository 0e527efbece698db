import Verif.Spec.Gbart
/-!
# Reordering of the datapoints
-/

set_option autoImplicit false

namespace Spec
open Jax Bartz

/-- take the elements of a list in the given order -/
def reorder {α : Type} [Inhabited α] (σ : List Nat) (l : List α) : List α := σ.map fun i => l.getD i default

/-- the dataset with the datapoints in another order -/
def reorderArgs {K F : Type} [Inhabited F] (σ : List Nat) (a : GbartArgs K F) : GbartArgs K F :=
  { a with
    x_train := { a.x_train with x := a.x_train.x.map (reorder σ) }
    y_train := reorder σ a.y_train }

/-- the state of the MCMC with the datapoints in another order -/
def reorderState {F : Type} [Inhabited F] (σ : List Nat) (s : State F) : State F :=
  { s with
    resid := reorder σ s.resid
    y := reorder σ s.y
    X := s.X.map (reorder σ)
    leaf_indices := s.leaf_indices.map (reorder σ) }

/-- The results of `gbart` with the datapoints in another order: everything is the same, apart from the arrays in the
state of the MCMC that have one item per datapoint, and the predictions on the training set. -/
structure ReorderedFit {F P : Type} [Inhabited F] [Zero F] [Add F] [Mul F] [Div F] [NatCast F] (lib : Lib F P)
    (σ : List Nat) (g g' : Gbart F P) : Prop where
  attributes : g' = { g with mcmc_state := reorderState σ g.mcmc_state }
  yhat_train : g'.yhat_train lib = (g.yhat_train lib).map fun y => y.map (reorder σ)
  yhat_train_mean : g'.yhat_train_mean lib = (g.yhat_train_mean lib).map (reorder σ)

end Spec
