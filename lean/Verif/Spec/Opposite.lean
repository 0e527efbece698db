import Verif.Spec.Reflect
import Mathlib.Data.Option.Defs
import Verif.Model.Binary32
/-!
# Change of sign of the response in single precision
-/

set_option autoImplicit false

namespace Spec
open Jax Bartz

/-- Opposite numbers, up to the sign of zero, which is not significant: the sum of two opposite numbers is `0` and not `-0`
whatever the order. -/
def Opposite (x y : Binary32) : Prop := y = -x ∨ ((x = 0 ∨ x = -0) ∧ (y = 0 ∨ y = -0))

/-- The two states have opposite data and leaves, and are otherwise equal. -/
structure OppositeState {F : Type} (R : F → F → Prop) (s s' : State F) : Prop where
  leaf_trees : List.Forall₂ (List.Forall₂ R) s.leaf_trees s'.leaf_trees
  resid : List.Forall₂ R s.resid s'.resid
  y : List.Forall₂ R s.y s'.y
  same : s' = { s with leaf_trees := s'.leaf_trees, resid := s'.resid, y := s'.y }

/-- The two arrays of leaves are opposite; any other value saved in the trace is the same. -/
def OppositeValue {F : Type} (R : F → F → Prop) : Value F → Value F → Prop
  | .floatTrees v, w => ∃ v', w = .floatTrees v' ∧ List.Forall₂ (List.Forall₂ R) v v'
  | v, w => w = v

/-- The two traces have opposite leaves, and are otherwise equal. -/
def OppositeTrace {F : Type} (R : F → F → Prop) (tr tr' : Trace F) : Prop :=
  List.Forall₂ (fun kv kv' => kv'.1 = kv.1 ∧ List.Forall₂ (OppositeValue R) kv.2 kv'.2) tr tr'

/-- The datasets have opposite response, and opposite option `offset`, if specified; the other arguments are the same. -/
structure OppositeArgs {K F : Type} (R : F → F → Prop) (a a' : GbartArgs K F) : Prop where
  y_train : List.Forall₂ R a.y_train a'.y_train
  offset : Option.Rel R a.offset a'.offset
  same : a' = { a with y_train := a'.y_train, offset := a'.offset }

/-- The results of `gbart` with opposite responses: the predictions are opposite, and everything else is the same. -/
structure OppositeFit {F P : Type} [Inhabited F] [Zero F] [Add F] [Mul F] [Div F] [NatCast F] [Field P] [LinearOrder P] (R : F → F → Prop)
    (lib : Lib F P) (g g' : Gbart F P) : Prop where
  offset : R g.offset g'.offset
  main_trace : OppositeTrace R g.main_trace g'.main_trace
  mcmc_state : OppositeState R g.mcmc_state g'.mcmc_state
  yhat_test : Option.Rel (List.Forall₂ (List.Forall₂ R)) g.yhat_test g'.yhat_test
  yhat_test_mean : Option.Rel (List.Forall₂ R) g.yhat_test_mean g'.yhat_test_mean
  same : g' = { g with
    offset := g'.offset, main_trace := g'.main_trace, mcmc_state := g'.mcmc_state, yhat_test := g'.yhat_test
    yhat_test_mean := g'.yhat_test_mean }
  yhat_train : Option.Rel (List.Forall₂ (List.Forall₂ R)) (g.yhat_train lib) (g'.yhat_train lib)
  yhat_train_mean : Option.Rel (List.Forall₂ R) (g.yhat_train_mean lib) (g'.yhat_train_mean lib)
  predict : ∀ x, Option.Rel (List.Forall₂ (List.Forall₂ R)) (g.predict lib x) (g'.predict lib x)

/-- The least squares solver gives the same results if the sign of the response is changed. -/
def EvenLstsq (lstsq : List (List Binary32) → List Binary32 → Binary32 × Nat) : Prop :=
  ∀ A b b', List.Forall₂ Opposite b b' → lstsq A b' = lstsq A b

end Spec
