import Verif.Spec.Gbart
/-!
# Change of sign of the response
-/

set_option autoImplicit false

namespace Spec
open Jax Bartz

section
variable {K F P : Type} [Neg F]

/-- the dataset with the opposite response; the option `offset`, if specified, is changed as well -/
def reflectArgs (a : GbartArgs K F) : GbartArgs K F :=
  { a with y_train := a.y_train.map (-·), offset := a.offset.map (-·) }

/-- The random number generator with the opposite normal variates. Since the normal distribution is symmetric, it is as good as the
original one. -/
def reflectRng (rng : Rng K F) : Rng K F := fun key =>
  { rng key with normal := fun t i => -(rng key).normal t i }

/-- the state of the MCMC with the opposite data and leaves -/
def reflectState (s : State F) : State F :=
  { s with
    leaf_trees := s.leaf_trees.map fun tree => tree.map (-·)
    resid := s.resid.map (-·)
    y := s.y.map (-·) }

/-- change the sign of the leaves -/
def reflectValue : Value F → Value F
  | .floatTrees v => .floatTrees (v.map fun tree => tree.map (-·))
  | v => v

/-- The results of `gbart` with the opposite response: the predictions change sign, and everything else is the same. -/
structure ReflectedFit [Inhabited F] [Zero F] [Add F] [Mul F] [Div F] [NatCast F] [Field P] [LinearOrder P] (lib : Lib F P)
    (g g' : Gbart F P) : Prop where
  attributes : g' =
    { g with
      offset := -g.offset
      main_trace := g.main_trace.map fun kv => (kv.1, kv.2.map reflectValue)
      mcmc_state := reflectState g.mcmc_state
      yhat_test := g.yhat_test.map fun y => y.map fun row => row.map (-·)
      yhat_test_mean := g.yhat_test_mean.map fun row => row.map (-·) }
  yhat_train : g'.yhat_train lib = (g.yhat_train lib).map fun y => y.map fun row => row.map (-·)
  yhat_train_mean : g'.yhat_train_mean lib = (g.yhat_train_mean lib).map fun row => row.map (-·)
  predict : ∀ x, g'.predict lib x = (g.predict lib x).map fun y => y.map fun row => row.map (-·)

end

end Spec
