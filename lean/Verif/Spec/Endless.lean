import Verif.Spec.Bart
import Mathlib.Probability.ProductMeasure
/-!
# The random numbers of an endless run

To speak of what happens as the number of iterations grows, there is a set of random numbers for each
step of an endless Markov chain. The runs of `run_mcmc` with the same key and different numbers of
iterations are initial pieces of the same chain (`C42_trace`).
-/

set_option autoImplicit false

namespace Spec
open Jax Bartz MeasureTheory

/-- The numbers used by all the steps are independent. The distribution of the ones of a step has to be
normalized; it is so if the shape parameter of the prior of the variance is positive
(`stepDraws_prob`). -/
noncomputable def endlessDraws (a : InitArgs ℝ) [IsProbabilityMeasure (stepDraws a)] :
    Measure (Nat → StepDraws a.num_trees (nodes a)) := Measure.infinitePi fun _ => stepDraws a

/-- The random number generator uses the numbers `O i` for step `i` of the Markov chain. -/
def EndlessSites {K : Type} [KeyLike K] (a : InitArgs ℝ) (key : K)
    (rng : (Nat → StepDraws a.num_trees (nodes a)) → Rng K ℝ) : Prop :=
  ∀ (i : Nat) (O : Nat → StepDraws a.num_trees (nodes a)),
    (∀ k t, k ≠ i → ((O k).1 t).1 ∈ unitCube) →
    StepSites a (KeyLike.split (chainKey key i) 2 1) fun o => rng (Function.update O i o)

end Spec
