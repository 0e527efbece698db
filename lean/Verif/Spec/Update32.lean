import Verif.Spec.Proposal32
import Verif.Spec.Posterior
/-!
# Probability of modifying a tree

The random bits used to propose a move for a tree and to decide whether to accept it, and the intended acceptance.
-/

set_option autoImplicit false

namespace Spec
open Jax Bartz

/-- random bits used to update the structure of a tree: those for the proposal, and 23 bits for the decision -/
abbrev UpdateBits : Type := MoveBits × Fin (2 ^ 23)

open scoped Classical in
/-- the probability of an event, if the random bits are independent and uniformly distributed -/
noncomputable def updateProb (p : UpdateBits → Prop) : ℝ :=
  ((Finset.univ.filter p).card : ℝ) / (2 ^ 23 * (2 ^ 23 * 2 ^ 64 * 2 ^ 64) * 2 ^ 64 * 2 ^ 23)

/-- The variates used to propose a move for the tree `t` out of `ntree`, and to decide on it, given the key of `sample_moves`, are those
made by JAX from the random bits. -/
structure UsesUpdateBits {K : Type} [KeyLike K] (rng : UpdateBits → Rng K Binary32) (key : K) (ntree t : Nat) : Prop where
  kind : ∀ ω, (rng ω (KeyLike.split key (1 + ntree) 0)).uniform2 0 t = Binary32.uniform ω.1.1 1
  decision : ∀ ω, (rng ω (KeyLike.split key (1 + ntree) 0)).uniform2 1 t = Binary32.uniform ω.2 1
  leaf : ∃ draw, UsesBits draw ∧
    ∀ ω, rng ω (KeyLike.split (KeyLike.split (KeyLike.split key (1 + ntree) (1 + t)) 2 0) 3 0) = draw ω.1.2.1.1
  var : ∃ draw, UsesWords draw ∧
    ∀ ω, rng ω (KeyLike.split (KeyLike.split (KeyLike.split key (1 + ntree) (1 + t)) 2 0) 3 1) = draw ω.1.2.1.2.1
  cut : ∃ draw, UsesWords draw ∧
    ∀ ω, rng ω (KeyLike.split (KeyLike.split (KeyLike.split key (1 + ntree) (1 + t)) 2 0) 3 2) = draw ω.1.2.1.2.2
  prune : ∃ draw, UsesWords draw ∧ ∀ ω, rng ω (KeyLike.split (KeyLike.split key (1 + ntree) (1 + t)) 2 1) = draw ω.1.2.2

/-- the children of the node `i` have the minimum number of datapoints required -/
def EnoughPoints {F : Type} (a : InitArgs F) (var split : List Nat) (i : Nat) : Prop :=
  ∀ m, a.min_points_per_leaf = some m → m ≤ pointsIn a.X a.y.length var split (2 * i) ∧
    m ≤ pointsIn a.X a.y.length var split (2 * i + 1)

end Spec
