import Verif.Model.Jax
import Mathlib.MeasureTheory.Constructions.Pi
import Mathlib.MeasureTheory.Measure.Lebesgue.Basic
import Mathlib.Algebra.Order.Floor.Semiring
/-!
# The random variates used to update one tree

The update of a tree uses six random numbers: to choose between growing and pruning, to accept or
reject, to choose the leaf to grow, the variable, the cutpoint, and the node to prune. To speak of
probabilities, they are obtained from six independent random numbers uniform in `[0, 1)`, i.e., from a
point of the unit cube with the Lebesgue measure.
-/

set_option autoImplicit false

namespace Spec
open Jax

/-- the unit cube -/
def unitCube : Set (Fin 6 → ℝ) := Set.univ.pi fun _ => Set.Ico 0 1

/-- probability of a set of points of the unit cube -/
noncomputable def prob (P : (Fin 6 → ℝ) → Prop) : ℝ :=
  (MeasureTheory.volume {w | w ∈ unitCube ∧ P w}).toReal

/-- integer uniform in `lo, ..., hi - 1` made from a number uniform in `[0, 1)` -/
noncomputable def unifInt (x : ℝ) (lo hi : Nat) : Nat :=
  if lo < hi then lo + ⌊((hi - lo : Nat) : ℝ) * x⌋₊ else lo

/-- The random number generator uses the six coordinates of a point of the unit cube for the update
of tree `t` out of `nt` in `step(key, ...)`; for the rest it may be anything. -/
structure TreeSites {K : Type} [KeyLike K] (nt t : Nat) (key : K) (rng : (Fin 6 → ℝ) → Rng K ℝ) :
    Prop where
  grow : ∀ w, (rng w (KeyLike.split (KeyLike.split (KeyLike.split key 2 1) 2 1) (1 + nt)
    0)).uniform2 0 t = w 0
  accept : ∀ w, (rng w (KeyLike.split (KeyLike.split (KeyLike.split key 2 1) 2 1) (1 + nt)
    0)).uniform2 1 t = w 1
  leaf : ∀ w hi, (rng w (KeyLike.split (KeyLike.split (KeyLike.split (KeyLike.split
    (KeyLike.split key 2 1) 2 1) (1 + nt) (1 + t)) 2 0) 3 0)).uniformTo hi = hi * w 2
  var : ∀ w lo hi, (rng w (KeyLike.split (KeyLike.split (KeyLike.split (KeyLike.split
    (KeyLike.split key 2 1) 2 1) (1 + nt) (1 + t)) 2 0) 3 1)).randint lo hi = unifInt (w 3) lo hi
  split : ∀ w lo hi, (rng w (KeyLike.split (KeyLike.split (KeyLike.split (KeyLike.split
    (KeyLike.split key 2 1) 2 1) (1 + nt) (1 + t)) 2 0) 3 2)).randint lo hi = unifInt (w 4) lo hi
  prune : ∀ w lo hi, (rng w (KeyLike.split (KeyLike.split (KeyLike.split
    (KeyLike.split key 2 1) 2 1) (1 + nt) (1 + t)) 2 1)).randint lo hi = unifInt (w 5) lo hi

end Spec
