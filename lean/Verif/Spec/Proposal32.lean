import Verif.Spec.Choice32
import Verif.Spec.Randint
import Verif.Spec.TreePrior
import Mathlib.Algebra.BigOperators.Finprod
/-!
# Distribution of the proposal to grow a tree

The intended distribution of the leaf to grow, and of its decision rule, and the random bits from which JAX makes them in single
precision.
-/

set_option autoImplicit false

namespace Spec
open Jax Bartz

/-- random bits used to propose to grow a tree: 23 bits for the leaf, 64 bits for the variable, 64 for the cutpoint -/
abbrev GrowBits : Type := Fin (2 ^ 23) × Words × Words

open scoped Classical in
/-- the probability of an event, if the random bits are independent and uniformly distributed -/
noncomputable def growProb (p : GrowBits → Prop) : ℝ := ((Finset.univ.filter p).card : ℝ) / (2 ^ 23 * 2 ^ 64 * 2 ^ 64)

/-- The variates obtained from the three keys that `grow_move` makes out of its key are those made by JAX from the random bits. -/
structure UsesGrowBits {K : Type} [KeyLike K] (rng : GrowBits → Rng K Binary32) (key : K) : Prop where
  leaf : ∃ draw, UsesBits draw ∧ ∀ ω, rng ω (KeyLike.split key 3 0) = draw ω.1
  var : ∃ draw, UsesWords draw ∧ ∀ ω, rng ω (KeyLike.split key 3 1) = draw ω.2.1
  cut : ∃ draw, UsesWords draw ∧ ∀ ω, rng ω (KeyLike.split key 3 2) = draw ω.2.2

/-- the average over a finite set -/
noncomputable def avg (S : Set Nat) (f : Nat → ℝ) : ℝ := (∑ᶠ x ∈ S, f x) / S.ncard

/-- The intended average of a function `g` of the leaf, of the variable and of the cutpoint proposed, if the growable leaves are those
in `G`: the leaf is drawn with probability proportional to `q d`, where `d` is its depth, the variable and the cutpoint uniformly among
those available. -/
noncomputable def growExp (q : Nat → ℝ) (G : Finset Nat) (bits : Nat) (max_split var split : List Nat)
    (g : Nat → Nat → Nat → ℝ) : ℝ :=
  ∑ i ∈ G, q (Nat.log2 i) / (∑ j ∈ G, q (Nat.log2 j)) *
    avg (availVars bits max_split var split i) fun v => avg (availSplits max_split var split i v) fun c => g i v c

open scoped Classical in
/-- The intended probability of proposing a leaf `i`, a variable `v` and a cutpoint `c` such that `E i v c`. -/
noncomputable def growDist (q : Nat → ℝ) (G : Finset Nat) (bits : Nat) (max_split var split : List Nat)
    (E : Nat → Nat → Nat → Prop) : ℝ :=
  growExp q G bits max_split var split fun i v c => if E i v c then 1 else 0

/-! ### The whole proposal -/

/-- random bits used to propose a move for a tree: 23 bits to choose whether to grow or to prune, those for the proposal to grow,
64 bits for the node to prune -/
abbrev MoveBits : Type := Fin (2 ^ 23) × GrowBits × Words

open scoped Classical in
/-- the probability of an event, if the random bits are independent and uniformly distributed -/
noncomputable def moveProb (p : MoveBits → Prop) : ℝ :=
  ((Finset.univ.filter p).card : ℝ) / (2 ^ 23 * (2 ^ 23 * 2 ^ 64 * 2 ^ 64) * 2 ^ 64)

/-- The variates used to propose a move for the tree `t` out of `ntree`, given the key of `sample_moves`, are those made by JAX from the
random bits. -/
structure UsesMoveBits {K : Type} [KeyLike K] (rng : MoveBits → Rng K Binary32) (key : K) (ntree t : Nat) : Prop where
  kind : ∀ ω, (rng ω (KeyLike.split key (1 + ntree) 0)).uniform2 0 t = Binary32.uniform ω.1 1
  leaf : ∃ draw, UsesBits draw ∧
    ∀ ω, rng ω (KeyLike.split (KeyLike.split (KeyLike.split key (1 + ntree) (1 + t)) 2 0) 3 0) = draw ω.2.1.1
  var : ∃ draw, UsesWords draw ∧
    ∀ ω, rng ω (KeyLike.split (KeyLike.split (KeyLike.split key (1 + ntree) (1 + t)) 2 0) 3 1) = draw ω.2.1.2.1
  cut : ∃ draw, UsesWords draw ∧
    ∀ ω, rng ω (KeyLike.split (KeyLike.split (KeyLike.split key (1 + ntree) (1 + t)) 2 0) 3 2) = draw ω.2.1.2.2
  prune : ∃ draw, UsesWords draw ∧ ∀ ω, rng ω (KeyLike.split (KeyLike.split key (1 + ntree) (1 + t)) 2 1) = draw ω.2.2

open scoped Classical in
/-- The intended average of a function of the move proposed, `g` if it is to grow and `d` if it is to prune: if both are possible, each
has probability 1/2; the node to prune is drawn uniformly from the ones with two leaf children. -/
noncomputable def moveExp (q : Nat → ℝ) (G : Finset Nat) (bits : Nat) (max_split var split : List Nat)
    (g : Nat → Nat → Nat → ℝ) (d : Nat → ℝ) : ℝ :=
  let prune := avg {i | IsLeafParent split i} d
  if G.Nonempty then
    if ∃ i, IsLeafParent split i then 1 / 2 * growExp q G bits max_split var split g + 1 / 2 * prune
    else growExp q G bits max_split var split g
  else prune

open scoped Classical in
/-- The intended probability of proposing to grow a leaf `i` with variable `v` and cutpoint `c` such that `E i v c`, or to prune a node
`i` such that `D i`. -/
noncomputable def moveDist (q : Nat → ℝ) (G : Finset Nat) (bits : Nat) (max_split var split : List Nat)
    (E : Nat → Nat → Nat → Prop) (D : Nat → Prop) : ℝ :=
  moveExp q G bits max_split var split (fun i v c => if E i v c then 1 else 0) fun i => if D i then 1 else 0

end Spec
