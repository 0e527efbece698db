import Verif.Lemmas.StepPlatform
import Verif.Lemmas.Binary32Order
import Verif.Spec.Binary32
/-! # A sufficient condition to accept a move that does not depend on the accuracy of the logarithms -/

set_option autoImplicit false

namespace Bartz
open Jax Spec

section
variable {K : Type} [KeyLike K]

/-- the argument of the logarithm in `complete_ratio` -/
def priorArg (m : Option Nat) (w : TreeWork Binary32) : Binary32 :=
  w.move.partial_ratio * compute_p_prune w.move w.counts.left w.counts.right m

/-- the argument of the logarithm in `precompute_likelihood_terms` -/
def lkArg (sigma2 : Binary32) (w : TreeWork Binary32) : Binary32 :=
  sigma2 * w.prelkv.sigma2_total / (w.prelkv.sigma2_left * w.prelkv.sigma2_right)

/-- the other term in `compute_likelihood_ratio` -/
def lkExp (b : Option Nat) (ef : Binary32) (resid : List Binary32) (w : TreeWork Binary32) : Binary32 :=
  let resid_tree := sum_resid resid w.leaf_indices w.leaf_tree.length b
  let resid_tree := List.zipWith (· + ·) resid_tree
    (List.zipWith (fun (c : Nat) v => (c : Binary32) * v) w.count_tree w.leaf_tree)
  let l := gather resid_tree w.move.left
  let r := gather resid_tree w.move.right
  let t := l + r
  ef * (l * l / w.prelkv.sigma2_left + r * r / w.prelkv.sigma2_right - t * t / w.prelkv.sigma2_total)

/-- the decision, in terms of the logarithms -/
theorem acc_eq (P : Binary32.Platform) (rng : Rng K Binary32) (s : State Binary32) (key : K) (m : Nat)
    (hm : s.min_points_per_leaf = some m) :
    let w := (letI := P; workOf rng s key 0)
    (letI := P; accOf rng s key 0).2.acc =
    (w.move.allowed && Binary32.le w.move.logu
      (if w.move.grow then P.log (priorArg s.min_points_per_leaf w) + (P.log (lkArg s.sigma2 w) / ((2 : Nat) : Binary32) +
        lkExp s.resid_batch_size (exp_factor s.leaf_trees.length s.sigma2) s.resid w) else
        -(P.log (priorArg s.min_points_per_leaf w) + (P.log (lkArg s.sigma2 w) / ((2 : Nat) : Binary32) +
        lkExp s.resid_batch_size (exp_factor s.leaf_trees.length s.sigma2) s.resid w))) &&
      decide (w.counts.left ≥ m) && decide (w.counts.right ≥ m)) := by
  have h1 : (letI := P; workOf rng s key 0).log_trans_prior_ratio =
    P.log (priorArg s.min_points_per_leaf (letI := P; workOf rng s key 0)) := rfl
  have h2 : (letI := P; workOf rng s key 0).prelkv.sqrt_term =
    P.log (lkArg s.sigma2 (letI := P; workOf rng s key 0)) / ((2 : Nat) : Binary32) := rfl
  unfold accOf
  rw [residOf_zero]
  generalize (letI := P; workOf rng s key 0) = w at h1 h2 ⊢
  unfold accept_move_and_sample_leaves compute_likelihood_ratio
  dsimp only
  rw [h1, h2, hm]
  rfl

/-- a sufficient condition to accept a growth, given the part of the computation that does not involve logarithms -/
def acceptable (s : State Binary32) (m : Nat) (w : TreeWork Binary32) : Bool :=
  w.move.allowed && w.move.grow && Binary32.le (1 / ((2 ^ 10 : Nat) : Binary32)) (priorArg s.min_points_per_leaf w) &&
  Binary32.le (1 / ((2 ^ 10 : Nat) : Binary32)) (lkArg s.sigma2 w) &&
  decide (lkExp s.resid_batch_size (exp_factor s.leaf_trees.length s.sigma2) s.resid w = 0) &&
  decide (w.counts.left ≥ m) && decide (w.counts.right ≥ m)

/-- the bound on the logarithm of the ratio -/
theorem bound {x y : Binary32} (hx : Binary32.le (-((7 : Nat) : Binary32)) x = true)
    (hy : Binary32.le (-((7 : Nat) : Binary32)) y = true) :
    Binary32.le (-((15 : Nat) : Binary32)) (x + (y / ((2 : Nat) : Binary32) + 0)) = true := by
  have e7 : -((7 : Nat) : Binary32) = .num true ⟨0x40e00000, by decide⟩ := by decide +kernel
  have e2 : ((2 : Nat) : Binary32) = .num false ⟨0x40000000, by decide⟩ := by decide +kernel
  have e35 : (Binary32.num true ⟨0x40e00000, by decide⟩) / .num false ⟨0x40000000, by decide⟩ =
    .num true ⟨0x40600000, by decide⟩ := by decide +kernel
  have e35' : (Binary32.num true ⟨0x40600000, by decide⟩) + .num false 0 = .num true ⟨0x40600000, by decide⟩ := by
    decide +kernel
  rw [e7] at hx hy
  rw [e2]
  have h1 := Binary32.le_div (c := ⟨0x40000000, by decide⟩) (by decide) (by decide) (by decide) hy
  rw [e35] at h1
  have h2 := Binary32.le_add (b' := 0) (s' := false) (y := 0) (by decide) (by decide) h1 (by decide +kernel)
  rw [e35'] at h2
  have h3 := Binary32.le_add (by decide) (by decide) hx h2
  exact Binary32.le_trans (by decide +kernel) h3

/-- If the uniform variate is the highest possible, the move is accepted on any platform. -/
theorem acc_true (P Q : Binary32.Platform) (hP : RoughLog P) (hc : P.cumsum = Q.cumsum) (rng : Rng K Binary32)
    (s : State Binary32) (key : K) (m : Nat) (hm : s.min_points_per_leaf = some m)
    (hu : (rng (KeyLike.split (KeyLike.split key 2 1) (1 + s.leaf_trees.length) 0)).uniform2 1 0 =
      1 - 1 / ((2 ^ 23 : Nat) : Binary32))
    (h : acceptable s m (letI := Q; workOf rng s key 0) = true) :
    (letI := P; accOf rng s key 0).2.acc = true := by
  have hf : ∀ w : TreeWork Binary32, acceptable s m w = acceptable s m w.forget := fun _ => rfl
  rw [hf, ← workOf_platform P Q hc, ← hf] at h
  rw [acc_eq P rng s key m hm]
  have hlog : (letI := P; workOf rng s key 0).move.logu = P.log1p (-(1 - 1 / ((2 ^ 23 : Nat) : Binary32))) := by
    rw [← hu]; rfl
  rw [hlog]
  generalize (letI := P; workOf rng s key 0) = w at h ⊢
  unfold acceptable at h
  simp only [Bool.and_eq_true, decide_eq_true_eq] at h ⊢
  obtain ⟨⟨⟨⟨⟨⟨h1, h2⟩, h3⟩, h4⟩, h5⟩, h6⟩, h7⟩ := h
  refine ⟨⟨⟨h1, ?_⟩, h6⟩, h7⟩
  rw [if_pos h2, h5]
  exact Binary32.le_trans hP.log1p (bound (hP.log _ h3) (hP.log _ h4))

/-- If there are too few points on the left, the move is rejected on any platform. -/
theorem acc_false (P Q : Binary32.Platform) (hc : P.cumsum = Q.cumsum) (rng : Rng K Binary32)
    (s : State Binary32) (key : K) (m : Nat) (hm : s.min_points_per_leaf = some m)
    (h : (letI := Q; workOf rng s key 0).counts.left < m) :
    (letI := P; accOf rng s key 0).2.acc = false := by
  have hf : ∀ w : TreeWork Binary32, w.counts.left = w.forget.counts.left := fun _ => rfl
  rw [hf, ← workOf_platform P Q hc, ← hf] at h
  rw [acc_eq P rng s key m hm]
  generalize (letI := P; workOf rng s key 0) = w at h ⊢
  have : decide (w.counts.left ≥ m) = false := decide_eq_false (by omega)
  rw [this, Bool.and_false, Bool.false_and]

end
end Bartz
