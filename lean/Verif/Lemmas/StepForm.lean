import Verif.Lemmas.TreeInv
/-! # Normal form of a step, tree by tree -/

set_option autoImplicit false

namespace Jax

theorem map_vmap {α β : Type _} (n : Nat) (f : Nat → α) (g : α → β) :
    (vmap n f).map g = vmap n fun t => g (f t) := by simp [vmap]

theorem vmap_congr {β : Type _} {n : Nat} {f g : Nat → β} (h : ∀ t, t < n → f t = g t) :
    vmap n f = vmap n g := by
  unfold vmap
  apply List.map_congr_left
  intro t ht
  exact h t (List.mem_range.1 ht)

theorem mapIdx_vmap {α β : Type _} (n : Nat) (f : Nat → α) (g : Nat → α → β) :
    (vmap n f).mapIdx g = vmap n fun t => g t (f t) := by
  apply List.ext_getElem
  · simp
  · intro i h1 h2
    simp [vmap]

theorem zipWith_vmap {α β γ : Type _} (n : Nat) (f : Nat → α) (f' : Nat → β) (g : α → β → γ) :
    List.zipWith g (vmap n f) (vmap n f') = vmap n fun t => g (f t) (f' t) := by
  apply List.ext_getElem
  · simp
  · intro i h1 h2
    simp [vmap]

theorem scan_vmap {C X Y : Type _} (f : C → X → C × Y) (c : C) (n : Nat) (w : Nat → X) :
    (scan f c (vmap n w)).2 = vmap n fun t => (f (scanCarry f c (vmap n w) t) (w t)).2 := by
  apply List.ext_getElem
  · simp [scan_length]
  · intro i h1 h2
    rw [scan_getElem _ _ _ _ (by simpa using h2)]
    simp [vmap]

end Jax

namespace Bartz
open Jax Spec

section
variable {K F : Type} [KeyLike K] [Inhabited F] [Zero F] [One F] [Add F] [Sub F] [Mul F] [Div F]
  [Neg F] [NatCast F] [FltFun F]

/-- the move proposed for tree `t` -/
def moveOf (rng : Rng K F) (bart : State F) (key : K) (t : Nat) : Move F :=
  combine_moves
    (grow_move rng bart.var_bits bart.split_bits (bart.var_trees.getD t []) (bart.split_trees.getD t [])
      (bart.affluence_trees.map fun a => a.getD t []) bart.max_split bart.p_nonterminal
      bart.p_propose_grow
      (KeyLike.split (KeyLike.split key (1 + bart.leaf_trees.length) (1 + t)) 2 0))
    (prune_move rng (bart.split_trees.getD t []) (bart.affluence_trees.map fun a => a.getD t [])
      bart.p_nonterminal bart.p_propose_grow
      (KeyLike.split (KeyLike.split key (1 + bart.leaf_trees.length) (1 + t)) 2 1))
    ((rng (KeyLike.split key (1 + bart.leaf_trees.length) 0)).uniform2 0 t)
    ((rng (KeyLike.split key (1 + bart.leaf_trees.length) 0)).uniform2 1 t)

theorem sample_moves_eq (rng : Rng K F) (bart : State F) (key : K) :
    sample_moves rng bart key = vmap bart.leaf_trees.length (moveOf rng bart key) := rfl

/-- the work of tree `t` (`key` is the argument of `sample_trees`) -/
def workOf (rng : Rng K F) (bart : State F) (key : K) (t : Nat) : TreeWork F :=
  parallel_stage_tree rng bart (KeyLike.split key 2 0) t (moveOf rng bart (KeyLike.split key 2 1) t)

/-- the residuals before processing tree `t` -/
def residOf (rng : Rng K F) (bart : State F) (key : K) (t : Nat) : List F :=
  scanCarry (accept_move_and_sample_leaves bart.resid_batch_size bart.min_points_per_leaf
      (exp_factor bart.leaf_trees.length bart.sigma2)) bart.resid
      (vmap bart.leaf_trees.length (workOf rng bart key)) t

/-- the outcome for tree `t` -/
def accOf (rng : Rng K F) (bart : State F) (key : K) (t : Nat) : List F × Accepted F :=
  accept_move_and_sample_leaves bart.resid_batch_size bart.min_points_per_leaf
    (exp_factor bart.leaf_trees.length bart.sigma2) (residOf rng bart key t)
    (workOf rng bart key t)

theorem residOf_zero (rng : Rng K F) (bart : State F) (key : K) :
    residOf rng bart key 0 = bart.resid := scanCarry_zero _ _ _

theorem residOf_succ (rng : Rng K F) (bart : State F) (key : K) {t : Nat}
    (ht : t < bart.leaf_trees.length) :
    residOf rng bart key (t + 1) = (accOf rng bart key t).1 := by
  unfold residOf accOf
  rw [scanCarry_succ _ _ _ _ (by simpa using ht)]
  simp [vmap, residOf]

/-- A step on the trees, written tree by tree. -/
theorem sample_trees_eq (rng : Rng K F) (bart : State F) (key : K) :
    sample_trees rng bart key =
    let nt := bart.leaf_trees.length
    let mv := moveOf rng bart (KeyLike.split key 2 1)
    let w := workOf rng bart key
    let ac := fun t => (accOf rng bart key t).2
    { bart with
      var_trees := vmap nt fun t => (mv t).var_tree
      affluence_trees := match bart.min_points_per_leaf with
        | none => bart.affluence_trees
        | some m => some (vmap nt fun t =>
          ((w t).count_tree.take (bart.var_trees.getD 0 []).length).map fun c => decide (c ≥ 2 * m))
      grow_prop_count := countNonzero (vmap nt fun t => (mv t).grow)
      prune_prop_count := countNonzero (vmap nt fun t => (mv t).allowed && !(mv t).grow)
      resid := residOf rng bart key nt
      leaf_trees := vmap nt fun t => (ac t).leaf_tree
      ratios := bart.ratios.map fun _ =>
        (vmap nt fun t => (ac t).log_trans_prior, vmap nt fun t => (ac t).log_likelihood)
      grow_acc_count := countNonzero (vmap nt fun t => (ac t).acc && (mv t).grow)
      prune_acc_count := countNonzero (vmap nt fun t => (ac t).acc && !(mv t).grow)
      leaf_indices := vmap nt fun t => apply_moves_to_leaf_indices bart.idx_bits
        (w t).leaf_indices (mv t) (ac t).to_prune
      split_trees := vmap nt fun t => apply_moves_to_split_tree bart.split_bits
        (bart.split_trees.getD t []) (mv t) (ac t).to_prune } := by
  have hw : (sample_moves rng bart (KeyLike.split key 2 1)).mapIdx
      (fun t move => parallel_stage_tree rng bart (KeyLike.split key 2 0) t move) =
      vmap bart.leaf_trees.length (workOf rng bart key) := by
    rw [sample_moves_eq, mapIdx_vmap]; rfl
  unfold sample_trees accept_moves_and_sample_leaves
  dsimp only
  rw [hw, sample_moves_eq, scan_vmap, scan_fst]
  simp only [map_vmap, zipWith_vmap, mapIdx_vmap, length_vmap]
  rfl

/-- after a step -/
theorem step_eq (rng : Rng K F) (bart : State F) (key : K) :
    step rng bart key = sample_sigma rng (sample_trees rng bart (KeyLike.split key 2 1))
      (KeyLike.split key 2 0) := rfl

end
end Bartz
