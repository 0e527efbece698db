import Verif.Lemmas.Binary32
import Verif.Lemmas.StepForm
/-! # Dependence of a step on the functions not determined by IEEE 754

With a single tree, the logarithms determine only whether the move is accepted. -/

set_option autoImplicit false

namespace Bartz
open Jax Spec

section
variable {K F : Type} [KeyLike K] [Inhabited F] [Zero F] [One F] [Add F] [Sub F] [Mul F] [Div F]
  [Neg F] [NatCast F]

/-- the outcome of `accept_move_and_sample_leaves` given the decision -/
def acceptWith (resid_batch_size : Option Nat) (resid : List F) (w : TreeWork F) (acc : Bool) : List F × List F × Bool :=
  let leaf_tree := w.leaf_tree
  let resid_tree := sum_resid resid w.leaf_indices leaf_tree.length resid_batch_size
  let resid_tree := List.zipWith (· + ·) resid_tree
    (List.zipWith (fun (c : Nat) v => (c : F) * v) w.count_tree leaf_tree)
  let resid_total := gather resid_tree w.move.left + gather resid_tree w.move.right
  let resid_tree := setDrop resid_tree w.move.node resid_total
  let initial_leaf_tree := leaf_tree
  let mean_post := List.zipWith (· * ·) resid_tree w.prelf.mean_factor
  let leaf_tree := List.zipWith (· + ·) mean_post w.prelf.centered_leaves
  let to_prune : Bool := acc ^^ w.move.grow
  let value_at_node := gather leaf_tree w.move.node
  let leaf_tree :=
    setDrop (setDrop leaf_tree (if to_prune then w.move.left else leaf_tree.length) value_at_node)
      (if to_prune then w.move.right else leaf_tree.length) value_at_node
  let diff := List.zipWith (· - ·) initial_leaf_tree leaf_tree
  (List.zipWith (fun r i => r + gather diff i) resid w.leaf_indices, leaf_tree, to_prune)

omit [One F] in
theorem accept_eq_with [FltFun F] (b m : Option Nat) (ef : F) (resid : List F) (w : TreeWork F) :
    ((accept_move_and_sample_leaves b m ef resid w).1, (accept_move_and_sample_leaves b m ef resid w).2.leaf_tree,
      (accept_move_and_sample_leaves b m ef resid w).2.to_prune) =
    acceptWith b resid w (accept_move_and_sample_leaves b m ef resid w).2.acc := rfl

end

section
variable {K : Type} [KeyLike K]

theorem choose_leaf_platform (P Q : Binary32.Platform) (hc : P.cumsum = Q.cumsum) (split : List Nat)
    (aff : Option (List Bool)) (ppg : List Binary32) (d : Draws Binary32) :
    (letI := P; choose_leaf split aff ppg d) = (letI := Q; choose_leaf split aff ppg d) := by
  obtain ⟨l, l1, c⟩ := P
  obtain ⟨l', l1', c'⟩ := Q
  dsimp only at hc
  subst hc
  rfl

theorem grow_move_platform (P Q : Binary32.Platform) (hc : P.cumsum = Q.cumsum) (rng : Rng K Binary32) (vb sb : Nat)
    (var split : List Nat) (aff : Option (List Bool)) (ms : List Nat) (pn ppg : List Binary32) (key : K) :
    (letI := P; grow_move rng vb sb var split aff ms pn ppg key) =
      (letI := Q; grow_move rng vb sb var split aff ms pn ppg key) := by
  unfold grow_move
  dsimp only
  rw [choose_leaf_platform P Q hc]

/-- forget the variate used to accept or not -/
def Move.forget (m : Move Binary32) : Move Binary32 := { m with logu := 0 }

theorem moveOf_platform (P Q : Binary32.Platform) (hc : P.cumsum = Q.cumsum) (rng : Rng K Binary32)
    (s : State Binary32) (key : K) (t : Nat) :
    (letI := P; moveOf rng s key t).forget = (letI := Q; moveOf rng s key t).forget := by
  unfold moveOf
  rw [grow_move_platform P Q hc]
  rfl

/-- forget the parts that depend on the logarithms -/
def TreeWork.forget (w : TreeWork Binary32) : TreeWork Binary32 :=
  { w with move := w.move.forget, log_trans_prior_ratio := 0, prelkv := { w.prelkv with sqrt_term := 0 } }

omit [KeyLike K] in
theorem parallel_forget (P : Binary32.Platform) (rng : Rng K Binary32) (s : State Binary32) (key : K) (t : Nat)
    (m : Move Binary32) :
    (letI := P; parallel_stage_tree rng s key t m).forget = (letI := P; parallel_stage_tree rng s key t m.forget).forget :=
  rfl

theorem workOf_platform (P Q : Binary32.Platform) (hc : P.cumsum = Q.cumsum) (rng : Rng K Binary32)
    (s : State Binary32) (key : K) (t : Nat) :
    (letI := P; workOf rng s key t).forget = (letI := Q; workOf rng s key t).forget := by
  unfold workOf
  rw [parallel_forget P, parallel_forget Q]
  rw [moveOf_platform P Q hc]
  rfl

theorem acceptWith_forget (b : Option Nat) (resid : List Binary32) (w : TreeWork Binary32) (acc : Bool) :
    acceptWith b resid w acc = acceptWith b resid w.forget acc := rfl

/-- With a single tree and without saving the ratios, two platforms give the same result if they take the same
decision. -/
theorem step_platform (P Q : Binary32.Platform) (hc : P.cumsum = Q.cumsum) (rng : Rng K Binary32)
    (s : State Binary32) (key : K) (hr : s.ratios = none) (hn : s.leaf_trees.length = 1)
    (hacc : (letI := P; accOf rng s (KeyLike.split key 2 1) 0).2.acc =
      (letI := Q; accOf rng s (KeyLike.split key 2 1) 0).2.acc) :
    (letI := P; step rng s key) = (letI := Q; step rng s key) := by
  have hm := fun k t => moveOf_platform P Q hc rng s k t
  have hw := fun k t => workOf_platform P Q hc rng s k t
  have ha : ∀ (R : Binary32.Platform), (letI := R; ((accOf rng s (KeyLike.split key 2 1) 0).1,
      (accOf rng s (KeyLike.split key 2 1) 0).2.leaf_tree, (accOf rng s (KeyLike.split key 2 1) 0).2.to_prune)) =
      acceptWith s.resid_batch_size s.resid (letI := R; workOf rng s (KeyLike.split key 2 1) 0).forget
        (letI := R; accOf rng s (KeyLike.split key 2 1) 0).2.acc := by
    intro R
    rw [← acceptWith_forget]
    let _ := R
    unfold accOf
    rw [residOf_zero, accept_eq_with]
  have haPQ := (ha P).trans (((by rw [hw, hacc]) : _ = _).trans (ha Q).symm)
  have h1 := congrArg Prod.fst haPQ
  have h2 := congrArg (fun x => x.2.1) haPQ
  have h3 := congrArg (fun x => x.2.2) haPQ
  dsimp only at h1 h2 h3
  have one : ∀ {α : Type} (f : Nat → α), vmap 1 f = [f 0] := fun _ => rfl
  have hm0 := hm (KeyLike.split (KeyLike.split key 2 1) 2 1) 0
  have hw0 := hw (KeyLike.split key 2 1) 0
  have hvar := congrArg Move.var_tree hm0
  have hgrow := congrArg Move.grow hm0
  have hall := congrArg Move.allowed hm0
  have hidx := congrArg TreeWork.leaf_indices hw0
  have hcnt := congrArg TreeWork.count_tree hw0
  have hli : ∀ (m : Move Binary32) idx b, apply_moves_to_leaf_indices s.idx_bits idx m b =
    apply_moves_to_leaf_indices s.idx_bits idx m.forget b := fun _ _ _ => rfl
  have hst : ∀ (m : Move Binary32) sp b, apply_moves_to_split_tree s.split_bits sp m b =
    apply_moves_to_split_tree s.split_bits sp m.forget b := fun _ _ _ => rfl
  dsimp only [Move.forget, TreeWork.forget] at hvar hgrow hall hidx hcnt
  have hres : (letI := P; residOf rng s (KeyLike.split key 2 1) 1) = (letI := Q; residOf rng s (KeyLike.split key 2 1) 1) := by
    have hrs : ∀ R : Binary32.Platform, (letI := R; residOf rng s (KeyLike.split key 2 1) 1) =
        (letI := R; accOf rng s (KeyLike.split key 2 1) 0).1 := by
      intro R
      let _ := R
      exact residOf_succ (t := 0) rng s _ (by omega)
    rw [hrs P, hrs Q, h1]
  have e : ∀ R : Binary32.Platform, (letI := R; step rng s key) =
      sample_sigma rng (letI := R; sample_trees rng s (KeyLike.split key 2 1)) (KeyLike.split key 2 0) := fun _ => rfl
  rw [e P, e Q, @sample_trees_eq K Binary32 _ _ _ _ _ _ _ _ _ _ (@Binary32.instFltFunOfPlatform P),
    @sample_trees_eq K Binary32 _ _ _ _ _ _ _ _ _ _ (@Binary32.instFltFunOfPlatform Q)]
  dsimp only
  rw [hn, hr]
  simp only [one, Option.map_none]
  rw [hvar, hgrow, hall, hcnt, hres, h2, h3, hacc, hli, hst, hidx, hm0, ← hli, ← hst]

end
end Bartz
