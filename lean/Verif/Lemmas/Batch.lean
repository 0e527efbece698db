import Verif.Lemmas.LeafData
/-! # The batch sizes are irrelevant in exact arithmetic -/

set_option autoImplicit false

namespace Bartz
open Jax Spec

/-- the same state with other batch sizes -/
def withBatch {F : Type} (r c : Option Nat) (s : State F) : State F :=
  { s with resid_batch_size := r, count_batch_size := c }

theorem count_batch (idx : List Nat) (size : Nat) (b b' : Option Nat) :
    count_datapoints_per_leaf idx size b = count_datapoints_per_leaf idx size b' := by
  apply List.ext_getElem
  · rw [length_count, length_count]
  · intro k h1 h2
    have hk : k < size := by rw [length_count] at h1; exact h1
    rw [← List.getD_eq_getElem _ 0 h1, ← List.getD_eq_getElem _ 0 h2, count_getD _ _ _ _ hk,
      count_getD _ _ _ _ hk]

section
variable {K F : Type} [KeyLike K] [Inhabited F] [CommRing F] [Div F] [FltFun F]

omit [FltFun F] [Inhabited F] [Div F] in
theorem sum_resid_batch (resid : List F) (idx : List Nat) (size : Nat) (b b' : Option Nat) :
    sum_resid resid idx size b = sum_resid resid idx size b' := by
  apply List.ext_getElem
  · rw [length_sum_resid, length_sum_resid]
  · intro k h1 h2
    have hk : k < size := by rw [length_sum_resid] at h1; exact h1
    rw [← List.getD_eq_getElem _ 0 h1, ← List.getD_eq_getElem _ 0 h2, sum_resid_getD _ _ _ _ _ hk,
      sum_resid_getD _ _ _ _ _ hk]

theorem workOf_batch (rng : Rng K F) (s : State F) (key : K) (t : Nat) (r c : Option Nat) :
    workOf rng (withBatch r c s) key t = workOf rng s key t := by
  unfold workOf parallel_stage_tree compute_count_tree
  dsimp only [withBatch]
  rw [count_batch _ _ c s.count_batch_size]
  rfl

theorem accept_batch (b b' m : Option Nat) (e : F) :
    accept_move_and_sample_leaves (F := F) b m e = accept_move_and_sample_leaves b' m e := by
  funext resid w
  unfold accept_move_and_sample_leaves
  dsimp only
  rw [sum_resid_batch _ _ _ b b']

theorem residOf_batch (rng : Rng K F) (s : State F) (key : K) (t : Nat) (r c : Option Nat) :
    residOf rng (withBatch r c s) key t = residOf rng s key t := by
  unfold residOf
  have : workOf rng (withBatch r c s) key = workOf rng s key := by
    funext t; exact workOf_batch rng s key t r c
  rw [this]
  dsimp only [withBatch]
  rw [accept_batch r s.resid_batch_size]

theorem accOf_batch (rng : Rng K F) (s : State F) (key : K) (t : Nat) (r c : Option Nat) :
    accOf rng (withBatch r c s) key t = accOf rng s key t := by
  unfold accOf
  rw [residOf_batch, workOf_batch]
  dsimp only [withBatch]
  rw [accept_batch r s.resid_batch_size]

theorem step_batch (rng : Rng K F) (s : State F) (key : K) (r c : Option Nat) :
    step rng (withBatch r c s) key = withBatch r c (step rng s key) := by
  rw [step_eq, step_eq, sample_trees_eq, sample_trees_eq]
  simp only [residOf_batch, accOf_batch, workOf_batch]
  rfl

end
end Bartz
