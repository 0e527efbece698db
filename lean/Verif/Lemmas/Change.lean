import Verif.Lemmas.Points
/-! # How a tree changes in a step -/

set_option autoImplicit false

namespace Bartz
open Jax Spec

variable {F : Type} {c : Cfg} {var split idx : List Nat} {aff : Option (List Bool)} {mv : Move F}

/-- the indices, if a grow move at node `k` is accepted -/
def IdxGrown (n : Nat) (idx idx' : List Nat) (k : Nat) : Prop :=
  ∀ j, j < n → (at0 idx j ≠ k → at0 idx' j = at0 idx j) ∧
    (at0 idx j = k → at0 idx' j = 2 * k ∨ at0 idx' j = 2 * k + 1)

variable (hc : c.OK) (hi : TreeInv c var split idx aff) (hm : MoveOK c var split aff mv)
  {acc : Bool} (hacc : acc = true → mv.allowed = true)
include hc hi hm hacc

theorem change_rejected (h : acc = false) :
    SameTree var split mv.var_tree
      (apply_moves_to_split_tree c.split_bits split mv (acc ^^ mv.grow)) ∧
    apply_moves_to_leaf_indices c.idx_bits (apply_grow_to_indices c.idx_bits mv idx c.X) mv
      (acc ^^ mv.grow) = idx := by
  refine ⟨⟨?_, fun k hk => hm.agree hk⟩, idx_rejected hc hi hm hacc h⟩
  rw [split_final hc hm, if_neg (by simp [h])]

theorem change_grow (h : acc = true) (hg : mv.grow = true)
    (hnw : ¬ Wraps c.split_bits c.ms var split mv.node mv.grow_var) :
    Grown c.h var split mv.var_tree
      (apply_moves_to_split_tree c.split_bits split mv (acc ^^ mv.grow)) mv.node ∧
    IdxGrown c.n idx (apply_moves_to_leaf_indices c.idx_bits
      (apply_grow_to_indices c.idx_bits mv idx c.X) mv (acc ^^ mv.grow)) mv.node := by
  have hgl := hm.grow_leaf hg
  have hs := (hm.grow_split hg hnw).pos
  refine ⟨?_, ?_⟩
  · rw [split_final hc hm, if_pos h, if_pos hg]
    refine ⟨hgl.1, hgl.2.1, (isDecision_grow hi.valid hgl.1 hgl.2.1 hs).2 (Or.inr rfl),
      (isLeaf_grow hi.valid hgl.1 hgl.2.1 hs).2 (by simp),
      (isLeaf_grow hi.valid hgl.1 hgl.2.1 hs).2 (by simp), ?_, fun k hk => hm.agree hk⟩
    intro k hk
    rw [at0_grow hi.valid hgl.2.1, if_neg (fun e => hk e.symm)]
  · intro j hj
    rw [idx_final hc hi hm hacc hj, if_pos h, if_pos hg]
    constructor
    · intro hne; rw [if_neg hne]
    · intro e; rw [if_pos e]; split_ifs <;> simp

theorem change_prune (h : acc = true) (hg : mv.grow = false) :
    Grown c.h mv.var_tree (apply_moves_to_split_tree c.split_bits split mv (acc ^^ mv.grow))
      var split mv.node ∧
    IdxGrown c.n (apply_moves_to_leaf_indices c.idx_bits
      (apply_grow_to_indices c.idx_bits mv idx c.X) mv (acc ^^ mv.grow)) idx mv.node := by
  have hp := hm.prune_node hg (hacc h)
  refine ⟨?_, ?_⟩
  · rw [split_final hc hm, if_pos h, if_neg (by simp [hg])]
    refine ⟨(isLeaf_prune hi.valid hp).2 (Or.inr rfl), hp.1.lt hi.valid.length, hp.1, hp.2.1, hp.2.2,
      ?_, ?_⟩
    · intro k hk
      rw [at0_prune hi.valid hp, if_neg (fun e => hk e.symm)]
    · intro k hk
      exact (hm.agree ((isDecision_prune hi.valid hp).1 hk).1).symm
  · intro j hj
    rw [idx_final hc hi hm hacc hj, if_pos h, if_neg (by simp [hg])]
    have hne : at0 idx j ≠ mv.node := by
      intro e
      exact hp.1.2 (e ▸ (hi.falls j hj).1.2)
    constructor
    · intro h1
      split_ifs at h1 ⊢ with h2
      · exact absurd rfl h1
      · rfl
    · intro h1
      split_ifs at h1 with h2
      · exact h2
      · exact absurd h1 hne

omit hc hi hm hacc in
theorem countNonzero_vmap (n : Nat) (f : Nat → Bool) :
    countNonzero (vmap n f) = {t | t < n ∧ f t = true}.ncard := by
  rw [countNonzero_eq_card, length_vmap, ← Set.ncard_coe_finset]
  congr 1
  ext t
  simp only [Finset.coe_filter, Finset.mem_range, Set.mem_ofPred_eq]
  refine and_congr_right fun ht => ?_
  rw [getD_vmap ht]

end Bartz
