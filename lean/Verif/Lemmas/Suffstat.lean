import Verif.Lemmas.LeafForm
import Mathlib.Algebra.BigOperators.Ring.Finset
/-! # Number of datapoints and sum of residuals per leaf, in exact arithmetic -/

set_option autoImplicit false

namespace Bartz
open Jax Spec

theorem sumAt_eq {α : Type} [AddCommMonoid α] (idx : List Nat) :
    ∀ (values : List α) (k : Nat), values.length = idx.length →
    sumAt idx values k = ∑ j ∈ Finset.range idx.length, if at0 idx j = k then values.getD j 0 else 0 := by
  induction idx with
  | nil => intro values k h; simp [sumAt]
  | cons i idx ih =>
    intro values k h
    cases values with
    | nil => simp at h
    | cons v vs =>
      rw [List.length_cons, Finset.sum_range_succ']
      have := ih vs k (by simpa using h)
      unfold sumAt at this ⊢
      rw [List.zipWith_cons_cons, List.sum_cons, this, add_comm]
      simp [at0]

section
variable {K F : Type} [KeyLike K] [Inhabited F] [CommRing F] [Div F] [FltFun F] [FloatLaws F]
  {a : InitArgs F} {s : State F}

omit [FltFun F] [FloatLaws F] [Div F] [Inhabited F] in
theorem sum_resid_getD (resid : List F) (idx : List Nat) (size : Nat) (b : Option Nat) (k : Nat)
    (hk : k < size) : (sum_resid resid idx size b).getD k 0 = sumAt idx resid k := by
  unfold sum_resid
  cases b with
  | none => exact aggregate_scatter_getD _ _ _ _ hk
  | some b => exact aggregate_batched_getD _ _ _ _ _ hk

theorem length_residTree (ha : ValidArgs a) (hs : StateInv a s) (rng : Rng K F)
    (hrng : LawfulRng rng) (key : K) {t : Nat} (ht : t < a.num_trees) :
    (residTree rng s key t).length = 2 ^ (a.p_nonterminal.length + 1) :=
  length_residTree_of hs rng key ht (moveOf_ok ha hs rng hrng (KeyLike.split key 2 1) ht)

/-- the residuals of tree `t`, i.e., without the old tree -/
def partResid (rng : Rng K F) (s : State F) (key : K) (t j : Nat) : F :=
  (residOf rng s key t).getD j 0 + (s.leaf_trees.getD t []).getD (at0 (s.leaf_indices.getD t []) j) 0

theorem count_work (ha : ValidArgs a) (hs : StateInv a s) (rng : Rng K F)
    (hrng : LawfulRng rng) (key : K) {t : Nat} (ht : t < a.num_trees) {k : Nat}
    (hk : k < 2 ^ (a.p_nonterminal.length + 1)) :
    (workOf rng s key t).count_tree.getD k 0 =
      if k = (moveOf rng s (KeyLike.split key 2 1) t).node then (workOf rng s key t).counts.total
      else (gidx rng s key t).count k :=
  count_work_of rng key (moveOf_ok ha hs rng hrng (KeyLike.split key 2 1) ht) hk

theorem counts_work (ha : ValidArgs a) (hs : StateInv a s) (rng : Rng K F)
    (hrng : LawfulRng rng) (key : K) {t : Nat} (ht : t < a.num_trees)
    (hn : (moveOf rng s (KeyLike.split key 2 1) t).node < 2 ^ a.p_nonterminal.length) :
    (workOf rng s key t).counts.left = (gidx rng s key t).count
      (2 * (moveOf rng s (KeyLike.split key 2 1) t).node) ∧
    (workOf rng s key t).counts.right = (gidx rng s key t).count
      (2 * (moveOf rng s (KeyLike.split key 2 1) t).node + 1) ∧
    (workOf rng s key t).counts.total = (gidx rng s key t).count
      (2 * (moveOf rng s (KeyLike.split key 2 1) t).node) + (gidx rng s key t).count
      (2 * (moveOf rng s (KeyLike.split key 2 1) t).node + 1) :=
  counts_work_of rng key (moveOf_ok ha hs rng hrng (KeyLike.split key 2 1) ht) hn

theorem residTree_getD (ha : ValidArgs a) (hs : StateInv a s) (rng : Rng K F)
    (hrng : LawfulRng rng) (key : K) {t : Nat} (ht : t < a.num_trees) {k : Nat}
    (hk : k < 2 ^ (a.p_nonterminal.length + 1))
    (hne : k ≠ (moveOf rng s (KeyLike.split key 2 1) t).node) :
    (residTree rng s key t).getD k 0 = ∑ j ∈ Finset.range a.y.length,
      if at0 (gidx rng s key t) j = k then partResid rng s key t j else 0 := by
  have hc := cfgOf_ok ha
  have hT := hs.tree t ht
  have hm := moveOf_ok ha hs rng hrng (KeyLike.split key 2 1) ht
  have hcl := length_work_count ha hs rng hrng key ht
  have hwl := length_work_leaf hs rng key ht
  have hgl := length_gidx ha hs rng key ht
  have hrl := length_resid hs ha rng key (t := t) (by omega)
  have e1 : (residTree rng s key t).getD k 0 =
      (sum_resid (residOf rng s key t) (gidx rng s key t) (workOf rng s key t).leaf_tree.length
        s.resid_batch_size).getD k 0 +
      ((workOf rng s key t).count_tree.getD k 0 : F) * (workOf rng s key t).leaf_tree.getD k 0 := by
    have hl := length_residTree ha hs rng hrng key ht
    unfold residTree at hl ⊢
    dsimp only at hl ⊢
    rw [List.getD_eq_getElem _ _ (by omega), List.getElem_zipWith, List.getElem_zipWith,
      List.getD_eq_getElem _ _ (by rw [length_sum_resid]; omega), List.getD_eq_getElem _ _ (by omega),
      List.getD_eq_getElem _ _ (by omega)]
  rw [e1, sum_resid_getD _ _ _ _ _ (by omega), count_work ha hs rng hrng key ht hk, if_neg hne,
    sumAt_eq _ _ _ (by omega), count_eq_card, hgl, Finset.card_filter]
  push_cast
  rw [Finset.sum_mul, ← Finset.sum_add_distrib]
  apply Finset.sum_congr rfl
  intro j hj
  rw [Finset.mem_range] at hj
  by_cases h : at0 (gidx rng s key t) j = k
  · rw [if_pos h, if_pos h, if_pos h, one_mul]
    unfold partResid
    congr 1
    rw [← h]
    unfold gidx
    rw [workOf_idx hs]
    exact adapt_getD hc hT hm (hs.leaf_size t ht) hj
  · simp [h]

/-- which datapoints are in a leaf of the new tree, in terms of the indices modified as if the grow
move were accepted -/
theorem idxOf_eq_iff (ha : ValidArgs a) (hs : StateInv a s) (rng : Rng K F) (hrng : LawfulRng rng)
    (key : K) {t : Nat} (ht : t < a.num_trees) {i : Nat}
    (hi : IsLeaf (apply_moves_to_split_tree (cfgOf a).split_bits (s.split_trees.getD t [])
      (moveOf rng s (KeyLike.split key 2 1) t) (accOf rng s key t).2.to_prune) i) {j : Nat}
    (hj : j < a.y.length) :
    at0 (idxOf rng s key t) j = i ↔
      if i = (moveOf rng s (KeyLike.split key 2 1) t).node then
        at0 (gidx rng s key t) j = 2 * i ∨ at0 (gidx rng s key t) j = 2 * i + 1
      else at0 (gidx rng s key t) j = i :=
  idxOf_eq_iff_of ha hs rng key ht (moveOf_ok ha hs rng hrng (KeyLike.split key 2 1) ht) hi hj

/-- A new leaf value, before taking care of the copies. -/
theorem leavesOf_getD (ha : ValidArgs a) (hs : StateInv a s) (rng : Rng K F) (hrng : LawfulRng rng)
    (key : K) {t : Nat} (ht : t < a.num_trees) {i : Nat}
    (hi : IsLeaf (apply_moves_to_split_tree (cfgOf a).split_bits (s.split_trees.getD t [])
      (moveOf rng s (KeyLike.split key 2 1) t) (accOf rng s key t).2.to_prune) i) :
    let v : F := 1 / ((((Finset.range a.y.length).filter fun j =>
      at0 (idxOf rng s key t) j = i).card : F) / s.sigma2 + (a.num_trees : F))
    (accOf rng s key t).2.leaf_tree.getD i 0 =
      (∑ j ∈ (Finset.range a.y.length).filter fun j => at0 (idxOf rng s key t) j = i,
        partResid rng s key t j) * (v / s.sigma2) +
      (rng (KeyLike.split key 2 0)).normal t i * FltFun.sqrt v := by
  intro v
  have hc := cfgOf_ok ha
  have hT := hs.tree t ht
  have hm := moveOf_ok ha hs rng hrng (KeyLike.split key 2 1) ht
  have hacc := accOf_allowed rng s key t
  have hp : 2 ^ (a.p_nonterminal.length + 1) = 2 * 2 ^ a.p_nonterminal.length := by
    rw [pow_succ]; omega
  have hwl := length_work_leaf hs rng key ht
  have hcl := length_work_count ha hs rng hrng key ht
  have hal := length_accOf_leaf rng s key t _ hwl hcl
  have hrl := length_residTree ha hs rng hrng key ht
  have hgl := length_gidx ha hs rng key ht
  have hlen : (leavesOf rng s key t).length = 2 ^ ((cfgOf a).h + 1) := by
    rw [accOf_leaf_tree, length_copyLeaves] at hal; exact hal
  have hil : i < 2 ^ (a.p_nonterminal.length + 1) := by
    have := (tree_step ha hs rng hrng key ht).valid.length
    rw [hs.cfg.split_bits] at this
    exact hi.1.lt this
  -- no copy
  have e0 : (accOf rng s key t).2.leaf_tree.getD i 0 = (leavesOf rng s key t).getD i 0 := by
    rw [accOf_leaf_tree, accOf_to_prune, copyLeaves_getD hlen hm.left hm.right
      (to_prune_node hT hm hacc), if_neg]
    rintro ⟨htp, h⟩
    rw [accOf_to_prune] at hi
    have := child_not_leaf hc hT hm hacc htp hi
    tauto
  -- sufficient statistics
  have hnode : i = (moveOf rng s (KeyLike.split key 2 1) t).node →
      (moveOf rng s (KeyLike.split key 2 1) t).node < 2 ^ a.p_nonterminal.length ∧
      1 ≤ (moveOf rng s (KeyLike.split key 2 1) t).node := by
    intro e
    have hpos : 1 ≤ (moveOf rng s (KeyLike.split key 2 1) t).node := e ▸ hi.1.pos
    refine ⟨?_, hpos⟩
    cases hal' : (moveOf rng s (KeyLike.split key 2 1) t).allowed with
    | true => exact allowed_node_lt hT hm hal'
    | false =>
      exfalso
      have hg : (moveOf rng s (KeyLike.split key 2 1) t).grow = false := by
        cases hg : (moveOf rng s (KeyLike.split key 2 1) t).grow with
        | true => rw [hm.grow_allowed hg] at hal'; cases hal'
        | false => rfl
      have := (hm.none_node hg hal').1
      rw [← e] at this
      have h3 : 2 ^ (cfgOf a).h = 2 ^ a.p_nonterminal.length := rfl
      omega
  have hidx := fun j (hj : j < a.y.length) => idxOf_eq_iff ha hs rng hrng key ht hi hj
  have ecount : (workOf rng s key t).count_tree.getD i 0 =
      ((Finset.range a.y.length).filter fun j => at0 (idxOf rng s key t) j = i).card := by
    rw [count_work ha hs rng hrng key ht hil]
    split_ifs with e
    · obtain ⟨h1, h2⟩ := hnode e
      rw [(counts_work ha hs rng hrng key ht h1).2.2, count_eq_card, count_eq_card, hgl, ← e,
        ← Finset.card_union_of_disjoint]
      · congr 1
        ext j
        simp only [Finset.mem_union, Finset.mem_filter, Finset.mem_range]
        constructor
        · rintro (h | h)
          · exact ⟨h.1, (hidx j h.1).2 (by rw [if_pos e]; exact Or.inl h.2)⟩
          · exact ⟨h.1, (hidx j h.1).2 (by rw [if_pos e]; exact Or.inr h.2)⟩
        · rintro ⟨h, h'⟩
          have := (hidx j h).1 h'
          rw [if_pos e] at this
          tauto
      · rw [Finset.disjoint_left]
        intro j h3 h4
        simp only [Finset.mem_filter] at h3 h4
        omega
    · rw [count_eq_card, hgl]
      congr 1
      ext j
      simp only [Finset.mem_filter, Finset.mem_range]
      refine and_congr_right fun hj => ?_
      have := hidx j hj
      rw [if_neg e] at this
      exact this.symm
  have eresid : (setDrop (residTree rng s key t) (moveOf rng s (KeyLike.split key 2 1) t).node
      (gather (residTree rng s key t) (moveOf rng s (KeyLike.split key 2 1) t).left +
        gather (residTree rng s key t) (moveOf rng s (KeyLike.split key 2 1) t).right)).getD i 0 =
      ∑ j ∈ (Finset.range a.y.length).filter fun j => at0 (idxOf rng s key t) j = i,
        partResid rng s key t j := by
    rw [getD_setDrop, hrl, Finset.sum_filter]
    by_cases e : (moveOf rng s (KeyLike.split key 2 1) t).node = i
    · obtain ⟨h1, h2⟩ := hnode e.symm
      rw [if_pos ⟨e, hil⟩, hm.left, hm.right, gather_eq_getD (by omega) 0,
        gather_eq_getD (by omega) 0, residTree_getD ha hs rng hrng key ht (by omega) (by omega),
        residTree_getD ha hs rng hrng key ht (by omega) (by omega), ← Finset.sum_add_distrib]
      apply Finset.sum_congr rfl
      intro j hj
      rw [Finset.mem_range] at hj
      have := hidx j hj
      rw [if_pos e.symm] at this
      rw [e]
      by_cases h3 : at0 (gidx rng s key t) j = 2 * i
      · rw [if_pos h3, if_neg (by omega), if_pos (this.2 (Or.inl h3)), add_zero]
      · by_cases h4 : at0 (gidx rng s key t) j = 2 * i + 1
        · rw [if_neg h3, if_pos h4, if_pos (this.2 (Or.inr h4)), zero_add]
        · rw [if_neg h3, if_neg h4, if_neg (by rw [this]; tauto), zero_add]
    · rw [if_neg (by tauto), residTree_getD ha hs rng hrng key ht hil (fun h => e h.symm)]
      apply Finset.sum_congr rfl
      intro j hj
      rw [Finset.mem_range] at hj
      have := hidx j hj
      rw [if_neg (fun h => e h.symm)] at this
      simp only [this]
  have hmf : (workOf rng s key t).prelf.mean_factor.length = 2 ^ (a.p_nonterminal.length + 1) := by
    rw [← hcl]; simp [workOf, parallel_stage_tree, precompute_leaf_terms]
  have hcf : (workOf rng s key t).prelf.centered_leaves.length =
      2 ^ (a.p_nonterminal.length + 1) := by
    rw [← hcl]; simp [workOf, parallel_stage_tree, precompute_leaf_terms]
  have hnt := hs.leaf_length
  have hv : 1 / ((((workOf rng s key t).count_tree[i]'(by omega) : Nat) : F) / s.sigma2 +
      (s.leaf_trees.length : F)) = v := by
    rw [← List.getD_eq_getElem _ 0 (by omega), ecount, hnt]
  have emf : (workOf rng s key t).prelf.mean_factor[i]'(by omega) = v / s.sigma2 := by
    rw [← hv]
    simp [workOf, parallel_stage_tree, precompute_leaf_terms]
  have ecf : (workOf rng s key t).prelf.centered_leaves[i]'(by omega) =
      (rng (KeyLike.split key 2 0)).normal t i * FltFun.sqrt v := by
    rw [← hv]
    simp [workOf, parallel_stage_tree, precompute_leaf_terms]
  rw [e0, ← emf, ← ecf, ← eresid]
  have hl' : (leavesOf rng s key t).length = 2 ^ (a.p_nonterminal.length + 1) := hlen
  rw [List.getD_eq_getElem _ _ (by omega), List.getD_eq_getElem _ _ (by simp; omega)]
  unfold leavesOf
  dsimp only
  rw [List.getElem_zipWith, List.getElem_zipWith]
  rfl

end
end Bartz
