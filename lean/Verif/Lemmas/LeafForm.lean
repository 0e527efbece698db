import Verif.Lemmas.Resid
import Verif.Lemmas.Change
import Mathlib.Data.Finset.Card
/-! # Number of datapoints per leaf, and form of the new leaves, in any arithmetic -/

set_option autoImplicit false

namespace Bartz
open Jax Spec

/-- if the tree is (or remains) pruned, the children of the node are not leaves -/
theorem child_not_leaf {F : Type} {c : Cfg} {var split idx : List Nat} {aff : Option (List Bool)}
    {mv : Move F} (hc : c.OK) (hT : TreeInv c var split idx aff) (hm : MoveOK c var split aff mv)
    {acc : Bool} (hacc : acc = true → mv.allowed = true) (htp : (acc ^^ mv.grow) = true) {i : Nat}
    (hi : IsLeaf (apply_moves_to_split_tree c.split_bits split mv (acc ^^ mv.grow)) i) :
    i ≠ 2 * mv.node ∧ i ≠ 2 * mv.node + 1 := by
  rw [split_final hc hm] at hi
  have hpar : ∀ q, IsLeaf split q → 2 ≤ q → at0 split (q / 2) ≠ 0 :=
    fun q hq h2 => (hq.1.parent h2).2
  cases hgr : mv.grow with
  | true =>
    have hac' : acc = false := by rw [hgr] at htp; simpa using htp
    have hgl := hm.grow_leaf hgr
    have hpos := hgl.1.1.pos
    rw [hac'] at hi
    simp only [Bool.false_eq_true, if_false] at hi
    constructor
    · intro e
      have := hpar i hi (by omega)
      rw [e, show 2 * mv.node / 2 = mv.node by omega] at this
      exact this hgl.1.2
    · intro e
      have := hpar i hi (by omega)
      rw [e, show (2 * mv.node + 1) / 2 = mv.node by omega] at this
      exact this hgl.1.2
  | false =>
    have hac' : acc = true := by rw [hgr] at htp; simpa using htp
    have hpn := hm.prune_node hgr (hacc hac')
    rw [hac', hgr] at hi
    simp only [if_true, Bool.false_eq_true, if_false] at hi
    rw [isLeaf_prune hT.valid hpn] at hi
    have := hpn.1.1.pos
    rcases hi with h | h
    · exact ⟨h.2.1, h.2.2⟩
    · constructor <;> omega

section
variable {K F : Type} [KeyLike K] [Inhabited F] [Zero F] [One F] [Add F] [Sub F] [Mul F] [Div F] [Neg F] [NatCast F] [FltFun F]
  {a : InitArgs F} {s : State F}

/-- residual sums per leaf, before the sum at the node is set -/
def residTree (rng : Rng K F) (bart : State F) (key : K) (t : Nat) : List F :=
  let w := workOf rng bart key t
  List.zipWith (· + ·)
    (sum_resid (residOf rng bart key t) w.leaf_indices w.leaf_tree.length bart.resid_batch_size)
    (List.zipWith (fun (c : Nat) v => (c : F) * v) w.count_tree w.leaf_tree)

omit [Inhabited F] [One F] [Sub F] [Mul F] [Div F] [Neg F] [NatCast F] [FltFun F] in
theorem length_sum_resid (resid : List F) (idx : List Nat) (size : Nat) (b : Option Nat) :
    (sum_resid resid idx size b).length = size := by
  unfold sum_resid
  cases b with
  | none => exact length_aggregate_scatter resid idx size
  | some b => exact length_aggregate_batched resid idx size b

theorem length_residTree_of (hs : StateInv a s) (rng : Rng K F)
    (key : K) {t : Nat} (ht : t < a.num_trees)
    (hm : MoveOK (cfgOf a) (s.var_trees.getD t []) (s.split_trees.getD t [])
      (s.affluence_trees.map fun x => x.getD t []) (moveOf rng s (KeyLike.split key 2 1) t)) :
    (residTree rng s key t).length = 2 ^ (a.p_nonterminal.length + 1) := by
  unfold residTree
  dsimp only
  rw [List.length_zipWith, length_sum_resid, List.length_zipWith,
    length_work_count_of rng key hm, length_work_leaf hs rng key ht]
  simp

/-- the leaf indices modified as if the grow move were accepted -/
abbrev gidx (rng : Rng K F) (s : State F) (key : K) (t : Nat) : List Nat :=
  (workOf rng s key t).leaf_indices

theorem count_work_of (rng : Rng K F) (key : K) {t : Nat}
    (hm : MoveOK (cfgOf a) (s.var_trees.getD t []) (s.split_trees.getD t [])
      (s.affluence_trees.map fun x => x.getD t []) (moveOf rng s (KeyLike.split key 2 1) t)) {k : Nat}
    (hk : k < 2 ^ (a.p_nonterminal.length + 1)) :
    (workOf rng s key t).count_tree.getD k 0 =
      if k = (moveOf rng s (KeyLike.split key 2 1) t).node then (workOf rng s key t).counts.total
      else (gidx rng s key t).count k := by
  have e : (workOf rng s key t).count_tree = (compute_count_tree (workOf rng s key t).leaf_indices
      (moveOf rng s (KeyLike.split key 2 1) t) s.count_batch_size).1 := rfl
  have e2 : (workOf rng s key t).counts = (compute_count_tree (workOf rng s key t).leaf_indices
      (moveOf rng s (KeyLike.split key 2 1) t) s.count_batch_size).2 := rfl
  rw [e, e2]
  exact count_tree_getD _ (cfgOf a).h hm.len _ _ hk

theorem counts_work_of (rng : Rng K F) (key : K) {t : Nat}
    (hm : MoveOK (cfgOf a) (s.var_trees.getD t []) (s.split_trees.getD t [])
      (s.affluence_trees.map fun x => x.getD t []) (moveOf rng s (KeyLike.split key 2 1) t))
    (hn : (moveOf rng s (KeyLike.split key 2 1) t).node < 2 ^ a.p_nonterminal.length) :
    (workOf rng s key t).counts.left = (gidx rng s key t).count
      (2 * (moveOf rng s (KeyLike.split key 2 1) t).node) ∧
    (workOf rng s key t).counts.right = (gidx rng s key t).count
      (2 * (moveOf rng s (KeyLike.split key 2 1) t).node + 1) ∧
    (workOf rng s key t).counts.total = (gidx rng s key t).count
      (2 * (moveOf rng s (KeyLike.split key 2 1) t).node) + (gidx rng s key t).count
      (2 * (moveOf rng s (KeyLike.split key 2 1) t).node + 1) := by
  have e2 : (workOf rng s key t).counts = (compute_count_tree (workOf rng s key t).leaf_indices
      (moveOf rng s (KeyLike.split key 2 1) t) s.count_batch_size).2 := rfl
  rw [e2]
  exact counts_lr _ (cfgOf a).h hm.len hm.left hm.right _ hn

theorem length_gidx (ha : ValidArgs a) (hs : StateInv a s) (rng : Rng K F) (key : K) {t : Nat}
    (ht : t < a.num_trees) : (gidx rng s key t).length = a.y.length := by
  unfold gidx
  rw [workOf_idx hs]; exact length_grow_idx (cfgOf_ok ha) (hs.tree t ht).idx_len

theorem residTree_getD_of (hs : StateInv a s) (rng : Rng K F)
    (key : K) {t : Nat} (ht : t < a.num_trees)
    (hm : MoveOK (cfgOf a) (s.var_trees.getD t []) (s.split_trees.getD t [])
      (s.affluence_trees.map fun x => x.getD t []) (moveOf rng s (KeyLike.split key 2 1) t)) {k : Nat}
    (hk : k < 2 ^ (a.p_nonterminal.length + 1))
    (hne : k ≠ (moveOf rng s (KeyLike.split key 2 1) t).node) :
    (residTree rng s key t).getD k 0 =
      (sum_resid (residOf rng s key t) (gidx rng s key t) (2 ^ (a.p_nonterminal.length + 1))
        s.resid_batch_size).getD k 0 +
      ((gidx rng s key t).count k : F) * (workOf rng s key t).leaf_tree.getD k 0 := by
  have hcl := length_work_count_of rng key hm
  have hwl := length_work_leaf hs rng key ht
  have hl := length_residTree_of hs rng key ht hm
  have hcw := count_work_of rng key hm hk
  rw [if_neg hne] at hcw
  rw [← hcw, ← hwl]
  unfold residTree at hl ⊢
  dsimp only at hl ⊢
  rw [List.getD_eq_getElem _ _ (by omega), List.getElem_zipWith, List.getElem_zipWith,
    List.getD_eq_getElem _ _ (by rw [length_sum_resid]; omega), List.getD_eq_getElem _ _ (by omega),
    List.getD_eq_getElem _ _ (by omega)]

/-- which datapoints are in a leaf of the new tree, in terms of the indices modified as if the grow
move were accepted -/
theorem idxOf_eq_iff_of (ha : ValidArgs a) (hs : StateInv a s) (rng : Rng K F) 
    (key : K) {t : Nat} (ht : t < a.num_trees)
    (hm : MoveOK (cfgOf a) (s.var_trees.getD t []) (s.split_trees.getD t [])
      (s.affluence_trees.map fun x => x.getD t []) (moveOf rng s (KeyLike.split key 2 1) t)) {i : Nat}
    (hi : IsLeaf (apply_moves_to_split_tree (cfgOf a).split_bits (s.split_trees.getD t [])
      (moveOf rng s (KeyLike.split key 2 1) t) (accOf rng s key t).2.to_prune) i) {j : Nat}
    (hj : j < a.y.length) :
    at0 (idxOf rng s key t) j = i ↔
      if i = (moveOf rng s (KeyLike.split key 2 1) t).node then
        at0 (gidx rng s key t) j = 2 * i ∨ at0 (gidx rng s key t) j = 2 * i + 1
      else at0 (gidx rng s key t) j = i := by
  have hc := cfgOf_ok ha
  have hT := hs.tree t ht
  have hacc := accOf_allowed rng s key t
  have hp : 2 ^ ((cfgOf a).h + 1) = 2 * 2 ^ (cfgOf a).h := by rw [pow_succ]; omega
  have hlt : ∀ j, j < (cfgOf a).n → at0 (s.leaf_indices.getD t []) j < 2 ^ ((cfgOf a).h + 1) :=
    fun j hj => hT.idx_lt hj
  have hn := to_prune_node hT hm hacc
  rw [accOf_to_prune] at hi
  have hgi := grow_idx hc hm hT.idx_len hlt hj
  rw [← workOf_idx hs] at hgi
  change at0 (gidx rng s key t) j = _ at hgi
  have hfi : at0 (idxOf rng s key t) j =
      if (((accOf rng s key t).2.acc ^^ (moveOf rng s (KeyLike.split key 2 1) t).grow) = true ∧
        (at0 (gidx rng s key t) j = 2 * (moveOf rng s (KeyLike.split key 2 1) t).node ∨
          at0 (gidx rng s key t) j = 2 * (moveOf rng s (KeyLike.split key 2 1) t).node + 1)) then
      (moveOf rng s (KeyLike.split key 2 1) t).node else at0 (gidx rng s key t) j := by
    unfold idxOf gidx
    rw [hs.cfg.idx_bits, accOf_to_prune, workOf_idx hs]
    exact final_idx hc hm.left (length_grow_idx hc hT.idx_len) (fun h => by have := hn h; omega)
      (fun j hj => grow_idx_lt hc hm hT.idx_len hlt hj) hj
  have hnw := acc_not_wraps ha hs rng key ht hm
  -- notation
  generalize hmv : moveOf rng s (KeyLike.split key 2 1) t = mv at *
  generalize hac : (accOf rng s key t).2.acc = acc at *
  generalize hg : at0 (gidx rng s key t) j = g at *
  generalize hf : at0 (idxOf rng s key t) j = f at *
  rw [split_final hc hm] at hi
  have hleaf := (hT.falls j hj).1
  -- the datapoint is never at the node after the virtual growth
  have hgn : mv.node < 2 ^ (cfgOf a).h → mv.allowed = true → g ≠ mv.node := by
    intro hnl hal e
    rw [hgi] at e
    cases hgr : mv.grow with
    | true =>
      have := (hm.grow_leaf hgr).1.1.pos
      rw [hgr] at e
      split_ifs at e with h1 h2
      · omega
      · omega
      · exact h1 ⟨rfl, e⟩
    | false =>
      have hpn := hm.prune_node hgr hal
      rw [hgr] at e
      simp only [Bool.false_eq_true, false_and, if_false] at e
      exact hpn.1.2 (e ▸ hleaf.2)
  cases htp : (acc ^^ mv.grow) with
  | true =>
    have hnl := hn htp
    have hal : mv.allowed = true := by
      cases hgr : mv.grow with
      | true => exact hm.grow_allowed hgr
      | false => rw [hgr] at htp; simp at htp; exact hacc htp
    have hgn' := hgn hnl hal
    rw [htp] at hfi
    simp only [true_and] at hfi
    -- children of the node are not leaves of the new tree
    have hch := child_not_leaf hc hT hm hacc htp (by rw [split_final hc hm]; exact hi)
    by_cases hin : i = mv.node
    · rw [if_pos hin, hfi, hin]
      split_ifs with h1
      · simp [h1]
      · simp [h1, hgn']
    · rw [if_neg hin, hfi]
      split_ifs with h1
      · constructor
        · intro e; exact absurd e.symm hin
        · intro e; rcases h1 with h1 | h1
          · exact absurd (e.symm.trans h1) hch.1
          · exact absurd (e.symm.trans h1) hch.2
      · exact Iff.rfl
  | false =>
    rw [htp] at hfi
    simp only [Bool.false_eq_true, false_and, if_false] at hfi
    have hin : i ≠ mv.node := by
      intro e
      cases hgr : mv.grow with
      | true =>
        have hac' : acc = true := by rw [hgr] at htp; simpa using htp
        have hgl := hm.grow_leaf hgr
        rw [hac', hgr] at hi
        simp only [if_true] at hi
        have hd := (isDecision_grow hT.valid hgl.1 hgl.2.1 (hm.grow_split hgr (hnw hac' hgr)).pos (i := mv.node)).2
          (Or.inr rfl)
        rw [e] at hi
        exact hd.2 hi.2
      | false =>
        have hac' : acc = false := by rw [hgr] at htp; simpa using htp
        rw [hac'] at hi
        simp only [Bool.false_eq_true, if_false] at hi
        cases hal : mv.allowed with
        | true => exact (hm.prune_node hgr hal).1.2 (e ▸ hi.2)
        | false =>
          have h1 := (hm.none_node hgr hal).1
          have h2 := hi.1.lt hT.valid.length
          omega
    rw [if_neg hin, hfi]

/-- A new leaf value, in terms of the sums of residuals. -/
theorem leavesOf_getD_of (ha : ValidArgs a) (hs : StateInv a s) (rng : Rng K F) 
    (key : K) {t : Nat} (ht : t < a.num_trees)
    (hm : MoveOK (cfgOf a) (s.var_trees.getD t []) (s.split_trees.getD t [])
      (s.affluence_trees.map fun x => x.getD t []) (moveOf rng s (KeyLike.split key 2 1) t)) {i : Nat}
    (hi : IsLeaf (apply_moves_to_split_tree (cfgOf a).split_bits (s.split_trees.getD t [])
      (moveOf rng s (KeyLike.split key 2 1) t) (accOf rng s key t).2.to_prune) i) :
    let v : F := 1 / ((((Finset.range a.y.length).filter fun j =>
      at0 (idxOf rng s key t) j = i).card : F) / s.sigma2 + (a.num_trees : F))
    (accOf rng s key t).2.leaf_tree.getD i 0 =
      (if i = (moveOf rng s (KeyLike.split key 2 1) t).node then
        (residTree rng s key t).getD (2 * i) 0 + (residTree rng s key t).getD (2 * i + 1) 0
       else (residTree rng s key t).getD i 0) * (v / s.sigma2) +
      (rng (KeyLike.split key 2 0)).normal t i * FltFun.sqrt v := by
  intro v
  have hc := cfgOf_ok ha
  have hT := hs.tree t ht
  have hacc := accOf_allowed rng s key t
  have hp : 2 ^ (a.p_nonterminal.length + 1) = 2 * 2 ^ a.p_nonterminal.length := by
    rw [pow_succ]; omega
  have hwl := length_work_leaf hs rng key ht
  have hcl := length_work_count_of rng key hm
  have hal := length_accOf_leaf rng s key t _ hwl hcl
  have hrl := length_residTree_of hs rng key ht hm
  have hgl := length_gidx ha hs rng key ht
  have hlen : (leavesOf rng s key t).length = 2 ^ ((cfgOf a).h + 1) := by
    rw [accOf_leaf_tree, length_copyLeaves] at hal; exact hal
  have hil : i < 2 ^ (a.p_nonterminal.length + 1) := by
    have := (tree_step_of ha hs rng key ht hm).valid.length
    rw [hs.cfg.split_bits] at this
    exact hi.1.lt this
  -- no copy
  have e0 : (accOf rng s key t).2.leaf_tree.getD i 0 = (leavesOf rng s key t).getD i 0 := by
    rw [accOf_leaf_tree, accOf_to_prune, copyLeaves_getD hlen hm.left hm.right
      (to_prune_node hT hm hacc), if_neg]
    rintro ⟨htp, h⟩
    rw [accOf_to_prune] at hi
    have := child_not_leaf hc hT hm hacc htp hi
    tauto
  -- sufficient statistics
  have hnode : i = (moveOf rng s (KeyLike.split key 2 1) t).node →
      (moveOf rng s (KeyLike.split key 2 1) t).node < 2 ^ a.p_nonterminal.length ∧
      1 ≤ (moveOf rng s (KeyLike.split key 2 1) t).node := by
    intro e
    have hpos : 1 ≤ (moveOf rng s (KeyLike.split key 2 1) t).node := e ▸ hi.1.pos
    refine ⟨?_, hpos⟩
    cases hal' : (moveOf rng s (KeyLike.split key 2 1) t).allowed with
    | true => exact allowed_node_lt hT hm hal'
    | false =>
      exfalso
      have hg : (moveOf rng s (KeyLike.split key 2 1) t).grow = false := by
        cases hg : (moveOf rng s (KeyLike.split key 2 1) t).grow with
        | true => rw [hm.grow_allowed hg] at hal'; cases hal'
        | false => rfl
      have := (hm.none_node hg hal').1
      rw [← e] at this
      have h3 : 2 ^ (cfgOf a).h = 2 ^ a.p_nonterminal.length := rfl
      omega
  have hidx := fun j (hj : j < a.y.length) => idxOf_eq_iff_of ha hs rng key ht hm hi hj
  have ecount : (workOf rng s key t).count_tree.getD i 0 =
      ((Finset.range a.y.length).filter fun j => at0 (idxOf rng s key t) j = i).card := by
    rw [count_work_of rng key hm hil]
    split_ifs with e
    · obtain ⟨h1, h2⟩ := hnode e
      rw [(counts_work_of rng key hm h1).2.2, count_eq_card, count_eq_card, hgl, ← e,
        ← Finset.card_union_of_disjoint]
      · congr 1
        ext j
        simp only [Finset.mem_union, Finset.mem_filter, Finset.mem_range]
        constructor
        · rintro (h | h)
          · exact ⟨h.1, (hidx j h.1).2 (by rw [if_pos e]; exact Or.inl h.2)⟩
          · exact ⟨h.1, (hidx j h.1).2 (by rw [if_pos e]; exact Or.inr h.2)⟩
        · rintro ⟨h, h'⟩
          have := (hidx j h).1 h'
          rw [if_pos e] at this
          tauto
      · rw [Finset.disjoint_left]
        intro j h3 h4
        simp only [Finset.mem_filter] at h3 h4
        omega
    · rw [count_eq_card, hgl]
      congr 1
      ext j
      simp only [Finset.mem_filter, Finset.mem_range]
      refine and_congr_right fun hj => ?_
      have := hidx j hj
      rw [if_neg e] at this
      exact this.symm
  have eresid : (setDrop (residTree rng s key t) (moveOf rng s (KeyLike.split key 2 1) t).node
      (gather (residTree rng s key t) (moveOf rng s (KeyLike.split key 2 1) t).left +
        gather (residTree rng s key t) (moveOf rng s (KeyLike.split key 2 1) t).right)).getD i 0 =
      if i = (moveOf rng s (KeyLike.split key 2 1) t).node then
        (residTree rng s key t).getD (2 * i) 0 + (residTree rng s key t).getD (2 * i + 1) 0
      else (residTree rng s key t).getD i 0 := by
    rw [getD_setDrop, hrl]
    by_cases e : (moveOf rng s (KeyLike.split key 2 1) t).node = i
    · obtain ⟨h1, h2⟩ := hnode e.symm
      rw [if_pos ⟨e, hil⟩, hm.left, hm.right, gather_eq_getD (by omega) 0,
        gather_eq_getD (by omega) 0, if_pos e.symm, e]
    · rw [if_neg (by tauto), if_neg (fun h => e h.symm)]
  have hmf : (workOf rng s key t).prelf.mean_factor.length = 2 ^ (a.p_nonterminal.length + 1) := by
    rw [← hcl]; simp [workOf, parallel_stage_tree, precompute_leaf_terms]
  have hcf : (workOf rng s key t).prelf.centered_leaves.length =
      2 ^ (a.p_nonterminal.length + 1) := by
    rw [← hcl]; simp [workOf, parallel_stage_tree, precompute_leaf_terms]
  have hnt := hs.leaf_length
  have hv : 1 / ((((workOf rng s key t).count_tree[i]'(by omega) : Nat) : F) / s.sigma2 +
      (s.leaf_trees.length : F)) = v := by
    rw [← List.getD_eq_getElem _ 0 (by omega), ecount, hnt]
  have emf : (workOf rng s key t).prelf.mean_factor[i]'(by omega) = v / s.sigma2 := by
    rw [← hv]
    simp [workOf, parallel_stage_tree, precompute_leaf_terms]
  have ecf : (workOf rng s key t).prelf.centered_leaves[i]'(by omega) =
      (rng (KeyLike.split key 2 0)).normal t i * FltFun.sqrt v := by
    rw [← hv]
    simp [workOf, parallel_stage_tree, precompute_leaf_terms]
  rw [e0, ← emf, ← ecf, ← eresid]
  have hl' : (leavesOf rng s key t).length = 2 ^ (a.p_nonterminal.length + 1) := hlen
  rw [List.getD_eq_getElem _ _ (by omega), List.getD_eq_getElem _ _ (by simp; omega)]
  unfold leavesOf
  dsimp only
  rw [List.getElem_zipWith, List.getElem_zipWith]
  rfl

end
end Bartz
