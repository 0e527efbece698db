import Verif.Lemmas.Points
import Mathlib.Algebra.Ring.Defs
import Mathlib.Algebra.BigOperators.Group.Finset.Basic
/-! # The residuals in a step -/

set_option autoImplicit false

namespace Bartz
open Jax Spec

section one
variable {F : Type} [Inhabited F] [Zero F] {c : Cfg} {var split idx : List Nat}
  {aff : Option (List Bool)} {mv : Move F}

/-- the indices of a grown tree point to the same values in the adapted leaves -/
theorem adapt_getD (hc : c.OK) (hi : TreeInv c var split idx aff) (hm : MoveOK c var split aff mv)
    {L : List F} (hL : L.length = 2 ^ (c.h + 1)) {j : Nat} (hj : j < c.n) :
    (adapt_leaf_tree_to_grow_indices L mv).getD
      (at0 (apply_grow_to_indices c.idx_bits mv idx c.X) j) 0 = L.getD (at0 idx j) 0 := by
  have hp : 2 ^ (c.h + 1) = 2 * 2 ^ c.h := by rw [pow_succ]; omega
  rw [grow_idx hc hm hi.idx_len (fun j hj => hi.idx_lt hj) hj]
  have hlt := hi.idx_lt hj
  unfold adapt_leaf_tree_to_grow_indices
  dsimp only
  cases hg : mv.grow with
  | false =>
    simp only [Bool.false_eq_true, false_and, if_false]
    rw [setDrop_of_le (by simp), setDrop_of_le (by simp)]
  | true =>
    have hgl := hm.grow_leaf hg
    have hleaf := (hi.falls j hj).1
    simp only [true_and, if_true, hm.left, hm.right]
    rw [getD_setDrop, getD_setDrop, length_setDrop, hL]
    by_cases he : at0 idx j = mv.node
    · rw [if_pos he, gather_eq_getD (by rw [hL]; have := hgl.2.1; omega) 0, he]
      have := hgl.2.1
      split_ifs <;> first | rfl | omega
    · rw [if_neg he]
      have h1 : ¬ (2 * mv.node = at0 idx j) := by
        intro h2
        have := hleaf.1.parent (by have := hgl.1.1.pos; omega)
        rw [← h2] at this
        exact this.2 (by rw [show 2 * mv.node / 2 = mv.node by omega]; exact hgl.1.2)
      have h2 : ¬ (2 * mv.node + 1 = at0 idx j) := by
        intro h2
        have := hleaf.1.parent (by have := hgl.1.1.pos; omega)
        rw [← h2] at this
        exact this.2 (by rw [show (2 * mv.node + 1) / 2 = mv.node by omega]; exact hgl.1.2)
      rw [if_neg (by tauto), if_neg (by tauto)]

/-- the new leaves, with the value at the node copied to the children if the tree is (or remains)
pruned -/
def copyLeaves (M : List F) (mv : Move F) (tp : Bool) : List F :=
  setDrop (setDrop M (if tp then mv.left else M.length) (gather M mv.node))
    (if tp then mv.right else M.length) (gather M mv.node)

omit [Zero F] in
@[simp] theorem length_copyLeaves (M : List F) (mv : Move F) (tp : Bool) :
    (copyLeaves M mv tp).length = M.length := by simp [copyLeaves]

theorem copyLeaves_getD {M : List F} (hM : M.length = 2 ^ (c.h + 1)) (hleft : mv.left = 2 * mv.node)
    (hright : mv.right = 2 * mv.node + 1) {tp : Bool} (hnode : tp = true → mv.node < 2 ^ c.h)
    (i : Nat) :
    (copyLeaves M mv tp).getD i 0 =
      if tp = true ∧ (i = 2 * mv.node ∨ i = 2 * mv.node + 1) then M.getD mv.node 0
      else M.getD i 0 := by
  have hp : 2 ^ (c.h + 1) = 2 * 2 ^ c.h := by rw [pow_succ]; omega
  unfold copyLeaves
  cases tp with
  | false =>
    simp only [Bool.false_eq_true, false_and, if_false]
    rw [setDrop_of_le (by simp), setDrop_of_le (by simp)]
  | true =>
    have hn := hnode rfl
    simp only [true_and, if_true]
    rw [getD_setDrop, getD_setDrop, length_setDrop, hM, hleft, hright,
      gather_eq_getD (by rw [hM]; omega) 0]
    split_ifs <;> first | rfl | omega

omit [Inhabited F] [Zero F] in
theorem allowed_node_lt (hi : TreeInv c var split idx aff) (hm : MoveOK c var split aff mv)
    (hal : mv.allowed = true) : mv.node < 2 ^ c.h := by
  cases hg : mv.grow with
  | true => exact (hm.grow_leaf hg).2.1
  | false => exact (hm.prune_node hg hal).1.lt hi.valid.length

omit [Inhabited F] [Zero F] in
theorem to_prune_node (hi : TreeInv c var split idx aff) (hm : MoveOK c var split aff mv)
    {acc : Bool} (hacc : acc = true → mv.allowed = true) (h : (acc ^^ mv.grow) = true) :
    mv.node < 2 ^ c.h := by
  apply allowed_node_lt hi hm
  cases hg : mv.grow with
  | true => exact hm.grow_allowed hg
  | false => rw [hg] at h; simp at h; exact hacc h

theorem newleaf_getD (hc : c.OK) (hi : TreeInv c var split idx aff)
    (hm : MoveOK c var split aff mv) {acc : Bool} (hacc : acc = true → mv.allowed = true)
    {M : List F} (hM : M.length = 2 ^ (c.h + 1)) {j : Nat} (hj : j < c.n) :
    (copyLeaves M mv (acc ^^ mv.grow)).getD
      (at0 (apply_grow_to_indices c.idx_bits mv idx c.X) j) 0 =
    (copyLeaves M mv (acc ^^ mv.grow)).getD
      (at0 (apply_moves_to_leaf_indices c.idx_bits (apply_grow_to_indices c.idx_bits mv idx c.X) mv
        (acc ^^ mv.grow)) j) 0 := by
  have hp : 2 ^ (c.h + 1) = 2 * 2 ^ c.h := by rw [pow_succ]; omega
  have hn := to_prune_node hi hm hacc
  have hlt : ∀ j, j < c.n → at0 idx j < 2 ^ (c.h + 1) := fun j hj => hi.idx_lt hj
  rw [final_idx hc hm.left (length_grow_idx hc hi.idx_len) (fun h => by have := hn h; omega)
    (fun j hj => grow_idx_lt hc hm hi.idx_len hlt hj) hj]
  set k := at0 (apply_grow_to_indices c.idx_bits mv idx c.X) j
  split_ifs with h
  · rw [copyLeaves_getD hM hm.left hm.right hn, if_pos h, copyLeaves_getD hM hm.left hm.right hn,
      if_neg]
    rintro ⟨_, h2⟩
    have hpos : 1 ≤ mv.node := by
      cases hg : mv.grow with
      | true => exact (hm.grow_leaf hg).1.1.pos
      | false =>
        have h1 := h.1
        rw [hg] at h1
        simp at h1
        exact (hm.prune_node hg (hacc h1)).1.1.pos
    omega
  · rfl

end one

section
variable {K F : Type} [KeyLike K] [Inhabited F] [Zero F] [One F] [Add F] [Sub F] [Mul F] [Div F] [Neg F] [NatCast F] [FltFun F]
  [FloatLaws F] {a : InitArgs F} {s : State F}

/-- the new leaves before copying the value at the node -/
def leavesOf (rng : Rng K F) (bart : State F) (key : K) (t : Nat) : List F :=
  let w := workOf rng bart key t
  let resid_tree := List.zipWith (· + ·)
    (sum_resid (residOf rng bart key t) w.leaf_indices w.leaf_tree.length bart.resid_batch_size)
    (List.zipWith (fun (c : Nat) v => (c : F) * v) w.count_tree w.leaf_tree)
  let resid_tree := setDrop resid_tree w.move.node
    (gather resid_tree w.move.left + gather resid_tree w.move.right)
  List.zipWith (· + ·) (List.zipWith (· * ·) resid_tree w.prelf.mean_factor)
    w.prelf.centered_leaves

omit [FloatLaws F] in
theorem accOf_leaf_tree (rng : Rng K F) (s : State F) (key : K) (t : Nat) :
    (accOf rng s key t).2.leaf_tree =
      copyLeaves (leavesOf rng s key t) (moveOf rng s (KeyLike.split key 2 1) t)
        (accOf rng s key t).2.to_prune := rfl

omit [FloatLaws F] in
theorem accOf_resid (rng : Rng K F) (s : State F) (key : K) (t : Nat) :
    (accOf rng s key t).1 = List.zipWith (fun r i => r +
      gather (List.zipWith (· - ·) (workOf rng s key t).leaf_tree (accOf rng s key t).2.leaf_tree) i)
      (residOf rng s key t) (workOf rng s key t).leaf_indices := rfl

omit [Inhabited F] [One F] [Add F] [Mul F] [Div F] [Neg F] [NatCast F] [FltFun F] [FloatLaws F] in
theorem getD_zipWith_sub {A B : List F} (h : A.length = B.length) {i : Nat} (hi : i < A.length) :
    (List.zipWith (· - ·) A B).getD i 0 = A.getD i 0 - B.getD i 0 := by
  rw [List.getD_eq_getElem _ _ (by simp; omega), List.getD_eq_getElem _ _ hi, List.getD_eq_getElem _ _ (by omega)]
  simp

/-- the leaf indices of tree `t` after the step -/
def idxOf (rng : Rng K F) (s : State F) (key : K) (t : Nat) : List Nat :=
  apply_moves_to_leaf_indices s.idx_bits (workOf rng s key t).leaf_indices
    (moveOf rng s (KeyLike.split key 2 1) t) (accOf rng s key t).2.to_prune

omit [FloatLaws F] in
theorem resid_succ_of (ha : ValidArgs a) (hs : StateInv a s) (rng : Rng K F)
    (key : K) {t : Nat} (ht : t < a.num_trees)
    (hmv : MoveOK (cfgOf a) (s.var_trees.getD t []) (s.split_trees.getD t [])
      (s.affluence_trees.map fun x => x.getD t []) (moveOf rng s (KeyLike.split key 2 1) t))
    {j : Nat} (hj : j < a.y.length) :
    (residOf rng s key (t + 1)).getD j 0 = (residOf rng s key t).getD j 0 +
      ((s.leaf_trees.getD t []).getD (at0 (s.leaf_indices.getD t []) j) 0 -
        ((accOf rng s key t).2.leaf_tree).getD (at0 (idxOf rng s key t) j) 0) := by
  have hc := cfgOf_ok ha
  have hT := hs.tree t ht
  have hacc := accOf_allowed rng s key t
  have hwl := length_work_leaf hs rng key ht
  have hal := length_accOf_leaf rng s key t _ hwl (length_work_count_of rng key hmv)
  have hlen : (leavesOf rng s key t).length = 2 ^ ((cfgOf a).h + 1) := by
    rw [accOf_leaf_tree, length_copyLeaves] at hal; exact hal
  have hil : (workOf rng s key t).leaf_indices.length = a.y.length := by
    rw [workOf_idx hs]; exact length_grow_idx hc hT.idx_len
  have hrl := length_resid hs ha rng key (t := t) (by omega)
  rw [residOf_succ _ _ _ (by rw [hs.leaf_length]; exact ht), accOf_resid]
  rw [List.getD_eq_getElem _ _ (by simp [hil, hrl, hj]), List.getElem_zipWith,
    List.getD_eq_getElem (residOf rng s key t) _ (by omega)]
  congr 1
  have hk : (workOf rng s key t).leaf_indices[j]'(by omega) =
      at0 (apply_grow_to_indices (cfgOf a).idx_bits (moveOf rng s (KeyLike.split key 2 1) t)
        (s.leaf_indices.getD t []) (cfgOf a).X) j := by
    rw [← workOf_idx hs]
    unfold at0
    rw [List.getD_eq_getElem _ _ (by omega)]
  have hlt := grow_idx_lt hc hmv hT.idx_len (fun j hj => hT.idx_lt hj) (j := j) hj
  rw [hk, gather_eq_getD (by rw [List.length_zipWith, hwl, hal, Nat.min_self]; exact hlt) 0,
    getD_zipWith_sub (by rw [hwl, hal]) (by rw [hwl]; exact hlt)]
  congr 1
  · exact adapt_getD hc hT hmv (hs.leaf_size t ht) hj
  · unfold idxOf
    rw [accOf_leaf_tree, accOf_to_prune, hs.cfg.idx_bits, workOf_idx hs]
    exact newleaf_getD hc hT hmv hacc hlen hj

theorem resid_succ (ha : ValidArgs a) (hs : StateInv a s) (rng : Rng K F) (hrng : LawfulRng rng)
    (key : K) {t : Nat} (ht : t < a.num_trees) {j : Nat} (hj : j < a.y.length) :
    (residOf rng s key (t + 1)).getD j 0 = (residOf rng s key t).getD j 0 +
      ((s.leaf_trees.getD t []).getD (at0 (s.leaf_indices.getD t []) j) 0 -
        ((accOf rng s key t).2.leaf_tree).getD (at0 (idxOf rng s key t) j) 0) :=
  resid_succ_of ha hs rng key ht (moveOf_ok ha hs rng hrng (KeyLike.split key 2 1) ht) hj

end

section
variable {K F : Type} [KeyLike K] [Inhabited F] [CommRing F] [Div F] [FltFun F] [FloatLaws F]
  {a : InitArgs F} {s : State F}

/-- The residuals equal data minus sum of trees. -/
def ResidInv (a : InitArgs F) (s : State F) : Prop :=
  ∀ j, j < a.y.length → s.resid.getD j 0 = a.y.getD j 0 -
    ∑ t ∈ Finset.range a.num_trees,
      (s.leaf_trees.getD t []).getD (at0 (s.leaf_indices.getD t []) j) 0

theorem residOf_sum (ha : ValidArgs a) (hs : StateInv a s) (rng : Rng K F) (hrng : LawfulRng rng)
    (key : K) {j : Nat} (hj : j < a.y.length) (t : Nat) (ht : t ≤ a.num_trees) :
    (residOf rng s key t).getD j 0 = s.resid.getD j 0 + ∑ u ∈ Finset.range t,
      ((s.leaf_trees.getD u []).getD (at0 (s.leaf_indices.getD u []) j) 0 -
        ((accOf rng s key u).2.leaf_tree).getD (at0 (idxOf rng s key u) j) 0) := by
  induction t with
  | zero => rw [residOf_zero]; simp
  | succ t ih =>
    rw [resid_succ ha hs rng hrng key (by omega) hj, ih (by omega), Finset.sum_range_succ, add_assoc]

theorem residInv_step (ha : ValidArgs a) (hs : StateInv a s) (hr : ResidInv a s) (rng : Rng K F)
    (hrng : LawfulRng rng) (key : K) : ResidInv a (step rng s key) := by
  intro j hj
  have := residOf_sum ha hs rng hrng (KeyLike.split key 2 1) hj a.num_trees (le_refl _)
  rw [step_eq, sample_trees_eq]
  simp only [sample_sigma, hs.leaf_length]
  rw [this, hr j hj, Finset.sum_sub_distrib]
  have e : ∑ t ∈ Finset.range a.num_trees,
      ((vmap a.num_trees fun t => (accOf rng s (KeyLike.split key 2 1) t).2.leaf_tree).getD t []).getD
        (at0 ((vmap a.num_trees fun t => apply_moves_to_leaf_indices s.idx_bits
          (workOf rng s (KeyLike.split key 2 1) t).leaf_indices
          (moveOf rng s (KeyLike.split (KeyLike.split key 2 1) 2 1) t)
          (accOf rng s (KeyLike.split key 2 1) t).2.to_prune).getD t []) j) 0 =
      ∑ t ∈ Finset.range a.num_trees, ((accOf rng s (KeyLike.split key 2 1) t).2.leaf_tree).getD
        (at0 (idxOf rng s (KeyLike.split key 2 1) t) j) 0 := by
    apply Finset.sum_congr rfl
    intro t ht
    rw [Finset.mem_range] at ht
    rw [getD_vmap ht, getD_vmap ht]
    rfl
  rw [e]
  abel

omit [KeyLike K] [FloatLaws F] in
theorem residInv_init : ResidInv a (init a) := by
  intro j hj
  have : ∀ t ∈ Finset.range a.num_trees, ((init a).leaf_trees.getD t []).getD
      (at0 ((init a).leaf_indices.getD t []) j) 0 = 0 := by
    intro t ht
    rw [Finset.mem_range] at ht
    simp only [init, make_forest]
    rw [getD_vmap ht, getD_vmap ht]
    simp only [make_tree, List.getD_eq_getElem?_getD, List.getElem?_replicate]
    split_ifs <;> rfl
  rw [Finset.sum_eq_zero this, sub_zero]
  rfl

theorem reachable_resid (ha : ValidArgs a) (hs : Reachable K a s) : ResidInv a s := by
  induction hs with
  | init => exact residInv_init
  | step rng key hs' hrng ih => exact residInv_step ha (reachable_inv ha hs') ih rng hrng key

omit [Inhabited F] [Div F] [FltFun F] [FloatLaws F] in
theorem list_sum_range (n : Nat) (f : Nat → F) :
    ((List.range n).map f).sum = ∑ t ∈ Finset.range n, f t := by
  induction n with
  | zero => simp
  | succ n ih => rw [List.range_succ, List.map_append, List.sum_append, ih, Finset.sum_range_succ]; simp

omit [Inhabited F] [CommRing F] [Div F] [FltFun F] [FloatLaws F] in
theorem getD_dflt {A : List F} {i : Nat} (h : i < A.length) (d d' : F) : A.getD i d = A.getD i d' := by
  rw [List.getD_eq_getElem _ _ h, List.getD_eq_getElem _ _ h]

/-- prediction at the training points -/
theorem evaluate_train (ha : ValidArgs a) (hs : StateInv a s) {j : Nat} (hj : j < a.y.length) :
    (evaluate_forest a.y.length a.X s.leaf_trees s.var_trees s.split_trees).getD j 0 =
      ∑ t ∈ Finset.range a.num_trees,
        (s.leaf_trees.getD t []).getD (at0 (s.leaf_indices.getD t []) j) 0 := by
  rw [C03_evaluate_forest a.y.length a.num_trees a.p_nonterminal.length ha.depth_lt a.X s.leaf_trees
    s.var_trees s.split_trees hs.leaf_length hs.var_length hs.leaf_size
    (fun t ht => (hs.tree t ht).var_len) (fun t ht => (hs.tree t ht).valid.length)]
  rw [List.getD_eq_getElem _ _ (by simpa using hj)]
  simp only [List.getElem_map, List.getElem_range]
  rw [← List.sum_eq_foldl, list_sum_range]
  apply Finset.sum_congr rfl
  intro t ht
  rw [Finset.mem_range] at ht
  have hT := hs.tree t ht
  rw [eval_readTree_root _ _ ha.depth_lt hT.var_len hT.valid.length]
  have hf := hT.falls j hj
  have e := traverse_eq_of_fallsInto (cfgOf_ok ha).h64 hT.var_len hT.valid.length hf
  have e' : traverse_tree (a.X.map fun row => row.getD j 0) (s.var_trees.getD t [])
      (s.split_trees.getD t []) = at0 (s.leaf_indices.getD t []) j := e
  rw [e', getD_dflt (by rw [hs.leaf_size t ht]; exact hT.idx_lt hj) default 0]

end
end Bartz
