import Verif.Lemmas.TreeEdit
import Verif.Lemmas.Counts
/-! # The update of a single tree -/

set_option autoImplicit false

namespace Bartz
open Jax Spec

variable {F : Type} {c : Cfg} {var split idx : List Nat} {aff : Option (List Bool)} {mv : Move F}

/-! ### Invariant of a tree -/

/-- Conditions under which all the decision rules have a meaning. -/
def Cfg.Good (c : Cfg) : Prop :=
  ((∀ v j, v < c.ms.length → j < c.n → (c.X.getD v []).getD j 0 ≤ at0 c.ms v) ∧
    ∃ m, 1 ≤ m ∧ c.m = some m) ∨
  ((∀ v, v < c.ms.length → 1 ≤ at0 c.ms v) ∧ c.h - 1 < c.ms.length)

structure TreeInv (c : Cfg) (var split idx : List Nat) (aff : Option (List Bool)) : Prop where
  var_len : var.length = 2 ^ c.h
  valid : ValidSplit c.h split
  var_zero : at0 var 0 = 0
  var_ok : VarOK c.ms.length c.h var
  rules : RulesOK c.ms var split
  idx_len : idx.length = c.n
  falls : ∀ j, j < c.n → FallsInto (column c.X j) var split (at0 idx j)
  aff_len : AffLen c.h aff
  aff_some : aff.isSome = c.m.isSome
  aff_ok : ∀ m a, c.m = some m → aff = some a → ∀ i, IsLeaf split i → i < 2 ^ c.h →
    a.getD i false = decide (2 * m ≤ idx.count i)
  minpts : ∀ m, c.m = some m → at0 split 1 ≠ 0 → ∀ i, IsLeaf split i → m ≤ idx.count i
  good : c.Good → ∀ i, IsDecision split i → 1 ≤ at0 c.ms (at0 var i)

/-! ### Leaf indices -/

theorem and_mask (bits i : Nat) (hb : 1 ≤ bits) (hi : i < 2 ^ bits) :
    (i &&& (2 ^ bits - 1 - 1)) = 2 * (i / 2) := by
  obtain ⟨b, rfl⟩ : ∃ b, bits = b + 1 := ⟨bits - 1, by omega⟩
  have hm : 2 ^ (b + 1) - 1 - 1 = 2 * (2 ^ b - 1) := by rw [pow_succ]; omega
  rw [hm]
  have h1 : (i &&& 2 * (2 ^ b - 1)) / 2 = i / 2 := by
    rw [Nat.and_div_two, Nat.mul_div_cancel_left _ (by norm_num : 0 < 2),
      Nat.and_two_pow_sub_one_eq_mod, Nat.mod_eq_of_lt]
    rw [pow_succ] at hi; omega
  have h2 : ¬ (i &&& 2 * (2 ^ b - 1)) % 2 = 1 := by
    rw [Nat.and_mod_two_eq_one]
    omega
  omega

theorem Cfg.OK.idx_fits (hc : c.OK) {i : Nat} (hi : i < 2 ^ (c.h + 1)) : i < 2 ^ c.idx_bits := by
  rw [hc.idx_bits]
  have h64 : 2 ^ (c.h + 1) ≤ 2 ^ 64 := Nat.pow_le_pow_right (by norm_num) (by have := hc.h64; omega)
  apply minimal_fits
  · have : ((i : Int)) < (2 ^ (c.h + 1) : Nat) := by exact_mod_cast hi
    push_cast at this
    omega
  · omega

theorem Cfg.OK.idx_bits_pos (hc : c.OK) : 1 ≤ c.idx_bits := by
  rw [hc.idx_bits]; have := minimal_ge_8 ((2 : Int) ^ (c.h + 1) - 1); omega

theorem MoveOK.agree (hm : MoveOK c var split aff mv) {j : Nat} (hj : IsDecision split j) :
    at0 mv.var_tree j = at0 var j := by
  by_contra hc
  exact hj.2 (hm.vars j hc).1.1.2

theorem row_eq (hc : c.OK) {v j : Nat} (hj : j < c.n) :
    (gather c.X v).getD j 0 = coord (column c.X j) v ∧ (gather c.X v).length = c.n := by
  have hpos := hc.p_pos
  have hlen := hc.X_len
  have hlt : min v (c.X.length - 1) < c.X.length := by omega
  have e : gather c.X v = c.X[min v (c.X.length - 1)] := by
    unfold gather; rw [List.getD_eq_getElem _ _ hlt]
  rw [e]
  refine ⟨?_, hc.X_row _ (List.getElem_mem _)⟩
  unfold coord column
  rw [List.length_map, getD_map_lt hlt [], List.getD_eq_getElem _ _ hlt]

theorem row_length (hc : c.OK) (v : Nat) : (gather c.X v).length = c.n := by
  have hpos := hc.p_pos
  have hlen := hc.X_len
  have hlt : min v (c.X.length - 1) < c.X.length := by omega
  have e : gather c.X v = c.X[min v (c.X.length - 1)] := by
    unfold gather; rw [List.getD_eq_getElem _ _ hlt]
  rw [e]
  exact hc.X_row _ (List.getElem_mem _)

theorem length_grow_idx (hc : c.OK) (hidx : idx.length = c.n) :
    (apply_grow_to_indices c.idx_bits mv idx c.X).length = c.n := by
  unfold apply_grow_to_indices
  dsimp only
  rw [List.length_zipWith, row_length hc, hidx, Nat.min_self]

/-- the indices modified as if the grow move were accepted -/
theorem grow_idx (hc : c.OK) (hm : MoveOK c var split aff mv) (hidx : idx.length = c.n)
    (hlt : ∀ j, j < c.n → at0 idx j < 2 ^ (c.h + 1)) {j : Nat} (hj : j < c.n) :
    at0 (apply_grow_to_indices c.idx_bits mv idx c.X) j =
      if mv.grow = true ∧ at0 idx j = mv.node then
        2 * mv.node + (if mv.grow_split ≤ coord (column c.X j) mv.grow_var then 1 else 0)
      else at0 idx j := by
  have hrow := row_length hc mv.grow_var
  have hjl := hlt j hj
  unfold at0 at hjl ⊢
  have hL := length_grow_idx (mv := mv) hc hidx
  rw [List.getD_eq_getElem _ _ (by rw [hL]; exact hj)]
  unfold apply_grow_to_indices
  dsimp only
  rw [List.getElem_zipWith]
  have e1 : idx[j]'(by omega) = idx.getD j 0 := (List.getD_eq_getElem _ _ _).symm
  have e2 : (gather c.X mv.grow_var)[j]'(by omega) = coord (column c.X j) mv.grow_var := by
    rw [← (row_eq hc hj).1, List.getD_eq_getElem]
  rw [e1, e2, hm.len]
  by_cases hg : mv.grow = true
  · have hnode := (hm.grow_leaf hg).2.1
    have hp : 2 ^ (c.h + 1) = 2 * 2 ^ c.h := by rw [pow_succ]; omega
    have f1 : astype c.idx_bits mv.node = mv.node := astype_of_lt (hc.idx_fits (by omega))
    have f2 : astype c.idx_bits (mv.node <<< 1) = 2 * mv.node := by
      rw [Nat.shiftLeft_eq, astype_of_lt]
      · omega
      · exact hc.idx_fits (by omega)
    rw [f1, f2]
    simp only [hg, if_true, true_and]
    split_ifs with h1 h2
    · exact astype_of_lt (hc.idx_fits (by omega))
    · exact astype_of_lt (hc.idx_fits (by omega))
    · rfl
  · have hp : 2 ^ (c.h + 1) = 2 * 2 ^ c.h := by rw [pow_succ]; omega
    have hne : idx.getD j 0 ≠ 2 * 2 ^ c.h := by omega
    rw [if_neg hg, if_neg hne, if_neg (fun h => hg h.1)]

theorem grow_idx_lt (hc : c.OK) (hm : MoveOK c var split aff mv) (hidx : idx.length = c.n)
    (hlt : ∀ j, j < c.n → at0 idx j < 2 ^ (c.h + 1)) {j : Nat} (hj : j < c.n) :
    at0 (apply_grow_to_indices c.idx_bits mv idx c.X) j < 2 ^ (c.h + 1) := by
  rw [grow_idx hc hm hidx hlt hj]
  have hp : 2 ^ (c.h + 1) = 2 * 2 ^ c.h := by rw [pow_succ]; omega
  split_ifs with h1 h2
  · have := (hm.grow_leaf h1.1).2.1; omega
  · have := (hm.grow_leaf h1.1).2.1; omega
  · exact hlt j hj

theorem final_idx (hc : c.OK) (hleft : mv.left = 2 * mv.node) {idxg : List Nat}
    (hidx : idxg.length = c.n) {tp : Bool} (hnode : tp = true → mv.node < 2 ^ (c.h + 1))
    (hlt : ∀ j, j < c.n → at0 idxg j < 2 ^ (c.h + 1)) {j : Nat} (hj : j < c.n) :
    at0 (apply_moves_to_leaf_indices c.idx_bits idxg mv tp) j =
      if tp = true ∧ (at0 idxg j = 2 * mv.node ∨ at0 idxg j = 2 * mv.node + 1) then mv.node
      else at0 idxg j := by
  have hjl := hlt j hj
  unfold at0 at hjl ⊢
  unfold apply_moves_to_leaf_indices
  dsimp only
  rw [List.getD_eq_getElem _ _ (by simpa [hidx] using hj), List.getElem_map]
  have e1 : idxg[j]'(by omega) = idxg.getD j 0 := (List.getD_eq_getElem _ _ _).symm
  rw [e1, and_mask _ _ hc.idx_bits_pos (hc.idx_fits hjl), hleft]
  by_cases ht : tp = true
  · rw [ht, astype_of_lt (hc.idx_fits (hnode ht))]
    simp only [Bool.and_true, beq_iff_eq, true_and]
    by_cases hcnd : idxg.getD j 0 = 2 * mv.node ∨ idxg.getD j 0 = 2 * mv.node + 1
    · rw [if_pos hcnd, if_pos (by omega)]
    · rw [if_neg hcnd, if_neg (by omega)]
  · simp only [Bool.not_eq_true] at ht
    simp [ht]

/-! ### Decision boundaries -/

theorem setDrop_self {a : List Nat} {i : Nat} (s : Nat) (hz : at0 a i = 0) :
    setDrop (setDrop a i s) i 0 = a := by
  unfold setDrop
  rw [List.set_set]
  by_cases hi : i < a.length
  · have : a[i] = 0 := by unfold at0 at hz; rwa [List.getD_eq_getElem _ _ hi] at hz
    conv_lhs => rw [← this]
    exact List.set_getElem_self _
  · rw [List.set_eq_of_length_le (by omega)]

/-- The new decision boundaries of a tree. -/
theorem split_final (hc : c.OK) (hm : MoveOK c var split aff mv) (acc : Bool) :
    apply_moves_to_split_tree c.split_bits split mv (acc ^^ mv.grow) =
      if acc = true then
        if mv.grow = true then setDrop split mv.node mv.grow_split else setDrop split mv.node 0
      else split := by
  unfold apply_moves_to_split_tree
  dsimp only
  have hnop : ∀ (a : List Nat) (s : Nat), a.length = split.length →
      setDrop a split.length s = a := fun a s hl => setDrop_of_le (by omega) s
  cases hg : mv.grow with
  | true =>
    have hgr := hm.grow_leaf hg
    rw [astype_of_lt (hm.grow_fits hg)]
    cases acc with
    | true =>
      simp only [Bool.xor_self, if_true, Bool.false_eq_true, if_false]
      exact hnop _ _ (by unfold setDrop; rw [List.length_set])
    | false =>
      simp only [Bool.false_xor, if_true, Bool.false_eq_true, if_false]
      exact setDrop_self _ hgr.1.2
  | false =>
    cases acc with
    | true =>
      simp only [Bool.xor_false, if_true, Bool.false_eq_true, if_false]
      rw [hnop split _ rfl]
    | false =>
      simp only [Bool.xor_false, Bool.false_eq_true, if_false]
      rw [hnop split _ rfl, hnop split _ rfl]

/-! ### Counts -/

theorem count_eq_card (idx : List Nat) (k : Nat) :
    idx.count k = ((Finset.range idx.length).filter fun j => at0 idx j = k).card := by
  have h1 : idx.count k = countNonzero (idx.map (· == k)) := by
    unfold countNonzero List.count
    rw [List.countP_map]
    apply List.countP_congr
    intro x _
    simp
  rw [h1, countNonzero_eq_card, List.length_map]
  congr 1
  apply Finset.filter_congr
  intro j hj
  rw [getD_map_lt (Finset.mem_range.1 hj) 0]
  simp [at0]

theorem count_tree_getD (idx : List Nat) (h : Nat) (hl : mv.var_tree.length = 2 ^ h) (b : Option Nat) (i : Nat)
    (hi : i < 2 ^ (h + 1)) :
    (compute_count_tree idx mv b).1.getD i 0 =
      if i = mv.node then (compute_count_tree idx mv b).2.total else idx.count i := by
  have hp : 2 ^ (h + 1) = 2 ^ h * 2 := by rw [pow_succ]
  unfold compute_count_tree
  dsimp only
  rw [getD_setDrop, length_count, hl, count_getD _ _ _ _ (by omega)]
  by_cases e : i = mv.node
  · rw [if_pos ⟨e.symm, by omega⟩, if_pos e]
  · rw [if_neg (fun h => e h.1.symm), if_neg e]

theorem counts_lr (idx : List Nat) (h : Nat) (hl : mv.var_tree.length = 2 ^ h)
    (hleft : mv.left = 2 * mv.node) (hright : mv.right = 2 * mv.node + 1) (b : Option Nat)
    (hnode : mv.node < 2 ^ h) :
    (compute_count_tree idx mv b).2.left = idx.count (2 * mv.node) ∧
    (compute_count_tree idx mv b).2.right = idx.count (2 * mv.node + 1) ∧
    (compute_count_tree idx mv b).2.total =
      idx.count (2 * mv.node) + idx.count (2 * mv.node + 1) := by
  unfold compute_count_tree
  dsimp only
  rw [gather_eq_getD (by rw [length_count, hleft]; omega) 0,
    gather_eq_getD (by rw [length_count, hright]; omega) 0,
    count_getD _ _ _ _ (by omega), count_getD _ _ _ _ (by omega), hleft, hright]
  exact ⟨rfl, rfl, rfl⟩

theorem length_count_tree (idx : List Nat) (b : Option Nat) :
    (compute_count_tree idx mv b).1.length = mv.var_tree.length * 2 := by
  unfold compute_count_tree
  dsimp only
  unfold setDrop
  rw [List.length_set, length_count]

end Bartz
