import Verif.Lemmas.TreeStep
/-! # The invariant of a tree is preserved -/

set_option autoImplicit false

namespace Bartz
open Jax Spec

variable {F : Type} {c : Cfg} {var split idx : List Nat} {aff : Option (List Bool)} {mv : Move F}

theorem TreeInv.idx_lt (hi : TreeInv c var split idx aff) {j : Nat} (hj : j < c.n) :
    at0 idx j < 2 ^ (c.h + 1) := (hi.falls j hj).1.1.lt hi.valid.length

/-- children of a leaf are not nodes -/
theorem not_leaf_child {h node i : Nat} (hv : ValidSplit h split) (hl : IsLeaf split node)
    (hi : IsNode split i) : i ≠ 2 * node ∧ i ≠ 2 * node + 1 := by
  have hpos := hl.1.pos
  constructor
  · intro e
    have := (hi.parent (by omega)).2
    rw [show i / 2 = node by omega] at this
    exact this hl.2
  · intro e
    have := (hi.parent (by omega)).2
    rw [show i / 2 = node by omega] at this
    exact this hl.2

variable (hc : c.OK) (hi : TreeInv c var split idx aff) (hm : MoveOK c var split aff mv)
  {acc : Bool} (hacc : acc = true → mv.allowed = true)
include hc hi hm

theorem prune_grow_idx (hg : mv.grow = false) {j : Nat} (hj : j < c.n) :
    at0 (apply_grow_to_indices c.idx_bits mv idx c.X) j = at0 idx j := by
  rw [grow_idx hc hm hi.idx_len (fun j hj => hi.idx_lt hj) hj, if_neg (by simp [hg])]

include hacc

theorem node_lt (ht : (acc ^^ mv.grow) = true) : mv.node < 2 ^ c.h := by
  cases hg : mv.grow with
  | true => exact (hm.grow_leaf hg).2.1
  | false =>
    rw [hg] at ht
    have : acc = true := by simpa using ht
    exact (hm.prune_node hg (hacc this)).1.lt hi.valid.length

/-- the indices after the update -/
theorem idx_final {j : Nat} (hj : j < c.n) :
    at0 (apply_moves_to_leaf_indices c.idx_bits (apply_grow_to_indices c.idx_bits mv idx c.X) mv
      (acc ^^ mv.grow)) j =
      if acc = true then
        if mv.grow = true then
          if at0 idx j = mv.node then
            2 * mv.node + (if mv.grow_split ≤ coord (column c.X j) mv.grow_var then 1 else 0)
          else at0 idx j
        else if at0 idx j = 2 * mv.node ∨ at0 idx j = 2 * mv.node + 1 then mv.node else at0 idx j
      else at0 idx j := by
  have hlt := fun j (hj : j < c.n) => hi.idx_lt hj
  have hp : 2 ^ (c.h + 1) = 2 * 2 ^ c.h := by rw [pow_succ]; omega
  rw [final_idx hc hm.left (length_grow_idx hc hi.idx_len)
    (fun ht => by have := node_lt hc hi hm hacc ht; omega)
    (fun j hj => grow_idx_lt hc hm hi.idx_len hlt hj) hj]
  have hf := hi.falls j hj
  cases hg : mv.grow with
  | true =>
    have hleaf := (hm.grow_leaf hg).1
    have hnc := not_leaf_child hi.valid hleaf hf.1.1
    rw [grow_idx hc hm hi.idx_len hlt hj]
    cases acc with
    | true => simp [hg]
    | false =>
      simp only [hg, Bool.xor_true, Bool.not_false, true_and, Bool.false_eq_true, if_false]
      by_cases hn : at0 idx j = mv.node
      · rw [if_pos hn]
        rw [if_pos (by split_ifs <;> simp), hn]
      · rw [if_neg hn, if_neg (by omega)]
  | false =>
    rw [prune_grow_idx hc hi hm hg hj]
    cases acc with
    | true => simp
    | false => simp

omit hacc in
theorem length_idx_final (tp : Bool) :
    (apply_moves_to_leaf_indices c.idx_bits (apply_grow_to_indices c.idx_bits mv idx c.X) mv
      tp).length = c.n := by
  unfold apply_moves_to_leaf_indices
  rw [List.length_map, length_grow_idx hc hi.idx_len]

theorem idx_rejected (hrej : acc = false) :
    apply_moves_to_leaf_indices c.idx_bits (apply_grow_to_indices c.idx_bits mv idx c.X) mv
      (acc ^^ mv.grow) = idx := by
  apply List.ext_getElem
  · rw [length_idx_final hc hi hm, hi.idx_len]
  · intro j h1 h2
    have hj : j < c.n := by rw [← hi.idx_len]; exact h2
    have := idx_final hc hi hm hacc hj
    rw [if_neg (by simp [hrej])] at this
    unfold at0 at this
    rwa [List.getD_eq_getElem _ _ h1, List.getD_eq_getElem _ _ h2] at this

omit hacc in
/-- validity of the new tree -/
theorem valid_final (hacc : acc = true → mv.allowed = true)
    (hnw : acc = true → mv.grow = true → ¬ Wraps c.split_bits c.ms var split mv.node mv.grow_var) :
    ValidSplit c.h (apply_moves_to_split_tree c.split_bits split mv (acc ^^ mv.grow)) := by
  rw [split_final hc hm]
  split_ifs with h1 h2
  · exact validSplit_grow hi.valid (hm.grow_leaf h2).1 (hm.grow_leaf h2).2.1
      (hm.grow_split h2 (hnw h1 h2)).pos
  · have hg : mv.grow = false := by simpa using h2
    exact validSplit_prune hi.valid (hm.prune_node hg (hacc h1))
  · exact hi.valid

theorem falls_final
    (hnw : acc = true → mv.grow = true → ¬ Wraps c.split_bits c.ms var split mv.node mv.grow_var)
    {j : Nat} (hj : j < c.n) :
    FallsInto (column c.X j) mv.var_tree
      (apply_moves_to_split_tree c.split_bits split mv (acc ^^ mv.grow))
      (at0 (apply_moves_to_leaf_indices c.idx_bits (apply_grow_to_indices c.idx_bits mv idx c.X) mv
        (acc ^^ mv.grow)) j) := by
  rw [idx_final hc hi hm hacc hj, split_final hc hm]
  have hf := hi.falls j hj
  have hag : ∀ k, IsDecision split k → at0 mv.var_tree k = at0 var k := fun k hk => hm.agree hk
  split_ifs with h1 h2 h3 h4 h4 <;> first
    | (have hg : mv.grow = false := by simpa using h2
       have := fallsInto_prune hi.valid (hm.prune_node hg (hacc h1)) hag hf
       rw [if_pos h4] at this
       exact this)
    | (have hg : mv.grow = false := by simpa using h2
       have := fallsInto_prune hi.valid (hm.prune_node hg (hacc h1)) hag hf
       rw [if_neg h4] at this
       exact this)
    | exact ⟨hf.1, reaches_var hag hf.2⟩
    | (have hgl := hm.grow_leaf h2
       have e : at0 mv.var_tree mv.node = mv.grow_var := by
         rw [hm.grow_tree h2, at0_setDrop, if_pos ⟨rfl, by rw [hi.var_len]; exact hgl.2.1⟩]
       have := fallsInto_grow hi.valid hgl.1 hgl.2.1 (hm.grow_split h2 (hnw h1 h2)).pos hag hf
       rw [e] at this
       first
         | (rw [if_pos h3, if_pos h4] at this; exact this)
         | (rw [if_pos h3, if_neg h4] at this; exact this)
         | (rw [if_neg h3] at this; exact this))

omit hc hi hm hacc in
theorem count_congr {a b : List Nat} {k : Nat} (hl : a.length = b.length)
    (h : ∀ j, j < a.length → (at0 a j = k ↔ at0 b j = k)) : a.count k = b.count k := by
  rw [count_eq_card, count_eq_card, hl]
  congr 1
  apply Finset.filter_congr
  intro j hj
  exact h j (by rw [hl]; exact Finset.mem_range.1 hj)

omit hc hi hm hacc in
theorem count_union {a b : List Nat} {k k1 k2 : Nat} (hl : a.length = b.length) (hne : k1 ≠ k2)
    (h : ∀ j, j < a.length → (at0 a j = k ↔ at0 b j = k1 ∨ at0 b j = k2)) :
    a.count k = b.count k1 + b.count k2 := by
  rw [count_eq_card, count_eq_card, count_eq_card, hl, ← Finset.card_union_of_disjoint]
  · rw [← Finset.filter_or]
    congr 1
    apply Finset.filter_congr
    intro j hj
    exact h j (by rw [hl]; exact Finset.mem_range.1 hj)
  · rw [Finset.disjoint_left]
    intro j h1 h2
    simp at h1 h2
    omega

/-- At the leaves of the new tree, the count tree contains the right number of datapoints. -/
theorem count_final
    (hnw : acc = true → mv.grow = true → ¬ Wraps c.split_bits c.ms var split mv.node mv.grow_var)
    (b : Option Nat) {i : Nat}
    (hl : IsLeaf (apply_moves_to_split_tree c.split_bits split mv (acc ^^ mv.grow)) i) :
    (compute_count_tree (apply_grow_to_indices c.idx_bits mv idx c.X) mv b).1.getD i 0 =
      (apply_moves_to_leaf_indices c.idx_bits (apply_grow_to_indices c.idx_bits mv idx c.X) mv
        (acc ^^ mv.grow)).count i := by
  have hlt := fun j (hj : j < c.n) => hi.idx_lt hj
  have hp : 2 ^ (c.h + 1) = 2 * 2 ^ c.h := by rw [pow_succ]; omega
  have hv' := valid_final hc hi hm hacc hnw
  have hilt : i < 2 ^ (c.h + 1) := hl.1.lt hv'.length
  rw [count_tree_getD _ c.h hm.len _ _ hilt]
  set idxg := apply_grow_to_indices c.idx_bits mv idx c.X with hidxg
  have hgl : idxg.length = c.n := length_grow_idx hc hi.idx_len
  have hglt := fun j (hj : j < c.n) => grow_idx_lt hc hm hi.idx_len hlt hj
  have hfin := fun j (hj : j < c.n) => final_idx hc hm.left hgl (tp := acc ^^ mv.grow)
    (fun ht => by have := node_lt hc hi hm hacc ht; omega) hglt (j := j) hj
  have hlen' : (apply_moves_to_leaf_indices c.idx_bits idxg mv (acc ^^ mv.grow)).length = c.n :=
    length_idx_final hc hi hm _
  by_cases ht : (acc ^^ mv.grow) = true
  · have hnode := node_lt hc hi hm hacc ht
    -- no datapoint is assigned to the node
    have hne : ∀ j, j < c.n → at0 idxg j ≠ mv.node := by
      intro j hj
      cases hg : mv.grow with
      | true =>
        have hpos := (hm.grow_leaf hg).1.1.pos
        rw [hidxg, grow_idx hc hm hi.idx_len hlt hj]
        by_cases e : at0 idx j = mv.node
        · rw [if_pos ⟨hg, e⟩]; split_ifs <;> omega
        · rw [if_neg (by tauto)]; exact e
      | false =>
        have ha : acc = true := by rw [hg] at ht; simpa using ht
        have hpr := hm.prune_node hg (hacc ha)
        rw [hidxg, prune_grow_idx hc hi hm hg hj]
        intro e
        exact hpr.1.2 (e ▸ (hi.falls j hj).1.2)
    by_cases e : i = mv.node
    · rw [if_pos e, (counts_lr idxg c.h hm.len hm.left hm.right b hnode).2.2]
      symm
      apply count_union (by rw [hlen', hgl]) (by omega)
      intro j hj
      rw [hlen'] at hj
      rw [hfin j hj, e]
      have := hne j hj
      split_ifs with h1
      · simp [h1.2]
      · constructor
        · intro h2; exact absurd h2 this
        · intro h2; exact absurd ⟨ht, h2⟩ h1
    · rw [if_neg e]
      symm
      apply count_congr (by rw [hlen', hgl])
      intro j hj
      rw [hlen'] at hj
      rw [hfin j hj]
      -- the children of the node are not leaves of the new tree
      have hch : i ≠ 2 * mv.node ∧ i ≠ 2 * mv.node + 1 := by
        cases hg : mv.grow with
        | true =>
          have ha : acc = false := by rw [hg] at ht; simpa using ht
          rw [split_final hc hm, if_neg (by simp [ha])] at hl
          exact not_leaf_child hi.valid (hm.grow_leaf hg).1 hl.1
        | false =>
          have ha : acc = true := by rw [hg] at ht; simpa using ht
          rw [split_final hc hm, if_pos ha, if_neg (by simp [hg])] at hl
          have hpr := hm.prune_node hg (hacc ha)
          rcases (isLeaf_prune hi.valid hpr).1 hl with h1 | h1
          · exact h1.2
          · exact absurd h1 e
      split_ifs with h1
      · constructor
        · intro h2; exact absurd h2.symm e
        · intro h2; omega
      · rfl
  · have hne : i ≠ mv.node := by
      intro e
      cases hg : mv.grow with
      | true =>
        have ha : acc = true := by rw [hg] at ht; simpa using ht
        rw [split_final hc hm, if_pos ha, if_pos hg] at hl
        have hgl := hm.grow_leaf hg
        have hpos := hgl.1.1.pos
        rcases (isLeaf_grow hi.valid hgl.1 hgl.2.1 (hm.grow_split hg (hnw ha hg)).pos).1 hl with h1 | h1
        · exact h1.2 e
        · omega
      | false =>
        have ha : acc = false := by rw [hg] at ht; simpa using ht
        rw [split_final hc hm, if_neg (by simp [ha])] at hl
        cases hal : mv.allowed with
        | true =>
          exact (hm.prune_node hg hal).1.2 (e ▸ hl.2)
        | false =>
          have := (hm.none_node hg hal).1
          omega
    rw [if_neg hne]
    symm
    apply count_congr (by rw [hlen', hgl])
    intro j hj
    rw [hlen'] at hj
    rw [hfin j hj, if_neg (by tauto)]

omit hc hi hm hacc in
/-- a point that reaches a node has compatible values of all the variables -/
theorem reaches_value {x : List Nat} {i : Nat} (hr : Reaches x var split i) (v : Nat) :
    ValueReaches v (coord x v) var split i := by
  induction hr with
  | root => exact .root
  | left _ _ hlt ih => exact .left ih (fun e => by rw [e] at hlt; exact hlt)
  | right _ _ hlt ih => exact .right ih (fun e => by rw [e] at hlt; exact hlt)

omit hacc in
/-- a point in a child of a leaf proposed to be grown -/
theorem grow_child (hg : mv.grow = true) {j : Nat} (hj : j < c.n) {b : Nat} (hb : b ≤ 1)
    (e : at0 (apply_grow_to_indices c.idx_bits mv idx c.X) j = 2 * mv.node + b) :
    at0 idx j = mv.node ∧ (if mv.grow_split ≤ coord (column c.X j) mv.grow_var then 1 else 0) = b := by
  have hgl := hm.grow_leaf hg
  rw [grow_idx hc hm hi.idx_len (fun j hj => hi.idx_lt hj) hj] at e
  have hnc := not_leaf_child hi.valid hgl.1 (hi.falls j hj).1.1
  by_cases e' : at0 idx j = mv.node
  · rw [if_pos ⟨hg, e'⟩] at e
    exact ⟨e', by omega⟩
  · rw [if_neg (by tauto)] at e
    omega

omit hacc in
/-- a rule proposed due to an overflow is not accepted, because all the points would go right -/
theorem not_wraps_of_min (hg : mv.grow = true)
    (hmin : ∀ m, c.m = some m →
      m ≤ (apply_grow_to_indices c.idx_bits mv idx c.X).count (2 * mv.node) ∧
      m ≤ (apply_grow_to_indices c.idx_bits mv idx c.X).count (2 * mv.node + 1)) :
    ¬ Wraps c.split_bits c.ms var split mv.node mv.grow_var := by
  have hgl := hm.grow_leaf hg
  rcases hc.no_wrap with h1 | ⟨hX, m, hm1, hcm⟩
  · exact not_wraps hi.rules hgl.1.1 (h1 _) hc.split_bits hc.hh hc.h64 hgl.2.1
  · intro hw
    obtain ⟨w1, w2, w3⟩ := hw.spec hi.rules hgl.1.1 (hc.ms_fits _) hc.split_bits hc.hh hc.h64 hgl.2.1
    have h8 : 2 ^ 8 ≤ 2 ^ c.split_bits := Nat.pow_le_pow_right (by norm_num) hc.split_bits
    have hvp : mv.grow_var < c.ms.length := by
      by_contra hv
      rw [at0_of_le (by omega)] at w1
      omega
    have hlen : (apply_grow_to_indices c.idx_bits mv idx c.X).length = c.n :=
      length_grow_idx hc hi.idx_len
    have hl := (hmin m hcm).1
    rw [count_eq_card, hlen] at hl
    obtain ⟨j, hj⟩ := Finset.card_pos.1 (by omega : 0 < ((Finset.range c.n).filter fun j =>
      at0 (apply_grow_to_indices c.idx_bits mv idx c.X) j = 2 * mv.node).card)
    simp only [Finset.mem_filter, Finset.mem_range] at hj
    obtain ⟨el, hl'⟩ := grow_child hc hi hm hg hj.1 (b := 0) (by omega) (by omega)
    have hlt : coord (column c.X j) mv.grow_var < mv.grow_split := by
      by_contra hh
      rw [if_pos (by omega)] at hl'; omega
    have hle : coord (column c.X j) mv.grow_var ≤ at0 c.ms mv.grow_var := by
      have h1 := hX mv.grow_var j hvp hj.1
      have h2 := (row_eq hc hj.1 (v := mv.grow_var)).1
      rw [← h2, gather_eq_getD (by rw [hc.X_len]; exact hvp) []]
      exact h1
    have hrch := (hi.falls j hj.1).2
    rw [el] at hrch
    have := (valueReaches_iff_interval (R := 1 + at0 c.ms mv.grow_var) hgl.1.1.pos).1
      ⟨reaches_value hrch mv.grow_var, by omega⟩
    have := hm.grow_fits hg
    omega

omit hacc in
/-- an accepted new rule is on a variable with cutpoints -/
theorem good_grow (hgood : c.Good) (hg : mv.grow = true)
    (hmin : ∀ m, c.m = some m →
      m ≤ (apply_grow_to_indices c.idx_bits mv idx c.X).count (2 * mv.node) ∧
      m ≤ (apply_grow_to_indices c.idx_bits mv idx c.X).count (2 * mv.node + 1)) :
    1 ≤ at0 c.ms mv.grow_var := by
  have hlt := fun j (hj : j < c.n) => hi.idx_lt hj
  have hvc := hm.grow_var hg
  have hgl := hm.grow_leaf hg
  have hsc := hm.grow_split hg (not_wraps_of_min hc hi hm hg hmin)
  have hgi := fun j (hj : j < c.n) => grow_idx hc hm hi.idx_len hlt hj
  have hlen : (apply_grow_to_indices c.idx_bits mv idx c.X).length = c.n :=
    length_grow_idx hc hi.idx_len
  rcases hgood with ⟨hX, m, hm1, hcm⟩ | ⟨hms, hph⟩
  · by_contra hz
    obtain ⟨hl, hr⟩ := hmin m hcm
    rw [count_eq_card, hlen] at hl hr
    -- there is a point in each child
    obtain ⟨jl, hjl⟩ := Finset.card_pos.1 (by omega : 0 < ((Finset.range c.n).filter fun j =>
      at0 (apply_grow_to_indices c.idx_bits mv idx c.X) j = 2 * mv.node).card)
    obtain ⟨jr, hjr⟩ := Finset.card_pos.1 (by omega : 0 < ((Finset.range c.n).filter fun j =>
      at0 (apply_grow_to_indices c.idx_bits mv idx c.X) j = 2 * mv.node + 1).card)
    simp only [Finset.mem_filter, Finset.mem_range] at hjl hjr
    have key : ∀ j, j < c.n → ∀ b : Nat, b ≤ 1 →
        at0 (apply_grow_to_indices c.idx_bits mv idx c.X) j = 2 * mv.node + b →
        at0 idx j = mv.node ∧
        (if mv.grow_split ≤ coord (column c.X j) mv.grow_var then 1 else 0) = b := by
      intro j hj b hb e
      rw [hgi j hj] at e
      have hnc := not_leaf_child hi.valid hgl.1 (hi.falls j hj).1.1
      by_cases e' : at0 idx j = mv.node
      · rw [if_pos ⟨hg, e'⟩] at e
        exact ⟨e', by omega⟩
      · rw [if_neg (by tauto)] at e
        omega
    obtain ⟨el, hl'⟩ := key jl hjl.1 0 (by omega) (by omega)
    obtain ⟨er, hr'⟩ := key jr hjr.1 1 (by omega) (by omega)
    have hl'' : coord (column c.X jl) mv.grow_var < mv.grow_split := by
      by_contra hh
      rw [if_pos (by omega)] at hl'; omega
    have hr'' : mv.grow_split ≤ coord (column c.X jr) mv.grow_var := by
      by_contra hh
      rw [if_neg hh] at hr'; omega
    have hXc : ∀ v j, v < c.ms.length → j < c.n → coord (column c.X j) v ≤ at0 c.ms v := by
      intro v j hv hj
      have h1 := hX v j hv hj
      have h2 := (row_eq hc hj (v := v)).1
      rw [← h2, gather_eq_getD (by rw [hc.X_len]; exact hv) []]
      exact h1
    by_cases hvp : mv.grow_var < c.ms.length
    · have := hXc mv.grow_var jr hvp hjr.1
      have := hsc.pos
      omega
    · -- all the variables are exhausted, in particular the last one
      have hpp := hc.p_pos
      have hfull := hvc.full (by omega) (c.ms.length - 1) (by omega)
      rw [mem_fully_used hc.hh hi.var_len hi.valid.length hgl.2.1 (by omega)] at hfull
      have hfull2 := hfull.2.trans_le (Nat.mod_le _ _)
      have hclamp : ∀ j, coord (column c.X j) mv.grow_var =
          coord (column c.X j) (c.ms.length - 1) := by
        intro j
        unfold coord column
        rw [List.length_map, hc.X_len]
        congr 1
        omega
      have hin : ∀ j, j < c.n → at0 idx j = mv.node →
          coord (column c.X j) (c.ms.length - 1) = (interval var split (c.ms.length - 1)
            (1 + at0 c.ms (c.ms.length - 1)) mv.node).1 := by
        intro j hj e
        have hrch := (hi.falls j hj).2
        rw [e] at hrch
        have hval := reaches_value hrch (c.ms.length - 1)
        have hle := hXc (c.ms.length - 1) j (by omega) hj
        have := (valueReaches_iff_interval (R := 1 + at0 c.ms (c.ms.length - 1))
          hgl.1.1.pos).1 ⟨hval, by omega⟩
        omega
      rw [hclamp, hin jl hjl.1 el] at hl''
      rw [hclamp, hin jr hjr.1 er] at hr''
      omega
  · apply hms
    by_contra hvp
    have hfull := hvc.full (by omega)
    have hlenE : (fully_used_variables c.var_bits c.split_bits var split c.ms mv.node).length = c.h - 1 :=
      length_fully_used hi.var_len
    have hsub : Finset.range c.ms.length ⊆
        (fully_used_variables c.var_bits c.split_bits var split c.ms mv.node).toFinset := by
      intro u hu
      rw [List.mem_toFinset]
      exact hfull u (Finset.mem_range.1 hu)
    have h1 := Finset.card_le_card hsub
    have h2 := List.toFinset_card_le (fully_used_variables c.var_bits c.split_bits var split c.ms mv.node)
    rw [Finset.card_range] at h1
    omega

/-- The invariant of a tree is preserved by the update. -/
theorem treeInv_step (b : Option Nat)
    (hmin : ∀ m, c.m = some m → acc = true →
      m ≤ (apply_grow_to_indices c.idx_bits mv idx c.X).count (2 * mv.node) ∧
      m ≤ (apply_grow_to_indices c.idx_bits mv idx c.X).count (2 * mv.node + 1)) :
    TreeInv c mv.var_tree (apply_moves_to_split_tree c.split_bits split mv (acc ^^ mv.grow))
      (apply_moves_to_leaf_indices c.idx_bits (apply_grow_to_indices c.idx_bits mv idx c.X) mv
        (acc ^^ mv.grow))
      (c.m.map fun m =>
        ((compute_count_tree (apply_grow_to_indices c.idx_bits mv idx c.X) mv b).1.take
          (2 ^ c.h)).map fun k => decide (k ≥ 2 * m)) := by
  have hag : ∀ k, IsDecision split k → at0 mv.var_tree k = at0 var k := fun k hk => hm.agree hk
  have hnw : acc = true → mv.grow = true → ¬ Wraps c.split_bits c.ms var split mv.node mv.grow_var :=
    fun ha hg => not_wraps_of_min hc hi hm hg fun m hcm => hmin m hcm ha
  have hp : 2 ^ (c.h + 1) = 2 * 2 ^ c.h := by rw [pow_succ]; omega
  have hv' := valid_final hc hi hm hacc hnw
  have hlent := length_count_tree (mv := mv) (apply_grow_to_indices c.idx_bits mv idx c.X) b
  rw [hm.len] at hlent
  have hvn : mv.grow = true → at0 mv.var_tree mv.node = mv.grow_var := by
    intro hg
    rw [hm.grow_tree hg, at0_setDrop,
      if_pos ⟨rfl, by rw [hi.var_len]; exact (hm.grow_leaf hg).2.1⟩]
  refine
    { var_len := hm.len, valid := hv', var_zero := ?_, var_ok := ?_, rules := ?_,
      idx_len := length_idx_final hc hi hm _, falls := fun j hj => falls_final hc hi hm hacc hnw hj,
      aff_len := ?_, aff_some := by simp, aff_ok := ?_, minpts := ?_, good := ?_ }
  · by_contra hne
    have := hm.vars 0 (by rw [hi.var_zero]; exact hne)
    have := this.1.1.1.pos
    omega
  · intro i
    by_cases e : at0 mv.var_tree i = at0 var i
    · rw [e]; exact hi.var_ok i
    · exact (hm.vars i e).2
  · rw [split_final hc hm]
    split_ifs with h1 h2
    · refine rulesOK_grow hi.valid (hm.grow_leaf h2).1 (hm.grow_leaf h2).2.1 hag hi.rules ?_
      rw [hvn h2]
      exact hm.grow_split h2 (hnw h1 h2)
    · have hg : mv.grow = false := by simpa using h2
      exact rulesOK_prune hi.valid (hm.prune_node hg (hacc h1)) hag hi.rules
    · exact rulesOK_var hag hi.rules
  · intro a ha
    cases hcm : c.m with
    | none => rw [hcm] at ha; simp at ha
    | some m =>
      rw [hcm] at ha
      simp only [Option.map_some, Option.some.injEq] at ha
      rw [← ha, List.length_map, List.length_take, hlent]
      omega
  · intro m a hcm ha i hleaf hilt
    rw [hcm] at ha
    simp only [Option.map_some, Option.some.injEq] at ha
    rw [← ha, getD_map_lt (by rw [List.length_take, hlent]; omega) 0,
      ← count_final hc hi hm hacc hnw b hleaf]
    congr 2
    rw [List.getD_eq_getElem _ _ (by rw [List.length_take, hlent]; omega), List.getElem_take,
      List.getD_eq_getElem _ _ (by rw [hlent]; omega)]
  · intro m hcm hroot i hleaf
    by_cases ha : acc = true
    · obtain ⟨hml, hmr⟩ := hmin m hcm ha
      rw [← count_final hc hi hm hacc hnw b hleaf]
      have hilt : i < 2 ^ (c.h + 1) := hleaf.1.lt hv'.length
      rw [count_tree_getD _ c.h hm.len _ _ hilt]
      by_cases e : i = mv.node
      · have hnode : mv.node < 2 ^ c.h := by
          cases hg : mv.grow with
          | true => exact (hm.grow_leaf hg).2.1
          | false => exact (hm.prune_node hg (hacc ha)).1.lt hi.valid.length
        rw [if_pos e, (counts_lr _ c.h hm.len hm.left hm.right b hnode).2.2]
        omega
      · rw [if_neg e]
        rw [split_final hc hm, if_pos ha] at hleaf
        by_cases hg : mv.grow = true
        · rw [if_pos hg] at hleaf
          have hgl := hm.grow_leaf hg
          rcases (isLeaf_grow hi.valid hgl.1 hgl.2.1 (hm.grow_split hg (hnw ha hg)).pos).1 hleaf with
            h1 | h1 | h1
          · -- an old leaf, so the old tree was not just a root
            have hroot' : at0 split 1 ≠ 0 := by
              intro hz
              have hnode1 : ∀ k, IsNode split k → k = 1 := by
                intro k hk
                rcases hi.valid.isNode_iff.1 hk with h2 | ⟨h2, h3⟩
                · exact h2
                · exfalso
                  have : ∀ q, 1 ≤ q → at0 split q = 0 := by
                    intro q
                    induction q using Nat.strong_induction_on with
                    | _ q ih =>
                      intro hq
                      rcases Nat.lt_or_ge q 2 with h4 | h4
                      · rw [show q = 1 by omega]; exact hz
                      · by_contra h5
                        exact hi.valid.closed q h4 h5 (ih (q / 2) (by omega) (by omega))
                  exact h3 (this (k / 2) (by omega))
              have := hnode1 i h1.1.1
              have := hnode1 mv.node hgl.1.1
              exact h1.2 (by omega)
            have hold := hi.minpts m hcm hroot' i h1.1
            have : (apply_grow_to_indices c.idx_bits mv idx c.X).count i = idx.count i := by
              apply count_congr (by rw [length_grow_idx hc hi.idx_len, hi.idx_len])
              intro j hj
              rw [length_grow_idx hc hi.idx_len] at hj
              rw [grow_idx hc hm hi.idx_len (fun j hj => hi.idx_lt hj) hj]
              have hnc := not_leaf_child hi.valid hgl.1 h1.1.1
              by_cases e' : at0 idx j = mv.node
              · rw [if_pos ⟨hg, e'⟩]
                split_ifs <;> omega
              · rw [if_neg (by tauto)]
            omega
          · rw [h1]; exact hml
          · rw [h1]; exact hmr
        · rw [if_neg hg] at hleaf
          have hg' : mv.grow = false := by simpa using hg
          have hpr := hm.prune_node hg' (hacc ha)
          have hroot' : at0 split 1 ≠ 0 := by
            have : IsDecision split 1 := by
              refine ⟨.root, ?_⟩
              intro hz
              have hq : ∀ q, 1 ≤ q → at0 split q = 0 := by
                intro q
                induction q using Nat.strong_induction_on with
                | _ q ih =>
                  intro hq
                  rcases Nat.lt_or_ge q 2 with h4 | h4
                  · rw [show q = 1 by omega]; exact hz
                  · by_contra h5
                    exact hi.valid.closed q h4 h5 (ih (q / 2) (by omega) (by omega))
              exact hpr.1.2 (hq _ hpr.1.1.pos)
            exact this.2
          rcases (isLeaf_prune hi.valid hpr).1 hleaf with h1 | h1
          · have hold := hi.minpts m hcm hroot' i h1.1
            have : (apply_grow_to_indices c.idx_bits mv idx c.X).count i = idx.count i := by
              apply count_congr (by rw [length_grow_idx hc hi.idx_len, hi.idx_len])
              intro j hj
              rw [length_grow_idx hc hi.idx_len] at hj
              rw [prune_grow_idx hc hi hm hg' hj]
            omega
          · exact absurd h1 e
    · have ha' : acc = false := by simpa using ha
      rw [idx_rejected hc hi hm hacc ha']
      rw [split_final hc hm, if_neg ha] at hroot hleaf
      exact hi.minpts m hcm hroot i hleaf
  · intro hgood i hd
    rw [split_final hc hm] at hd
    split_ifs at hd with h1 h2
    · have hgl := hm.grow_leaf h2
      rcases (isDecision_grow hi.valid hgl.1 hgl.2.1 (hm.grow_split h2 (hnw h1 h2)).pos).1 hd with h3 | h3
      · rw [hag i h3]; exact hi.good hgood i h3
      · rw [h3, hvn h2]
        exact good_grow hc hi hm hgood h2 (fun m hcm => hmin m hcm h1)
    · have hg : mv.grow = false := by simpa using h2
      have h3 := (isDecision_prune hi.valid (hm.prune_node hg (hacc h1))).1 hd
      rw [hag i h3.1]; exact hi.good hgood i h3.1
    · rw [hag i hd]; exact hi.good hgood i hd

end Bartz
