import Verif.Lemmas.Moves
/-! # Growing a leaf and pruning a node -/

set_option autoImplicit false

namespace Bartz
open Jax Spec

variable {x var var' split ms : List Nat} {h i node s : Nat}

/-! ### Growing -/

section grow
variable (hv : ValidSplit h split) (hleaf : IsLeaf split node) (hn : node < 2 ^ h) (hs : 1 ≤ s)
include hv hn

theorem at0_grow : at0 (setDrop split node s) i = if node = i then s else at0 split i := by
  rw [at0_setDrop, hv.length]
  by_cases e : node = i
  · rw [if_pos ⟨e, by omega⟩, if_pos e]
  · rw [if_neg (by tauto), if_neg e]

include hleaf

theorem at0_child : at0 split (2 * node) = 0 ∧ at0 split (2 * node + 1) = 0 := by
  have hpos := hleaf.1.pos
  constructor
  · by_contra hc
    have := hv.closed (2 * node) (by omega) hc
    rw [show 2 * node / 2 = node by omega] at this
    exact this hleaf.2
  · by_contra hc
    have := hv.closed (2 * node + 1) (by omega) hc
    rw [show (2 * node + 1) / 2 = node by omega] at this
    exact this hleaf.2

include hs

theorem validSplit_grow : ValidSplit h (setDrop split node s) := by
  have hpos := hleaf.1.pos
  refine ⟨by unfold setDrop; rw [List.length_set]; exact hv.length, ?_, ?_⟩
  · rw [at0_grow hv hn, if_neg (by omega)]; exact hv.zero
  · intro i hi hne
    rw [at0_grow hv hn] at hne ⊢
    by_cases e : node = i / 2
    · rw [if_pos e]; omega
    · rw [if_neg e]
      by_cases e' : node = i
      · subst e'; exact (hleaf.1.parent hi).2
      · rw [if_neg e'] at hne; exact hv.closed i hi hne

theorem isLeaf_grow : IsLeaf (setDrop split node s) i ↔
    (IsLeaf split i ∧ i ≠ node) ∨ i = 2 * node ∨ i = 2 * node + 1 := by
  have hpos := hleaf.1.pos
  have hv' := validSplit_grow hv hleaf hn hs
  have hch := at0_child hv hleaf hn
  unfold IsLeaf
  rw [hv'.isNode_iff, hv.isNode_iff, at0_grow hv hn, at0_grow hv hn]
  constructor
  · rintro ⟨h1, h2⟩
    by_cases e : node = i
    · rw [if_pos e] at h2; omega
    · rw [if_neg e] at h2
      rcases h1 with h1 | ⟨h1, h3⟩
      · exact Or.inl ⟨⟨Or.inl h1, h2⟩, fun h => e h.symm⟩
      · by_cases e' : node = i / 2
        · right; omega
        · rw [if_neg e'] at h3
          exact Or.inl ⟨⟨Or.inr ⟨h1, h3⟩, h2⟩, fun h => e h.symm⟩
  · rintro (⟨⟨h1, h2⟩, h3⟩ | h1 | h1)
    · refine ⟨?_, by rw [if_neg (fun h => h3 h.symm)]; exact h2⟩
      rcases h1 with h1 | ⟨h1, h4⟩
      · exact Or.inl h1
      · right
        refine ⟨h1, ?_⟩
        split_ifs
        · omega
        · exact h4
    · subst h1
      refine ⟨Or.inr ⟨by omega, by rw [if_pos (by omega)]; omega⟩, ?_⟩
      rw [if_neg (by omega)]; exact hch.1
    · subst h1
      refine ⟨Or.inr ⟨by omega, by rw [if_pos (by omega)]; omega⟩, ?_⟩
      rw [if_neg (by omega)]; exact hch.2

theorem isDecision_grow : IsDecision (setDrop split node s) i ↔ IsDecision split i ∨ i = node := by
  have hv' := validSplit_grow hv hleaf hn hs
  rw [hv'.isDecision_iff, hv.isDecision_iff, at0_grow hv hn]
  by_cases e : node = i
  · rw [if_pos e]; exact ⟨fun _ => Or.inr e.symm, fun _ => by omega⟩
  · rw [if_neg e]
    exact ⟨fun h => Or.inl h, fun h => h.resolve_right (fun h => e h.symm)⟩

omit hs in
theorem reaches_grow (hag : ∀ j, IsDecision split j → at0 var' j = at0 var j)
    (hr : Reaches x var split i) : Reaches x var' (setDrop split node s) i := by
  induction hr with
  | root => exact .root
  | @left a ha hne hlt ih =>
    have e : at0 (setDrop split node s) a = at0 split a := by
      rw [at0_grow hv hn, if_neg (fun e : node = a => hne (e ▸ hleaf.2))]
    exact .left ih (by rw [e]; exact hne) (by rw [e, hag a ⟨ha.isNode, hne⟩]; exact hlt)
  | @right a ha hne hlt ih =>
    have e : at0 (setDrop split node s) a = at0 split a := by
      rw [at0_grow hv hn, if_neg (fun e : node = a => hne (e ▸ hleaf.2))]
    exact .right ih (by rw [e]; exact hne) (by rw [e, hag a ⟨ha.isNode, hne⟩]; exact hlt)

/-- where a point falls after growing -/
theorem fallsInto_grow (hag : ∀ j, IsDecision split j → at0 var' j = at0 var j)
    (hf : FallsInto x var split i) :
    FallsInto x var' (setDrop split node s) (if i = node then
      2 * node + (if s ≤ coord x (at0 var' node) then 1 else 0) else i) := by
  have hr := reaches_grow hv hleaf hn (s := s) hag hf.2
  have e : at0 (setDrop split node s) node = s := by rw [at0_grow hv hn, if_pos rfl]
  by_cases hi : i = node
  · rw [if_pos hi]
    rw [hi] at hr
    split_ifs with hc
    · exact ⟨(isLeaf_grow hv hleaf hn hs).2 (Or.inr (Or.inr rfl)),
        .right hr (by omega) (by rw [e]; exact hc)⟩
    · rw [add_zero]
      exact ⟨(isLeaf_grow hv hleaf hn hs).2 (Or.inr (Or.inl rfl)),
        .left hr (by omega) (by rw [e]; omega)⟩
  · rw [if_neg hi]
    exact ⟨(isLeaf_grow hv hleaf hn hs).2 (Or.inl ⟨hf.1, hi⟩), hr⟩

end grow

/-! ### Pruning -/

section prune
variable (hv : ValidSplit h split) (hp : IsLeafParent split node)
include hv hp

theorem at0_prune : at0 (setDrop split node 0) i = if node = i then 0 else at0 split i := by
  have := hp.1.lt hv.length
  rw [at0_setDrop, hv.length]
  by_cases e : node = i
  · rw [if_pos ⟨e, by omega⟩, if_pos e]
  · rw [if_neg (by tauto), if_neg e]

theorem validSplit_prune : ValidSplit h (setDrop split node 0) := by
  have hpos := hp.1.1.pos
  refine ⟨by unfold setDrop; rw [List.length_set]; exact hv.length, ?_, ?_⟩
  · rw [at0_prune hv hp, if_neg (by omega)]; exact hv.zero
  · intro i hi hne
    rw [at0_prune hv hp] at hne ⊢
    by_cases e' : node = i
    · rw [if_pos e'] at hne; exact absurd rfl hne
    · rw [if_neg e'] at hne
      by_cases e : node = i / 2
      · exfalso
        rcases (by omega : i = 2 * node ∨ i = 2 * node + 1) with h1 | h1
        · rw [h1] at hne; exact hne hp.2.1.2
        · rw [h1] at hne; exact hne hp.2.2.2
      · rw [if_neg e]; exact hv.closed i hi hne

theorem isLeaf_prune : IsLeaf (setDrop split node 0) i ↔
    (IsLeaf split i ∧ i ≠ 2 * node ∧ i ≠ 2 * node + 1) ∨ i = node := by
  have hpos := hp.1.1.pos
  have hv' := validSplit_prune hv hp
  unfold IsLeaf
  rw [hv'.isNode_iff, hv.isNode_iff, at0_prune hv hp, at0_prune hv hp]
  constructor
  · rintro ⟨h1, h2⟩
    by_cases e : node = i
    · exact Or.inr e.symm
    · rw [if_neg e] at h2
      left
      rcases h1 with h1 | ⟨h1, h3⟩
      · exact ⟨⟨Or.inl h1, h2⟩, by omega, by omega⟩
      · by_cases e' : node = i / 2
        · rw [if_pos e'] at h3; exact absurd rfl h3
        · rw [if_neg e'] at h3
          exact ⟨⟨Or.inr ⟨h1, h3⟩, h2⟩, by omega, by omega⟩
  · rintro (⟨⟨h1, h2⟩, h3, h4⟩ | h1)
    · refine ⟨?_, by split_ifs; · rfl
                     · exact h2⟩
      rcases h1 with h1 | ⟨h1, h5⟩
      · exact Or.inl h1
      · right
        refine ⟨h1, ?_⟩
        rw [if_neg (by omega)]
        exact h5
    · subst h1
      refine ⟨?_, by rw [if_pos rfl]⟩
      have := hv.isNode_iff.1 hp.1.1
      rcases this with h1 | ⟨h1, h2⟩
      · exact Or.inl h1
      · exact Or.inr ⟨h1, by rw [if_neg (by omega)]; exact h2⟩

theorem isDecision_prune : IsDecision (setDrop split node 0) i ↔ IsDecision split i ∧ i ≠ node := by
  have hv' := validSplit_prune hv hp
  rw [hv'.isDecision_iff, hv.isDecision_iff, at0_prune hv hp]
  by_cases e : node = i
  · rw [if_pos e]; exact ⟨fun h => absurd rfl h, fun h => absurd e.symm h.2⟩
  · rw [if_neg e]
    exact ⟨fun h => ⟨h, fun h => e h.symm⟩, fun h => h.1⟩

theorem reaches_prune (hag : ∀ j, IsDecision split j → at0 var' j = at0 var j)
    (hr : Reaches x var split i) (h1 : i ≠ 2 * node) (h2 : i ≠ 2 * node + 1) :
    Reaches x var' (setDrop split node 0) i := by
  induction hr with
  | root => exact .root
  | @left a ha hne hlt ih =>
    have e : at0 (setDrop split node 0) a = at0 split a := by
      rw [at0_prune hv hp, if_neg (by omega)]
    have ih' := ih (fun e' => hne (e' ▸ hp.2.1.2)) (fun e' => hne (e' ▸ hp.2.2.2))
    exact .left ih' (by rw [e]; exact hne) (by rw [e, hag a ⟨ha.isNode, hne⟩]; exact hlt)
  | @right a ha hne hlt ih =>
    have e : at0 (setDrop split node 0) a = at0 split a := by
      rw [at0_prune hv hp, if_neg (by omega)]
    have ih' := ih (fun e' => hne (e' ▸ hp.2.1.2)) (fun e' => hne (e' ▸ hp.2.2.2))
    exact .right ih' (by rw [e]; exact hne) (by rw [e, hag a ⟨ha.isNode, hne⟩]; exact hlt)

/-- where a point falls after pruning -/
theorem fallsInto_prune (hag : ∀ j, IsDecision split j → at0 var' j = at0 var j)
    (hf : FallsInto x var split i) :
    FallsInto x var' (setDrop split node 0)
      (if i = 2 * node ∨ i = 2 * node + 1 then node else i) := by
  have hpos := hp.1.1.pos
  by_cases hc : i = 2 * node ∨ i = 2 * node + 1
  · rw [if_pos hc]
    refine ⟨(isLeaf_prune hv hp).2 (Or.inr rfl), ?_⟩
    have := (hf.2.parent (by omega)).1
    rw [show i / 2 = node by omega] at this
    exact reaches_prune hv hp hag this (by omega) (by omega)
  · rw [if_neg hc]
    push Not at hc
    exact ⟨(isLeaf_prune hv hp).2 (Or.inl ⟨hf.1, hc.1, hc.2⟩),
      reaches_prune hv hp hag hf.2 hc.1 hc.2⟩

end prune

/-! ### Changing the variable of leaves -/

theorem reaches_var (hag : ∀ j, IsDecision split j → at0 var' j = at0 var j)
    (hr : Reaches x var split i) : Reaches x var' split i := by
  induction hr with
  | root => exact .root
  | @left a ha hne hlt ih =>
    exact .left ih hne (by rw [hag a ⟨ha.isNode, hne⟩]; exact hlt)
  | @right a ha hne hlt ih =>
    exact .right ih hne (by rw [hag a ⟨ha.isNode, hne⟩]; exact hlt)

/-! ### Rules -/

theorem ruleAt_congr {split' : List Nat} {i : Nat} (hd : IsDecision split i)
    (hag : ∀ j, IsDecision split j → at0 var' j = at0 var j ∧ at0 split' j = at0 split j)
    (hr : RuleAt ms var split i) : RuleAt ms var' split' i := by
  unfold RuleAt at *
  rw [(hag i hd).1, (hag i hd).2, interval_congr hd.1 hag]
  exact hr

theorem rulesOK_grow (hv : ValidSplit h split) (hleaf : IsLeaf split node) (hn : node < 2 ^ h)
    (hag : ∀ j, IsDecision split j → at0 var' j = at0 var j) (hr : RulesOK ms var split)
    (hsc : SplitChoice ms var split node (at0 var' node) s) :
    RulesOK ms var' (setDrop split node s) := by
  have hs := hsc.pos
  have hag' : ∀ j, IsDecision split j → at0 var' j = at0 var j ∧
      at0 (setDrop split node s) j = at0 split j := by
    intro j hj
    refine ⟨hag j hj, ?_⟩
    rw [at0_grow hv hn, if_neg]
    intro e
    exact hj.2 (e ▸ hleaf.2)
  intro i hi
  rcases (isDecision_grow hv hleaf hn hs).1 hi with h1 | h1
  · exact ruleAt_congr h1 hag' (hr i h1)
  · subst h1
    unfold RuleAt
    have e : at0 (setDrop split i s) i = s := by rw [at0_grow hv hn, if_pos rfl]
    rw [e, interval_congr hleaf.1 hag']
    exact ⟨hsc.pos, hsc.rule⟩

theorem rulesOK_prune (hv : ValidSplit h split) (hp : IsLeafParent split node)
    (hag : ∀ j, IsDecision split j → at0 var' j = at0 var j) (hr : RulesOK ms var split) :
    RulesOK ms var' (setDrop split node 0) := by
  intro i hi
  have hi' := (isDecision_prune hv hp).1 hi
  have h1 := hr i hi'.1
  unfold RuleAt at *
  have hag' : ∀ j, IsDecision (setDrop split node 0) j → at0 var' j = at0 var j ∧
      at0 (setDrop split node 0) j = at0 split j := by
    intro j hj
    have hj' := (isDecision_prune hv hp).1 hj
    refine ⟨hag j hj'.1, ?_⟩
    rw [at0_prune hv hp, if_neg (fun e => hj'.2 e.symm)]
  have hag2 : ∀ j, IsDecision (setDrop split node 0) j → at0 var j = at0 var' j ∧
      at0 split j = at0 (setDrop split node 0) j :=
    fun j hj => ⟨(hag' j hj).1.symm, (hag' j hj).2.symm⟩
  rw [(hag' i hi).1, (hag' i hi).2, ← interval_congr hi.1 hag2]
  exact h1

theorem rulesOK_var (hag : ∀ j, IsDecision split j → at0 var' j = at0 var j)
    (hr : RulesOK ms var split) : RulesOK ms var' split :=
  fun i hi => ruleAt_congr hi (fun j hj => ⟨hag j hj, rfl⟩) (hr i hi)

end Bartz
