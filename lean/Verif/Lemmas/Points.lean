import Verif.Lemmas.StateInv
/-! # Numbers of datapoints in the leaves and consequences of the invariant -/

set_option autoImplicit false

namespace Bartz
open Jax Spec

variable {c : Cfg} {var split idx : List Nat} {aff : Option (List Bool)}

/-- the cached indices count the points in the leaves -/
theorem TreeInv.count_eq (hc : c.OK) (hi : TreeInv c var split idx aff) (i : Nat) :
    idx.count i = pointsIn c.X c.n var split i := by
  rw [count_eq_card, hi.idx_len, pointsIn, ← Set.ncard_coe_finset]
  congr 1
  ext j
  simp only [Finset.coe_filter, Finset.mem_range, Set.mem_ofPred_eq]
  refine and_congr_right fun hj => ?_
  have hf := hi.falls j hj
  constructor
  · intro e; rw [← e]; exact hf
  · intro hf'; exact fallsInto_unique hc.h64 hi.var_len hi.valid.length hf hf'

theorem count_add_le {l : List Nat} {i j : Nat} (hne : i ≠ j) :
    l.count i + l.count j ≤ l.length := by
  rw [count_eq_card, count_eq_card, ← Finset.card_union_of_disjoint]
  · calc _ ≤ (Finset.range l.length).card := Finset.card_le_card (by
          intro k; simp only [Finset.mem_union, Finset.mem_filter]; tauto)
      _ = _ := Finset.card_range _
  · rw [Finset.disjoint_left]
    intro k h1 h2
    simp at h1 h2
    omega

/-- a tree that is not just a root has a leaf other than a given one -/
theorem exists_other_leaf {h : Nat} (hh : 1 ≤ h) (h64 : h < 64) (hv : ValidSplit h split)
    (hroot : at0 split 1 ≠ 0) (i : Nat) : ∃ j, j ≠ i ∧ IsLeaf split j := by
  have h2 : 2 ≤ 2 ^ h := by
    calc 2 = 2 ^ 1 := rfl
      _ ≤ 2 ^ h := Nat.pow_le_pow_right (by norm_num) hh
  have := (C07_prunable split h hh h64 hv).1
  rw [gather_at0 (by rw [hv.length]; omega)] at this
  obtain ⟨k, hk⟩ := this.1 (by simpa using hroot)
  by_cases e : 2 * k = i
  · exact ⟨2 * k + 1, by omega, hk.2.2⟩
  · exact ⟨2 * k, e, hk.2.1⟩

theorem TreeInv.minpts_le (hc : c.OK) (hi : TreeInv c var split idx aff) {m : Nat}
    (hm : c.m = some m) (hroot : at0 split 1 ≠ 0) {i : Nat} (hl : IsLeaf split i) :
    m ≤ idx.count i ∧ idx.count i + m ≤ c.n := by
  obtain ⟨j, hne, hj⟩ := exists_other_leaf hc.hh hc.h64 hi.valid hroot i
  have h1 := hi.minpts m hm hroot i hl
  have h2 := hi.minpts m hm hroot j hj
  have h3 := count_add_le (l := idx) hne.symm
  rw [hi.idx_len] at h3
  omega

/-- decision nodes of a grown tree -/
theorem numDecisions_grown {h : Nat} {var' split' : List Nat} {i : Nat} (hv : ValidSplit h split)
    (hv' : ValidSplit h split') (hg : Grown h var split var' split' i) :
    numDecisions split' = numDecisions split + 1 := by
  unfold numDecisions
  have hset : {k | IsDecision split' k} = insert i {k | IsDecision split k} := by
    ext k
    simp only [Set.mem_insert_iff, Set.mem_ofPred_eq, hv'.isDecision_iff, hv.isDecision_iff]
    by_cases e : k = i
    · simp only [e, true_or, iff_true]; exact hg.decision.2
    · rw [hg.same_split k e]; simp [e]
  have hfin : {k | IsDecision split k}.Finite := by
    apply Set.Finite.subset (Finset.finite_toSet (Finset.range (2 ^ h)))
    intro k hk
    have : IsDecision split k := hk
    simpa using this.lt hv.length
  rw [hset, Set.ncard_insert_of_notMem _ hfin]
  intro hmem
  exact hmem.2 hg.leaf.2

end Bartz
