import Verif.Lemmas.Balance
/-! # The ratio of transition and prior probabilities computed by the code -/

set_option autoImplicit false

namespace Bartz
open Jax Spec

theorem ext_getD_bool {a b : List Bool} (hl : a.length = b.length)
    (h : ∀ k, a.getD k false = true ↔ b.getD k false = true) : a = b := by
  apply List.ext_getElem hl
  intro k h1 h2
  have := h k
  rw [List.getD_eq_getElem _ _ h1, List.getD_eq_getElem _ _ h2] at this
  exact Bool.eq_iff_iff.2 this

theorem fallsInto_congr {x var var' split : List Nat} {k : Nat}
    (hag : ∀ j, IsDecision split j → at0 var' j = at0 var j) :
    FallsInto x var' split k ↔ FallsInto x var split k :=
  ⟨fun hf => ⟨hf.1, reaches_var (fun j hj => (hag j hj).symm) hf.2⟩,
    fun hf => ⟨hf.1, reaches_var hag hf.2⟩⟩

theorem leafData_congr {X : List (List Nat)} {n : Nat} {var var' split : List Nat} {r r' : Nat → ℝ}
    (hag : ∀ j, IsDecision split j → at0 var' j = at0 var j) (hr : ∀ j, j < n → r' j = r j) (k : Nat) :
    leafData X n var' split r' k = leafData X n var split r k := by
  classical
  have e : ((List.range n).filter fun j => decide (FallsInto (point X j) var' split k)) =
      (List.range n).filter fun j => decide (FallsInto (point X j) var split k) := by
    apply List.filter_congr
    intro j _
    exact decide_eq_decide.2 (fallsInto_congr hag)
  have e' : leafData X n var' split r' k = ((List.range n).filter fun j =>
    decide (FallsInto (point X j) var' split k)).map r' := by unfold leafData; congr!
  have e'' : leafData X n var split r k = ((List.range n).filter fun j =>
    decide (FallsInto (point X j) var split k)).map r := by unfold leafData; congr!
  rw [e', e'', e]
  apply List.map_congr_left
  intro j hj
  exact hr j (List.mem_range.1 (List.mem_of_mem_filter hj))

section
variable {c : Cfg} {va1 sp1 idx1 va2 sp2 idx2 : List Nat} {aff1 aff2 : Option (List Bool)} {i : Nat}
  (hc : c.OK) (h1 : TreeInv c va1 sp1 idx1 aff1) (h2 : TreeInv c va2 sp2 idx2 aff2)
  (hg : Grown c.h va1 sp1 va2 sp2 i)
include hc h1 h2 hg

theorem grown_count {k : Nat} (e1 : k ≠ i) (e2 : k ≠ 2 * i) (e3 : k ≠ 2 * i + 1) :
    idx2.count k = idx1.count k := by
  rw [h1.count_eq hc, h2.count_eq hc]
  unfold pointsIn
  congr 1
  ext j
  simp only [Set.mem_ofPred_eq]
  exact and_congr_right fun _ => hg.falls_iff h1.valid h2.valid hc.h64 h1.var_len h2.var_len e1 e2 e3

theorem grown_count_node : idx1.count i = idx2.count (2 * i) + idx2.count (2 * i + 1) := by
  rw [count_eq_card, count_eq_card, count_eq_card, ← Finset.card_union_of_disjoint]
  · rw [h1.idx_len, h2.idx_len]
    congr 1
    ext j
    simp only [Finset.mem_filter, Finset.mem_range, Finset.mem_union]
    have key : ∀ j, j < c.n → (at0 idx1 j = i ↔ at0 idx2 j = 2 * i ∨ at0 idx2 j = 2 * i + 1) := by
      intro j hj
      have f1 := h1.falls j hj
      have f2 := h2.falls j hj
      have u1 : ∀ k, at0 idx1 j = k ↔ FallsInto (column c.X j) va1 sp1 k := fun k =>
        ⟨fun e => e ▸ f1, fun hk => fallsInto_unique hc.h64 h1.var_len h1.valid.length f1 hk⟩
      have u2 : ∀ k, at0 idx2 j = k ↔ FallsInto (column c.X j) va2 sp2 k := fun k =>
        ⟨fun e => e ▸ f2, fun hk => fallsInto_unique hc.h64 h2.var_len h2.valid.length f2 hk⟩
      rw [u1, u2, u2]
      exact (hg.falls_node h1.valid h2.valid hc.h64 h1.var_len h2.var_len).1
    constructor
    · rintro ⟨hj, e⟩
      rcases (key j hj).1 e with e | e
      · exact Or.inl ⟨hj, e⟩
      · exact Or.inr ⟨hj, e⟩
    · rintro (⟨hj, e⟩ | ⟨hj, e⟩)
      · exact ⟨hj, (key j hj).2 (Or.inl e)⟩
      · exact ⟨hj, (key j hj).2 (Or.inr e)⟩
  · rw [Finset.disjoint_left]
    intro k e1 e2
    simp at e1 e2
    omega

theorem root2 : at0 sp2 1 ≠ 0 := by
  have h07 := (C07_prunable sp2 c.h hc.hh hc.h64 h2.valid).1
  rw [gather_at0 (by rw [h2.valid.length]; exact two_le_pow hc.hh)] at h07
  simpa using h07.2 ⟨i, hg.parent h1.valid h2.valid⟩

theorem root1 : at0 sp1 1 ≠ 0 ↔ i ≠ 1 := by
  constructor
  · rintro h' rfl; exact h' hg.leaf.2
  · intro h'
    rw [← hg.same_split 1 (fun e => h' e.symm)]
    exact root2 hc h1 h2 hg

theorem growable_node : Growable c.h sp1 aff1 i := by
  refine ⟨hg.leaf, hg.not_bottom, fun x hx => ?_⟩
  have hs := h1.aff_some
  rw [hx] at hs
  obtain ⟨m, hm⟩ := Option.isSome_iff_exists.1 hs.symm
  rw [h1.aff_ok m x hm hx i hg.leaf hg.not_bottom, decide_eq_true_iff,
    grown_count_node hc h1 h2 hg]
  have hl := h2.minpts m hm (root2 hc h1 h2 hg) _ hg.left
  have hr := h2.minpts m hm (root2 hc h1 h2 hg) _ hg.right
  omega

theorem growable_other {k : Nat} (hk : k ≠ i) (hl : IsLeaf sp1 k) :
    Growable c.h sp1 aff1 k ↔ Growable c.h sp2 aff2 k := by
  have hl2 : IsLeaf sp2 k := (hg.isLeaf h1.valid h2.valid k).2 (Or.inl ⟨hl, hk⟩)
  have hnc := not_leaf_child h1.valid hg.leaf hl.1
  have hcnt := grown_count hc h1 h2 hg hk hnc.1 hnc.2
  have hs1 := h1.aff_some
  have hs2 := h2.aff_some
  constructor
  · rintro ⟨_, hb, ha⟩
    refine ⟨hl2, hb, fun x hx => ?_⟩
    rw [hx] at hs2
    obtain ⟨m, hm⟩ := Option.isSome_iff_exists.1 hs2.symm
    rw [hm] at hs1
    obtain ⟨x1, hx1⟩ := Option.isSome_iff_exists.1 hs1
    rw [h2.aff_ok m x hm hx k hl2 hb, hcnt, ← h1.aff_ok m x1 hm hx1 k hl hb]
    exact ha x1 hx1
  · rintro ⟨_, hb, ha⟩
    refine ⟨hl, hb, fun x hx => ?_⟩
    rw [hx] at hs1
    obtain ⟨m, hm⟩ := Option.isSome_iff_exists.1 hs1.symm
    rw [hm] at hs2
    obtain ⟨x2, hx2⟩ := Option.isSome_iff_exists.1 hs2
    rw [h1.aff_ok m x hm hx k hl hb, ← hcnt, ← h2.aff_ok m x2 hm hx2 k hl2 hb]
    exact ha x2 hx2

/-- the leaves that could be grown after pruning -/
theorem growable_pruned : growable_leaves (setDrop sp2 i 0) (aff2.map fun x => setDrop x i true) =
    growable_leaves sp1 aff1 := by
  have hal : AffLen c.h (aff2.map fun x => setDrop x i true) := by
    intro x hx
    cases ha2 : aff2 with
    | none => rw [ha2] at hx; simp at hx
    | some x2 =>
      rw [ha2] at hx
      simp only [Option.map_some, Option.some.injEq] at hx
      rw [← hx, length_setDrop]
      exact h2.aff_len x2 ha2
  rw [← hg.split1 h1.valid h2.valid]
  apply ext_getD_bool
  · rw [length_growable h1.valid.length hal, length_growable h1.valid.length h1.aff_len]
  · intro k
    rw [growable_iff h1.valid hc.hh hc.h64, growable_iff h1.valid hc.hh hc.h64]
    by_cases e : k = i
    · rw [e]
      refine iff_of_true ⟨hg.leaf, hg.not_bottom, fun x hx => ?_⟩ (growable_node hc h1 h2 hg)
      cases ha2 : aff2 with
      | none => rw [ha2] at hx; simp at hx
      | some x2 =>
        rw [ha2] at hx
        simp only [Option.map_some, Option.some.injEq] at hx
        rw [← hx, getD_setDrop, if_pos ⟨rfl, by rw [h2.aff_len x2 ha2]; exact hg.not_bottom⟩]
    · by_cases hl : IsLeaf sp1 k
      · rw [growable_other hc h1 h2 hg e hl]
        have hl2 : IsLeaf sp2 k := (hg.isLeaf h1.valid h2.valid k).2 (Or.inl ⟨hl, e⟩)
        unfold Growable
        refine ⟨fun ⟨_, hb, ha⟩ => ⟨hl2, hb, fun x hx => ?_⟩, fun ⟨_, hb, ha⟩ => ⟨hl, hb, fun x hx => ?_⟩⟩
        · have := ha (setDrop x i true) (by rw [hx]; rfl)
          rwa [getD_setDrop, if_neg (fun h' => e h'.1.symm)] at this
        · cases ha2 : aff2 with
          | none => rw [ha2] at hx; simp at hx
          | some x2 =>
            rw [ha2] at hx
            simp only [Option.map_some, Option.some.injEq] at hx
            rw [← hx, getD_setDrop, if_neg (fun h' => e h'.1.symm)]
            exact ha x2 ha2
      · exact iff_of_false (fun h' => hl h'.1) (fun h' => hl h'.1)

/-- the number of prunable nodes after growing -/
theorem prunable_grown : countNonzero (is_leaves_parent (setDrop sp1 i 1)) =
    countNonzero (is_leaves_parent sp2) := by
  have hv' : ValidSplit c.h (setDrop sp1 i 1) :=
    validSplit_grow h1.valid hg.leaf hg.not_bottom (by norm_num)
  have hl : ∀ k, IsLeaf (setDrop sp1 i 1) k ↔ IsLeaf sp2 k := fun k =>
    (isLeaf_grow h1.valid hg.leaf hg.not_bottom (by norm_num)).trans
      (hg.isLeaf h1.valid h2.valid k).symm
  have hd : ∀ k, IsDecision (setDrop sp1 i 1) k ↔ IsDecision sp2 k := fun k =>
    (isDecision_grow h1.valid hg.leaf hg.not_bottom (by norm_num)).trans
      (hg.isDecision h1.valid h2.valid k).symm
  congr 1
  apply ext_getD_bool
  · rw [length_is_leaves_parent, length_is_leaves_parent, hv'.length, h2.valid.length]
  · intro k
    rw [(C05_is_leaves_parent _ c.h hc.h64 hv' k).2, (C05_is_leaves_parent _ c.h hc.h64 h2.valid k).2]
    unfold IsLeafParent
    rw [hl, hl, hd]

/-- whether the grown tree can grow again -/
theorem grow_again (nl nr : Nat) (hnl : nl = idx2.count (2 * i))
    (hnr : nr = idx2.count (2 * i + 1)) :
    (decide (countNonzero (growable_leaves sp1 aff1) ≥ 2) || (match c.m with
      | none => decide (i < 2 ^ c.h / 2)
      | some m => decide (i < 2 ^ c.h / 2) && (decide (nl ≥ 2 * m) || decide (nr ≥ 2 * m)))) = true ↔
    countNonzero (growable_leaves sp2 aff2) ≠ 0 := by
  have hpos := hg.leaf.1.pos
  have hp2 : 2 ^ c.h / 2 * 2 = 2 ^ c.h := by
    obtain ⟨h', e⟩ : ∃ h', c.h = h' + 1 := ⟨c.h - 1, by have := hc.hh; omega⟩
    rw [e, pow_succ]; omega
  have hgi := growable_node hc h1 h2 hg
  have hg1 := fun k => growable_iff (i := k) (aff := aff1) h1.valid hc.hh hc.h64
  have hg2 := fun k => growable_iff (i := k) (aff := aff2) h2.valid hc.hh hc.h64
  have hlen1 := length_growable h1.valid.length h1.aff_len
  have hlen2 := length_growable h2.valid.length h2.aff_len
  rw [Bool.or_eq_true, decide_eq_true_iff, ← Nat.pos_iff_ne_zero, countNonzero_pos_iff]
  have hother : countNonzero (growable_leaves sp1 aff1) ≥ 2 ↔
      ∃ k, k ≠ i ∧ Growable c.h sp1 aff1 k := by
    rw [countNonzero_eq_card, ge_iff_le, Nat.succ_le_iff, Finset.one_lt_card]
    constructor
    · rintro ⟨x, hx, y, hy, hne⟩
      simp only [Finset.mem_filter, hg1] at hx hy
      by_cases e : x = i
      · exact ⟨y, fun e' => hne (e.trans e'.symm), hy.2⟩
      · exact ⟨x, e, hx.2⟩
    · rintro ⟨k, hk, hgk⟩
      refine ⟨k, ?_, i, ?_, hk⟩
      · simp only [Finset.mem_filter, Finset.mem_range, hg1]; exact ⟨by rw [hlen1]; exact hgk.2.1, hgk⟩
      · simp only [Finset.mem_filter, Finset.mem_range, hg1]; exact ⟨by rw [hlen1]; exact hgi.2.1, hgi⟩
  have hex : (∃ k, k < (growable_leaves sp2 aff2).length ∧
      (growable_leaves sp2 aff2).getD k false = true) ↔ ∃ k, Growable c.h sp2 aff2 k :=
    ⟨fun ⟨k, _, hk⟩ => ⟨k, (hg2 k).1 hk⟩, fun ⟨k, hk⟩ => ⟨k, by rw [hlen2]; exact hk.2.1, (hg2 k).2 hk⟩⟩
  rw [hex, hother]
  have hchild : ∀ k, k = 2 * i ∨ k = 2 * i + 1 → (Growable c.h sp2 aff2 k ↔
      k < 2 ^ c.h ∧ ∀ m, c.m = some m → 2 * m ≤ idx2.count k) := by
    intro k hk
    have hlk : IsLeaf sp2 k := by rcases hk with e | e <;> rw [e]; exacts [hg.left, hg.right]
    unfold Growable
    have hs2 := h2.aff_some
    constructor
    · rintro ⟨_, hb, ha⟩
      refine ⟨hb, fun m hm => ?_⟩
      rw [hm] at hs2
      obtain ⟨x2, hx2⟩ := Option.isSome_iff_exists.1 hs2
      have := ha x2 hx2
      rwa [h2.aff_ok m x2 hm hx2 k hlk hb, decide_eq_true_iff] at this
    · rintro ⟨hb, ha⟩
      refine ⟨hlk, hb, fun x hx => ?_⟩
      rw [hx] at hs2
      obtain ⟨m, hm⟩ := Option.isSome_iff_exists.1 hs2.symm
      rw [h2.aff_ok m x hm hx k hlk hb, decide_eq_true_iff]
      exact ha m hm
  have hnew : (match c.m with
      | none => decide (i < 2 ^ c.h / 2)
      | some m => decide (i < 2 ^ c.h / 2) && (decide (nl ≥ 2 * m) || decide (nr ≥ 2 * m))) = true ↔
      Growable c.h sp2 aff2 (2 * i) ∨ Growable c.h sp2 aff2 (2 * i + 1) := by
    rw [hchild _ (Or.inl rfl), hchild _ (Or.inr rfl), ← hnl, ← hnr]
    cases c.m with
    | none =>
      simp only [decide_eq_true_iff, reduceCtorEq, false_imp_iff, implies_true, and_true]
      omega
    | some m =>
      simp only [Bool.and_eq_true, Bool.or_eq_true, decide_eq_true_iff, Option.some.injEq,
        forall_eq', ge_iff_le]
      omega
  rw [hnew]
  constructor
  · rintro (⟨k, hk, hgk⟩ | h' | h')
    · exact ⟨k, (growable_other hc h1 h2 hg hk hgk.1).1 hgk⟩
    · exact ⟨_, h'⟩
    · exact ⟨_, h'⟩
  · rintro ⟨k, hgk⟩
    rcases (hg.isLeaf h1.valid h2.valid k).1 hgk.1 with ⟨hl, hne⟩ | e | e
    · exact Or.inl ⟨k, hne, (growable_other hc h1 h2 hg hne hl).2 hgk⟩
    · exact Or.inr (Or.inl (e ▸ hgk))
    · exact Or.inr (Or.inr (e ▸ hgk))

end
end Bartz
