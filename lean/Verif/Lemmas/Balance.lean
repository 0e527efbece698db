import Verif.Lemmas.Proposal
import Verif.Props.Exact
/-! # A tree and the same tree with a leaf grown: counts, prior and likelihood -/

set_option autoImplicit false

namespace Bartz
open Jax Spec

theorem ext_at0 {a b : List Nat} (hl : a.length = b.length) (h : ∀ k, at0 a k = at0 b k) : a = b := by
  apply List.ext_getElem hl
  intro k h1 h2
  have := h k
  unfold at0 at this
  rwa [List.getD_eq_getElem _ _ h1, List.getD_eq_getElem _ _ h2] at this

section
variable {h i : Nat} {va1 sp1 va2 sp2 : List Nat} (hv1 : ValidSplit h sp1) (hv2 : ValidSplit h sp2)
  (hg : Grown h va1 sp1 va2 sp2 i)
include hv1 hv2 hg

theorem _root_.Spec.Grown.split2 : sp2 = setDrop sp1 i (at0 sp2 i) := by
  apply ext_at0
  · unfold setDrop; rw [List.length_set, hv1.length, hv2.length]
  · intro k
    rw [at0_grow hv1 hg.not_bottom]
    by_cases e : i = k
    · rw [if_pos e, e]
    · rw [if_neg e, hg.same_split k (fun e' => e e'.symm)]

theorem _root_.Spec.Grown.parent : IsLeafParent sp2 i := ⟨hg.decision, hg.left, hg.right⟩

theorem _root_.Spec.Grown.split1 : sp1 = setDrop sp2 i 0 := by
  apply ext_at0
  · unfold setDrop; rw [List.length_set, hv1.length, hv2.length]
  · intro k
    rw [at0_prune hv2 (hg.parent hv1 hv2)]
    by_cases e : i = k
    · rw [if_pos e, ← e]; exact hg.leaf.2
    · rw [if_neg e, hg.same_split k (fun e' => e e'.symm)]

theorem _root_.Spec.Grown.isLeaf (k : Nat) : IsLeaf sp2 k ↔ (IsLeaf sp1 k ∧ k ≠ i) ∨ k = 2 * i ∨ k = 2 * i + 1 := by
  rw [hg.split2 hv1 hv2]
  exact isLeaf_grow hv1 hg.leaf hg.not_bottom (by have := hg.decision.2; omega)

theorem _root_.Spec.Grown.isDecision (k : Nat) : IsDecision sp2 k ↔ IsDecision sp1 k ∨ k = i := by
  rw [hg.split2 hv1 hv2]
  exact isDecision_grow hv1 hg.leaf hg.not_bottom (by have := hg.decision.2; omega)

theorem _root_.Spec.Grown.falls {x : List Nat} {k : Nat} (hf : FallsInto x va1 sp1 k) :
    FallsInto x va2 sp2 (if k = i then
      2 * i + (if at0 sp2 i ≤ coord x (at0 va2 i) then 1 else 0) else k) := by
  have := fallsInto_grow hv1 hg.leaf hg.not_bottom (s := at0 sp2 i)
    (by have := hg.decision.2; omega) hg.same_var hf
  rw [← hg.split2 hv1 hv2] at this
  exact this

theorem _root_.Spec.Grown.interval {k v R : Nat} (hn : IsNode sp1 k) :
    interval va2 sp2 v R k = interval va1 sp1 v R k :=
  interval_congr hn fun j hj => ⟨hg.same_var j hj, hg.same_split j
    (fun e => hj.2 (e ▸ hg.leaf.2))⟩

theorem _root_.Spec.Grown.valueReaches {k v x : Nat} (hn : IsNode sp1 k) :
    ValueReaches v x va2 sp2 k ↔ ValueReaches v x va1 sp1 k := by
  have key1 := valueReaches_iff_interval (var := va1) (split := sp1) (v := v) (R := x + 1) (a := x)
    hn.pos
  have key2 := valueReaches_iff_interval (var := va2) (split := sp2) (v := v) (R := x + 1) (a := x)
    hn.pos
  rw [hg.interval hv1 hv2 hn] at key2
  constructor
  · intro h1; exact (key1.2 (key2.1 ⟨h1, by omega⟩)).1
  · intro h1; exact (key2.2 (key1.1 ⟨h1, by omega⟩)).1

theorem _root_.Spec.Grown.availVars (sb : Nat) (ms : List Nat) {k : Nat} (hn : IsNode sp1 k) :
    availVars sb ms va2 sp2 k = availVars sb ms va1 sp1 k := by
  unfold Spec.availVars HasSplit Miscounted Overflows
  simp only [hg.valueReaches hv1 hv2 hn]

theorem _root_.Spec.Grown.availSplits (ms : List Nat) {k v : Nat} (hn : IsNode sp1 k) :
    availSplits ms va2 sp2 k v = availSplits ms va1 sp1 k v := by
  unfold Spec.availSplits NonRedundant
  simp only [hg.valueReaches hv1 hv2 hn]


omit hv1 hv2 hg in
/-- products that differ only at a node and its children -/
theorem prod_three {N i : Nat} {f1 f2 : Nat → ℝ} (hi : 1 ≤ i) (hN : 2 * i + 1 < N)
    (hf : ∀ k, k ≠ i → k ≠ 2 * i → k ≠ 2 * i + 1 → f2 k = f1 k) :
    (∏ k ∈ Finset.range N, f2 k) * (f1 i * f1 (2 * i) * f1 (2 * i + 1)) =
      (∏ k ∈ Finset.range N, f1 k) * (f2 i * f2 (2 * i) * f2 (2 * i + 1)) := by
  have hsub : ({i, 2 * i, 2 * i + 1} : Finset Nat) ⊆ Finset.range N := by
    intro k hk
    simp only [Finset.mem_insert, Finset.mem_singleton] at hk
    rw [Finset.mem_range]; omega
  have h3 : ∀ f : Nat → ℝ, ∏ k ∈ ({i, 2 * i, 2 * i + 1} : Finset Nat), f k =
      f i * f (2 * i) * f (2 * i + 1) := by
    intro f
    rw [Finset.prod_insert (by simp; omega), Finset.prod_insert (by simp), Finset.prod_singleton]
    ring
  rw [← Finset.prod_sdiff hsub, ← Finset.prod_sdiff (f := f1) hsub, h3, h3]
  have : ∏ k ∈ Finset.range N \ {i, 2 * i, 2 * i + 1}, f2 k =
      ∏ k ∈ Finset.range N \ {i, 2 * i, 2 * i + 1}, f1 k := by
    apply Finset.prod_congr rfl
    intro k hk
    simp only [Finset.mem_sdiff, Finset.mem_insert, Finset.mem_singleton, not_or] at hk
    exact hf k hk.2.1 hk.2.2.1 hk.2.2.2
  rw [this]; ring

omit hv1 hv2 hg in
theorem leaf_not_decision {split : List Nat} {k : Nat} (hl : IsLeaf split k) : ¬ IsDecision split k :=
  fun hd => hd.2 hl.2

theorem _root_.Spec.Grown.child_not_node : ¬ IsNode sp1 (2 * i) ∧ ¬ IsNode sp1 (2 * i + 1) := by
  constructor
  · intro h'; exact (not_leaf_child hv1 hg.leaf h').1 rfl
  · intro h'; exact (not_leaf_child hv1 hg.leaf h').2 rfl

omit hv1 hv2 hg in
theorem log2_child {i : Nat} (hi : 1 ≤ i) : Nat.log2 (2 * i) = Nat.log2 i + 1 ∧
    Nat.log2 (2 * i + 1) = Nat.log2 i + 1 := by
  constructor
  · rw [log2_half (i := 2 * i) (by omega)]; congr 2; omega
  · rw [log2_half (i := 2 * i + 1) (by omega)]; congr 2; omega

theorem shapePrior_grown (p : List ℝ) (hd : 1 - p.getD (Nat.log2 i) 0 ≠ 0) :
    shapePrior p sp2 = shapePrior p sp1 * (p.getD (Nat.log2 i) 0 * (1 - p.getD (Nat.log2 i + 1) 0) *
      (1 - p.getD (Nat.log2 i + 1) 0) / (1 - p.getD (Nat.log2 i) 0)) := by
  have hpos := hg.leaf.1.pos
  have hnb := hg.not_bottom
  obtain ⟨hc1, hc2⟩ := hg.child_not_node hv1 hv2
  obtain ⟨hl1, hl2⟩ := log2_child hpos
  have hoff : ∀ k, k ≠ i → k ≠ 2 * i → k ≠ 2 * i + 1 → nodeProb p sp2 k = nodeProb p sp1 k := by
    intro k h1 h2 h3
    unfold nodeProb
    have hd : IsDecision sp2 k ↔ IsDecision sp1 k := (hg.isDecision hv1 hv2 k).trans
      ⟨fun h => h.resolve_right h1, Or.inl⟩
    have hl : IsLeaf sp2 k ↔ IsLeaf sp1 k := (hg.isLeaf hv1 hv2 k).trans
      ⟨fun h => (h.resolve_right (by omega)).1, fun h => Or.inl ⟨h, h1⟩⟩
    by_cases e : IsDecision sp1 k
    · rw [if_pos e, if_pos (hd.2 e)]
    · rw [if_neg e, if_neg (fun h => e (hd.1 h))]
      by_cases e' : IsLeaf sp1 k
      · rw [if_pos e', if_pos (hl.2 e')]
      · rw [if_neg e', if_neg (fun h => e' (hl.1 h))]
  have hthree := prod_three (N := 2 * 2 ^ h) (f1 := nodeProb p sp1) (f2 := nodeProb p sp2) hpos
    (by omega) hoff
  have e1 : nodeProb p sp1 i = 1 - p.getD (Nat.log2 i) 0 := by
    unfold nodeProb; rw [if_neg (leaf_not_decision hg.leaf), if_pos hg.leaf]
  have e2 : nodeProb p sp1 (2 * i) = 1 := by
    unfold nodeProb; rw [if_neg (fun h => hc1 h.1), if_neg (fun h => hc1 h.1)]
  have e3 : nodeProb p sp1 (2 * i + 1) = 1 := by
    unfold nodeProb; rw [if_neg (fun h => hc2 h.1), if_neg (fun h => hc2 h.1)]
  have e4 : nodeProb p sp2 i = p.getD (Nat.log2 i) 0 := by
    unfold nodeProb; rw [if_pos hg.decision]
  have e5 : nodeProb p sp2 (2 * i) = 1 - p.getD (Nat.log2 i + 1) 0 := by
    unfold nodeProb; rw [if_neg (leaf_not_decision hg.left), if_pos hg.left, hl1]
  have e6 : nodeProb p sp2 (2 * i + 1) = 1 - p.getD (Nat.log2 i + 1) 0 := by
    unfold nodeProb; rw [if_neg (leaf_not_decision hg.right), if_pos hg.right, hl2]
  rw [e1, e2, e3, e4, e5, e6] at hthree
  unfold shapePrior
  rw [hv1.length, hv2.length, ← mul_div_assoc, eq_div_iff hd]
  linarith

theorem rulesPrior_grown (sb : Nat) (ms : List Nat) :
    rulesPrior sb ms va2 sp2 = rulesPrior sb ms va1 sp1 *
      (1 / ((availVars sb ms va1 sp1 i).ncard : ℝ) *
        (1 / ((availSplits ms va1 sp1 i (at0 va2 i)).ncard : ℝ))) := by
  classical
  have hpos := hg.leaf.1.pos
  have hnb := hg.not_bottom
  obtain ⟨hc1, hc2⟩ := hg.child_not_node hv1 hv2
  set f1 : Nat → ℝ := fun k => if IsDecision sp1 k then ruleProb sb ms va1 sp1 k else 1 with hf1
  set f2 : Nat → ℝ := fun k => if IsDecision sp2 k then ruleProb sb ms va2 sp2 k else 1 with hf2
  have hoff : ∀ k, k ≠ i → k ≠ 2 * i → k ≠ 2 * i + 1 → f2 k = f1 k := by
    intro k h1 h2 h3
    simp only [hf1, hf2]
    by_cases hd : IsDecision sp1 k
    · rw [if_pos ((hg.isDecision hv1 hv2 k).2 (Or.inl hd)), if_pos hd]
      unfold ruleProb
      rw [hg.availVars hv1 hv2 sb ms hd.1, hg.availSplits hv1 hv2 ms hd.1, hg.same_var k hd]
    · rw [if_neg (fun h => ((hg.isDecision hv1 hv2 k).1 h).elim hd h1), if_neg hd]
  have hthree := prod_three (N := 2 * 2 ^ h) hpos (by omega) hoff
  have e1 : f1 i = 1 := by simp only [hf1]; rw [if_neg (leaf_not_decision hg.leaf)]
  have e2 : f1 (2 * i) = 1 := by simp only [hf1]; rw [if_neg (fun h => hc1 h.1)]
  have e3 : f1 (2 * i + 1) = 1 := by simp only [hf1]; rw [if_neg (fun h => hc2 h.1)]
  have e4 : f2 i = 1 / ((availVars sb ms va1 sp1 i).ncard : ℝ) *
        (1 / ((availSplits ms va1 sp1 i (at0 va2 i)).ncard : ℝ)) := by
    simp only [hf2]; rw [if_pos hg.decision]
    unfold ruleProb
    rw [hg.availVars hv1 hv2 sb ms hg.leaf.1, hg.availSplits hv1 hv2 ms hg.leaf.1]
  have e5 : f2 (2 * i) = 1 := by simp only [hf2]; rw [if_neg (leaf_not_decision hg.left)]
  have e6 : f2 (2 * i + 1) = 1 := by simp only [hf2]; rw [if_neg (leaf_not_decision hg.right)]
  rw [e1, e2, e3, e4, e5, e6] at hthree
  unfold rulesPrior
  rw [hv1.length, hv2.length]
  have := hthree
  simp only [mul_one] at this
  convert this using 2

omit hv1 hv2 hg in
theorem leafMarginal_perm (tau s : ℝ) {l l' : List ℝ} (hp : l.Perm l') :
    leafMarginal tau s l = leafMarginal tau s l' := by
  unfold leafMarginal leafJoint
  congr 1
  funext mu
  rw [(hp.map fun x => normalPdf mu s x).prod_eq]

/-- the leaf data of the other leaves does not change -/
theorem _root_.Spec.Grown.falls_iff (h64 : h < 64) (hva1 : va1.length = 2 ^ h)
    (hva2 : va2.length = 2 ^ h) {x : List Nat} {k : Nat} (h1 : k ≠ i) (h2 : k ≠ 2 * i)
    (h3 : k ≠ 2 * i + 1) : FallsInto x va2 sp2 k ↔ FallsInto x va1 sp1 k := by
  obtain ⟨j, hj⟩ : ∃ j, FallsInto x va1 sp1 j := ⟨_, traverse_fallsInto h64 hva1 hv1.length⟩
  have hj2 := hg.falls hv1 hv2 hj
  have u1 : ∀ k, FallsInto x va1 sp1 k → j = k := fun k hk =>
    fallsInto_unique h64 hva1 hv1.length hj hk
  have u2 : ∀ k, FallsInto x va2 sp2 k → _ = k := fun k hk =>
    fallsInto_unique h64 hva2 hv2.length hj2 hk
  constructor
  · intro hk
    have := u2 k hk
    by_cases e : j = i
    · rw [if_pos e] at this; split_ifs at this <;> omega
    · rw [if_neg e] at this; rw [← this]; exact hj
  · intro hk
    have := u1 k hk
    rw [if_neg (by omega), this] at hj2
    exact hj2

theorem _root_.Spec.Grown.falls_node (h64 : h < 64) (hva1 : va1.length = 2 ^ h)
    (hva2 : va2.length = 2 ^ h) {x : List Nat} :
    (FallsInto x va1 sp1 i ↔ FallsInto x va2 sp2 (2 * i) ∨ FallsInto x va2 sp2 (2 * i + 1)) ∧
    ¬ (FallsInto x va2 sp2 (2 * i) ∧ FallsInto x va2 sp2 (2 * i + 1)) := by
  have hpos := hg.leaf.1.pos
  obtain ⟨j, hj⟩ : ∃ j, FallsInto x va1 sp1 j := ⟨_, traverse_fallsInto h64 hva1 hv1.length⟩
  have hj2 := hg.falls hv1 hv2 hj
  have u1 : ∀ k, FallsInto x va1 sp1 k → j = k := fun k hk =>
    fallsInto_unique h64 hva1 hv1.length hj hk
  have u2 : ∀ k, FallsInto x va2 sp2 k → _ = k := fun k hk =>
    fallsInto_unique h64 hva2 hv2.length hj2 hk
  have hnc := not_leaf_child hv1 hg.leaf hj.1.1
  refine ⟨⟨fun hk => ?_, ?_⟩, fun ⟨h1, h2⟩ => by have := u2 _ h1; have := u2 _ h2; omega⟩
  · rw [if_pos (u1 i hk)] at hj2
    split_ifs at hj2
    · exact Or.inr hj2
    · exact Or.inl hj2
  · rintro (hk | hk)
    · have := u2 _ hk
      by_cases e : j = i
      · rw [← e]; exact hj
      · rw [if_neg e] at this; omega
    · have := u2 _ hk
      by_cases e : j = i
      · rw [← e]; exact hj
      · rw [if_neg e] at this; omega

theorem leafData_perm (h64 : h < 64) (hva1 : va1.length = 2 ^ h)
    (hva2 : va2.length = 2 ^ h) (X : List (List Nat)) (n : Nat) (r : Nat → ℝ) :
    (leafData X n va2 sp2 r (2 * i) ++ leafData X n va2 sp2 r (2 * i + 1)).Perm
      (leafData X n va1 sp1 r i) := by
  classical
  unfold leafData
  rw [← List.map_append]
  apply List.Perm.map
  have hn := fun j => hg.falls_node hv1 hv2 h64 hva1 hva2 (x := point X j)
  set l := (List.range n).filter fun j => decide (FallsInto (point X j) va1 sp1 i) with hl
  have e1 : ((List.range n).filter fun j => decide (FallsInto (point X j) va2 sp2 (2 * i))) =
      l.filter fun j => decide (FallsInto (point X j) va2 sp2 (2 * i)) := by
    rw [hl, List.filter_filter]
    apply List.filter_congr
    intro j _
    have := (hn j).1
    by_cases e : FallsInto (point X j) va2 sp2 (2 * i) <;> simp [e, this]
  have e2 : ((List.range n).filter fun j => decide (FallsInto (point X j) va2 sp2 (2 * i + 1))) =
      l.filter fun j => !decide (FallsInto (point X j) va2 sp2 (2 * i)) := by
    rw [hl, List.filter_filter]
    apply List.filter_congr
    intro j _
    have h1 := (hn j).1
    have h2 := (hn j).2
    by_cases e : FallsInto (point X j) va2 sp2 (2 * i)
    · have : ¬ FallsInto (point X j) va2 sp2 (2 * i + 1) := fun e' => h2 ⟨e, e'⟩
      simp [e, this]
    · simp [e, h1]
  have := List.filter_append_perm (fun j => decide (FallsInto (point X j) va2 sp2 (2 * i))) l
  convert (e1 ▸ e2 ▸ this) using 2

theorem treeLikelihood_grown (h64 : h < 64) (hva1 : va1.length = 2 ^ h)
    (hva2 : va2.length = 2 ^ h) {tau s2 : ℝ} (X : List (List Nat)) (n : Nat)
    (r : Nat → ℝ) :
    treeLikelihood tau s2 X n r va2 sp2 * leafMarginal tau s2 (leafData X n va1 sp1 r i) =
      treeLikelihood tau s2 X n r va1 sp1 *
      (leafMarginal tau s2 (leafData X n va2 sp2 r (2 * i)) *
      leafMarginal tau s2 (leafData X n va2 sp2 r (2 * i + 1))) := by
  classical
  have hpos := hg.leaf.1.pos
  have hnb := hg.not_bottom
  obtain ⟨hc1, hc2⟩ := hg.child_not_node hv1 hv2
  set f1 : Nat → ℝ := fun k => if IsLeaf sp1 k then leafMarginal tau s2 (leafData X n va1 sp1 r k)
    else 1 with hf1
  set f2 : Nat → ℝ := fun k => if IsLeaf sp2 k then leafMarginal tau s2 (leafData X n va2 sp2 r k)
    else 1 with hf2
  have hoff : ∀ k, k ≠ i → k ≠ 2 * i → k ≠ 2 * i + 1 → f2 k = f1 k := by
    intro k h1 h2 h3
    have hiff : IsLeaf sp2 k ↔ IsLeaf sp1 k := (hg.isLeaf hv1 hv2 k).trans
      ⟨fun h => (h.resolve_right (by omega)).1, fun h => Or.inl ⟨h, h1⟩⟩
    have hdat : leafData X n va2 sp2 r k = leafData X n va1 sp1 r k := by
      unfold leafData
      congr 1
      apply List.filter_congr
      intro j _
      exact decide_eq_decide.2 (hg.falls_iff hv1 hv2 h64 hva1 hva2 h1 h2 h3)
    simp only [hf1, hf2, hdat]
    by_cases e : IsLeaf sp1 k
    · rw [if_pos e, if_pos (hiff.2 e)]
    · rw [if_neg e, if_neg (fun h => e (hiff.1 h))]
  have hthree := prod_three (N := 2 * 2 ^ h) hpos (by omega) hoff
  have e1 : f1 i = leafMarginal tau s2 (leafData X n va1 sp1 r i) := by
    simp only [hf1]; rw [if_pos hg.leaf]
  have e2 : f1 (2 * i) = 1 := by simp only [hf1]; rw [if_neg (fun h => hc1 h.1)]
  have e3 : f1 (2 * i + 1) = 1 := by simp only [hf1]; rw [if_neg (fun h => hc2 h.1)]
  have e4 : f2 i = 1 := by simp only [hf2]; rw [if_neg (fun h => hg.decision.2 h.2)]
  have e5 : f2 (2 * i) = leafMarginal tau s2 (leafData X n va2 sp2 r (2 * i)) := by
    simp only [hf2]; rw [if_pos hg.left]
  have e6 : f2 (2 * i + 1) = leafMarginal tau s2 (leafData X n va2 sp2 r (2 * i + 1)) := by
    simp only [hf2]; rw [if_pos hg.right]
  rw [e1, e2, e3, e4, e5, e6] at hthree
  unfold treeLikelihood
  rw [hv1.length, hv2.length]
  simp only [mul_one, one_mul] at hthree
  convert hthree using 2

end
end Bartz
