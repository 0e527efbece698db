import Verif.Spec.Kernel32
import Verif.Lemmas.KernelEvent
/-! # Probabilities of growing a tree and of going back in single precision -/

set_option autoImplicit false

namespace Bartz
open Jax Spec

section
variable {K K' : Type} [KeyLike K] [KeyLike K'] [P : Binary32.Platform] {a : InitArgs Binary32} {s1 s2 : State Binary32} {t i : Nat} {p : List ℝ}

omit P in
theorem ncard_prunable {h : Nat} {split : List Nat} (h64 : h < 64) (hv : ValidSplit h split) :
    {j | IsLeafParent split j}.ncard = countNonzero (is_leaves_parent split) := by
  have hC := fun j => C05_is_leaves_parent split h h64 hv j
  rw [countNonzero_eq_card, ← Set.ncard_coe_finset]
  congr 1
  ext j
  rw [Set.mem_ofPred_eq, Finset.mem_coe, Finset.mem_filter, Finset.mem_range, ← (hC j).2]
  refine ⟨fun h' => ⟨?_, h'⟩, fun h' => h'.2⟩
  by_contra hc
  rw [List.getD_eq_default _ _ (by simpa using hc)] at h'
  exact Bool.false_ne_true h'

omit P in
theorem score_add {X Y : Binary32} {x r A B δ β : ℝ} {h : Nat} (hh : h ≤ 16) (hδ : 0 ≤ δ) (hδ1 : δ ≤ 1) (hβ : 0 ≤ β) (hX : HasValue X x) (hY : HasValue Y r)
    (hx : |x - A| ≤ (2 ^ h + 11) / 2 ^ 23 + 72 * δ) (hr : |r - B| ≤ β) (hA : |A| ≤ 70) (hB : |B| + β ≤ 2 ^ 100) :
    ∃ z, HasValue (X + Y) z ∧ |z - (A + B)| ≤ scoreError h δ β |B| := by
  have hpow : (2 : ℝ) ^ h ≤ 2 ^ 16 := pow_le_pow_right₀ (by norm_num) hh
  have he : 0 ≤ ((2 : ℝ) ^ h + 11) / 2 ^ 23 := by positivity
  have he1 : ((2 : ℝ) ^ h + 11) / 2 ^ 23 ≤ 1 := by
    rw [div_le_one (by positivity)]
    linarith
  obtain ⟨z, z1, z2⟩ := add_near hX hY hx hr hA le_rfl (by
    have : (2 : ℝ) ^ 100 + 200 ≤ 2 ^ 127 := by norm_num
    linarith)
  refine ⟨z, z1, z2.trans ?_⟩
  unfold scoreError
  have h3 : (70 + |B| + (((2 : ℝ) ^ h + 11) / 2 ^ 23 + 72 * δ) + β) / 2 ^ 24 ≤ ((2 ^ h + 11) / 2 ^ 23 + 72 * δ + β) + (70 + |B|) / 2 ^ 24 := by
    rw [show (70 + |B| + (((2 : ℝ) ^ h + 11) / 2 ^ 23 + 72 * δ) + β) / 2 ^ 24 =
      ((2 ^ h + 11) / 2 ^ 23 + 72 * δ + β) / 2 ^ 24 + (70 + |B|) / 2 ^ 24 by ring]
    refine add_le_add_left (div_le_self (by positivity) (by norm_num)) _
  linarith

section
variable (ha : ValidArgs a) (h1 : StateInv a s1) (h2 : StateInv a s2) (ht : t < a.num_trees)
  (hg : Grown a.p_nonterminal.length (s1.var_trees.getD t []) (s1.split_trees.getD t []) (s2.var_trees.getD t []) (s2.split_trees.getD t []) i)
include ha h1 h2 ht hg

theorem ratio32_pos (hp : Probs a p) : 0 < ratio32 a p s1 s2 t i := by
  have hgi := node_growable ha h1 h2 ht hg
  obtain ⟨-, b2⟩ := weightSum_bounds (p := p) (h := a.p_nonterminal.length)
    (gl := growable_leaves (s1.split_trees.getD t []) (s1.affluence_trees.map fun x => x.getD t []))
    (fun d => (hp.bounds d).1) (fun d => (hp.bounds d).2) hp.depth
  have b3 := b2 i hg.not_bottom hgi
  have hlog : Nat.log2 i < a.p_nonterminal.length := (Nat.log2_lt (by have := hg.leaf.1.pos; omega)).2 hg.not_bottom
  have hq := hp.range _ hlog
  have hq0 : 0 < p.getD (Nat.log2 i) 0 := lt_of_lt_of_le (by positivity) hq.1
  have hlt : ∀ d, p.getD d 0 < 1 := by
    intro d
    rcases Nat.lt_or_ge d a.p_nonterminal.length with h | h
    · have := (hp.range d h).2
      exact lt_of_le_of_lt this (by norm_num)
    · rw [List.getD_eq_default _ _ (by rw [hp.length]; exact h)]
      norm_num
  have l1 := sub_pos.2 (hlt (Nat.log2 i))
  have l2 := sub_pos.2 (hlt (Nat.log2 i + 1))
  have hm : (0 : ℝ) < countNonzero (is_leaves_parent (s2.split_trees.getD t [])) := by
    exact_mod_cast (prunable_bounds ha h1 h2 ht hg).1
  have hS := lt_of_lt_of_le hq0 b3
  have c1 : ∀ c : Prop, [Decidable c] → (0 : ℝ) < if c then 1 / 2 else 1 := by
    intro c _
    split_ifs <;> norm_num
  have c2 := c1 (i ≠ 1)
  have c3 := c1 (countNonzero (growable_leaves (s2.split_trees.getD t []) (s2.affluence_trees.map fun x => x.getD t [])) ≠ 0)
  have hsr : 0 < shapeRatio p i := by
    unfold shapeRatio
    positivity
  unfold ratio32 trans32
  exact mul_pos (div_pos hsr (mul_pos (mul_pos c2 (div_pos hq0 hS)) hm)) c3

theorem enough_points : EnoughPoints a (setDrop (s1.var_trees.getD t []) i (at0 (s2.var_trees.getD t []) i))
    (setDrop (s1.split_trees.getD t []) i (at0 (s2.split_trees.getD t []) i)) i ∧
    EnoughPoints a (s2.var_trees.getD t []) (s2.split_trees.getD t []) i := by
  have hT2 := h2.tree t ht
  have hroot := root2 (cfgOf_ok ha) (h1.tree t ht) hT2 hg
  have hm : ∀ m, a.min_points_per_leaf = some m → m ≤ (s2.leaf_indices.getD t []).count (2 * i) ∧
      m ≤ (s2.leaf_indices.getD t []).count (2 * i + 1) := fun m hm =>
    ⟨hT2.minpts m hm hroot _ hg.left, hT2.minpts m hm hroot _ hg.right⟩
  constructor
  · intro m hm'
    rw [grown_points ha h1 h2 ht hg, grown_points ha h1 h2 ht hg]
    exact hm m hm'
  · intro m hm'
    have := hm m hm'
    rw [hT2.count_eq (cfgOf_ok ha), hT2.count_eq (cfgOf_ok ha)] at this
    exact this

/-- the intended probability of growing -/
theorem grow_intended (hcut : ∀ k, IsDecision (s2.split_trees.getD t []) k → at0 (s2.var_trees.getD t []) k < a.max_split.length →
      1 ≤ at0 a.max_split (at0 (s2.var_trees.getD t []) k)) (hvar : at0 (s2.var_trees.getD t []) i < a.max_split.length) (ℓ : ℝ)
    {E : Nat → Nat → Nat → Prop} {D : Nat → Prop}
    (hE : ∀ i' v c, E i' v c ↔ i' = i ∧ v = at0 (s2.var_trees.getD t []) i ∧ c = at0 (s2.split_trees.getD t []) i) (hD : ∀ j, ¬ D j) :
    moveExp (fun d => p.getD d 0) ((Finset.range (2 ^ a.p_nonterminal.length)).filter fun i => (growable_leaves (s1.split_trees.getD t [])
        (s1.affluence_trees.map fun x => x.getD t [])).getD i false = true) a.split_bits a.max_split (s1.var_trees.getD t [])
        (s1.split_trees.getD t [])
      (open Classical in fun i' v c => if E i' v c ∧
        EnoughPoints a (setDrop (s1.var_trees.getD t []) i' v) (setDrop (s1.split_trees.getD t []) i' c) i' then min 1 (Real.exp ℓ) else 0)
      (open Classical in fun i => if D i ∧ EnoughPoints a (s1.var_trees.getD t []) (s1.split_trees.getD t []) i then min 1 (Real.exp 0) else 0) =
    (if i ≠ 1 then 1 / 2 else 1) * (p.getD (Nat.log2 i) 0 / weightSum p a.p_nonterminal.length (growable_leaves (s1.split_trees.getD t [])
        (s1.affluence_trees.map fun x => x.getD t []))) *
      (min 1 (Real.exp ℓ) * (1 / (availSplits a.max_split (s1.var_trees.getD t []) (s1.split_trees.getD t []) i
        (at0 (s2.var_trees.getD t []) i)).ncard) *
        (1 / (availVars a.split_bits a.max_split (s1.var_trees.getD t []) (s1.split_trees.getD t []) i).ncard)) := by
  classical
  have hT1 := h1.tree t ht
  have hT2 := h2.tree t ht
  have hgi := node_growable ha h1 h2 ht hg
  obtain ⟨r1, r2⟩ := rule_avail32 h2 ht hcut hg.decision hvar
  rw [hg.availVars hT1.valid hT2.valid _ _ hg.leaf.1] at r1
  rw [hg.availSplits hT1.valid hT2.valid _ hg.leaf.1] at r2
  have hG : i ∈ (Finset.range (2 ^ a.p_nonterminal.length)).filter fun i => (growable_leaves (s1.split_trees.getD t [])
        (s1.affluence_trees.map fun x => x.getD t [])).getD i false = true :=
    Finset.mem_filter.2 ⟨Finset.mem_range.2 hg.not_bottom, hgi⟩
  have hlp : (∃ j, IsLeafParent (s1.split_trees.getD t []) j) ↔ i ≠ 1 := by
    have h07 := (C07_prunable (s1.split_trees.getD t []) _ ha.depth_pos ha.depth_lt hT1.valid).1
    rw [gather_at0 (by rw [hT1.valid.length]; exact two_le_pow ha.depth_pos), bne_iff_ne] at h07
    rw [← h07]
    exact root1 (cfgOf_ok ha) hT1 hT2 hg
  have hex := growExp_single (q := fun d => p.getD d 0) (g := fun i' v c => if E i' v c ∧ EnoughPoints a (setDrop (s1.var_trees.getD t []) i' v)
      (setDrop (s1.split_trees.getD t []) i' c) i' then min 1 (Real.exp ℓ) else 0) hG r1 r2 fun i' v c hne => if_neg fun h0 => hne ((hE _ _ _).1 h0.1)
  rw [if_pos ⟨(hE _ _ _).2 ⟨rfl, rfl, rfl⟩, (enough_points ha h1 h2 ht hg).1⟩] at hex
  have h0 : avg {i | IsLeafParent (s1.split_trees.getD t []) i} (fun i => if D i ∧ EnoughPoints a (s1.var_trees.getD t [])
      (s1.split_trees.getD t []) i then min 1 (Real.exp 0) else 0) = 0 := avg_zero fun x => if_neg fun h0 => hD x h0.1
  unfold moveExp
  dsimp only
  rw [if_pos ⟨i, hG⟩, h0, hex]
  unfold weightSum
  by_cases e : i = 1
  · rw [if_neg (fun h => hlp.1 h e), if_neg (by simp [e]), one_mul]
  · rw [if_pos (hlp.2 e), if_pos e]
    ring

/-- the intended probability of pruning -/
theorem prune_intended (ℓ : ℝ) {E : Nat → Nat → Nat → Prop} {D : Nat → Prop} (hE : ∀ i' v c, ¬ E i' v c) (hD : ∀ j, D j ↔ j = i) :
    moveExp (fun d => p.getD d 0) ((Finset.range (2 ^ a.p_nonterminal.length)).filter fun i => (growable_leaves (s2.split_trees.getD t [])
        (s2.affluence_trees.map fun x => x.getD t [])).getD i false = true) a.split_bits a.max_split (s2.var_trees.getD t [])
        (s2.split_trees.getD t [])
      (open Classical in fun i' v c => if E i' v c ∧
        EnoughPoints a (setDrop (s2.var_trees.getD t []) i' v) (setDrop (s2.split_trees.getD t []) i' c) i' then min 1 (Real.exp 0) else 0)
      (open Classical in fun j => if D j ∧ EnoughPoints a (s2.var_trees.getD t []) (s2.split_trees.getD t []) j then min 1 (Real.exp ℓ) else 0) =
    (if countNonzero (growable_leaves (s2.split_trees.getD t []) (s2.affluence_trees.map fun x => x.getD t [])) ≠ 0 then 1 / 2 else 1) *
      (min 1 (Real.exp ℓ) * (1 / countNonzero (is_leaves_parent (s2.split_trees.getD t [])))) := by
  classical
  have hT1 := h1.tree t ht
  have hT2 := h2.tree t ht
  have hpar := hg.parent hT1.valid hT2.valid
  have h0 : growExp (fun d => p.getD d 0) ((Finset.range (2 ^ a.p_nonterminal.length)).filter fun i => (growable_leaves (s2.split_trees.getD t [])
        (s2.affluence_trees.map fun x => x.getD t [])).getD i false = true) a.split_bits a.max_split (s2.var_trees.getD t [])
        (s2.split_trees.getD t []) (fun i' v c => if E i' v c ∧
        EnoughPoints a (setDrop (s2.var_trees.getD t []) i' v) (setDrop (s2.split_trees.getD t []) i' c) i' then min 1 (Real.exp 0) else 0) = 0 :=
    growExp_zero fun _ _ _ => if_neg fun h0 => hE _ _ _ h0.1
  have havg := avg_single (S := {j | IsLeafParent (s2.split_trees.getD t []) j}) hpar (f := fun j => if D j ∧
    EnoughPoints a (s2.var_trees.getD t []) (s2.split_trees.getD t []) j then min 1 (Real.exp ℓ) else 0) fun x hx => if_neg fun h0 => hx ((hD _).1 h0.1)
  rw [if_pos ⟨(hD _).2 rfl, (enough_points ha h1 h2 ht hg).2⟩, ncard_prunable ha.depth_lt hT2.valid] at havg
  have hlg := length_growable hT2.valid.length hT2.aff_len
  have hG : ((Finset.range (2 ^ a.p_nonterminal.length)).filter fun i => (growable_leaves (s2.split_trees.getD t [])
        (s2.affluence_trees.map fun x => x.getD t [])).getD i false = true).Nonempty ↔
      countNonzero (growable_leaves (s2.split_trees.getD t []) (s2.affluence_trees.map fun x => x.getD t [])) ≠ 0 := by
    rw [← Nat.pos_iff_ne_zero, countNonzero_pos_iff, hlg]
    constructor
    · rintro ⟨j, hj⟩
      exact ⟨j, Finset.mem_range.1 (Finset.mem_filter.1 hj).1, (Finset.mem_filter.1 hj).2⟩
    · rintro ⟨j, hj1, hj2⟩
      exact ⟨j, Finset.mem_filter.2 ⟨Finset.mem_range.2 hj1, hj2⟩⟩
  unfold moveExp
  dsimp only
  have hex : ∃ j, IsLeafParent (s2.split_trees.getD t []) j := ⟨i, hpar⟩
  rw [h0, havg, if_pos hex]
  by_cases e : countNonzero (growable_leaves (s2.split_trees.getD t []) (s2.affluence_trees.map fun x => x.getD t [])) = 0
  · rw [if_neg (fun h => hG.1 h e), if_neg (not_not.2 e), one_mul]
  · rw [if_pos (hG.2 e), if_pos e]
    ring

end

end

end Bartz
