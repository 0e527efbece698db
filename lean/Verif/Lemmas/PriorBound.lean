import Verif.Lemmas.PriorTree
/-! # Upper bound on the a priori probability of the decisions, with any settings -/

set_option autoImplicit false

namespace Bartz
open Jax Spec MeasureTheory ProbabilityTheory
open scoped ENNReal

section
variable {a : InitArgs ℝ} {T U : Rules} {m i : Nat}

/-- the subtree with root `i` -/
def InSub (i k : Nat) : Prop := ∃ d, k / 2 ^ d = i

theorem InSub.self (i : Nat) : InSub i i := ⟨0, by simp⟩

theorem InSub.left {k : Nat} (h : InSub i k) : InSub i (2 * k) := by
  obtain ⟨d, rfl⟩ := h
  refine ⟨d + 1, ?_⟩
  rw [pow_succ', ← Nat.div_div_eq_div_mul, show 2 * k / 2 = k by omega]

theorem InSub.right {k : Nat} (h : InSub i k) : InSub i (2 * k + 1) := by
  obtain ⟨d, rfl⟩ := h
  refine ⟨d + 1, ?_⟩
  rw [pow_succ', ← Nat.div_div_eq_div_mul, show (2 * k + 1) / 2 = k by omega]

theorem InSub.le {k : Nat} (h : InSub i k) : i ≤ k := by
  obtain ⟨d, rfl⟩ := h
  exact Nat.div_le_self _ _

/-- possible trees with decisions in the subtree of `i` only at nodes less than `m` -/
noncomputable def partTrees (a : InitArgs ℝ) (i m : Nat) : Finset Rules :=
  open Classical in (finite_possible a).toFinset.filter fun T => ∀ k, m ≤ k → InSub i k → at0 T.split k = 0

theorem mem_partTrees : T ∈ partTrees a i m ↔ PossibleTree a T ∧ ∀ k, m ≤ k → InSub i k → at0 T.split k = 0 := by
  classical
  unfold partTrees
  rw [Finset.mem_filter, Set.Finite.mem_toFinset]
  rfl

open Classical in
/-- product of the factors due to the nodes out of the subtree of `i` or less than `m` -/
noncomputable def partW (a : InitArgs ℝ) (i m : Nat) (T : Rules) : ℝ :=
  ∏ k ∈ (Finset.range (2 ^ a.p_nonterminal.length)).filter fun k => m ≤ k → ¬ InSub i k, nodeW a T k

theorem partW_all : partW a i (2 ^ a.p_nonterminal.length) T = firstW a T (2 ^ a.p_nonterminal.length) := by
  classical
  unfold partW firstW
  rw [Finset.filter_true_of_mem]
  intro k hk
  rw [Finset.mem_range] at hk
  omega

theorem partW_succ (hm : InSub i m) (hlt : m < 2 ^ a.p_nonterminal.length) : partW a i (m + 1) T = partW a i m T * nodeW a T m := by
  classical
  unfold partW
  have : (Finset.range (2 ^ a.p_nonterminal.length)).filter (fun k => m + 1 ≤ k → ¬ InSub i k) =
      insert m ((Finset.range (2 ^ a.p_nonterminal.length)).filter fun k => m ≤ k → ¬ InSub i k) := by
    ext k
    simp only [Finset.mem_filter, Finset.mem_insert, Finset.mem_range]
    constructor
    · rintro ⟨h1, h2⟩
      by_cases e : k = m
      · exact Or.inl e
      · exact Or.inr ⟨h1, fun h => h2 (by omega)⟩
    · rintro (rfl | ⟨h1, h2⟩)
      · exact ⟨hlt, by omega⟩
      · exact ⟨h1, fun h => h2 (by omega)⟩
  rw [this, Finset.prod_insert, mul_comm]
  simp only [Finset.mem_filter, not_and]
  exact fun _ h => h le_rfl hm

theorem partW_skip (hm : ¬ InSub i m) : partW a i (m + 1) T = partW a i m T := by
  classical
  unfold partW
  congr 1
  ext k
  simp only [Finset.mem_filter, Finset.mem_range]
  refine and_congr_right fun _ => ⟨fun h1 h => ?_, fun h1 h => h1 (by omega)⟩
  by_cases e : k = m
  · rw [e]; exact hm
  · exact h1 (by omega)

theorem partTrees_skip (hm : ¬ InSub i m) : partTrees a i (m + 1) = partTrees a i m := by
  ext T
  rw [mem_partTrees, mem_partTrees]
  refine and_congr_right fun _ => ⟨fun h1 k h hk => ?_, fun h1 k h => h1 k (by omega)⟩
  by_cases e : k = m
  · exact absurd (e ▸ hk) hm
  · exact h1 k (by omega) hk

/-- only the factors of the node and of its children change -/
theorem nodeW_grown' (hT : PossibleTree a T) (hU : PossibleTree a U) (hg : GrownT a U T m) {k : Nat} (h0 : k ≠ m) (h1 : k ≠ 2 * m)
    (h2 : k ≠ 2 * m + 1) : nodeW a T k = nodeW a U k := by
  classical
  have hg' : Grown a.p_nonterminal.length U.var U.split T.var T.split m := hg
  have hd : IsDecision T.split k ↔ IsDecision U.split k := by
    rw [hg'.isDecision hU.split hT.split]
    exact ⟨fun h => h.resolve_right h0, Or.inl⟩
  have hl : IsLeaf T.split k ↔ IsLeaf U.split k := by
    rw [hg'.isLeaf hU.split hT.split]
    refine ⟨fun h => ?_, fun h => Or.inl ⟨h, h0⟩⟩
    rcases h with h | h | h
    · exact h.1
    · exact absurd h h1
    · exact absurd h h2
  unfold nodeW nodeProb
  by_cases h : IsDecision U.split k
  · rw [if_pos h, if_pos h, if_pos (hd.2 h), if_pos (hd.2 h)]
    unfold ruleProb
    rw [hg'.availVars hU.split hT.split _ _ h.1, hg'.availSplits hU.split hT.split _ h.1, hg.same_var k h]
  · rw [if_neg h, if_neg h, if_neg (fun h' => h (hd.1 h')), if_neg (fun h' => h (hd.1 h'))]
    simp only [hl]

theorem partW_grown (hm : InSub i m) (hT : PossibleTree a T) (hU : PossibleTree a U) (hg : GrownT a U T m) :
    partW a i m T = partW a i m U := by
  classical
  unfold partW
  refine Finset.prod_congr rfl fun k hk => ?_
  rw [Finset.mem_filter] at hk
  refine nodeW_grown' hT hU hg ?_ ?_ ?_
  · rintro rfl; exact hk.2 le_rfl hm
  · rintro rfl; exact hk.2 (by omega) hm.left
  · rintro rfl; exact hk.2 (by omega) hm.right

theorem nodeW_nonneg (hp : ∀ x ∈ a.p_nonterminal, 0 ≤ x ∧ x ≤ 1) (k : Nat) : 0 ≤ nodeW a T k := by
  classical
  have h : 0 ≤ a.p_nonterminal.getD (Nat.log2 k) 0 ∧ a.p_nonterminal.getD (Nat.log2 k) 0 ≤ 1 := by
    rcases Nat.lt_or_ge (Nat.log2 k) a.p_nonterminal.length with h | h
    · rw [List.getD_eq_getElem _ _ h]
      exact hp _ (List.getElem_mem h)
    · rw [List.getD_eq_default _ _ h]
      exact ⟨le_rfl, zero_le_one⟩
  unfold nodeW nodeProb
  refine mul_nonneg ?_ ?_
  · split_ifs <;> linarith
  · split_ifs
    · unfold ruleProb; positivity
    · exact zero_le_one

theorem partW_nonneg (hp : ∀ x ∈ a.p_nonterminal, 0 ≤ x ∧ x ≤ 1) : 0 ≤ partW a i m T :=
  Finset.prod_nonneg fun k _ => nodeW_nonneg hp k

theorem ruleP_nonneg (r : Σ _ : Nat, Nat) : 0 ≤ ruleP a U m r := by unfold ruleP; positivity

theorem sum_ruleP_le : ∑ r ∈ ruleSet a U m, ruleP a U m r ≤ 1 := by
  have hV := availVars_finite a.split_bits a.max_split U.var U.split m
  have hc : ∀ n : Nat, (n : ℝ) * (1 / (n : ℝ)) ≤ 1 := by
    intro n
    rcases Nat.eq_zero_or_pos n with rfl | hn
    · simp
    · have : (n : ℝ) ≠ 0 := by positivity
      rw [mul_one_div_cancel this]
  unfold ruleSet ruleP
  rw [Finset.sum_sigma]
  have : ∀ v ∈ hV.toFinset, ∑ s ∈ (availSplits_finite a.max_split U.var U.split m v).toFinset,
      1 / ((availVars a.split_bits a.max_split U.var U.split m).ncard : ℝ) *
        (1 / ((availSplits a.max_split U.var U.split m v).ncard : ℝ)) ≤
      1 / ((availVars a.split_bits a.max_split U.var U.split m).ncard : ℝ) := by
    intro v _
    rw [Finset.sum_const, ← Set.ncard_eq_toFinset_card _ (availSplits_finite a.max_split U.var U.split m v), nsmul_eq_mul]
    rw [mul_left_comm]
    exact mul_le_of_le_one_right (by positivity) (hc _)
  refine (Finset.sum_le_sum this).trans ?_
  rw [Finset.sum_const, ← Set.ncard_eq_toFinset_card _ hV, nsmul_eq_mul]
  exact hc _

theorem leafParent_of_part (hm : InSub i m) (hT : T ∈ partTrees a i (m + 1)) (h0 : at0 T.split m ≠ 0) : IsLeafParent T.split m := by
  rw [mem_partTrees] at hT
  have hd : IsDecision T.split m := hT.1.split.isDecision_iff.2 h0
  have := hd.1.pos
  exact ⟨hd, ⟨.left hd.1 h0, hT.2 _ (by omega) hm.left⟩, ⟨.right hd.1 h0, hT.2 _ (by omega) hm.right⟩⟩

theorem grownAt_pruned' (hT : PossibleTree a T) (hlp : IsLeafParent T.split m) :
    grownAt (pruned T m) m (at0 T.var m) (at0 T.split m) = T := by
  have hm : m < 2 ^ a.p_nonterminal.length := hlp.1.lt hT.split.length
  have hU := pruned_possible hT hlp
  have hat := at0_grownAt hU hm (at0 T.var m) (at0 T.split m)
  apply Rules.ext
  · apply list_ext_at0
    · show (setDrop (setDrop T.var m 0) m _).length = _
      simp [setDrop]
    · intro k
      rw [(hat k).1]
      split_ifs with e
      · rw [e]
      · show at0 (setDrop T.var m 0) k = _
        rw [at0_setDrop, if_neg (by tauto)]
  · apply list_ext_at0
    · show (setDrop (setDrop T.split m 0) m _).length = _
      simp [setDrop]
    · intro k
      rw [(hat k).2]
      split_ifs with e
      · rw [e]
      · show at0 (setDrop T.split m 0) k = _
        rw [at0_setDrop, if_neg (by tauto)]

theorem pruned_part (hm : InSub i m) (hT : T ∈ partTrees a i (m + 1)) (h0 : at0 T.split m ≠ 0) :
    pruned T m ∈ partTrees a i m ∧ IsLeaf (pruned T m).split m := by
  have hlp := leafParent_of_part hm hT h0
  rw [mem_partTrees] at hT
  have hU := pruned_possible hT.1 hlp
  refine ⟨mem_partTrees.2 ⟨hU, fun k hk hs => ?_⟩, (pruned_grown hT.1 hlp).leaf⟩
  show at0 (setDrop T.split m 0) k = 0
  rw [at0_prune hT.1.split hlp]
  split_ifs with e
  · rfl
  · exact hT.2 k (by omega) hs

/-- the trees obtained by adding a decision at node `m` -/
theorem sum_decision_le (hp : ∀ x ∈ a.p_nonterminal, 0 ≤ x ∧ x ≤ 1) (hm : InSub i m) (hlt : m < 2 ^ a.p_nonterminal.length)
    {ψ : Rules → ℝ} (hψ0 : ∀ T, 0 ≤ ψ T) (hψ : DependsBelow m ψ) :
    ∑ T ∈ partTrees a i (m + 1), (if at0 T.split m ≠ 0 then partW a i (m + 1) T * ψ T else 0) ≤
      a.p_nonterminal.getD (Nat.log2 m) 0 * ∑ U ∈ partTrees a i m, open Classical in if IsLeaf U.split m then partW a i m U * ψ U else 0 := by
  classical
  have hp0 : 0 ≤ a.p_nonterminal.getD (Nat.log2 m) 0 := by
    rcases Nat.lt_or_ge (Nat.log2 m) a.p_nonterminal.length with h | h
    · rw [List.getD_eq_getElem _ _ h]
      exact (hp _ (List.getElem_mem h)).1
    · rw [List.getD_eq_default _ _ h]
  rw [← Finset.sum_filter, ← Finset.sum_filter, Finset.mul_sum]
  have hmaps : ∀ T ∈ (partTrees a i (m + 1)).filter (fun T => at0 T.split m ≠ 0),
      pruned T m ∈ (partTrees a i m).filter (fun U => IsLeaf U.split m) := by
    intro T hT
    rw [Finset.mem_filter] at hT ⊢
    exact pruned_part hm hT.1 hT.2
  rw [← Finset.sum_fiberwise_of_maps_to hmaps]
  refine Finset.sum_le_sum fun U hU => ?_
  rw [Finset.mem_filter] at hU
  obtain ⟨hU1, hl⟩ := hU
  have hU2 := mem_partTrees.1 hU1
  have key : ∀ T ∈ ((partTrees a i (m + 1)).filter (fun T => at0 T.split m ≠ 0)).filter (fun T => pruned T m = U),
      (⟨at0 T.var m, at0 T.split m⟩ : Σ _ : Nat, Nat) ∈ ruleSet a U m ∧ T = grownAt U m (at0 T.var m) (at0 T.split m) ∧
      partW a i (m + 1) T * ψ T = a.p_nonterminal.getD (Nat.log2 m) 0 * (partW a i m U * ψ U) *
        ruleP a U m ⟨at0 T.var m, at0 T.split m⟩ := by
    intro T hT
    rw [Finset.mem_filter, Finset.mem_filter] at hT
    obtain ⟨⟨hT1, hT2⟩, rfl⟩ := hT
    have hlp := leafParent_of_part hm hT1 hT2
    have hTp := (mem_partTrees.1 hT1).1
    have hg' := pruned_grown hTp hlp
    have hg : Grown a.p_nonterminal.length (pruned T m).var (pruned T m).split T.var T.split m := hg'
    have e := grownAt_pruned' hTp hlp
    refine ⟨?_, e.symm, ?_⟩
    · rw [mem_ruleSet]
      have h1 := hTp.var_avail m hlp.1
      have h2 := hTp.split_avail m hlp.1
      rw [hg.availVars hU2.1.split hTp.split _ _ hl.1] at h1
      rw [hg.availSplits hU2.1.split hTp.split _ hl.1] at h2
      exact ⟨h1, h2⟩
    · have hw : nodeW a T m = a.p_nonterminal.getD (Nat.log2 m) 0 * ruleP a (pruned T m) m ⟨at0 T.var m, at0 T.split m⟩ := by
        have := nodeW_grownAt (a := a) (U := pruned T m) (m := m) (v := at0 T.var m) (s := at0 T.split m) hU2.1
          (by rw [e]; exact hTp) (by rw [e]; exact hg)
        rwa [e] at this
      have hψe : ψ T = ψ (pruned T m) := by
        have := hψ.grownAt hU2.1 le_rfl hlt (at0 T.var m) (at0 T.split m)
        rwa [e] at this
      rw [partW_succ hm hlt, partW_grown hm hTp hU2.1 hg', hw, hψe]
      ring
  rw [Finset.sum_congr rfl fun T hT => (key T hT).2.2, ← Finset.mul_sum]
  refine mul_le_of_le_one_right (mul_nonneg hp0 (mul_nonneg (partW_nonneg hp) (hψ0 U))) ?_
  rw [← Finset.sum_image (f := fun r => ruleP a U m r) (g := fun T : Rules => (⟨at0 T.var m, at0 T.split m⟩ : Σ _ : Nat, Nat))]
  · refine (Finset.sum_le_sum_of_subset_of_nonneg ?_ fun r _ _ => ruleP_nonneg r).trans sum_ruleP_le
    intro r hr
    rw [Finset.mem_image] at hr
    obtain ⟨T, hT, rfl⟩ := hr
    exact (key T hT).1
  · intro T hT T' hT' e
    rw [(key T hT).2.1, (key T' hT').2.1]
    simp only [Sigma.mk.injEq, heq_eq_eq] at e
    rw [e.1, e.2]

/-- the trees without a decision at node `m` -/
theorem sum_no_decision_part (hm : InSub i m) (hlt : m < 2 ^ a.p_nonterminal.length) (ψ : Rules → ℝ) :
    ∑ T ∈ partTrees a i (m + 1), (if at0 T.split m = 0 then partW a i (m + 1) T * ψ T else 0) =
      ∑ U ∈ partTrees a i m, open Classical in if IsLeaf U.split m then
        (1 - a.p_nonterminal.getD (Nat.log2 m) 0) * (partW a i m U * ψ U) else partW a i m U * ψ U := by
  classical
  have hmem : ∀ T, T ∈ partTrees a i m ↔ T ∈ partTrees a i (m + 1) ∧ at0 T.split m = 0 := by
    intro T
    rw [mem_partTrees, mem_partTrees]
    refine ⟨fun h => ⟨⟨h.1, fun k hk => h.2 k (by omega)⟩, h.2 m le_rfl hm⟩, fun h => ⟨h.1.1, fun k hk hs => ?_⟩⟩
    rcases Nat.lt_or_ge m k with h' | h'
    · exact h.1.2 k h' hs
    · rw [show k = m by omega]; exact h.2
  rw [← Finset.sum_filter]
  refine Finset.sum_congr ?_ fun U hU => ?_
  · ext T
    rw [Finset.mem_filter]
    exact (hmem T).symm
  · rw [hmem] at hU
    have hnd : ¬ IsDecision U.split m := fun h => h.2 hU.2
    rw [partW_succ hm hlt]
    unfold nodeW nodeProb
    rw [if_neg hnd, if_neg hnd]
    by_cases h : IsLeaf U.split m
    · rw [if_pos h, if_pos h]
      ring
    · rw [if_neg h, if_neg h]
      ring

theorem sum_next_le (hp : ∀ x ∈ a.p_nonterminal, 0 ≤ x ∧ x ≤ 1) (hlt : m < 2 ^ a.p_nonterminal.length)
    {ψ : Rules → ℝ} (hψ0 : ∀ T, 0 ≤ ψ T) (hψ : DependsBelow m ψ) :
    ∑ T ∈ partTrees a i (m + 1), partW a i (m + 1) T * ψ T ≤ ∑ U ∈ partTrees a i m, partW a i m U * ψ U := by
  classical
  by_cases hm : InSub i m
  · have e : ∀ T ∈ partTrees a i (m + 1), partW a i (m + 1) T * ψ T =
        (if at0 T.split m ≠ 0 then partW a i (m + 1) T * ψ T else 0) + if at0 T.split m = 0 then partW a i (m + 1) T * ψ T else 0 := by
      intro T _
      by_cases h : at0 T.split m = 0 <;> simp [h]
    rw [Finset.sum_congr rfl e, Finset.sum_add_distrib, sum_no_decision_part hm hlt]
    refine (add_le_add_left (sum_decision_le hp hm hlt hψ0 hψ) _).trans (le_of_eq ?_)
    rw [Finset.mul_sum, ← Finset.sum_add_distrib]
    refine Finset.sum_congr rfl fun U _ => ?_
    split_ifs <;> ring
  · rw [partTrees_skip hm]
    exact le_of_eq (Finset.sum_congr rfl fun T _ => by rw [partW_skip hm])

theorem DependsBelow.mono {α : Type} {ψ : Rules → α} {n : Nat} (h : DependsBelow m ψ) (hn : m ≤ n) : DependsBelow n ψ :=
  fun T U e => h T U fun k hk => e k (by omega)

theorem sum_all_le (hp : ∀ x ∈ a.p_nonterminal, 0 ≤ x ∧ x ≤ 1) (hm : m ≤ 2 ^ a.p_nonterminal.length)
    {ψ : Rules → ℝ} (hψ0 : ∀ T, 0 ≤ ψ T) (hψ : DependsBelow m ψ) :
    ∑ T ∈ firstTrees a (2 ^ a.p_nonterminal.length), firstW a T (2 ^ a.p_nonterminal.length) * ψ T ≤
      ∑ U ∈ partTrees a i m, partW a i m U * ψ U := by
  obtain ⟨d, hd⟩ := Nat.exists_eq_add_of_le hm
  have : ∀ d, m + d ≤ 2 ^ a.p_nonterminal.length →
      ∑ T ∈ partTrees a i (m + d), partW a i (m + d) T * ψ T ≤ ∑ U ∈ partTrees a i m, partW a i m U * ψ U := by
    intro d
    induction d with
    | zero => intro _; exact le_rfl
    | succ d ih =>
      intro h
      refine le_trans ?_ (ih (by omega))
      rw [← add_assoc]
      exact sum_next_le hp (by omega) hψ0 (hψ.mono (by omega))
  have h := this d (by omega)
  rw [← hd] at h
  refine le_trans (le_of_eq ?_) h
  refine Finset.sum_congr ?_ fun T _ => by rw [partW_all]
  ext T
  rw [firstTrees_all, mem_partTrees]
  refine ⟨fun h => ⟨h, fun k hk _ => ?_⟩, fun h => h.1⟩
  unfold at0
  rw [List.getD_eq_default _ _ (by rw [h.split.length]; exact hk)]

/-- the weight of a tree in which `i` is a leaf -/
theorem firstW_leaf (hU : PossibleTree a U) (hl : IsLeaf U.split i) (hi : i < 2 ^ a.p_nonterminal.length) :
    firstW a U (2 ^ a.p_nonterminal.length) = (1 - a.p_nonterminal.getD (Nat.log2 i) 0) * partW a i i U := by
  classical
  have hz : ∀ k, InSub i k → at0 U.split k = 0 := by
    rintro k ⟨d, hd⟩
    induction d generalizing k with
    | zero =>
      rw [pow_zero, Nat.div_one] at hd
      rw [hd]; exact hl.2
    | succ d ih =>
      by_contra hc
      have h1 := hl.1.pos
      have h2 : 2 ≤ k := by
        by_contra h2
        have : k / 2 ^ (d + 1) = 0 := Nat.div_eq_of_lt (by
          have : 2 ≤ 2 ^ (d + 1) := by rw [pow_succ]; have := Nat.one_le_two_pow (n := d); omega
          omega)
        omega
      refine hU.split.closed k h2 hc (ih (k / 2) ?_)
      rw [Nat.div_div_eq_div_mul, ← pow_succ']; exact hd
  have h0 : nodeW a U i = 1 - a.p_nonterminal.getD (Nat.log2 i) 0 := by
    have hnd : ¬ IsDecision U.split i := fun h => h.2 hl.2
    unfold nodeW nodeProb
    rw [if_neg hnd, if_neg hnd, if_pos hl, mul_one]
  have h1 : ∀ k, InSub i k → i < k → nodeW a U k = 1 := by
    intro k hk hik
    have hpos := hl.1.pos
    have hn : ¬ IsNode U.split k := by
      intro h
      refine (h.parent (by omega)).2 (hz _ ?_)
      obtain ⟨d, hd⟩ := hk
      cases d with
      | zero => rw [pow_zero, Nat.div_one] at hd; omega
      | succ d => exact ⟨d, by rw [Nat.div_div_eq_div_mul, ← pow_succ']; exact hd⟩
    unfold nodeW nodeProb
    rw [if_neg (fun h : IsDecision U.split k => hn h.1), if_neg (fun h : IsDecision U.split k => hn h.1),
      if_neg (fun h : IsLeaf U.split k => hn h.1), mul_one]
  have key : ∀ d, i + 1 + d ≤ 2 ^ a.p_nonterminal.length →
      partW a i (i + 1 + d) U = (1 - a.p_nonterminal.getD (Nat.log2 i) 0) * partW a i i U := by
    intro d
    induction d with
    | zero =>
      intro h
      rw [add_zero, partW_succ (InSub.self i) hi, h0, mul_comm]
    | succ d ih =>
      intro h
      rw [← ih (by omega), ← add_assoc]
      by_cases hs : InSub i (i + 1 + d)
      · rw [partW_succ hs (by omega), h1 _ hs (by omega), mul_one]
      · exact partW_skip hs
  obtain ⟨d, hd⟩ := Nat.exists_eq_add_of_le (show i + 1 ≤ 2 ^ a.p_nonterminal.length by omega)
  rw [← partW_all (i := i)]
  have := key d (by omega)
  rwa [← hd] at this

open Classical in
/-- the probability that a node is nonterminal, with any settings -/
theorem treeDist_decision_le (hp : ∀ x ∈ a.p_nonterminal, 0 ≤ x ∧ x ≤ 1) (hi : i < 2 ^ a.p_nonterminal.length)
    {E : Rules → Prop} (hE : SettledBefore i E) :
    (treeDist a).real {y | E y.1 ∧ IsDecision y.1.split i} ≤
      a.p_nonterminal.getD (Nat.log2 i) 0 * (treeDist a).real {y | E y.1 ∧ IsNode y.1.split i} := by
  have hnn : ∀ T ∈ firstTrees a (2 ^ a.p_nonterminal.length), 0 ≤ firstW a T (2 ^ a.p_nonterminal.length) :=
    fun T _ => Finset.prod_nonneg fun k _ => nodeW_nonneg hp k
  have hp0 : 0 ≤ a.p_nonterminal.getD (Nat.log2 i) 0 ∧ a.p_nonterminal.getD (Nat.log2 i) 0 ≤ 1 := by
    rcases Nat.lt_or_ge (Nat.log2 i) a.p_nonterminal.length with h | h
    · rw [List.getD_eq_getElem _ _ h]
      exact hp _ (List.getElem_mem h)
    · rw [List.getD_eq_default _ _ h]
      exact ⟨le_rfl, zero_le_one⟩
  obtain ⟨ED, hED⟩ : ∃ P : Rules → Prop, ∀ T, P T ↔ E T ∧ IsDecision T.split i := ⟨_, fun _ => Iff.rfl⟩
  obtain ⟨EN, hEN⟩ : ∃ P : Rules → Prop, ∀ T, P T ↔ E T ∧ IsNode T.split i := ⟨_, fun _ => Iff.rfl⟩
  obtain ⟨EL, hEL⟩ : ∃ P : Rules → Prop, ∀ T, P T ↔ E T ∧ IsLeaf T.split i := ⟨_, fun _ => Iff.rfl⟩
  simp only [← hED, ← hEN]
  rw [treeDist_sum hnn, treeDist_sum hnn]
  set p := a.p_nonterminal.getD (Nat.log2 i) 0 with hpdef
  set A := ∑ T ∈ firstTrees a (2 ^ a.p_nonterminal.length), firstW a T (2 ^ a.p_nonterminal.length) *
    (if ED T then (1 : ℝ) else 0) with hA
  set B := ∑ T ∈ firstTrees a (2 ^ a.p_nonterminal.length), firstW a T (2 ^ a.p_nonterminal.length) *
    (if EL T then (1 : ℝ) else 0) with hB
  set C := ∑ U ∈ partTrees a i i, (if IsLeaf U.split i then partW a i i U * (if E U then (1 : ℝ) else 0) else 0) with hC
  have hAB : ∑ T ∈ firstTrees a (2 ^ a.p_nonterminal.length), firstW a T (2 ^ a.p_nonterminal.length) *
      (if EN T then (1 : ℝ) else 0) = A + B := by
    rw [hA, hB, ← Finset.sum_add_distrib]
    refine Finset.sum_congr rfl fun T _ => ?_
    rw [← mul_add]
    congr 1
    simp only [hED, hEL, hEN]
    unfold IsDecision IsLeaf
    by_cases h1 : E T <;> by_cases h2 : IsNode T.split i <;> by_cases h3 : at0 T.split i = 0 <;> simp [h1, h2, h3]
  have hAC : A ≤ p * C := by
    have hs : SettledBefore (i + 1) ED := by
      intro T U e
      rw [hED, hED]
      have e' : ∀ k, k < i → at0 T.var k = at0 U.var k ∧ at0 T.split k = at0 U.split k := fun k hk => e k (by omega)
      have h1 : E T ↔ E U := hE T U e'
      have h2 : IsNode T.split i ↔ IsNode U.split i := settledBefore_isNode i T U e'
      show (E T ∧ (IsNode T.split i ∧ _)) ↔ (E U ∧ (IsNode U.split i ∧ _))
      rw [h1, h2, (e i (by omega)).2]
    refine (sum_all_le (i := i) hp (by omega) (fun T => by split_ifs <;> norm_num) (settledBefore_depends hs)).trans ?_
    refine le_trans (le_of_eq ?_) (sum_decision_le hp (InSub.self i) hi (ψ := fun T => if E T then (1 : ℝ) else 0)
      (fun T => by split_ifs <;> norm_num) (settledBefore_depends hE))
    refine Finset.sum_congr rfl fun T hT => ?_
    have hd : IsDecision T.split i ↔ at0 T.split i ≠ 0 := (mem_partTrees.1 hT).1.split.isDecision_iff
    simp only [hED, hd]
    by_cases h1 : at0 T.split i = 0 <;> by_cases h2 : E T <;> simp [h1, h2]
  have hCB : (1 - p) * C ≤ B := by
    rw [hC, Finset.mul_sum]
    refine le_trans (Finset.sum_le_sum (f := fun U => (1 - p) * if IsLeaf U.split i then partW a i i U * (if E U then (1 : ℝ) else 0) else 0)
      (g := fun U => firstW a U (2 ^ a.p_nonterminal.length) * if EL U then (1 : ℝ) else 0) fun U hU => ?_) ?_
    · have hU' := (mem_partTrees.1 hU).1
      by_cases h1 : IsLeaf U.split i
      · rw [if_pos h1, firstW_leaf hU' h1 hi]
        simp only [hEL]
        by_cases h2 : E U <;> simp [h1, h2, hpdef]
      · simp [hEL, h1]
    · refine Finset.sum_le_sum_of_subset_of_nonneg ?_ fun U hU _ => ?_
      · intro U hU
        exact firstTrees_all.2 (mem_partTrees.1 hU).1
      · exact mul_nonneg (hnn U hU) (by split_ifs <;> norm_num)
  rw [hAB]
  nlinarith [mul_le_mul_of_nonneg_left hAC (sub_nonneg.2 hp0.2), mul_le_mul_of_nonneg_left hCB hp0.1]

end
end Bartz
