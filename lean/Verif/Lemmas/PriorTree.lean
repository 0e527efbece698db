import Verif.Lemmas.Prior
/-! # The a priori probabilities of the trees: nodes decided one at a time, in order of index -/

set_option autoImplicit false

namespace Bartz
open Jax Spec MeasureTheory ProbabilityTheory
open scoped ENNReal

/-! ### There is always a variable left -/

theorem valueReaches_free {var split : List Nat} {v x : Nat} :
    ∀ {i : Nat}, 1 ≤ i → (∀ k, k < Nat.log2 i → at0 var (i / 2 ^ (k + 1)) ≠ v) → ValueReaches v x var split i := by
  intro i
  induction i using Nat.strong_induction_on with
  | _ i ih =>
    intro h1 hv
    rcases Nat.lt_or_ge i 2 with h2 | h2
    · obtain rfl : i = 1 := by omega
      exact .root
    · have hlog : Nat.log2 i = Nat.log2 (i / 2) + 1 := by rw [log2_half h2]
      have hr : ValueReaches v x var split (i / 2) := by
        refine ih (i / 2) (by omega) (by omega) fun k hk => ?_
        have := hv (k + 1) (by omega)
        rwa [pow_succ' 2 (k + 1), ← Nat.div_div_eq_div_mul] at this
      have hne : at0 var (i / 2) ≠ v := by
        have := hv 0 (by omega)
        simpa using this
      rcases Nat.mod_two_eq_zero_or_one i with e | e
      · have : i = 2 * (i / 2) := by omega
        rw [this]
        exact .left hr fun h => absurd h hne
      · have : i = 2 * (i / 2) + 1 := by omega
        rw [this]
        exact .right hr fun h => absurd h hne

theorem exists_free {var : List Nat} {i p : Nat} (hp : Nat.log2 i < p) :
    ∃ v, v < p ∧ ∀ k, k < Nat.log2 i → at0 var (i / 2 ^ (k + 1)) ≠ v := by
  by_contra hc
  push Not at hc
  have hsub : Finset.range p ⊆ (Finset.range (Nat.log2 i)).image fun k => at0 var (i / 2 ^ (k + 1)) := by
    intro v hv
    obtain ⟨k, hk, e⟩ := hc v (Finset.mem_range.1 hv)
    exact Finset.mem_image.2 ⟨k, Finset.mem_range.2 hk, e⟩
  have := (Finset.card_le_card hsub).trans Finset.card_image_le
  simp at this
  omega

section
variable {a : InitArgs ℝ} {T U : Rules} {m v s : Nat}

theorem exists_availVars (hms : ∀ v, v < a.max_split.length → 1 ≤ at0 a.max_split v)
    (hlen : a.p_nonterminal.length ≤ a.max_split.length) {i : Nat} (h1 : 1 ≤ i) (hi : i < 2 ^ a.p_nonterminal.length) :
    (availVars a.split_bits a.max_split T.var T.split i).Nonempty := by
  obtain ⟨v, hv, hf⟩ := exists_free (var := T.var) (i := i) (p := a.max_split.length)
    (((Nat.log2_lt (by omega)).2 hi).trans_le hlen)
  exact ⟨v, hv, Or.inl ⟨0, 1, by omega, hms v hv, valueReaches_free h1 hf, valueReaches_free h1 hf⟩⟩

theorem exists_availSplits (hms : ∀ v, v < a.max_split.length → 1 ≤ at0 a.max_split v ∧ at0 a.max_split v + 1 < 2 ^ a.split_bits)
    {i v : Nat} (hv : v ∈ availVars a.split_bits a.max_split T.var T.split i) :
    (availSplits a.max_split T.var T.split i v).Nonempty := by
  obtain ⟨hlt, ⟨x, y, hxy, hy, hx', hy'⟩ | h | h⟩ := hv
  · exact ⟨y, ⟨x, by omega, hx', hxy⟩, ⟨y, hy, hy', le_rfl⟩⟩
  · have := (hms v hlt).2
    have := h.1
    omega
  · have := (hms v hlt).1
    omega

/-! ### Adding and removing the decision at a node -/

/-- the tree with a decision added at node `m` -/
def grownAt (U : Rules) (m v s : Nat) : Rules := ⟨setDrop U.var m v, setDrop U.split m s⟩

theorem grownAt_grown (hU : PossibleTree a U) (hl : IsLeaf U.split m) (hm : m < 2 ^ a.p_nonterminal.length) {v s : Nat} (hs : 1 ≤ s) :
    GrownT a U (grownAt U m v s) m := by
  have hd : ∀ k, IsDecision (setDrop U.split m s) k ↔ IsDecision U.split k ∨ k = m := fun k =>
    isDecision_grow hU.split hl hm hs
  have hf : ∀ k, IsLeaf (setDrop U.split m s) k ↔ (IsLeaf U.split k ∧ k ≠ m) ∨ k = 2 * m ∨ k = 2 * m + 1 := fun k =>
    isLeaf_grow hU.split hl hm hs
  refine ⟨hl, hm, (hd m).2 (Or.inr rfl), (hf _).2 (Or.inr (Or.inl rfl)), (hf _).2 (Or.inr (Or.inr rfl)), fun k hk => ?_, fun k hk => ?_⟩
  · show at0 (setDrop U.split m s) k = _
    rw [at0_grow hU.split hm, if_neg (Ne.symm hk)]
  · show at0 (setDrop U.var m v) k = _
    rw [at0_setDrop, if_neg]
    rintro ⟨rfl, -⟩
    exact hk.2 hl.2

theorem at0_grownAt (hU : PossibleTree a U) (hm : m < 2 ^ a.p_nonterminal.length) (v s k : Nat) :
    at0 (grownAt U m v s).var k = (if m = k then v else at0 U.var k) ∧
      at0 (grownAt U m v s).split k = if m = k then s else at0 U.split k := by
  constructor
  · show at0 (setDrop U.var m v) k = _
    rw [at0_setDrop, hU.var_length]
    by_cases e : m = k
    · rw [if_pos ⟨e, by omega⟩, if_pos e]
    · rw [if_neg (by tauto), if_neg e]
  · exact at0_grow hU.split hm

theorem grownAt_possible (hmin : a.min_points_per_leaf = none) (hU : PossibleTree a U) (hl : IsLeaf U.split m)
    (hm : m < 2 ^ a.p_nonterminal.length) {v s : Nat} (hv : v ∈ availVars a.split_bits a.max_split U.var U.split m)
    (hs : s ∈ availSplits a.max_split U.var U.split m v) : PossibleTree a (grownAt U m v s) := by
  have hs1 : 1 ≤ s := by obtain ⟨⟨x, _, _, h⟩, _⟩ := hs; omega
  have hg := grownAt_grown (v := v) hU hl hm hs1
  have hg' : Grown a.p_nonterminal.length U.var U.split (grownAt U m v s).var (grownAt U m v s).split m := hg
  have hval : ValidSplit a.p_nonterminal.length (grownAt U m v s).split := validSplit_grow hU.split hl hm hs1
  have hd := hg'.isDecision hU.split hval
  have hat := at0_grownAt hU hm v s
  refine ⟨hval, ?_, ?_, ?_, ?_, ?_⟩
  · show (setDrop U.var m v).length = _
    unfold setDrop
    rw [List.length_set, hU.var_length]
  · intro k hk
    rw [hd] at hk
    push Not at hk
    rw [(hat k).1, if_neg (Ne.symm hk.2)]
    exact hU.var_unused k hk.1
  · intro k hk
    rcases (hd k).1 hk with hk' | rfl
    · rw [hg'.availVars hU.split hval _ _ hk'.1, hg.same_var k hk']
      exact hU.var_avail k hk'
    · rw [hg'.availVars hU.split hval _ _ hl.1, (hat k).1, if_pos rfl]
      exact hv
  · intro k hk
    rcases (hd k).1 hk with hk' | rfl
    · rw [hg'.availSplits hU.split hval _ hk'.1, hg.same_var k hk', hg.same_split k (fun e => hk'.2 (e ▸ hl.2))]
      exact hU.split_avail k hk'
    · rw [hg'.availSplits hU.split hval _ hl.1, (hat k).1, (hat k).2, if_pos rfl, if_pos rfl]
      exact hs
  · intro n hn
    rw [hmin] at hn
    exact absurd hn (by simp)

/-! ### Trees with decisions at the first nodes only -/

/-- possible trees with decisions only at nodes less than `m` -/
noncomputable def firstTrees (a : InitArgs ℝ) (m : Nat) : Finset Rules :=
  open Classical in (finite_possible a).toFinset.filter fun T => ∀ k, m ≤ k → at0 T.split k = 0

theorem mem_firstTrees : T ∈ firstTrees a m ↔ PossibleTree a T ∧ ∀ k, m ≤ k → at0 T.split k = 0 := by
  classical
  unfold firstTrees
  rw [Finset.mem_filter, Set.Finite.mem_toFinset]
  rfl

open Classical in
/-- factor of the a priori probability due to node `i` -/
noncomputable def nodeW (a : InitArgs ℝ) (T : Rules) (i : Nat) : ℝ :=
  nodeProb a.p_nonterminal T.split i * if IsDecision T.split i then ruleProb a.split_bits a.max_split T.var T.split i else 1

/-- product of the factors due to the first nodes -/
noncomputable def firstW (a : InitArgs ℝ) (T : Rules) (m : Nat) : ℝ := ∏ i ∈ Finset.range m, nodeW a T i

theorem treePrior_eq_firstW (hT : PossibleTree a T) :
    treePrior a.p_nonterminal a.split_bits a.max_split T.var T.split = firstW a T (2 ^ a.p_nonterminal.length) := by
  classical
  have e : treePrior a.p_nonterminal a.split_bits a.max_split T.var T.split = ∏ i ∈ Finset.range (2 * 2 ^ a.p_nonterminal.length), nodeW a T i := by
    unfold treePrior shapePrior rulesPrior nodeW
    rw [hT.split.length, ← Finset.prod_mul_distrib]
  rw [e, firstW, two_mul, Finset.prod_range_add]
  rw [Finset.prod_eq_one (s := Finset.range _) (f := fun x => nodeW a T (2 ^ a.p_nonterminal.length + x)), mul_one]
  intro x hx
  rw [Finset.mem_range] at hx
  have h0 : at0 T.split (2 ^ a.p_nonterminal.length + x) = 0 := by
    unfold at0
    rw [List.getD_eq_default _ _ (by rw [hT.split.length]; omega)]
  have hlog : Nat.log2 (2 ^ a.p_nonterminal.length + x) = a.p_nonterminal.length :=
    (Nat.log2_eq_iff (by positivity)).2 ⟨by omega, by rw [pow_succ]; omega⟩
  have hp : a.p_nonterminal.getD a.p_nonterminal.length 0 = 0 := List.getD_eq_default _ _ le_rfl
  have hnd : ¬ IsDecision T.split (2 ^ a.p_nonterminal.length + x) := fun h => h.2 h0
  unfold nodeW nodeProb
  rw [hlog, hp, if_neg hnd, if_neg hnd]
  split_ifs <;> simp

theorem firstTrees_all : T ∈ firstTrees a (2 ^ a.p_nonterminal.length) ↔ PossibleTree a T := by
  rw [mem_firstTrees]
  refine ⟨fun h => h.1, fun h => ⟨h, fun k hk => ?_⟩⟩
  unfold at0
  rw [List.getD_eq_default _ _ (by rw [h.split.length]; exact hk)]

/-- the factors do not depend on the later nodes -/
theorem nodeW_grown (hT : PossibleTree a T) (hU : PossibleTree a U) (hg : GrownT a U T m) {i : Nat} (hi : i < m) :
    nodeW a T i = nodeW a U i := by
  classical
  have hg' : Grown a.p_nonterminal.length U.var U.split T.var T.split m := hg
  have hd : IsDecision T.split i ↔ IsDecision U.split i := by
    rw [hg'.isDecision hU.split hT.split]
    exact ⟨fun h => h.resolve_right (by omega), Or.inl⟩
  have hl : IsLeaf T.split i ↔ IsLeaf U.split i := by
    rw [hg'.isLeaf hU.split hT.split]
    refine ⟨fun h => ?_, fun h => Or.inl ⟨h, by omega⟩⟩
    rcases h with h | h | h
    · exact h.1
    · omega
    · omega
  unfold nodeW nodeProb
  by_cases h : IsDecision U.split i
  · rw [if_pos h, if_pos h, if_pos (hd.2 h), if_pos (hd.2 h)]
    unfold ruleProb
    rw [hg'.availVars hU.split hT.split _ _ h.1, hg'.availSplits hU.split hT.split _ h.1, hg.same_var i h]
  · rw [if_neg h, if_neg h, if_neg (fun h' => h (hd.1 h')), if_neg (fun h' => h (hd.1 h'))]
    simp only [hl]

theorem firstW_grown (hT : PossibleTree a T) (hU : PossibleTree a U) (hg : GrownT a U T m) : firstW a T m = firstW a U m :=
  Finset.prod_congr rfl fun _ hi => nodeW_grown hT hU hg (Finset.mem_range.1 hi)

/-! ### One node -/

theorem leafParent_of_first (hT : T ∈ firstTrees a (m + 1)) (h0 : at0 T.split m ≠ 0) : IsLeafParent T.split m := by
  rw [mem_firstTrees] at hT
  have hd : IsDecision T.split m := hT.1.split.isDecision_iff.2 h0
  have := hd.1.pos
  exact ⟨hd, ⟨.left hd.1 h0, hT.2 _ (by omega)⟩, ⟨.right hd.1 h0, hT.2 _ (by omega)⟩⟩

theorem pruned_mem (hT : T ∈ firstTrees a (m + 1)) (h0 : at0 T.split m ≠ 0) :
    pruned T m ∈ firstTrees a m ∧ IsLeaf (pruned T m).split m := by
  have hlp := leafParent_of_first hT h0
  rw [mem_firstTrees] at hT
  have hU := pruned_possible hT.1 hlp
  refine ⟨mem_firstTrees.2 ⟨hU, fun k hk => ?_⟩, (pruned_grown hT.1 hlp).leaf⟩
  show at0 (setDrop T.split m 0) k = 0
  rw [at0_prune hT.1.split hlp]
  split_ifs with e
  · rfl
  · exact hT.2 k (by omega)

theorem grownAt_pruned (hT : T ∈ firstTrees a (m + 1)) (h0 : at0 T.split m ≠ 0) :
    grownAt (pruned T m) m (at0 T.var m) (at0 T.split m) = T := by
  have hlp := leafParent_of_first hT h0
  rw [mem_firstTrees] at hT
  have hm : m < 2 ^ a.p_nonterminal.length := hlp.1.lt hT.1.split.length
  have hU := pruned_possible hT.1 hlp
  have hat := at0_grownAt hU hm (at0 T.var m) (at0 T.split m)
  apply Rules.ext
  · apply list_ext_at0
    · show (setDrop (setDrop T.var m 0) m _).length = _
      simp [setDrop]
    · intro k
      rw [(hat k).1]
      split_ifs with e
      · rw [e]
      · show at0 (setDrop T.var m 0) k = _
        rw [at0_setDrop, if_neg (by tauto)]
  · apply list_ext_at0
    · show (setDrop (setDrop T.split m 0) m _).length = _
      simp [setDrop]
    · intro k
      rw [(hat k).2]
      split_ifs with e
      · rw [e]
      · show at0 (setDrop T.split m 0) k = _
        rw [at0_setDrop, if_neg (by tauto)]

theorem pruned_grownAt (hU : PossibleTree a U) (hl : IsLeaf U.split m) (hm : m < 2 ^ a.p_nonterminal.length) (v s : Nat) :
    pruned (grownAt U m v s) m = U := by
  have hnd : ¬ IsDecision U.split m := fun h => h.2 hl.2
  apply Rules.ext
  · apply list_ext_at0
    · show (setDrop (setDrop U.var m v) m 0).length = _
      simp [setDrop]
    · intro k
      show at0 (setDrop (setDrop U.var m v) m 0) k = _
      rw [at0_setDrop, at0_setDrop, show (setDrop U.var m v).length = U.var.length by simp [setDrop], hU.var_length]
      by_cases e : m = k
      · subst e
        rw [if_pos ⟨rfl, by omega⟩, hU.var_unused m hnd]
      · rw [if_neg (by tauto), if_neg (by tauto)]
  · apply list_ext_at0
    · show (setDrop (setDrop U.split m s) m 0).length = _
      simp [setDrop]
    · intro k
      show at0 (setDrop (setDrop U.split m s) m 0) k = _
      rw [at0_setDrop, at0_setDrop, show (setDrop U.split m s).length = U.split.length by simp [setDrop], hU.split.length]
      by_cases e : m = k
      · subst e
        rw [if_pos ⟨rfl, by omega⟩, hl.2]
      · rw [if_neg (by tauto), if_neg (by tauto)]

/-- the rules that can be used at node `m` -/
noncomputable def ruleSet (a : InitArgs ℝ) (U : Rules) (m : Nat) : Finset (Σ _ : Nat, Nat) :=
  (availVars_finite a.split_bits a.max_split U.var U.split m).toFinset.sigma fun v =>
    (availSplits_finite a.max_split U.var U.split m v).toFinset

theorem mem_ruleSet {r : Σ _ : Nat, Nat} : r ∈ ruleSet a U m ↔
    r.1 ∈ availVars a.split_bits a.max_split U.var U.split m ∧ r.2 ∈ availSplits a.max_split U.var U.split m r.1 := by
  unfold ruleSet
  rw [Finset.mem_sigma, Set.Finite.mem_toFinset, Set.Finite.mem_toFinset]

/-- probability of a rule -/
noncomputable def ruleP (a : InitArgs ℝ) (U : Rules) (m : Nat) (r : Σ _ : Nat, Nat) : ℝ :=
  1 / ((availVars a.split_bits a.max_split U.var U.split m).ncard : ℝ) *
    (1 / ((availSplits a.max_split U.var U.split m r.1).ncard : ℝ))

theorem sum_ruleP (hms : ∀ v, v < a.max_split.length → 1 ≤ at0 a.max_split v ∧ at0 a.max_split v + 1 < 2 ^ a.split_bits)
    (hlen : a.p_nonterminal.length ≤ a.max_split.length) (h1 : 1 ≤ m) (hm : m < 2 ^ a.p_nonterminal.length) :
    ∑ r ∈ ruleSet a U m, ruleP a U m r = 1 := by
  have hV := availVars_finite a.split_bits a.max_split U.var U.split m
  unfold ruleSet ruleP
  rw [Finset.sum_sigma]
  have : ∀ v ∈ hV.toFinset, ∑ s ∈ (availSplits_finite a.max_split U.var U.split m v).toFinset,
      1 / ((availVars a.split_bits a.max_split U.var U.split m).ncard : ℝ) *
        (1 / ((availSplits a.max_split U.var U.split m v).ncard : ℝ)) =
      1 / ((availVars a.split_bits a.max_split U.var U.split m).ncard : ℝ) := by
    intro v hv
    rw [Set.Finite.mem_toFinset] at hv
    have hne := exists_availSplits hms hv
    have hpos : ((availSplits a.max_split U.var U.split m v).ncard : ℝ) ≠ 0 := by
      have := (Set.ncard_pos (availSplits_finite a.max_split U.var U.split m v)).2 hne
      positivity
    rw [Finset.sum_const, ← Set.ncard_eq_toFinset_card _ (availSplits_finite a.max_split U.var U.split m v), nsmul_eq_mul]
    field_simp
  rw [Finset.sum_congr rfl this, Finset.sum_const, ← Set.ncard_eq_toFinset_card _ hV, nsmul_eq_mul]
  have hpos : ((availVars a.split_bits a.max_split U.var U.split m).ncard : ℝ) ≠ 0 := by
    have := (Set.ncard_pos hV).2 (exists_availVars (T := U) (fun v hv => (hms v hv).1) hlen h1 hm)
    positivity
  field_simp

theorem nodeW_grownAt (hU : PossibleTree a U) (hT : PossibleTree a (grownAt U m v s)) (hg : GrownT a U (grownAt U m v s) m) :
    nodeW a (grownAt U m v s) m = a.p_nonterminal.getD (Nat.log2 m) 0 * ruleP a U m ⟨v, s⟩ := by
  have hg' : Grown a.p_nonterminal.length U.var U.split (grownAt U m v s).var (grownAt U m v s).split m := hg
  have hl := hg.leaf
  have hd : IsDecision (grownAt U m v s).split m := (hg'.isDecision hU.split hT.split m).2 (Or.inr rfl)
  unfold nodeW nodeProb
  rw [if_pos hd, if_pos hd]
  unfold ruleProb ruleP
  rw [hg'.availVars hU.split hT.split _ _ hl.1, hg'.availSplits hU.split hT.split _ hl.1,
    (at0_grownAt hU hg.not_bottom v s m).1, if_pos rfl]

/-- as `Spec.Untruncated`, with the bound due to the absence of overflows -/
structure NoTrunc (a : InitArgs ℝ) : Prop where
  no_min : a.min_points_per_leaf = none
  cutpoints : ∀ v, v < a.max_split.length → 1 ≤ at0 a.max_split v ∧ at0 a.max_split v + 1 < 2 ^ a.split_bits
  predictors : a.p_nonterminal.length ≤ a.max_split.length

theorem noTrunc_of (ha : ValidArgs a) (h : Untruncated a) : NoTrunc a where
  no_min := h.no_min
  cutpoints v hv := by
    refine ⟨h.cutpoints v hv, ?_⟩
    have ho : NoOverflow a := by
      rcases ha.overflow with ho | ⟨-, m, -, hm⟩
      · exact ho
      · rw [h.no_min] at hm
        exact absurd hm (by simp)
    unfold at0
    rw [List.getD_eq_getElem _ _ hv]
    exact ho _ (List.getElem_mem hv)
  predictors := h.predictors

theorem usable_untruncated (ha : ValidArgs a) (ht : 0 < a.num_trees) (h : Untruncated a) : Usable a := by
  refine ⟨ha, ht, fillOK ha (Or.inr h.cutpoints), Or.inr ⟨h.cutpoints, ?_⟩⟩
  have := ha.depth_pos
  have := h.predictors
  show a.p_nonterminal.length - 1 < a.max_split.length
  omega

/-- the trees obtained by adding a decision at node `m`, in a sum -/
theorem sum_decision (hu : NoTrunc a) (hm : m < 2 ^ a.p_nonterminal.length) (χ : Rules → ℝ) :
    ∑ T ∈ firstTrees a (m + 1), (if at0 T.split m ≠ 0 then firstW a T (m + 1) * χ T else 0) =
      a.p_nonterminal.getD (Nat.log2 m) 0 * ∑ U ∈ firstTrees a m, open Classical in if IsNode U.split m then
        firstW a U m * ∑ r ∈ ruleSet a U m, ruleP a U m r * χ (grownAt U m r.1 r.2) else 0 := by
  classical
  rw [← Finset.sum_filter, ← Finset.sum_filter, Finset.mul_sum]
  have hmaps : ∀ T ∈ (firstTrees a (m + 1)).filter (fun T => at0 T.split m ≠ 0),
      pruned T m ∈ (firstTrees a m).filter (fun U => IsNode U.split m) := by
    intro T hT
    rw [Finset.mem_filter] at hT ⊢
    have := pruned_mem hT.1 hT.2
    exact ⟨this.1, this.2.1⟩
  rw [← Finset.sum_fiberwise_of_maps_to hmaps]
  refine Finset.sum_congr rfl fun U hU => ?_
  rw [Finset.mem_filter] at hU
  obtain ⟨hU1, hnode⟩ := hU
  have hU2 := mem_firstTrees.1 hU1
  have hl : IsLeaf U.split m := ⟨hnode, hU2.2 m le_rfl⟩
  rw [Finset.mul_sum, Finset.mul_sum]
  refine Finset.sum_bij' (fun T _ => (⟨at0 T.var m, at0 T.split m⟩ : Σ _ : Nat, Nat)) (fun r _ => grownAt U m r.1 r.2) ?_ ?_ ?_ ?_ ?_
  · intro T hT
    rw [Finset.mem_filter, Finset.mem_filter] at hT
    obtain ⟨⟨hT1, hT2⟩, rfl⟩ := hT
    have hlp := leafParent_of_first hT1 hT2
    have hTp := (mem_firstTrees.1 hT1).1
    have hg : Grown a.p_nonterminal.length (pruned T m).var (pruned T m).split T.var T.split m := pruned_grown hTp hlp
    rw [mem_ruleSet]
    have h1 := hTp.var_avail m hlp.1
    have h2 := hTp.split_avail m hlp.1
    rw [hg.availVars hU2.1.split hTp.split _ _ hl.1] at h1
    rw [hg.availSplits hU2.1.split hTp.split _ hl.1] at h2
    exact ⟨h1, h2⟩
  · intro r hr
    rw [mem_ruleSet] at hr
    have hs1 : 1 ≤ r.2 := by obtain ⟨⟨x, _, _, h⟩, _⟩ := hr.2; omega
    have hat := at0_grownAt hU2.1 hm r.1 r.2
    rw [Finset.mem_filter, Finset.mem_filter, mem_firstTrees]
    refine ⟨⟨⟨grownAt_possible hu.no_min hU2.1 hl hm hr.1 hr.2, fun k hk => ?_⟩, ?_⟩, pruned_grownAt hU2.1 hl hm _ _⟩
    · rw [(hat k).2, if_neg (by omega)]
      exact hU2.2 k (by omega)
    · rw [(hat m).2, if_pos rfl]
      omega
  · intro T hT
    rw [Finset.mem_filter, Finset.mem_filter] at hT
    obtain ⟨⟨hT1, hT2⟩, rfl⟩ := hT
    exact grownAt_pruned hT1 hT2
  · intro r hr
    have hat := at0_grownAt hU2.1 hm r.1 r.2
    show (⟨at0 (grownAt U m r.1 r.2).var m, at0 (grownAt U m r.1 r.2).split m⟩ : Σ _ : Nat, Nat) = r
    rw [(hat m).1, (hat m).2, if_pos rfl, if_pos rfl]
  · intro T hT
    rw [Finset.mem_filter, Finset.mem_filter] at hT
    obtain ⟨⟨hT1, hT2⟩, rfl⟩ := hT
    have hlp := leafParent_of_first hT1 hT2
    have hTp := (mem_firstTrees.1 hT1).1
    have hg := pruned_grown hTp hlp
    have e := grownAt_pruned hT1 hT2
    have hw : nodeW a T m = a.p_nonterminal.getD (Nat.log2 m) 0 * ruleP a (pruned T m) m ⟨at0 T.var m, at0 T.split m⟩ := by
      have := nodeW_grownAt (a := a) (U := pruned T m) (m := m) (v := at0 T.var m) (s := at0 T.split m) hU2.1
        (by rw [e]; exact hTp) (by rw [e]; exact hg)
      rwa [e] at this
    have hf : firstW a T (m + 1) = firstW a (pruned T m) m * nodeW a T m := by
      rw [← firstW_grown hTp hU2.1 hg, firstW, firstW, Finset.prod_range_succ]
    show firstW a T (m + 1) * χ T = a.p_nonterminal.getD (Nat.log2 m) 0 * (firstW a (pruned T m) m *
      (ruleP a (pruned T m) m ⟨at0 T.var m, at0 T.split m⟩ * χ (grownAt (pruned T m) m (at0 T.var m) (at0 T.split m))))
    rw [e, hf, hw]
    ring

theorem firstTrees_succ : T ∈ firstTrees a m ↔ T ∈ firstTrees a (m + 1) ∧ at0 T.split m = 0 := by
  rw [mem_firstTrees, mem_firstTrees]
  refine ⟨fun h => ⟨⟨h.1, fun k hk => h.2 k (by omega)⟩, h.2 m le_rfl⟩, fun h => ⟨h.1.1, fun k hk => ?_⟩⟩
  rcases Nat.lt_or_ge m k with h' | h'
  · exact h.1.2 k h'
  · rw [show k = m by omega]; exact h.2

/-- the trees without a decision at node `m`, in a sum -/
theorem sum_no_decision (χ : Rules → ℝ) :
    ∑ T ∈ firstTrees a (m + 1), (if at0 T.split m = 0 then firstW a T (m + 1) * χ T else 0) =
      ∑ U ∈ firstTrees a m, open Classical in if IsNode U.split m then
        (1 - a.p_nonterminal.getD (Nat.log2 m) 0) * (firstW a U m * χ U) else firstW a U m * χ U := by
  classical
  rw [← Finset.sum_filter]
  refine Finset.sum_congr ?_ fun U hU => ?_
  · ext T
    rw [Finset.mem_filter]
    exact firstTrees_succ.symm
  · rw [firstTrees_succ] at hU
    have hnd : ¬ IsDecision U.split m := fun h => h.2 hU.2
    rw [firstW, Finset.prod_range_succ]
    change firstW a U m * _ * _ = _
    unfold nodeW nodeProb
    rw [if_neg hnd, if_neg hnd]
    by_cases h : IsNode U.split m
    · rw [if_pos h, if_pos (show IsLeaf U.split m from ⟨h, hU.2⟩)]
      ring
    · rw [if_neg h, if_neg (show ¬ IsLeaf U.split m from fun h' => h h'.1)]
      ring

/-- the function does not depend on the nodes from `m` on -/
def DependsBelow {α : Type} (m : Nat) (χ : Rules → α) : Prop :=
  ∀ T U : Rules, (∀ k, k < m → at0 T.var k = at0 U.var k ∧ at0 T.split k = at0 U.split k) → χ T = χ U

theorem DependsBelow.grownAt {α : Type} {χ : Rules → α} (h : DependsBelow m χ) (hU : PossibleTree a U) {n : Nat} (hmn : m ≤ n)
    (hn : n < 2 ^ a.p_nonterminal.length) (v s : Nat) : χ (grownAt U n v s) = χ U := by
  refine h _ _ fun k hk => ?_
  have := at0_grownAt hU hn v s k
  rw [if_neg (by omega), if_neg (by omega)] at this
  exact this

/-- going to the next node -/
theorem sum_next (hu : NoTrunc a) {n : Nat} (hmn : m ≤ n) (hn : n < 2 ^ a.p_nonterminal.length) {χ : Rules → ℝ} (hχ : DependsBelow m χ) :
    ∑ T ∈ firstTrees a (n + 1), firstW a T (n + 1) * χ T = ∑ U ∈ firstTrees a n, firstW a U n * χ U := by
  classical
  have e : ∀ T ∈ firstTrees a (n + 1), firstW a T (n + 1) * χ T =
      (if at0 T.split n ≠ 0 then firstW a T (n + 1) * χ T else 0) + if at0 T.split n = 0 then firstW a T (n + 1) * χ T else 0 := by
    intro T _
    by_cases h : at0 T.split n = 0 <;> simp [h]
  rw [Finset.sum_congr rfl e, Finset.sum_add_distrib, sum_decision hu hn, sum_no_decision, Finset.mul_sum, ← Finset.sum_add_distrib]
  refine Finset.sum_congr rfl fun U hU => ?_
  have hU' := (mem_firstTrees.1 hU).1
  by_cases h : IsNode U.split n
  · rw [if_pos h, if_pos h]
    have : ∑ r ∈ ruleSet a U n, ruleP a U n r * χ (Bartz.grownAt U n r.1 r.2) = χ U := by
      rw [Finset.sum_congr rfl fun r _ => by rw [hχ.grownAt hU' hmn hn], ← Finset.sum_mul, sum_ruleP hu.cutpoints hu.predictors h.pos hn,
        one_mul]
    rw [this]
    ring
  · rw [if_neg h, if_neg h]
    ring

/-- the probabilities of what does not depend on the nodes from `m` on -/
theorem sum_all (hu : NoTrunc a) (hm : m ≤ 2 ^ a.p_nonterminal.length) {χ : Rules → ℝ} (hχ : DependsBelow m χ) :
    ∑ T ∈ firstTrees a (2 ^ a.p_nonterminal.length), firstW a T (2 ^ a.p_nonterminal.length) * χ T =
      ∑ U ∈ firstTrees a m, firstW a U m * χ U := by
  obtain ⟨d, hd⟩ := Nat.exists_eq_add_of_le hm
  have : ∀ d, m + d ≤ 2 ^ a.p_nonterminal.length →
      ∑ T ∈ firstTrees a (m + d), firstW a T (m + d) * χ T = ∑ U ∈ firstTrees a m, firstW a U m * χ U := by
    intro d
    induction d with
    | zero => intro _; rfl
    | succ d ih =>
      intro h
      rw [← ih (by omega), ← add_assoc]
      exact sum_next hu (by omega) (by omega) hχ
  rw [hd]
  exact this d (by omega)

/-- the trees with decisions only before node 0 -/
theorem firstTrees_zero : firstTrees a 0 = {rootT a} := by
  ext T
  rw [mem_firstTrees, Finset.mem_singleton]
  constructor
  · rintro ⟨h1, h2⟩
    refine rules_ext h1 (root_possible a) (list_ext_at0 ?_ fun k => ?_) fun i hi => absurd (h2 i (Nat.zero_le _)) hi.2
    · rw [h1.split.length, (root_possible a).split.length]
    · rw [h2 k (Nat.zero_le _)]
      simp [rootT, at0]
  · rintro rfl
    refine ⟨root_possible a, fun k _ => ?_⟩
    simp [rootT, at0]

theorem isNode_congr {split split' : List Nat} {n : Nat} (h : ∀ k, k < n → at0 split k = at0 split' k) (hn : IsNode split n) :
    IsNode split' n := by
  induction hn with
  | root => exact .root
  | @left i hi h0 ih =>
    have := hi.pos
    exact .left (ih fun k hk => h k (by omega)) (by rw [← h i (by omega)]; exact h0)
  | @right i hi h0 ih =>
    have := hi.pos
    exact .right (ih fun k hk => h k (by omega)) (by rw [← h i (by omega)]; exact h0)

theorem settledBefore_isNode (i : Nat) : SettledBefore i fun T => IsNode T.split i := fun _ _ h =>
  ⟨isNode_congr fun k hk => (h k hk).2, isNode_congr fun k hk => (h k hk).2.symm⟩

theorem settledBefore_and {E E' : Rules → Prop} (h : SettledBefore m E) (h' : SettledBefore m E') :
    SettledBefore m fun T => E T ∧ E' T := fun T U e => and_congr (h T U e) (h' T U e)

open Classical in
theorem settledBefore_depends {E : Rules → Prop} (h : SettledBefore m E) : DependsBelow m fun T => if E T then (1 : ℝ) else 0 :=
  fun T U e => by simp only [h T U e]

/-! ### The probabilities -/

theorem firstW_all_nonneg (hu : Usable a) (hp : ∀ x ∈ a.p_nonterminal, x < 1)
    (hT : T ∈ firstTrees a (2 ^ a.p_nonterminal.length)) : 0 ≤ firstW a T (2 ^ a.p_nonterminal.length) := by
  have h := firstTrees_all.1 hT
  rw [← treePrior_eq_firstW h]
  exact (possible_treePrior_pos hu hp h).le

open Classical in
theorem treeDist_sum (hnn : ∀ T ∈ firstTrees a (2 ^ a.p_nonterminal.length), 0 ≤ firstW a T (2 ^ a.p_nonterminal.length))
    (E : Rules → Prop) :
    (treeDist a).real {y | E y.1} = ∑ T ∈ firstTrees a (2 ^ a.p_nonterminal.length),
      firstW a T (2 ^ a.p_nonterminal.length) * if E T then 1 else 0 := by
  have hm : MeasurableSet {y : Tree (nodes a) | E y.1} := measurableSet_rules E
  have e : treeDist a {y | E y.1} = ∑' T, ruleW a T * if E T then 1 else 0 := by
    rw [← lintegral_indicator_one hm, lintegral_treeDist (measurable_one.indicator hm)]
    congr 1
    funext T
    congr 1
    by_cases h : E T
    · rw [if_pos h, lintegral_congr (g := fun _ => 1) fun z => Set.indicator_of_mem (show (T, z) ∈ {y : Tree (nodes a) | E y.1} from h) _]
      simp
    · rw [if_neg h, lintegral_congr (g := fun _ => 0) fun z => Set.indicator_of_notMem (show (T, z) ∉ {y : Tree (nodes a) | E y.1} from h) _]
      simp
  rw [Measure.real, e, tsum_eq_sum (s := firstTrees a (2 ^ a.p_nonterminal.length)), ENNReal.toReal_sum]
  · refine Finset.sum_congr rfl fun T hT => ?_
    rw [ENNReal.toReal_mul, ruleW, if_pos (firstTrees_all.1 hT), treePrior_eq_firstW (firstTrees_all.1 hT),
      ENNReal.toReal_ofReal (hnn T hT)]
    split_ifs <;> simp
  · intro T hT
    rw [ruleW]
    split_ifs <;> simp
  · intro T hT
    rw [ruleW_eq_zero fun h => hT (firstTrees_all.2 h), zero_mul]

open Classical in
theorem treeDist_event (hu : Usable a) (hp : ∀ x ∈ a.p_nonterminal, x < 1) (E : Rules → Prop) :
    (treeDist a).real {y | E y.1} = ∑ T ∈ firstTrees a (2 ^ a.p_nonterminal.length),
      firstW a T (2 ^ a.p_nonterminal.length) * if E T then 1 else 0 :=
  treeDist_sum (fun _ hT => firstW_all_nonneg hu hp hT) E

open Classical in
/-- the probability of what is settled before node `m` -/
theorem treeDist_before (hu : Usable a) (hp : ∀ x ∈ a.p_nonterminal, x < 1) (hun : NoTrunc a)
    (hm : m ≤ 2 ^ a.p_nonterminal.length) {E : Rules → Prop} (hE : SettledBefore m E) :
    (treeDist a).real {y | E y.1} = ∑ T ∈ firstTrees a m, firstW a T m * if E T then 1 else 0 := by
  rw [treeDist_event hu hp, sum_all hun hm (settledBefore_depends hE)]

theorem treeDist_one (hu : Usable a) (hp : ∀ x ∈ a.p_nonterminal, x < 1) (hun : NoTrunc a) : treeDist a Set.univ = 1 := by
  have h := treeDist_before hu hp hun (Nat.zero_le _) (E := fun _ => True) fun _ _ _ => Iff.rfl
  rw [firstTrees_zero] at h
  simp only [Set.ofPred_true, Finset.sum_singleton, firstW, Finset.range_zero, Finset.prod_empty, if_true, mul_one] at h
  rw [Measure.real] at h
  rwa [ENNReal.toReal_eq_one_iff] at h

theorem treePriorDist_eq (hu : Usable a) (hp : ∀ x ∈ a.p_nonterminal, x < 1) (hun : NoTrunc a) : treePriorDist a = treeDist a := by
  unfold treePriorDist
  rw [treeDist_one hu hp hun, inv_one, one_smul]

open Classical in
/-- the probability of the rule at node `m` -/
theorem treeDist_rule (hu : Usable a) (hp : ∀ x ∈ a.p_nonterminal, x < 1) (hun : NoTrunc a)
    (hm : m < 2 ^ a.p_nonterminal.length) {E : Rules → Prop} (hE : SettledBefore m E) (R : Nat → Nat → Prop) :
    (treeDist a).real {y | E y.1 ∧ IsDecision y.1.split m ∧ R (at0 y.1.var m) (at0 y.1.split m)} =
      a.p_nonterminal.getD (Nat.log2 m) 0 * ∑ U ∈ firstTrees a m, if IsNode U.split m then
        firstW a U m * ((if E U then 1 else 0) * ∑ r ∈ ruleSet a U m, ruleP a U m r * if R r.1 r.2 then 1 else 0) else 0 := by
  have hs : SettledBefore (m + 1) fun T => E T ∧ IsDecision T.split m ∧ R (at0 T.var m) (at0 T.split m) := by
    intro T U e
    have e' : ∀ k, k < m → at0 T.var k = at0 U.var k ∧ at0 T.split k = at0 U.split k := fun k hk => e k (by omega)
    have h1 : E T ↔ E U := hE T U e'
    have h2 : IsNode T.split m ↔ IsNode U.split m := settledBefore_isNode m T U e'
    show (E T ∧ (IsNode T.split m ∧ _) ∧ _) ↔ (E U ∧ (IsNode U.split m ∧ _) ∧ _)
    rw [h1, h2, (e m (by omega)).1, (e m (by omega)).2]
  rw [treeDist_before hu hp hun (by omega) hs]
  have h := sum_decision hun hm fun T => (if E T then 1 else 0) * if R (at0 T.var m) (at0 T.split m) then 1 else 0
  rw [Finset.sum_congr rfl, h]
  · congr 1
    refine Finset.sum_congr rfl fun U hU => ?_
    have hU' := (mem_firstTrees.1 hU).1
    by_cases hn : IsNode U.split m
    · rw [if_pos hn, if_pos hn]
      congr 1
      rw [Finset.mul_sum]
      refine Finset.sum_congr rfl fun r _ => ?_
      have h1 : E (grownAt U m r.1 r.2) ↔ E U := by
        have := (settledBefore_depends hE).grownAt hU' le_rfl hm r.1 r.2
        by_cases h1 : E (grownAt U m r.1 r.2) <;> by_cases h2 : E U <;> simp_all
      have hat := at0_grownAt hU' hm r.1 r.2 m
      rw [if_pos rfl, if_pos rfl] at hat
      rw [hat.1, hat.2]
      simp only [h1]
      ring
    · rw [if_neg hn, if_neg hn]
  · intro T hT
    have hT' := (mem_firstTrees.1 hT).1
    have hd : IsDecision T.split m ↔ at0 T.split m ≠ 0 := hT'.split.isDecision_iff
    rw [hd]
    by_cases h1 : at0 T.split m ≠ 0 <;> by_cases h2 : E T <;> by_cases h3 : R (at0 T.var m) (at0 T.split m) <;> simp [h1, h2, h3]

end
end Bartz
