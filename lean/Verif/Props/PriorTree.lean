import Verif.Lemmas.PriorBound
import Verif.Props.Prior
/-!
# The a priori distribution of the trees: C96

The full property: a priori, a node at depth `d` is nonterminal with probability `base / (1 + d) ** power`, whatever the rest of the tree above
and at the left of it. It is false if there is a minimum number of datapoints per leaf (`C96_not`), as by default in `gbart`. The other theorems
show that it is true without the minimum, if moreover there is always a variable to split on (`Untruncated`), and that in general the
probability is at most the one stated.
-/

set_option autoImplicit false

namespace Bartz
open Jax Spec MeasureTheory ProbabilityTheory

section
variable {a : InitArgs ℝ} {i : Nat} {E : Rules → Prop}

/-- **C96**. The a priori probabilities of the trees, as computed by the algorithm, add up to 1. -/
theorem C96_normalized_partial (ha : ValidArgs a) (ht : 0 < a.num_trees) (hun : Untruncated a) : treeDist a Set.univ = 1 :=
  treeDist_one (usable_untruncated ha ht hun) hun.nonterminal (noTrunc_of ha hun)

/-- **C96**. Given that there is a node `i`, and given anything about the nodes before it, the probability that it is nonterminal is the entry
of `p_nonterminal` for its depth. -/
theorem C96_nonterminal_partial (ha : ValidArgs a) (ht : 0 < a.num_trees) (hun : Untruncated a) (hi : i < 2 ^ a.p_nonterminal.length)
    (hE : SettledBefore i E) :
    (treePriorDist a).real {y | E y.1 ∧ IsDecision y.1.split i} =
      a.p_nonterminal.getD (Nat.log2 i) 0 * (treePriorDist a).real {y | E y.1 ∧ IsNode y.1.split i} := by
  classical
  have hu := usable_untruncated ha ht hun
  have hun' := noTrunc_of ha hun
  rw [treePriorDist_eq hu hun.nonterminal hun']
  have h := treeDist_rule hu hun.nonterminal hun' hi hE fun _ _ => True
  simp only [and_true, if_true, mul_one] at h
  rw [h, treeDist_before hu hun.nonterminal hun' hi.le (settledBefore_and hE (settledBefore_isNode i))]
  congr 1
  refine Finset.sum_congr rfl fun U _ => ?_
  by_cases hn : IsNode U.split i
  · rw [if_pos hn, sum_ruleP hun'.cutpoints hun'.predictors hn.pos hi]
    by_cases h' : E U <;> simp [h', hn]
  · simp [hn]

/-- **C96**. The probability that there is a node at a given position is the product of the probabilities of its ancestors. -/
theorem C96_node_partial (ha : ValidArgs a) (ht : 0 < a.num_trees) (hun : Untruncated a) (h1 : 1 ≤ i)
    (hi : i < 2 * 2 ^ a.p_nonterminal.length) :
    (treePriorDist a).real {y | IsNode y.1.split i} = ∏ d ∈ Finset.range (Nat.log2 i), a.p_nonterminal.getD d 0 := by
  induction i using Nat.strong_induction_on with
  | _ i ih =>
    rcases Nat.lt_or_ge i 2 with h2 | h2
    · obtain rfl : i = 1 := by omega
      have hu := usable_untruncated ha ht hun
      have hun' := noTrunc_of ha hun
      have : {y : Tree (nodes a) | IsNode y.1.split 1} = Set.univ := Set.eq_univ_of_forall fun y => IsNode.root
      rw [this, treePriorDist_eq hu hun.nonterminal hun', Measure.real, treeDist_one hu hun.nonterminal hun',
        show Nat.log2 1 = 0 by decide]
      simp
    · have hlog : Nat.log2 i = Nat.log2 (i / 2) + 1 := by rw [log2_half h2]
      have hpar : ∀ T : Rules, IsNode T.split i ↔ IsDecision T.split (i / 2) := fun T =>
        ⟨fun h => h.parent h2, fun h => by
          rcases Nat.mod_two_eq_zero_or_one i with e | e
          · rw [show i = 2 * (i / 2) by omega]; exact .left h.1 h.2
          · rw [show i = 2 * (i / 2) + 1 by omega]; exact .right h.1 h.2⟩
      have h := C96_nonterminal_partial (i := i / 2) (E := fun _ => True) ha ht hun (by omega) fun _ _ _ => Iff.rfl
      simp only [true_and] at h
      simp only [hpar]
      rw [h, ih (i / 2) (by omega) (by omega) (by omega), hlog, Finset.prod_range_succ, mul_comm]

/-- **C96**. Given anything about the nodes before `i` that implies that it exists, and determines the available variables and cutpoints, the
variable and then the cutpoint are chosen with equal probabilities. -/
theorem C96_rule_partial (ha : ValidArgs a) (ht : 0 < a.num_trees) (hun : Untruncated a) (hi : i < 2 ^ a.p_nonterminal.length)
    (hE : SettledBefore i E) {v s : Nat} {V S : Set Nat} (hnode : ∀ T, E T → IsNode T.split i)
    (hV : ∀ T, E T → {v | v < a.max_split.length ∧ HasSplit a.max_split T.var T.split i v} = V)
    (hS : ∀ T, E T → availSplits a.max_split T.var T.split i v = S) (hv : v ∈ V) (hs : s ∈ S) :
    (treePriorDist a).real {y | E y.1 ∧ IsDecision y.1.split i ∧ at0 y.1.var i = v ∧ at0 y.1.split i = s} =
      a.p_nonterminal.getD (Nat.log2 i) 0 * (1 / V.ncard) * (1 / S.ncard) * (treePriorDist a).real {y | E y.1} := by
  classical
  have hu := usable_untruncated ha ht hun
  have hun' := noTrunc_of ha hun
  rw [treePriorDist_eq hu hun.nonterminal hun']
  have h := treeDist_rule hu hun.nonterminal hun' hi hE fun v' s' => v' = v ∧ s' = s
  rw [h, treeDist_before hu hun.nonterminal hun' hi.le hE, mul_assoc, mul_assoc]
  congr 1
  rw [← mul_assoc, Finset.mul_sum]
  refine Finset.sum_congr rfl fun U _ => ?_
  by_cases h' : E U
  · rw [if_pos (hnode U h'), if_pos h', one_mul, mul_one, mul_comm _ (firstW a U i)]
    congr 1
    have hav : availVars a.split_bits a.max_split U.var U.split i = V := by
      rw [← hV U h']
      ext w
      refine ⟨fun hw => ⟨hw.1, hw.2.resolve_right ?_⟩, fun hw => ⟨hw.1, Or.inl hw.2⟩⟩
      have := hun'.cutpoints w hw.1
      rintro (h1 | h1)
      · have := h1.1
        omega
      · omega
    have hmem : (⟨v, s⟩ : Σ _ : Nat, Nat) ∈ ruleSet a U i := by
      rw [mem_ruleSet, hav, hS U h']
      exact ⟨hv, hs⟩
    rw [Finset.sum_eq_single_of_mem _ hmem]
    · rw [if_pos ⟨rfl, rfl⟩, mul_one]
      unfold ruleP
      rw [hav, hS U h']
    · rintro ⟨v', s'⟩ - hne
      rw [if_neg, mul_zero]
      rintro ⟨rfl, rfl⟩
      exact hne rfl
  · rw [if_neg h']
    simp

/-- **C96**. With any settings, the probability that a node is nonterminal, given that it exists and given anything about the nodes before it,
is at most the entry of `p_nonterminal` for its depth. -/
theorem C96_at_most_partial (ha : ValidArgs a) (hi : i < 2 ^ a.p_nonterminal.length) (hE : SettledBefore i E) :
    (treePriorDist a).real {y | E y.1 ∧ IsDecision y.1.split i} ≤
      a.p_nonterminal.getD (Nat.log2 i) 0 * (treePriorDist a).real {y | E y.1 ∧ IsNode y.1.split i} := by
  have hp : ∀ x ∈ a.p_nonterminal, 0 ≤ x ∧ x ≤ 1 := by
    intro x hx
    obtain ⟨-, h2, h3⟩ := ha.nonterminal_pos x hx
    rw [Real.leb_iff_false] at h2
    rw [Real.leb_iff] at h3
    exact ⟨h2.le, h3⟩
  have h := treeDist_decision_le hp hi hE
  unfold treePriorDist
  simp only [Measure.real, Measure.smul_apply, smul_eq_mul, ENNReal.toReal_mul] at h ⊢
  rw [mul_left_comm]
  exact mul_le_mul_of_nonneg_left h ENNReal.toReal_nonneg

/-- **C96**. With any settings, the probability that there is a node at a given position is at most the product of the probabilities of its
ancestors. -/
theorem C96_node_at_most_partial (ha : ValidArgs a) (h1 : 1 ≤ i) (hi : i < 2 * 2 ^ a.p_nonterminal.length) :
    (treePriorDist a).real {y | IsNode y.1.split i} ≤ ∏ d ∈ Finset.range (Nat.log2 i), a.p_nonterminal.getD d 0 := by
  induction i using Nat.strong_induction_on with
  | _ i ih =>
    rcases Nat.lt_or_ge i 2 with h2 | h2
    · obtain rfl : i = 1 := by omega
      rw [show Nat.log2 1 = 0 by decide, Finset.range_zero, Finset.prod_empty]
      have : {y : Tree (nodes a) | IsNode y.1.split 1} = Set.univ := Set.eq_univ_of_forall fun y => IsNode.root
      rw [this, Measure.real, treePriorDist, Measure.smul_apply, smul_eq_mul]
      exact ENNReal.toReal_le_of_le_ofReal zero_le_one (by simp [ENNReal.inv_mul_le_one])
    · have hlog : Nat.log2 i = Nat.log2 (i / 2) + 1 := by rw [log2_half h2]
      have hpar : ∀ T : Rules, IsNode T.split i ↔ IsDecision T.split (i / 2) := fun T =>
        ⟨fun h => h.parent h2, fun h => by
          rcases Nat.mod_two_eq_zero_or_one i with e | e
          · rw [show i = 2 * (i / 2) by omega]; exact .left h.1 h.2
          · rw [show i = 2 * (i / 2) + 1 by omega]; exact .right h.1 h.2⟩
      have h := C96_at_most_partial (i := i / 2) (E := fun _ => True) ha (by omega) fun _ _ _ => Iff.rfl
      simp only [true_and] at h
      simp only [hpar]
      refine h.trans ?_
      rw [hlog, Finset.prod_range_succ, mul_comm]
      refine mul_le_mul_of_nonneg_right (ih (i / 2) (by omega) (by omega) (by omega)) ?_
      rcases Nat.lt_or_ge (Nat.log2 (i / 2)) a.p_nonterminal.length with h' | h'
      · rw [List.getD_eq_getElem _ _ h']
        have := (ha.nonterminal_pos _ (List.getElem_mem h')).2.1
        rw [Real.leb_iff_false] at this
        exact this.le
      · rw [List.getD_eq_default _ _ h']

/-- **C96** is false with a minimum number of datapoints per leaf, if the datapoints are less than twice the minimum: the root is never
nonterminal. -/
theorem C96_not (ha : ValidArgs a) {n : Nat} (hn : a.min_points_per_leaf = some n) (hfew : a.y.length < 2 * n) :
    (treePriorDist a).real {y | IsDecision y.1.split 1} = 0 := by
  classical
  have himp : ∀ T, PossibleTree a T → ¬ IsDecision T.split 1 := by
    intro T hT hd
    obtain ⟨i, _, hi⟩ := exists_other_leaf ha.depth_pos ha.depth_lt hT.split hd.2 0
    obtain ⟨k, hne, hk⟩ := exists_other_leaf ha.depth_pos ha.depth_lt hT.split hd.2 i
    have h1 := hT.points n hn hd.2 i hi
    have h2 := hT.points n hn hd.2 k hk
    unfold pointsIn at h1 h2
    have hf : ∀ l, {j | j < a.y.length ∧ FallsInto (point a.X j) T.var T.split l}.Finite := fun l =>
      (Set.finite_lt_nat _).subset fun j hj => hj.1
    have hdis : Disjoint {j | j < a.y.length ∧ FallsInto (point a.X j) T.var T.split i}
        {j | j < a.y.length ∧ FallsInto (point a.X j) T.var T.split k} := by
      rw [Set.disjoint_left]
      rintro j ⟨_, h3⟩ ⟨_, h4⟩
      exact hne (fallsInto_unique ha.depth_lt hT.var_length hT.split.length h4 h3)
    have h3 := Set.ncard_union_eq hdis (hf i) (hf k)
    have h4 : ({j | j < a.y.length ∧ FallsInto (point a.X j) T.var T.split i} ∪
        {j | j < a.y.length ∧ FallsInto (point a.X j) T.var T.split k}).ncard ≤ a.y.length := by
      have := Set.ncard_le_ncard (s := {j | j < a.y.length ∧ FallsInto (point a.X j) T.var T.split i} ∪
        {j | j < a.y.length ∧ FallsInto (point a.X j) T.var T.split k}) (t := {j | j < a.y.length})
        (by rintro j (hj | hj) <;> exact hj.1) (Set.finite_lt_nat _)
      refine this.trans (le_of_eq ?_)
      have e : {j | j < a.y.length} = (Finset.range a.y.length : Set Nat) := by ext; simp
      rw [e, Set.ncard_coe_finset, Finset.card_range]
    omega
  have hm : MeasurableSet {y : Tree (nodes a) | IsDecision y.1.split 1} := measurableSet_rules {T | IsDecision T.split 1}
  have h0 : treeDist a {y | IsDecision y.1.split 1} = 0 := by
    rw [← lintegral_indicator_one hm, lintegral_treeDist (measurable_one.indicator hm), ENNReal.tsum_eq_zero]
    intro T
    by_cases hT : PossibleTree a T
    · rw [lintegral_congr (g := fun _ => 0) fun z => Set.indicator_of_notMem
        (show (T, z) ∉ {y : Tree (nodes a) | IsDecision y.1.split 1} from himp T hT) _]
      simp
    · rw [ruleW_eq_zero hT, zero_mul]
  unfold treePriorDist
  rw [Measure.real, Measure.smul_apply, h0]
  simp

end

section
variable {K P : Type} [Field P] [LinearOrder P] {lib : Lib ℝ P} {a : GbartArgs K ℝ}

/-- **C96** for `gbart`, false: with the default settings and less than 10 datapoints, the root is never nonterminal. The documented
probability is `base`. -/
theorem C96_not_gbart (h : ValidGbart lib a) {sp : Splits P}
    (hsp : determine_splits lib a.x_train.x a.x_train.n a.usequants a.numcut = some sp)
    (hdef : a.initkw.min_points_per_leaf = none) (hfew : a.y_train.length < 10) :
    (treePriorDist (gbart_init_args lib a sp)).real {y | IsDecision y.1.split 1} = 0 := by
  refine C96_not (gbart_args_valid h hsp) (n := 5) ?_ ?_
  · show a.initkw.min_points_per_leaf.getD (some 5) = some 5
    rw [hdef]; rfl
  · show (transform_input _ _ _).length < _
    unfold transform_input
    rw [List.length_map]
    omega

/-- **C96** for `gbart`, without a minimum number of datapoints per leaf: the probabilities in terms of the documented formula. -/
theorem C96_gbart_partial [KeyLike K] [IsStrictOrderedRing P] (h : ValidGbart lib a) {sp : Splits P}
    (hsp : determine_splits lib a.x_train.x a.x_train.n a.usequants a.numcut = some sp) (hacc : AccurateLinspace lib a)
    (hy : 0 < a.y_train.length) (hn : a.y_train.length < 2 ^ 64) (hcut : 1 ≤ a.numcut) (ht : 0 < a.ntree)
    (hmin : a.initkw.min_points_per_leaf = some none) (hpred : a.maxdepth - 1 ≤ a.x_train.x.length)
    (hvar : a.usequants = true → ∀ row ∈ a.x_train.x, ∃ v ∈ row, ∃ w ∈ row, lib.exact v ≠ lib.exact w)
    (hnt : ∀ d, d < a.maxdepth - 1 → a.base / lib.pow ((1 + d : Nat) : ℝ) a.power < 1)
    {i : Nat} (h1 : 1 ≤ i) (hi : i < 2 ^ (a.maxdepth - 1)) {E : Rules → Prop} (hE : SettledBefore i E) :
    (treePriorDist (gbart_init_args lib a sp)).real {y | E y.1 ∧ IsDecision y.1.split i} =
      a.base / lib.pow ((1 + Nat.log2 i : Nat) : ℝ) a.power *
        (treePriorDist (gbart_init_args lib a sp)).real {y | E y.1 ∧ IsNode y.1.split i} := by
  have e : (gbart_init_args lib a sp).p_nonterminal =
      (List.range (a.maxdepth - 1)).map fun depth => a.base / lib.pow ((1 + depth : Nat) : ℝ) a.power := rfl
  have hl : (gbart_init_args lib a sp).p_nonterminal.length = a.maxdepth - 1 := by rw [e]; simp
  have hlen : sp.max_split.length = a.x_train.x.length := by
    obtain ⟨sp', h1, -, h3, -⟩ := determine_splits_spec lib a.x_train.x a.x_train.n a.usequants a.numcut (by
      intro _ row hr e
      have := h.row row hr
      subst e
      simp at *
      omega)
    rw [hsp] at h1
    cases h1
    exact h3
  have hun : Untruncated (gbart_init_args lib a sp) := by
    refine ⟨?_, ?_, ?_, ?_⟩
    · show a.initkw.min_points_per_leaf.getD (some 5) = none
      rw [hmin]; rfl
    · intro v hv
      have hv' : v < a.x_train.x.length := hlen ▸ hv
      refine (determine_splits_max h hsp hacc hn h.numcut_lt hcut hy hv').1 fun hu => ?_
      rw [List.getD_eq_getElem _ _ hv']
      exact hvar hu _ (List.getElem_mem hv')
    · rw [hl]
      show _ ≤ sp.max_split.length
      rw [hlen]; exact hpred
    · intro x hx
      rw [e] at hx
      simp only [List.mem_map, List.mem_range] at hx
      obtain ⟨d, hd, rfl⟩ := hx
      exact hnt d hd
  rw [C96_nonterminal_partial (gbart_args_valid h hsp) ht hun (by rw [hl]; exact hi) hE]
  congr 1
  have hlog : Nat.log2 i < a.maxdepth - 1 := (Nat.log2_lt (by omega)).2 hi
  rw [e, List.getD_eq_getElem _ _ (by simpa using hlog)]
  simp

/-- **C96** for `gbart`, with any settings: the documented formula is an upper bound. -/
theorem C96_gbart_at_most_partial (h : ValidGbart lib a) {sp : Splits P}
    (hsp : determine_splits lib a.x_train.x a.x_train.n a.usequants a.numcut = some sp) {i : Nat} (h1 : 1 ≤ i)
    (hi : i < 2 ^ (a.maxdepth - 1)) {E : Rules → Prop} (hE : SettledBefore i E) :
    (treePriorDist (gbart_init_args lib a sp)).real {y | E y.1 ∧ IsDecision y.1.split i} ≤
      a.base / lib.pow ((1 + Nat.log2 i : Nat) : ℝ) a.power *
        (treePriorDist (gbart_init_args lib a sp)).real {y | E y.1 ∧ IsNode y.1.split i} := by
  have e : (gbart_init_args lib a sp).p_nonterminal =
      (List.range (a.maxdepth - 1)).map fun depth => a.base / lib.pow ((1 + depth : Nat) : ℝ) a.power := rfl
  have hl : (gbart_init_args lib a sp).p_nonterminal.length = a.maxdepth - 1 := by rw [e]; simp
  refine (C96_at_most_partial (gbart_args_valid h hsp) (by rw [hl]; exact hi) hE).trans (le_of_eq ?_)
  congr 1
  have hlog : Nat.log2 i < a.maxdepth - 1 := (Nat.log2_lt (by omega)).2 hi
  rw [e, List.getD_eq_getElem _ _ (by simpa using hlog)]
  simp

end

/-! ### Examples -/

namespace ExQ

theorem args_untruncated : Untruncated ExB.args where
  no_min := rfl
  cutpoints := by
    intro v hv
    have : v < 2 := by simpa [ExB.args, ExR.args] using hv
    interval_cases v <;> simp [ExB.args, ExR.args, at0]
  predictors := by simp [ExB.args, ExR.args]
  nonterminal := one_proper.nonterminal

/-- the probabilities that there are nodes: 1 for the root, 9/10 for its children, 9/20 for the children of those -/
example : (treePriorDist ExB.args).real {y | IsNode y.1.split 6} = 9 / 20 := by
  rw [C96_node_partial ExB.args_valid one_proper.trees args_untruncated (by norm_num) (by simp [ExB.args, ExR.args])]
  have : Nat.log2 6 = 2 := by decide
  rw [this]
  norm_num [Finset.prod_range_succ, ExB.args, ExR.args]

/-- the right child of the root is nonterminal with probability 1/2, also given that the left child is nonterminal and splits the same
variable as the root -/
example : (treePriorDist ExB.args).real {y | (IsDecision y.1.split 2 ∧ at0 y.1.var 2 = at0 y.1.var 1) ∧ IsDecision y.1.split 3} =
    1 / 2 * (treePriorDist ExB.args).real {y | (IsDecision y.1.split 2 ∧ at0 y.1.var 2 = at0 y.1.var 1) ∧ IsNode y.1.split 3} := by
  have h := C96_nonterminal_partial (i := 3) (E := fun T => IsDecision T.split 2 ∧ at0 T.var 2 = at0 T.var 1) ExB.args_valid one_proper.trees
    args_untruncated (by simp [ExB.args, ExR.args]) (by
      intro T U e
      have h2 : IsNode T.split 2 ↔ IsNode U.split 2 := settledBefore_isNode 2 T U fun k hk => e k (by omega)
      show ((IsNode T.split 2 ∧ _) ∧ _) ↔ ((IsNode U.split 2 ∧ _) ∧ _)
      rw [h2, (e 2 (by omega)).1, (e 2 (by omega)).2, (e 1 (by omega)).1])
  rw [h]
  have : Nat.log2 3 = 1 := by decide
  rw [this]
  norm_num [ExB.args, ExR.args]

/-- the first predictor has 3 cutpoints: its second cutpoint is in the root with probability 9/10 * 1/2 * 1/3 -/
example : (treePriorDist ExB.args).real {y | IsDecision y.1.split 1 ∧ at0 y.1.var 1 = 0 ∧ at0 y.1.split 1 = 2} = 3 / 20 := by
  have hr : ∀ (v x : Nat) (T : Rules), ValueReaches v x T.var T.split 1 := fun v x T => .root
  have hS : ∀ T : Rules, availSplits ExB.args.max_split T.var T.split 1 0 = {1, 2, 3} := by
    intro T
    ext s
    have e3 : at0 ExB.args.max_split 0 = 3 := rfl
    have hmem : s ∈ ({1, 2, 3} : Set Nat) ↔ s = 1 ∨ s = 2 ∨ s = 3 := by simp
    rw [hmem]
    constructor
    · rintro ⟨⟨x, h0, _, h1⟩, ⟨y, h2, _, h3⟩⟩
      omega
    · intro h
      exact ⟨⟨0, by omega, hr _ _ _, by omega⟩, ⟨3, by omega, hr _ _ _, by omega⟩⟩
  have hV : ∀ T : Rules, {v | v < ExB.args.max_split.length ∧ HasSplit ExB.args.max_split T.var T.split 1 v} = {0, 1} := by
    intro T
    have e2 : ExB.args.max_split.length = 2 := rfl
    ext v
    rw [e2]
    simp only [Set.mem_ofPred_eq, Set.mem_insert_iff, Set.mem_singleton_iff]
    constructor
    · rintro ⟨h, _⟩
      omega
    · intro h
      refine ⟨by omega, 0, 1, by norm_num, ?_, hr _ _ _, hr _ _ _⟩
      rcases h with rfl | rfl <;> simp [ExB.args, ExR.args, at0]
  have h := C96_rule_partial (i := 1) (E := fun _ => True) (v := 0) (s := 2) ExB.args_valid one_proper.trees args_untruncated
    (by simp [ExB.args, ExR.args]) (fun _ _ _ => Iff.rfl) (fun _ _ => .root) (fun T _ => hV T) (fun T _ => hS T) (by simp) (by simp)
  simp only [true_and] at h
  rw [h]
  have hpr := treePriorDist_prob (usable_of ExB.args_valid one_proper) one_proper.nonterminal
  have hu : (treePriorDist ExB.args).real {y | True} = 1 := by
    rw [Set.ofPred_true, Measure.real, measure_univ]; rfl
  have c1 : ({0, 1} : Set Nat).ncard = 2 := Set.ncard_pair (by norm_num)
  have c2 : ({1, 2, 3} : Set Nat).ncard = 3 := by
    rw [Set.ncard_insert_of_notMem (by simp), Set.ncard_pair (by norm_num)]
  have : Nat.log2 1 = 0 := by decide
  rw [hu, c1, c2, this]
  norm_num [ExB.args, ExR.args]

/-- the arguments of `ExQ.gargs`, with the default minimum number of datapoints per leaf -/
noncomputable def gargsD : GbartArgs ExB.FreeKey ℝ :=
  { gargs with initkw := { gargs.initkw with min_points_per_leaf := none } }

theorem gargsD_valid : ValidGbart ExGR.lib gargsD :=
  { gargs_valid with overflow := Or.inl ⟨5, by norm_num, rfl⟩ }

/-- with 4 datapoints and at least 5 per leaf, as by default in `gbart`, the trees do not have decisions -/
example : ∃ sp, determine_splits ExGR.lib gargsD.x_train.x gargsD.x_train.n gargsD.usequants gargsD.numcut = some sp ∧
    (treePriorDist (gbart_init_args ExGR.lib gargsD sp)).real {y | IsDecision y.1.split 1} = 0 := by
  obtain ⟨sp, hsp, -⟩ := determine_splits_spec ExGR.lib gargsD.x_train.x gargsD.x_train.n gargsD.usequants
    gargsD.numcut (by simp [gargsD, gargs])
  exact ⟨sp, hsp, C96_not_gbart gargsD_valid hsp rfl (by simp [gargsD, gargs])⟩

/-- with a minimum number of datapoints per leaf equal to 1, the probability of the node is at most 9/20 -/
example : (treePriorDist ExR.args).real {y | IsNode y.1.split 6} ≤ 9 / 20 := by
  refine (C96_node_at_most_partial ExR.args_valid (by norm_num) (by simp [ExR.args])).trans (le_of_eq ?_)
  have : Nat.log2 6 = 2 := by decide
  rw [this]
  norm_num [Finset.prod_range_succ, ExR.args]

/-- with the default minimum number of datapoints -/
example : ∃ sp, determine_splits ExGR.lib gargsD.x_train.x gargsD.x_train.n gargsD.usequants gargsD.numcut = some sp ∧
    (treePriorDist (gbart_init_args ExGR.lib gargsD sp)).real {y | at0 y.1.split 1 = 2 ∧ IsDecision y.1.split 3} ≤
      gargsD.base / ExGR.lib.pow ((1 + Nat.log2 3 : Nat) : ℝ) gargsD.power *
        (treePriorDist (gbart_init_args ExGR.lib gargsD sp)).real {y | at0 y.1.split 1 = 2 ∧ IsNode y.1.split 3} := by
  obtain ⟨sp, hsp, -⟩ := determine_splits_spec ExGR.lib gargsD.x_train.x gargsD.x_train.n gargsD.usequants
    gargsD.numcut (by simp [gargsD, gargs])
  exact ⟨sp, hsp, C96_gbart_at_most_partial (E := fun T => at0 T.split 1 = 2) gargsD_valid hsp (by norm_num) (by simp [gargsD, gargs])
    fun T U e => by simp only [(e 1 (by norm_num)).2]⟩

/-- the arguments of `ExQ.gargs`, without a minimum number of datapoints per leaf, and with less deep trees -/
noncomputable def gargsN : GbartArgs ExB.FreeKey ℝ :=
  { gargs with maxdepth := 3, initkw := { gargs.initkw with min_points_per_leaf := some none } }

theorem gargsN_valid : ValidGbart ExGR.lib gargsN :=
  { gargs_valid with
    depth_ge := by simp [gargsN]
    depth_le := by simp [gargsN]
    nonterminal_pos := fun d hd => gargs_valid.nonterminal_pos d (by simp only [gargsN] at hd; simp only [gargs]; omega)
    overflow := Or.inr ⟨by simp [gargsN, gargs], by simp [gargsN, gargs, maxCuts]⟩ }

/-- the children of the root, if they exist, are nonterminal with probability 0.95 / 2 ** 2 -/
example : ∃ sp, determine_splits ExGR.lib gargsN.x_train.x gargsN.x_train.n gargsN.usequants gargsN.numcut = some sp ∧
    (treePriorDist (gbart_init_args ExGR.lib gargsN sp)).real {y | True ∧ IsDecision y.1.split 3} = 95 / 400 *
      (treePriorDist (gbart_init_args ExGR.lib gargsN sp)).real {y | True ∧ IsNode y.1.split 3} := by
  obtain ⟨sp, hsp, -⟩ := determine_splits_spec ExGR.lib gargsN.x_train.x gargsN.x_train.n gargsN.usequants
    gargsN.numcut (by simp [gargsN, gargs])
  refine ⟨sp, hsp, ?_⟩
  have h := C96_gbart_partial (i := 3) (E := fun _ => True) gargsN_valid hsp
    gargs_accurate (by simp [gargsN, gargs]) (by simp [gargsN, gargs])
    (by simp [gargsN, gargs]) (by simp [gargsN, gargs]) rfl (by simp [gargsN, gargs])
    (fun _ row hr => by
      simp only [gargsN, gargs, List.mem_cons, List.not_mem_nil, or_false] at hr
      rcases hr with rfl | rfl
      · exact ⟨1, by simp, 5, by simp, by simp [ExGR.lib]⟩
      · exact ⟨0, by simp, 3, by simp, by simp [ExGR.lib]⟩)
    (fun d hd => gargs_proper.nonterminal d (by simp only [gargsN] at hd; simp only [gargs]; omega))
    (by norm_num) (by simp [gargsN]) fun _ _ _ => Iff.rfl
  rw [h]
  have : Nat.log2 3 = 1 := by decide
  rw [this]
  congr 1
  simp only [gargsN, gargs, ExGR.lib]
  norm_num

end ExQ
end Bartz
