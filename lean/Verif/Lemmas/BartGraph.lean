import Verif.Lemmas.BartKernel
/-! # The graph of the trees connected by moves -/

set_option autoImplicit false

namespace Bartz
open Jax Spec MeasureTheory ProbabilityTheory
open scoped ENNReal

section
variable {a : InitArgs ℝ} {T T' : Rules} {R : Nat → ℝ} {v : ℝ} {i : Nat}

/-! ### Each pruning is possible -/

/-- the tree without the decision at node `i` -/
def pruned (T : Rules) (i : Nat) : Rules := ⟨setDrop T.var i 0, setDrop T.split i 0⟩

theorem pruned_grown (hT : PossibleTree a T) (hi : IsLeafParent T.split i) :
    GrownT a (pruned T i) T i := by
  have hlt : i < 2 ^ a.p_nonterminal.length := hi.1.lt hT.split.length
  refine ⟨(isLeaf_prune hT.split hi).2 (Or.inr rfl), hlt, hi.1, hi.2.1, hi.2.2, fun k hk => ?_,
    fun k hd => ?_⟩
  · show _ = at0 (setDrop T.split i 0) k
    rw [at0_prune hT.split hi, if_neg (Ne.symm hk)]
  · have := ((isDecision_prune hT.split hi).1 hd).2
    show _ = at0 (setDrop T.var i 0) k
    rw [at0_setDrop, if_neg (fun h => this h.1.symm)]

theorem pruned_possible (hT : PossibleTree a T) (hi : IsLeafParent T.split i) :
    PossibleTree a (pruned T i) := by
  have hv : ValidSplit a.p_nonterminal.length (pruned T i).split := validSplit_prune hT.split hi
  have hg := pruned_grown hT hi
  have hg' : Grown a.p_nonterminal.length (pruned T i).var (pruned T i).split T.var T.split i := hg
  have hdec : ∀ k, IsDecision (pruned T i).split k → IsDecision T.split k ∧ k ≠ i := fun k hk =>
    (isDecision_prune hT.split hi).1 hk
  refine ⟨hv, ?_, ?_, ?_, ?_, ?_⟩
  · show (setDrop T.var i 0).length = _
    unfold setDrop
    rw [List.length_set, hT.var_length]
  · intro k hk
    show at0 (setDrop T.var i 0) k = 0
    rw [at0_setDrop]
    by_cases e : i = k
    · subst e
      rw [if_pos ⟨rfl, by rw [hT.var_length]; exact hg.not_bottom⟩]
    · rw [if_neg (fun h => e h.1)]
      refine hT.var_unused k fun hd => hk ((isDecision_prune hT.split hi).2 ⟨hd, fun h => e h.symm⟩)
  · intro k hk
    have h := hT.var_avail k (hdec k hk).1
    rwa [hg'.availVars hv hT.split _ _ hk.1, hg.same_var k hk] at h
  · intro k hk
    have h := hT.split_avail k (hdec k hk).1
    rwa [hg'.availSplits hv hT.split _ hk.1, hg.same_var k hk, hg.same_split k (hdec k hk).2] at h
  · intro m hm h1 k hk
    have h1' : at0 T.split 1 ≠ 0 := by
      rcases eq_or_ne 1 i with e | e
      · rw [e]; exact hi.1.2
      · rw [hg.same_split 1 e]; exact h1
    have hmono : ∀ k k', (∀ x : List Nat, FallsInto x T.var T.split k →
        FallsInto x (pruned T i).var (pruned T i).split k') →
        pointsIn a.X a.y.length T.var T.split k ≤
          pointsIn a.X a.y.length (pruned T i).var (pruned T i).split k' := by
      intro k k' h
      refine Set.ncard_le_ncard ?_ ((Set.finite_lt_nat a.y.length).subset fun j hj => hj.1)
      exact fun j hj => ⟨hj.1, h _ hj.2⟩
    have hf : ∀ k (x : List Nat), FallsInto x T.var T.split k →
        FallsInto x (pruned T i).var (pruned T i).split
          (if k = 2 * i ∨ k = 2 * i + 1 then i else k) := by
      intro k x h
      obtain ⟨h2, h3⟩ := fallsInto_prune hT.split hi (var' := T.var) (fun _ _ => rfl) h
      exact ⟨h2, reaches_var (fun j hj => (hg.same_var j hj).symm) h3⟩
    rcases (isLeaf_prune hT.split hi).1 hk with ⟨hl, e1, e2⟩ | rfl
    · refine (hT.points m hm h1' k hl).trans (hmono k k fun x hx => ?_)
      have := hf k x hx
      rwa [if_neg (by omega)] at this
    · refine (hT.points m hm h1' (2 * k) hi.2.1).trans (hmono (2 * k) k fun x hx => ?_)
      have := hf (2 * k) x hx
      rwa [if_pos (Or.inl rfl)] at this

/-! ### Number of decisions -/

/-- number of decisions -/
def dec (T : Rules) : Nat := ((List.range T.split.length).filter fun k => at0 T.split k ≠ 0).length

/-- the tree without decisions -/
def rootT (a : InitArgs ℝ) : Rules :=
  ⟨List.replicate (2 ^ a.p_nonterminal.length) 0, List.replicate (2 ^ a.p_nonterminal.length) 0⟩

theorem at0_replicate (n k : Nat) : at0 (List.replicate n 0) k = 0 := by
  unfold at0
  rcases Nat.lt_or_ge k n with h | h
  · rw [List.getD_eq_getElem _ _ (by simpa using h)]; simp
  · rw [List.getD_eq_default _ _ (by simpa using h)]

theorem root_possible (a : InitArgs ℝ) : PossibleTree a (rootT a) := by
  have h : ∀ k, at0 (rootT a).split k = 0 := fun k => at0_replicate _ k
  refine ⟨⟨by simp [rootT], h 0, fun k _ hk => absurd (h k) hk⟩, by simp [rootT],
    fun k _ => at0_replicate _ k, fun k hk => absurd (h k) hk.2, fun k hk => absurd (h k) hk.2,
    fun m _ h1 => absurd (h 1) h1⟩

theorem eq_root (hT : PossibleTree a T) (h : ∀ k, at0 T.split k = 0) : T = rootT a := by
  refine rules_ext hT (root_possible a) (list_ext_at0 ?_ fun k => ?_) fun k hd => absurd (h k) hd.2
  · rw [hT.split.length]; simp [rootT]
  · rw [h k]; exact (at0_replicate _ k).symm

theorem exists_parent (hT : PossibleTree a T) (hne : T ≠ rootT a) : ∃ i, IsLeafParent T.split i := by
  classical
  have h0 : ∃ k, at0 T.split k ≠ 0 := by
    by_contra h
    push Not at h
    exact hne (eq_root hT h)
  have hlt : ∀ k, at0 T.split k ≠ 0 → k < 2 ^ a.p_nonterminal.length := by
    intro k hk
    by_contra hc
    apply hk
    unfold at0
    rw [List.getD_eq_default _ _ (by rw [hT.split.length]; omega)]
  -- the last decision
  obtain ⟨k, hk, hmax⟩ : ∃ k, at0 T.split k ≠ 0 ∧ ∀ j, k < j → at0 T.split j = 0 := by
    obtain ⟨k0, hk0⟩ := h0
    set P : Nat → Prop := fun k => at0 T.split k ≠ 0 with hP
    refine ⟨Nat.findGreatest P (2 ^ a.p_nonterminal.length),
      Nat.findGreatest_spec (P := P) (hlt k0 hk0).le hk0, fun j hj => ?_⟩
    by_contra hc
    exact absurd (Nat.le_findGreatest (P := P) (hlt j hc).le hc) (by omega)
  have hd : IsDecision T.split k := hT.split.isDecision_iff.2 hk
  have hpos := hd.1.pos
  have hc : ∀ c, c / 2 = k → 2 ≤ c → IsLeaf T.split c := by
    intro c hc h2
    refine ⟨hT.split.isNode_iff.2 (Or.inr ⟨h2, by rw [hc]; exact hk⟩), hmax c (by omega)⟩
  exact ⟨k, hd, hc _ (by omega) (by omega), hc _ (by omega) (by omega)⟩

theorem dec_grown (hT : PossibleTree a T) (hT' : PossibleTree a T') (hg : GrownT a T T' i) :
    dec T' = dec T + 1 := by
  have hl : T'.split.length = T.split.length := by rw [hT.split.length, hT'.split.length]
  have hi : i < T.split.length := by rw [hT.split.length]; exact hg.not_bottom
  unfold dec
  rw [hl]
  have e : ∀ U : Rules, ((List.range T.split.length).filter fun k => at0 U.split k ≠ 0).length =
      ((Finset.range T.split.length).filter fun k => at0 U.split k ≠ 0).card := by
    intro U
    rfl
  rw [e, e]
  have h : (Finset.range T.split.length).filter (fun k => at0 T'.split k ≠ 0) =
      insert i ((Finset.range T.split.length).filter fun k => at0 T.split k ≠ 0) := by
    ext k
    simp only [Finset.mem_filter, Finset.mem_range, Finset.mem_insert]
    by_cases hk : k = i
    · subst hk; exact ⟨fun _ => Or.inl rfl, fun _ => ⟨hi, hg.decision.2⟩⟩
    · rw [hg.same_split k hk]; tauto
  rw [h, Finset.card_insert_of_notMem]
  simp [hg.leaf.2]

theorem dec_root (a : InitArgs ℝ) : dec (rootT a) = 0 := by
  unfold dec
  rw [List.length_eq_zero_iff, List.filter_eq_nil_iff]
  intro k _
  simp only [decide_not, Bool.not_eq_true', decide_eq_false_iff_not, not_not]
  exact at0_replicate _ k

/-! ### Moves have a positive probability -/

theorem trans_prune_pos (hu : Usable a) (hT : PossibleTree a T) (hT' : PossibleTree a T')
    (hg : GrownT a T T' i) : trans a R v T' T ≠ 0 := by
  have ha := hu.valid
  have ht := hu.trees
  obtain ⟨h1, _⟩ := canon_inv hu hT 1
  obtain ⟨h2, _⟩ := canon_inv hu hT' 1
  have hgs : Grown a.p_nonterminal.length (vaOf (canon a 1 T) 0) (spOf (canon a 1 T) 0)
      (vaOf (canon a 1 T') 0) (spOf (canon a 1 T') 0) i := by
    rw [canon_va 1 ht, canon_va 1 ht, canon_sp 1 ht, canon_sp 1 ht]; exact hg
  have b21 : Becomes a R v T' T = PruneEv a R v T T' i :=
    funext fun w => propext (becomes_prune_iff hu hT hT' hg)
  rw [trans_eq hT' hg.ne, b21, prob_pruneEv hu hT hT' hg, len_accept]
  have hn := nPrune2_pos ha h1 h2 ht hgs
  have hp := pGrow2 ha h1 h2 ht hgs
  have hp' : 0 < 1 - pGrow (canon a 1 T') 0 := by rw [hp]; split_ifs <;> norm_num
  simp only [ne_eq, ENNReal.ofReal_eq_zero, not_le]
  have := Real.exp_pos (-(Real.log (tP a T T' i) + Real.log (lik a R v T' / lik a R v T)))
  have hm : 0 < min 1 (Real.exp (-(Real.log (tP a T T' i) + Real.log (lik a R v T' / lik a R v T)))) :=
    lt_min one_pos this
  positivity

theorem ruleW_ne_zero (hu : Usable a) (hp : ∀ x ∈ a.p_nonterminal, x < 1) (hT : PossibleTree a T) :
    ruleW a T ≠ 0 := by
  rw [ruleW, if_pos hT]
  simpa using possible_treePrior_pos hu hp hT

theorem trans_grow_pos (hu : Usable a) (hp : ∀ x ∈ a.p_nonterminal, x < 1) (hv : 0 < v)
    (hT : PossibleTree a T) (hT' : PossibleTree a T') (hg : GrownT a T T' i) :
    trans a R v T T' ≠ 0 := by
  intro h0
  have h := trans_balance (R := R) hu hp hv T T'
  rw [h0, mul_zero] at h
  have h1 := ruleW_ne_zero hu hp hT'
  have h2 : ENNReal.ofReal (lik a R v T') ≠ 0 := by simpa using lik_pos hu.trees hv R T'
  exact mul_ne_zero (mul_ne_zero h1 h2) (trans_prune_pos hu hT hT' hg) h.symm

/-- The tree can change from `T` to `T'` whatever the data are. -/
structure Adj (a : InitArgs ℝ) (T T' : Rules) : Prop where
  left : PossibleTree a T
  right : PossibleTree a T'
  pos : ∀ R v, 0 < v → trans a R v T T' ≠ 0

theorem adj_grow (hu : Usable a) (hp : ∀ x ∈ a.p_nonterminal, x < 1)
    (hT : PossibleTree a T) (hT' : PossibleTree a T') (hg : GrownT a T T' i) :
    Adj a T T' ∧ Adj a T' T :=
  ⟨⟨hT, hT', fun _ _ hv => trans_grow_pos hu hp hv hT hT' hg⟩,
    ⟨hT', hT, fun _ _ _ => trans_prune_pos hu hT hT' hg⟩⟩

/-- walks on the graph -/
inductive Walk (a : InitArgs ℝ) : Nat → Rules → Rules → Prop
  | nil {T : Rules} : PossibleTree a T → Walk a 0 T T
  | cons {n : Nat} {T T' T'' : Rules} : Adj a T T' → Walk a n T' T'' → Walk a (n + 1) T T''

theorem Walk.left {n : Nat} (h : Walk a n T T') : PossibleTree a T := by
  cases h with
  | nil h => exact h
  | cons h _ => exact h.left

theorem Walk.right {n : Nat} (h : Walk a n T T') : PossibleTree a T' := by
  induction h with
  | nil h => exact h
  | cons _ _ ih => exact ih

theorem Walk.append {n m : Nat} {T'' : Rules} (h : Walk a n T T') (h' : Walk a m T' T'') :
    Walk a (n + m) T T'' := by
  induction h with
  | nil _ => rwa [Nat.zero_add]
  | cons hd _ ih =>
    rw [Nat.add_right_comm]
    exact .cons hd (ih h')

/-- each tree is connected with the root -/
theorem walk_root (hu : Usable a) (hp : ∀ x ∈ a.p_nonterminal, x < 1) :
    ∀ n T, PossibleTree a T → dec T = n → Walk a n T (rootT a) ∧ Walk a n (rootT a) T := by
  intro n
  induction n with
  | zero =>
    intro T hT h
    have : T = rootT a := by
      by_contra hne
      obtain ⟨i, hi⟩ := exists_parent hT hne
      have := dec_grown (pruned_possible hT hi) hT (pruned_grown hT hi)
      omega
    subst this
    exact ⟨.nil hT, .nil hT⟩
  | succ n ih =>
    intro T hT h
    have hne : T ≠ rootT a := by rintro rfl; rw [dec_root] at h; omega
    obtain ⟨i, hi⟩ := exists_parent hT hne
    have hP := pruned_possible hT hi
    have hg := pruned_grown hT hi
    have hd := dec_grown hP hT hg
    obtain ⟨w1, w2⟩ := ih (pruned T i) hP (by omega)
    obtain ⟨a1, a2⟩ := adj_grow hu hp hP hT hg
    exact ⟨.cons a2 w1, w2.append (.cons a1 (.nil hT))⟩

/-- the other trees are connected with the root, through one of its neighbours -/
theorem exists_neighbour (hu : Usable a) (hp : ∀ x ∈ a.p_nonterminal, x < 1)
    (hT : PossibleTree a T) (hne : T ≠ rootT a) :
    ∃ T1 i, PossibleTree a T1 ∧ GrownT a (rootT a) T1 i := by
  obtain ⟨n, hn⟩ : ∃ n, dec T = n := ⟨_, rfl⟩
  induction n using Nat.strong_induction_on generalizing T with
  | _ n ih =>
    obtain ⟨i, hi⟩ := exists_parent hT hne
    have hP := pruned_possible hT hi
    have hg := pruned_grown hT hi
    by_cases h : pruned T i = rootT a
    · rw [h] at hg
      exact ⟨T, i, hT, hg⟩
    · have := dec_grown hP hT hg
      exact ih (dec (pruned T i)) (by omega) hP h rfl

end
end Bartz
