import Verif.Lemmas.BartState
/-! # The change of a tree as a function of the tree, the residuals and the random numbers -/

set_option autoImplicit false

namespace Bartz
open Jax Spec MeasureTheory

/-! ### Proposals depend only on the tree -/

section
variable {a : InitArgs ℝ} {s s' : State ℝ} {t t' i : Nat}

theorem treeInv_of (hs : StateInv a s) (ht : t < a.num_trees) :
    TreeInv (cfgOf a) (vaOf s t) (spOf s t) (s.leaf_indices.getD t []) (affOf s t) := hs.tree t ht

section
variable (ha : ValidArgs a) (hs : StateInv a s) (hs' : StateInv a s') (ht : t < a.num_trees)
  (ht' : t' < a.num_trees) (hsame : SameTree (vaOf s t) (spOf s t) (vaOf s' t') (spOf s' t'))
include ha hs hs' ht ht' hsame

theorem growable_congr : growable_leaves (spOf s' t') (affOf s' t') =
    growable_leaves (spOf s t) (affOf s t) := by
  have hT := treeInv_of hs ht
  have hT' := treeInv_of hs' ht'
  obtain ⟨e, hag⟩ := hsame
  apply ext_getD_bool
  · rw [length_growable (h := a.p_nonterminal.length) hT.valid.length hT.aff_len,
      length_growable (h := a.p_nonterminal.length) hT'.valid.length hT'.aff_len]
  intro k
  rw [growable_iff (h := a.p_nonterminal.length) hT.valid ha.depth_pos ha.depth_lt,
    growable_iff (h := a.p_nonterminal.length) hT'.valid ha.depth_pos ha.depth_lt]
  unfold Growable
  rw [e]
  refine and_congr_right fun hl => and_congr_right fun hk => ?_
  rcases hm : a.min_points_per_leaf with _ | m
  · have h1 : affOf s t = none := by
      have := hT.aff_some
      rw [show (cfgOf a).m = none from hm] at this
      simpa using this
    have h2 : affOf s' t' = none := by
      have := hT'.aff_some
      rw [show (cfgOf a).m = none from hm] at this
      simpa using this
    rw [h1, h2]
  · obtain ⟨x, hx⟩ := Option.isSome_iff_exists.1 (hT.aff_some.trans (by
      rw [show (cfgOf a).m = some m from hm]; rfl))
    obtain ⟨x', hx'⟩ := Option.isSome_iff_exists.1 (hT'.aff_some.trans (by
      rw [show (cfgOf a).m = some m from hm]; rfl))
    have q := hT.aff_ok m x hm hx k hl hk
    have q' := hT'.aff_ok m x' hm hx' k (by rw [e]; exact hl) hk
    rw [hT.count_eq (cfgOf_ok ha)] at q
    rw [hT'.count_eq (cfgOf_ok ha), e, pointsIn_congr hag] at q'
    rw [show affOf s t = _ from hx, show affOf s' t' = _ from hx']
    simp only [Option.some.injEq, forall_eq', q, q']

theorem nGrow_congr : nGrow s' t' = nGrow s t := by
  unfold nGrow; rw [growable_congr ha hs hs' ht ht' hsame]

theorem pGrow_congr : pGrow s' t' = pGrow s t := by
  unfold pGrow; rw [nGrow_congr ha hs hs' ht ht' hsame, hsame.1]

theorem growW_congr : growW s' t' = growW s t := by
  unfold growW
  rw [growable_congr ha hs hs' ht ht' hsame, hs.cfg.p_propose_grow, hs'.cfg.p_propose_grow]

theorem leafPick_congr : leafPick s' t' = leafPick s t := by
  funext x; unfold leafPick; rw [growW_congr ha hs hs' ht ht' hsame]

omit ha hs hs' ht ht' in
theorem nPrune_congr : nPrune s' t' = nPrune s t := by unfold nPrune; rw [hsame.1]

omit ha hs hs' ht ht' in
theorem prunePick_congr : prunePick s' t' = prunePick s t := by
  funext x; unfold prunePick; rw [nPrune_congr hsame, hsame.1]

theorem split_range_congr (hn : IsNode (spOf s t) i) (hi : i < 2 ^ a.p_nonterminal.length) (v : Nat) :
    split_range s'.split_bits (vaOf s' t') (spOf s' t') s'.max_split i v =
      split_range s.split_bits (vaOf s t) (spOf s t) s.max_split i v := by
  have hT := treeInv_of hs ht
  have hT' := treeInv_of hs' ht'
  rw [split_range_eq (h := a.p_nonterminal.length) ha.depth_pos hT.var_len hT.valid.length _ hi,
    split_range_eq (h := a.p_nonterminal.length) ha.depth_pos hT'.var_len hT'.valid.length _ hi,
    hs.cfg.max_split, hs'.cfg.max_split, hs.cfg.split_bits, hs'.cfg.split_bits, hsame.1,
    interval_congr hn (fun j hj => ⟨hsame.2 j hj, rfl⟩)]

theorem splitPick_congr (hn : IsNode (spOf s t) i) (hi : i < 2 ^ a.p_nonterminal.length) (v : Nat) :
    splitPick s' t' i v = splitPick s t i v := by
  funext x; unfold splitPick; rw [split_range_congr ha hs hs' ht ht' hsame hn hi]

theorem varPick_congr (hn : IsNode (spOf s t) i) (hi : i < 2 ^ a.p_nonterminal.length) :
    varPick s' t' i = varPick s t i := by
  have hT := treeInv_of hs ht
  have hT' := treeInv_of hs' ht'
  have hanc : ancestor_variables s'.var_bits (vaOf s' t') s'.max_split i =
      ancestor_variables s.var_bits (vaOf s t) s.max_split i := by
    rw [ancestor_variables_eq (h := a.p_nonterminal.length) hT.var_len,
      ancestor_variables_eq (h := a.p_nonterminal.length) hT'.var_len, hs.cfg.max_split, hs'.cfg.max_split,
      hs.cfg.var_bits, hs'.cfg.var_bits]
    refine List.map_congr_left fun j hj => ?_
    rw [List.mem_range] at hj
    unfold ancestorEntry
    congr 1
    by_cases h0 : i / 2 ^ (a.p_nonterminal.length - 1 - j) = 0
    · rw [if_neg (by simpa using h0), if_neg (by simpa using h0)]
    · have hlt : i / 2 ^ (a.p_nonterminal.length - 1 - j) < 2 ^ a.p_nonterminal.length :=
        lt_of_le_of_lt (Nat.div_le_self _ _) hi
      rw [if_pos h0, if_pos h0, gather_at0 (a := vaOf s t) (by rw [hT.var_len]; exact hlt),
        gather_at0 (a := vaOf s' t') (by rw [hT'.var_len]; exact hlt)]
      exact hsame.2 _ (ancestor_decision (by omega) hn h0)
  have hv : availVars s'.split_bits s'.max_split (vaOf s' t') (spOf s' t') i =
      availVars s.split_bits s.max_split (vaOf s t) (spOf s t) i := by
    rw [hs.cfg.split_bits, hs'.cfg.split_bits, hs.cfg.max_split, hs'.cfg.max_split, hsame.1, availVars_congr hn hsame.2]
  have hfu : fully_used_variables s'.var_bits s'.split_bits (vaOf s' t') (spOf s' t') s'.max_split i =
      fully_used_variables s.var_bits s.split_bits (vaOf s t) (spOf s t) s.max_split i := by
    unfold fully_used_variables
    rw [hanc]
    refine List.map_congr_left fun v _ => ?_
    rw [split_range_congr ha hs hs' ht ht' hsame hn hi, hs.cfg.max_split, hs'.cfg.max_split]
  funext x
  unfold varPick choose_variable
  rw [hfu, hv, hs.cfg.max_split, hs'.cfg.max_split]

end

theorem transPrior_congr {s1 s2 s1' s2' : State ℝ} (ha : ValidArgs a) (h1 : StateInv a s1)
    (h2 : StateInv a s2) (h1' : StateInv a s1') (h2' : StateInv a s2') (ht : t < a.num_trees)
    (ht' : t' < a.num_trees) (hsame1 : SameTree (vaOf s1 t) (spOf s1 t) (vaOf s1' t') (spOf s1' t'))
    (hsame2 : SameTree (vaOf s2 t) (spOf s2 t) (vaOf s2' t') (spOf s2' t')) (i : Nat) :
    transPrior a s1' s2' t' i = transPrior a s1 s2 t i := by
  unfold transPrior
  rw [pGrow_congr ha h1 h1' ht ht' hsame1, pGrow_congr ha h2 h2' ht ht' hsame2,
    growW_congr ha h1 h1' ht ht' hsame1, nPrune_congr hsame2, h1.cfg.p_propose_grow,
    h1'.cfg.p_propose_grow]

/-! ### The same as functions of the tree -/

/-- a state in which all trees have the given rules -/
noncomputable def canon (a : InitArgs ℝ) (v : ℝ) (T : Rules) : State ℝ := stateOf a (fun _ => (T, 0), v)

theorem canon_inv (hu : Usable a) {T : Rules} (hT : PossibleTree a T) (v : ℝ) :
    StateInv a (canon a v T) ∧ ResidInv a (canon a v T) :=
  Consistent.inv hu (consistent_stateOf (θ := (fun _ => (T, 0), v)) hu.valid (fun _ => hT)
    (fun _ _ _ => rfl))

theorem canon_va {T : Rules} (v : ℝ) (ht : t < a.num_trees) : vaOf (canon a v T) t = T.var :=
  va_stateOf ht

theorem canon_sp {T : Rules} (v : ℝ) (ht : t < a.num_trees) : spOf (canon a v T) t = T.split :=
  sp_stateOf ht

noncomputable def pG (a : InitArgs ℝ) (T : Rules) : ℝ := pGrow (canon a 1 T) 0
noncomputable def lP (a : InitArgs ℝ) (T : Rules) : ℝ → Nat := leafPick (canon a 1 T) 0
noncomputable def vP (a : InitArgs ℝ) (T : Rules) (i : Nat) : ℝ → Nat := varPick (canon a 1 T) 0 i
noncomputable def sP (a : InitArgs ℝ) (T : Rules) (i v : Nat) : ℝ → Nat := splitPick (canon a 1 T) 0 i v
noncomputable def pP (a : InitArgs ℝ) (T : Rules) : ℝ → Nat := prunePick (canon a 1 T) 0
noncomputable def tP (a : InitArgs ℝ) (T T' : Rules) (i : Nat) : ℝ :=
  transPrior a (canon a 1 T) (canon a 1 T') 0 i

/-- marginal likelihood of the tree -/
noncomputable def lik (a : InitArgs ℝ) (R : Nat → ℝ) (v : ℝ) (T : Rules) : ℝ :=
  treeLikelihood (1 / (a.num_trees : ℝ)) v a.X a.y.length R T.var T.split

def GrownT (a : InitArgs ℝ) (T T' : Rules) (i : Nat) : Prop :=
  Grown a.p_nonterminal.length T.var T.split T'.var T'.split i

/-- the random numbers such that `T` becomes `T'`, growing leaf `i` -/
def GrowEv (a : InitArgs ℝ) (R : Nat → ℝ) (v : ℝ) (T T' : Rules) (i : Nat) (w : Fin 6 → ℝ) : Prop :=
  w 0 < pG a T ∧ lP a T (w 2) = i ∧ vP a T i (w 3) = at0 T'.var i ∧
    sP a T i (at0 T'.var i) (w 4) = at0 T'.split i ∧
    Real.log (1 + -(w 1)) ≤ Real.log (tP a T T' i) + Real.log (lik a R v T' / lik a R v T)

/-- the random numbers such that `T'` becomes `T`, pruning node `i` -/
def PruneEv (a : InitArgs ℝ) (R : Nat → ℝ) (v : ℝ) (T T' : Rules) (i : Nat) (w : Fin 6 → ℝ) : Prop :=
  ¬ w 0 < pG a T' ∧ pP a T' (w 5) = i ∧
    Real.log (1 + -(w 1)) ≤ -(Real.log (tP a T T' i) + Real.log (lik a R v T' / lik a R v T))

/-- the random numbers such that `T` becomes `T'` -/
def Becomes (a : InitArgs ℝ) (R : Nat → ℝ) (v : ℝ) (T T' : Rules) (w : Fin 6 → ℝ) : Prop :=
  PossibleTree a T' ∧ ∃ i, (GrownT a T T' i ∧ GrowEv a R v T T' i w) ∨
    (GrownT a T' T i ∧ PruneEv a R v T' T i w)

open Classical in
/-- the new tree -/
noncomputable def newRules (a : InitArgs ℝ) (R : Nat → ℝ) (v : ℝ) (T : Rules) (w : Fin 6 → ℝ) : Rules :=
  if h : PossibleTree a T ∧ ∃ T', Becomes a R v T T' w then h.2.choose else T

/-! ### Uniqueness -/

section
variable {T T' T1 T2 : Rules} {R : Nat → ℝ} {v : ℝ} {w : Fin 6 → ℝ}

theorem rules_ext (h1 : PossibleTree a T1) (h2 : PossibleTree a T2) (hsp : T1.split = T2.split)
    (hv : ∀ i, IsDecision T1.split i → at0 T1.var i = at0 T2.var i) : T1 = T2 := by
  refine Rules.ext ?_ hsp
  apply List.ext_getElem
  · rw [h1.var_length, h2.var_length]
  · intro i l1 l2
    have : at0 T1.var i = at0 T2.var i := by
      by_cases hd : IsDecision T1.split i
      · exact hv i hd
      · rw [h1.var_unused i hd, h2.var_unused i (by rwa [← hsp])]
    unfold at0 at this
    rwa [List.getD_eq_getElem _ _ l1, List.getD_eq_getElem _ _ l2] at this

theorem list_ext_at0 {l1 l2 : List Nat} (hl : l1.length = l2.length) (h : ∀ i, at0 l1 i = at0 l2 i) :
    l1 = l2 := by
  apply List.ext_getElem hl
  intro i h1 h2
  have := h i
  unfold at0 at this
  rwa [List.getD_eq_getElem _ _ h1, List.getD_eq_getElem _ _ h2] at this

theorem grownT_right_unique (hT : PossibleTree a T) (h1 : PossibleTree a T1) (h2 : PossibleTree a T2)
    {i : Nat} (g1 : GrownT a T T1 i) (g2 : GrownT a T T2 i) (hv : at0 T1.var i = at0 T2.var i)
    (hs : at0 T1.split i = at0 T2.split i) : T1 = T2 := by
  have e : T1.split = T2.split := by
    refine list_ext_at0 (by rw [h1.split.length, h2.split.length]) fun k => ?_
    by_cases hk : k = i
    · rw [hk, hs]
    · rw [g1.same_split k hk, g2.same_split k hk]
  refine rules_ext h1 h2 e fun k hd => ?_
  rcases (g1.isDecision hT.split h1.split k).1 hd with hd | rfl
  · rw [g1.same_var k hd, g2.same_var k hd]
  · exact hv

theorem grownT_left_unique (h1 : PossibleTree a T1) (h2 : PossibleTree a T2)
    {i : Nat} (g1 : GrownT a T1 T i) (g2 : GrownT a T2 T i) : T1 = T2 := by
  have e : T1.split = T2.split := by
    refine list_ext_at0 (by rw [h1.split.length, h2.split.length]) fun k => ?_
    by_cases hk : k = i
    · rw [hk, g1.leaf.2, g2.leaf.2]
    · rw [← g1.same_split k hk, ← g2.same_split k hk]
  refine rules_ext h1 h2 e fun k hd => ?_
  rw [← g1.same_var k hd, ← g2.same_var k (by rwa [← e])]

theorem GrownT.ne {i : Nat} (g : GrownT a T T' i) : T ≠ T' := by
  rintro rfl; exact g.decision.2 g.leaf.2

theorem GrownT.not_rev {i k : Nat} (g : GrownT a T T' i) : ¬ GrownT a T' T k := by
  intro g'
  have h1 := g.leaf.2
  have h2 := g.decision.2
  by_cases hk : i = k
  · subst hk; exact g'.decision.2 h1
  · exact h2 ((g'.same_split i hk).symm.trans h1)

theorem GrownT.node_unique {i k : Nat} (g : GrownT a T T' i) (g' : GrownT a T T' k) : i = k := by
  by_contra hk
  exact g.decision.2 ((g'.same_split i hk).trans g.leaf.2)

theorem Becomes.ne (h : Becomes a R v T T' w) : T' ≠ T := by
  obtain ⟨_, i, ⟨g, _⟩ | ⟨g, _⟩⟩ := h
  · exact g.ne.symm
  · exact g.ne

theorem Becomes.unique (hT : PossibleTree a T) (h1 : Becomes a R v T T1 w) (h2 : Becomes a R v T T2 w) :
    T1 = T2 := by
  obtain ⟨p1, i, ⟨g1, e1⟩ | ⟨g1, e1⟩⟩ := h1 <;> obtain ⟨p2, k, ⟨g2, e2⟩ | ⟨g2, e2⟩⟩ := h2
  · obtain rfl : i = k := e1.2.1.symm.trans e2.2.1
    have hv := e1.2.2.1.symm.trans e2.2.2.1
    refine grownT_right_unique hT p1 p2 g1 g2 hv ?_
    rw [← e1.2.2.2.1, ← e2.2.2.2.1, hv]
  · exact absurd e1.1 e2.1
  · exact absurd e2.1 e1.1
  · obtain rfl : i = k := e1.2.1.symm.trans e2.2.1
    exact grownT_left_unique p1 p2 g1 g2

theorem newRules_of_becomes (hT : PossibleTree a T) (h : Becomes a R v T T' w) :
    newRules a R v T w = T' := by
  have hex : PossibleTree a T ∧ ∃ T', Becomes a R v T T' w := ⟨hT, T', h⟩
  unfold newRules
  rw [dif_pos hex]
  exact hex.2.choose_spec.unique hT h

theorem newRules_eq_iff (hT : PossibleTree a T) (hne : T' ≠ T) :
    newRules a R v T w = T' ↔ Becomes a R v T T' w := by
  constructor
  · intro h
    by_cases hex : PossibleTree a T ∧ ∃ T', Becomes a R v T T' w
    · have := hex.2.choose_spec
      unfold newRules at h
      rw [dif_pos hex] at h
      rwa [h] at this
    · unfold newRules at h
      rw [dif_neg hex] at h
      exact absurd h.symm hne
  · exact newRules_of_becomes hT

theorem newRules_not_possible (hT : ¬ PossibleTree a T) : newRules a R v T w = T := by
  unfold newRules
  rw [dif_neg (fun h => hT h.1)]

theorem newRules_possible (hT : PossibleTree a T) : PossibleTree a (newRules a R v T w) := by
  by_cases h : newRules a R v T w = T
  · rw [h]; exact hT
  · exact ((newRules_eq_iff hT h).1 rfl).1

end
end
end Bartz
