import Verif.Lemmas.BartMove
/-! # Detailed balance of the change of a tree -/

set_option autoImplicit false

namespace Bartz
open Jax Spec MeasureTheory

section
variable {K : Type} [KeyLike K] {a : InitArgs ℝ} {s : State ℝ} {t i : Nat} {key : K}
  {rng : (Fin 6 → ℝ) → Rng K ℝ} {T T' : Rules} {R : Nat → ℝ} {v : ℝ} {w : Fin 6 → ℝ}

/-! ### States with a given tree -/

theorem same_canon (hs : StateInv a s) (ht : t < a.num_trees) {t' : Nat} (ht' : t' < a.num_trees)
    (hT : (treeOf a s t).1 = T) (v : ℝ) :
    SameTree (vaOf (canon a v T) t') (spOf (canon a v T) t') (vaOf s t) (spOf s t) := by
  subst hT
  rw [canon_va v ht', canon_sp v ht']
  exact ⟨rfl, fun i hd => (agree_treeOf (treeInv_of hs ht).valid.length i hd).symm⟩

theorem treeOf_eq_iff (hu : Usable a) (hs : StateInv a s) (ht : t < a.num_trees)
    (hT : PossibleTree a T) :
    (treeOf a s t).1 = T ↔ SameTree T.var T.split (vaOf s t) (spOf s t) := by
  have hag := fun i hd => agree_treeOf (a := a) (treeInv_of hs ht).valid.length i hd
  constructor
  · rintro rfl
    exact ⟨rfl, fun i hd => (hag i hd).symm⟩
  · rintro ⟨e, h⟩
    refine rules_ext (possible_of_inv hu hs ht) hT e fun i hd => ?_
    rw [hag i hd]
    exact h i (e ▸ hd)

theorem treeOf_canon (hT : PossibleTree a T) (ht : t < a.num_trees) :
    (treeOf a (canon a v T) t).1 = T := by
  have := treeOf_stateOf (θ := (fun _ => (T, 0), v)) ht hT (fun _ _ => rfl)
  exact congrArg Prod.fst this

theorem treeLikelihood_congr {tau v : ℝ} {X : List (List Nat)} {n : Nat} {var var' split : List Nat}
    (hag : ∀ j, IsDecision split j → at0 var' j = at0 var j) :
    treeLikelihood tau v X n R var' split = treeLikelihood tau v X n R var split := by
  unfold treeLikelihood
  refine Finset.prod_congr rfl fun i _ => ?_
  split_ifs
  · rw [leafData_congr hag (fun j _ => rfl)]
  · rfl

theorem lik_pos (htr : 0 < a.num_trees) (hv : 0 < v) (R : Nat → ℝ) (T : Rules) : 0 < lik a R v T := by
  have hnt : (0 : ℝ) < a.num_trees := by exact_mod_cast htr
  unfold lik treeLikelihood
  apply Finset.prod_pos
  intro i _
  split_ifs
  · exact leafMarginal_pos (by positivity) hv _
  · exact one_pos

theorem lik_grown (hu : Usable a) (hT : PossibleTree a T) (hT' : PossibleTree a T')
    (hg : GrownT a T T' i) (hv : 0 < v) {s1 s2 : State ℝ} (h1 : StateInv a s1) (h2 : StateInv a s2)
    (ht : t < a.num_trees) (hT1 : (treeOf a s1 t).1 = T) (hT2 : (treeOf a s2 t).1 = T')
    (hs1 : s1.sigma2 = v) :
    likRatio a s1 s2 t i R = lik a R v T' / lik a R v T := by
  have i1 := treeInv_of h1 ht
  have i2 := treeInv_of h2 ht
  have k1 := (treeOf_eq_iff hu h1 ht hT).1 hT1
  have k2 := (treeOf_eq_iff hu h2 ht hT').1 hT2
  have hg' := hg
  unfold GrownT at hg'
  have elik := treeLikelihood_grown hT.split hT'.split hg' hu.valid.depth_lt hT.var_length
    hT'.var_length (tau := 1 / (a.num_trees : ℝ)) (s2 := v) a.X a.y.length R
  have hnt : (0 : ℝ) < a.num_trees := by exact_mod_cast hu.trees
  have hM := leafMarginal_pos (by positivity : 0 < 1 / (a.num_trees : ℝ)) hv
    (leafData a.X a.y.length T.var T.split R i)
  have hL := lik_pos hu.trees hv R T
  unfold likRatio
  rw [hs1, h1.cfg.X, h1.cfg.y, k1.1, k2.1, leafData_congr k1.2 (fun _ _ => rfl),
    leafData_congr k2.2 (fun _ _ => rfl), leafData_congr k2.2 (fun _ _ => rfl),
    div_eq_div_iff hM.ne' hL.ne']
  unfold lik at hL ⊢
  linear_combination -elik

theorem grown_of_grownT (hT : PossibleTree a T) (hT' : PossibleTree a T') (hg : GrownT a T T' i) {var split var' split' : List Nat}
    (h1 : SameTree T.var T.split var split) (h2 : SameTree T'.var T'.split var' split') :
    Grown a.p_nonterminal.length var split var' split' i := by
  obtain ⟨rfl, h1⟩ := h1
  obtain ⟨rfl, h2⟩ := h2
  refine ⟨hg.leaf, hg.not_bottom, hg.decision, hg.left, hg.right, hg.same_split, fun k hd => ?_⟩
  have hg' : Grown a.p_nonterminal.length T.var T.split T'.var T'.split i := hg
  have hd' : IsDecision T'.split k := (hg'.isDecision hT.split hT'.split k).2 (Or.inl hd)
  rw [h1 k hd, h2 k hd']
  exact hg.same_var k hd

/-! ### The step changes the tree as stated -/

section
variable (hu : Usable a) (hs : StateInv a s) (hr : ResidInv a s) (hsig : 0 < s.sigma2)
  (ht : t < a.num_trees) (hsites : TreeSites a.num_trees t key rng)
  (hrng : ∀ w ∈ unitCube, LawfulRng (rng w)) (hw : w ∈ unitCube)
  (hR : ∀ j, j < a.y.length →
    partialResid a.p_nonterminal.length a.num_trees s (step (rng w) s key) t j = R j)
  (hT : (treeOf a s t).1 = T)
include hu hs hr hsig ht hsites hrng hw hR hT

theorem step_growEv (hT' : PossibleTree a T') (hg : GrownT a T T' i) :
    (treeOf a (step (rng w) s key) t).1 = T' ↔ GrowEv a R s.sigma2 T T' i w := by
  have ha := hu.valid
  have hPT : PossibleTree a T := hT ▸ possible_of_inv hu hs ht
  have h0 := hu.trees
  obtain ⟨i2, _⟩ := canon_inv hu hT' s.sigma2
  obtain ⟨c1, _⟩ := canon_inv hu hPT 1
  obtain ⟨c2, _⟩ := canon_inv hu hT' 1
  have k1 := same_canon hs ht h0 hT 1
  have k2 := same_canon i2 ht h0 (treeOf_canon hT' ht) 1
  have hn1 : IsNode (spOf (canon a 1 T) 0) i := by rw [canon_sp 1 h0]; exact hg.leaf.1
  have hgs := grown_of_grownT hPT hT' hg ((treeOf_eq_iff hu hs ht hPT).1 hT)
    ((treeOf_eq_iff hu i2 ht hT').1 (treeOf_canon hT' ht))
  have hT2 := treeInv_of i2 ht
  have hminpts : ∀ m, a.min_points_per_leaf = some m →
      m ≤ ((canon a s.sigma2 T').leaf_indices.getD t []).count (2 * i) ∧
      m ≤ ((canon a s.sigma2 T').leaf_indices.getD t []).count (2 * i + 1) := by
    intro m hm
    have hroot := root2 (cfgOf_ok ha) (treeInv_of hs ht) hT2 hgs
    exact ⟨hT2.minpts m hm hroot _ hgs.left, hT2.minpts m hm hroot _ hgs.right⟩
  have hstep := step_grow_iff ha hs i2 ht hgs (rng w) (hrng w hw) key
  rw [canon_va _ ht, canon_sp _ ht] at hstep
  rw [treeOf_eq_iff hu (stateInv_step ha hs (rng w) (hrng w hw) key) ht hT', hstep]
  have hmv := isGrow_iff ha hs i2 ht hgs hu.fill (cutsOK hu hs ht) hsites hrng hw
  have hR' : ∀ j, j < s.y.length →
      partialResid a.p_nonterminal.length a.num_trees s (step (rng w) s key) t j = R j := by
    rw [hs.cfg.y]; exact hR
  have hacc : IsGrow (canon a s.sigma2 T') t i (mvOf rng s key t w) →
      ((accOf (rng w) s (KeyLike.split key 2 1) t).2.acc = true ↔
        Real.log (1 + -(w 1)) ≤ Real.log (tP a T T' i) +
          Real.log (lik a R s.sigma2 T' / lik a R s.sigma2 T)) := by
    intro hm
    have hal : (moveOf (rng w) s (KeyLike.split (KeyLike.split key 2 1) 2 1) t).allowed = true :=
      (moveOf_ok ha hs (rng w) (hrng w hw) (KeyLike.split (KeyLike.split key 2 1) 2 1) ht).grow_allowed
        hm.1
    obtain ⟨e1, e2⟩ := isGrow_counts ha hs i2 ht hgs (rng w) (hrng w hw) (KeyLike.split key 2 1) rfl hm
    rw [acc_iff, if_pos hm.1, grow_log_trans ha hs i2 ht hgs (rng w) (hrng w hw)
      (KeyLike.split key 2 1) rfl hm, loglik_grow ha hs i2 ht hgs hr hsig (rng w) (hrng w hw) key
      hR' hm hal, e1, e2, show (moveOf (rng w) s (KeyLike.split (KeyLike.split key 2 1) 2 1)
      t).logu = _ from logu_eq hs hsites w, hs.cfg.min_points_per_leaf,
      transPrior_congr ha c1 c2 hs i2 h0 ht k1 k2,
      lik_grown hu hPT hT' hg hsig hs i2 ht hT (treeOf_canon hT' ht) rfl]
    exact ⟨fun h => h.2.1, fun h => ⟨hal, h, hminpts⟩⟩
  have e1 : pGrow s t = pG a T := pGrow_congr ha c1 hs h0 ht k1
  have e2 : leafPick s t = lP a T := leafPick_congr ha c1 hs h0 ht k1
  have e3 : varPick s t i = vP a T i := varPick_congr ha c1 hs h0 ht k1 hn1 hg.not_bottom
  have e4 : ∀ v, splitPick s t i v = sP a T i v := splitPick_congr ha c1 hs h0 ht k1 hn1 hg.not_bottom
  rw [e1, e2, e3, e4, canon_va _ ht, canon_sp _ ht] at hmv
  unfold GrowEv
  constructor
  · rintro ⟨q1, q2⟩
    obtain ⟨p1, p2, p3, p4⟩ := hmv.1 q1
    exact ⟨p1, p2, p3, p4, (hacc q1).1 q2⟩
  · rintro ⟨p1, p2, p3, p4, p5⟩
    have q1 := hmv.2 ⟨p1, p2, p3, p4⟩
    exact ⟨q1, (hacc q1).2 p5⟩

theorem step_pruneEv (hT' : PossibleTree a T') (hg : GrownT a T' T i) :
    (treeOf a (step (rng w) s key) t).1 = T' ↔ PruneEv a R s.sigma2 T' T i w := by
  have ha := hu.valid
  have hPT : PossibleTree a T := hT ▸ possible_of_inv hu hs ht
  have h0 := hu.trees
  obtain ⟨i1, _⟩ := canon_inv hu hT' s.sigma2
  obtain ⟨c2, _⟩ := canon_inv hu hPT 1
  obtain ⟨c1, _⟩ := canon_inv hu hT' 1
  have k2 := same_canon hs ht h0 hT 1
  have k1 := same_canon i1 ht h0 (treeOf_canon hT' ht) 1
  have hgs := grown_of_grownT hT' hPT hg ((treeOf_eq_iff hu i1 ht hT').1 (treeOf_canon hT' ht))
    ((treeOf_eq_iff hu hs ht hPT).1 hT)
  have hT1 := treeInv_of i1 ht
  have hT2 := treeInv_of hs ht
  have hminpts : ∀ m, a.min_points_per_leaf = some m →
      m ≤ (s.leaf_indices.getD t []).count (2 * i) ∧
      m ≤ (s.leaf_indices.getD t []).count (2 * i + 1) := by
    intro m hm
    have hroot := root2 (cfgOf_ok ha) hT1 hT2 hgs
    exact ⟨hT2.minpts m hm hroot _ hgs.left, hT2.minpts m hm hroot _ hgs.right⟩
  have hstep := step_prune_iff ha i1 hs ht hgs (rng w) (hrng w hw) key
  rw [canon_va _ ht, canon_sp _ ht] at hstep
  rw [treeOf_eq_iff hu (stateInv_step ha hs (rng w) (hrng w hw) key) ht hT', hstep]
  have hmv := isPrune_iff ha i1 hs ht hgs hsites w
  have hR' : ∀ j, j < s.y.length →
      partialResid a.p_nonterminal.length a.num_trees s (step (rng w) s key) t j = R j := by
    rw [hs.cfg.y]; exact hR
  have hacc : ((mvOf rng s key t w).grow = false ∧ (mvOf rng s key t w).node = i) →
      ((accOf (rng w) s (KeyLike.split key 2 1) t).2.acc = true ↔
        Real.log (1 + -(w 1)) ≤ -(Real.log (tP a T' T i) +
          Real.log (lik a R s.sigma2 T / lik a R s.sigma2 T'))) := by
    intro hm
    have hal : (moveOf (rng w) s (KeyLike.split (KeyLike.split key 2 1) 2 1) t).allowed = true :=
      mv_allowed ha hs ht w (root2 (cfgOf_ok ha) hT1 hT2 hgs)
    obtain ⟨e1, e2⟩ := prune_counts ha hs ht hgs (rng w) (hrng w hw) (KeyLike.split key 2 1) rfl
      hm.1 hm.2
    rw [acc_iff, if_neg (by rw [show (moveOf (rng w) s (KeyLike.split (KeyLike.split key 2 1) 2 1)
      t).grow = false from hm.1]; simp), prune_log_trans ha i1 hs ht hgs (rng w) (hrng w hw)
      (KeyLike.split key 2 1) rfl hm.1 hm.2, loglik_prune ha i1 hs ht hgs hr hsig rfl (rng w)
      (hrng w hw) key hR' hm.1 hm.2 hal, e1, e2, show (moveOf (rng w) s (KeyLike.split
      (KeyLike.split key 2 1) 2 1) t).logu = _ from logu_eq hs hsites w, hs.cfg.min_points_per_leaf,
      transPrior_congr ha c1 c2 i1 hs h0 ht k1 k2,
      lik_grown hu hT' hPT hg hsig i1 hs ht (treeOf_canon hT' ht) hT rfl]
    exact ⟨fun h => h.2.1, fun h => ⟨hal, h, hminpts⟩⟩
  have e1 : pGrow s t = pG a T := pGrow_congr ha c2 hs h0 ht k2
  have e2 : prunePick s t = pP a T := prunePick_congr k2
  rw [e1, e2] at hmv
  unfold PruneEv
  constructor
  · rintro ⟨q1, q2⟩
    obtain ⟨p1, p2⟩ := hmv.1 q1
    exact ⟨p1, p2, (hacc q1).1 q2⟩
  · rintro ⟨p1, p2, p5⟩
    have q1 := hmv.2 ⟨p1, p2⟩
    exact ⟨q1, (hacc q1).2 p5⟩

/-- the rules after the step -/
theorem step_rules : (treeOf a (step (rng w) s key) t).1 = newRules a R s.sigma2 T w := by
  have ha := hu.valid
  have hPT : PossibleTree a T := hT ▸ possible_of_inv hu hs ht
  have hs' := stateInv_step ha hs (rng w) (hrng w hw) key
  have hP' := possible_of_inv hu hs' ht
  have k1 := (treeOf_eq_iff hu hs ht hPT).1 hT
  have k2 := (treeOf_eq_iff hu hs' ht hP').1 rfl
  symm
  -- if the tree changes, it changes to what is stated
  have hback : ∀ T', Becomes a R s.sigma2 T T' w → (treeOf a (step (rng w) s key) t).1 = T' := by
    rintro T' ⟨hT', i, ⟨hg, he⟩ | ⟨hg, he⟩⟩
    · exact (step_growEv hu hs hr hsig ht hsites hrng hw hR hT hT' hg).2 he
    · exact (step_pruneEv hu hs hr hsig ht hsites hrng hw hR hT hT' hg).2 he
  by_cases hc : (treeOf a (step (rng w) s key) t).1 = T
  · rw [hc]
    by_contra hne
    have hb := (newRules_eq_iff hPT hne).1 rfl
    exact hb.ne ((hback _ hb).symm.trans hc)
  · apply newRules_of_becomes hPT
    have rev : ∀ {U U' : Rules} {var split var' split' : List Nat} {i : Nat}, PossibleTree a U →
        PossibleTree a U' → SameTree U.var U.split var split → SameTree U'.var U'.split var' split' →
        ValidSplit a.p_nonterminal.length split → ValidSplit a.p_nonterminal.length split' →
        Grown a.p_nonterminal.length var split var' split' i → GrownT a U U' i := by
      rintro U U' var split var' split' i _ _ ⟨rfl, h1⟩ ⟨rfl, h2⟩ v1 v2 hg
      refine ⟨hg.leaf, hg.not_bottom, hg.decision, hg.left, hg.right, hg.same_split, fun k hd => ?_⟩
      rw [← h1 k hd, ← h2 k ((hg.isDecision v1 v2 k).2 (Or.inl hd))]
      exact hg.same_var k hd
    have v1 := (treeInv_of hs ht).valid
    have v2 := (treeInv_of hs' ht).valid
    rcases one_node ha hs (rng w) (hrng w hw) key t ht with ⟨h, _⟩ | ⟨i, h, _⟩ | ⟨i, h, _⟩
    · refine absurd ((treeOf_eq_iff hu hs' ht hPT).2 ?_) hc
      refine ⟨h.1.trans k1.1, fun i hd => ?_⟩
      rw [← k1.2 i hd]
      have hd' : IsDecision (s.split_trees.getD t []) i := by
        rw [show s.split_trees.getD t [] = _ from k1.1]; exact hd
      exact h.2 i hd'
    · have hg := rev hPT hP' k1 k2 v1 v2 h
      exact ⟨hP', i, Or.inl ⟨hg, (step_growEv hu hs hr hsig ht hsites hrng hw hR hT hP' hg).1 rfl⟩⟩
    · have hg := rev hP' hPT k2 k1 v2 v1 h
      exact ⟨hP', i, Or.inr ⟨hg, (step_pruneEv hu hs hr hsig ht hsites hrng hw hR hT hP' hg).1 rfl⟩⟩

end
/-! ### Detailed balance -/

section
variable (hu : Usable a) (hp : ∀ x ∈ a.p_nonterminal, x < 1) (hv : 0 < v)
  (hT : PossibleTree a T) (hT' : PossibleTree a T') (hg : GrownT a T T' i)
include hu hT hT' hg

omit hv in
theorem becomes_grow_iff : Becomes a R v T T' w ↔ GrowEv a R v T T' i w := by
  constructor
  · rintro ⟨_, k, ⟨g, e⟩ | ⟨g, e⟩⟩
    · rwa [hg.node_unique g]
    · exact absurd g hg.not_rev
  · exact fun e => ⟨hT', i, Or.inl ⟨hg, e⟩⟩

omit hv in
theorem becomes_prune_iff : Becomes a R v T' T w ↔ PruneEv a R v T T' i w := by
  constructor
  · rintro ⟨_, k, ⟨g, e⟩ | ⟨g, e⟩⟩
    · exact absurd g hg.not_rev
    · rwa [hg.node_unique g]
  · exact fun e => ⟨hT, i, Or.inr ⟨hg, e⟩⟩

theorem prob_growEv : prob (GrowEv a R v T T' i) =
    pGrow (canon a 1 T) 0 * len {x | x ∈ Set.Ico (0 : ℝ) 1 ∧ Real.log (1 + -x) ≤
      Real.log (tP a T T' i) + Real.log (lik a R v T' / lik a R v T)} *
      ((canon a 1 T).p_propose_grow.getD i 0 / (growW (canon a 1 T) 0).sum) *
      (1 / ((availVars a.split_bits a.max_split T.var T.split i).ncard : ℝ)) *
      (1 / ((availSplits a.max_split T.var T.split i (at0 T'.var i)).ncard : ℝ)) := by
  have ha := hu.valid
  have ht := hu.trees
  obtain ⟨h1, _⟩ := canon_inv hu hT 1
  obtain ⟨h2, _⟩ := canon_inv hu hT' 1
  have hgs : Grown a.p_nonterminal.length (vaOf (canon a 1 T) 0) (spOf (canon a 1 T) 0)
      (vaOf (canon a 1 T') 0) (spOf (canon a 1 T') 0) i := by
    rw [canon_va 1 ht, canon_va 1 ht, canon_sp 1 ht, canon_sp 1 ht]; exact hg
  have hgi := grown_growable ha h1 h2 ht hgs
  have m1 := hT'.var_avail i hg.decision
  have m2 := hT'.split_avail i hg.decision
  have hg' : Grown a.p_nonterminal.length T.var T.split T'.var T'.split i := hg
  rw [hg'.availVars hT.split hT'.split _ _ hg.leaf.1] at m1
  rw [hg'.availSplits hT.split hT'.split _ hg.leaf.1] at m2
  have hbox := prob_box (P := GrowEv a R v T T' i)
    (S := ![{x | x ∈ Set.Ico (0 : ℝ) 1 ∧ x < pGrow (canon a 1 T) 0},
      {x | x ∈ Set.Ico (0 : ℝ) 1 ∧ Real.log (1 + -x) ≤
        Real.log (tP a T T' i) + Real.log (lik a R v T' / lik a R v T)},
      {x | x ∈ Set.Ico (0 : ℝ) 1 ∧ leafPick (canon a 1 T) 0 x = i},
      {x | x ∈ Set.Ico (0 : ℝ) 1 ∧ varPick (canon a 1 T) 0 i x = at0 T'.var i},
      {x | x ∈ Set.Ico (0 : ℝ) 1 ∧
        splitPick (canon a 1 T) 0 i (at0 T'.var i) x = at0 T'.split i}, Set.Ico 0 1])
    (by
      intro k
      fin_cases k
      · exact fun x hx => hx.1
      · exact fun x hx => hx.1
      · exact fun x hx => hx.1
      · exact fun x hx => hx.1
      · exact fun x hx => hx.1
      · exact subset_rfl)
    (by
      intro w hw
      have hw' : ∀ k, w k ∈ Set.Ico (0 : ℝ) 1 := fun k => hw k (Set.mem_univ k)
      constructor
      · rintro ⟨e1, e2, e3, e4, e5⟩ k
        fin_cases k
        · exact ⟨hw' 0, e1⟩
        · exact ⟨hw' 1, e5⟩
        · exact ⟨hw' 2, e2⟩
        · exact ⟨hw' 3, e3⟩
        · exact ⟨hw' 4, e4⟩
        · exact hw' 5
      · intro hk
        exact ⟨(hk 0).2, (hk 2).2, (hk 3).2, (hk 4).2, (hk 1).2⟩)
  rw [hbox]
  have hvl := len_varPick ha h1 ht hu.fill (cutsOK hu h1 ht) hgs.leaf hgs.not_bottom (v := at0 T'.var i) (by
    rw [h1.cfg.split_bits, h1.cfg.max_split, canon_va 1 ht, canon_sp 1 ht]; exact m1)
  have hsl := len_splitPick ha h1 ht (v := at0 T'.var i) (sp := at0 T'.split i) hgs.leaf.1.pos
    hgs.not_bottom (by rw [h1.cfg.max_split, canon_va 1 ht, canon_sp 1 ht]; exact m2)
  rw [h1.cfg.split_bits, h1.cfg.max_split, canon_va 1 ht, canon_sp 1 ht] at hvl
  rw [h1.cfg.max_split, canon_va 1 ht, canon_sp 1 ht] at hsl
  show len {x | x ∈ Set.Ico (0 : ℝ) 1 ∧ x < pGrow (canon a 1 T) 0} * len _ *
    len {x | x ∈ Set.Ico (0 : ℝ) 1 ∧ leafPick (canon a 1 T) 0 x = i} *
    len {x | x ∈ Set.Ico (0 : ℝ) 1 ∧ varPick (canon a 1 T) 0 i x = at0 T'.var i} *
    len {x | x ∈ Set.Ico (0 : ℝ) 1 ∧
        splitPick (canon a 1 T) 0 i (at0 T'.var i) x = at0 T'.split i} * len (Set.Ico 0 1) = _
  rw [len_lt_pGrow, len_leafPick ha h1 ht hgi, hvl, hsl, len_unit, mul_one]
  rfl

theorem prob_pruneEv : prob (PruneEv a R v T T' i) =
    (1 - pGrow (canon a 1 T') 0) * len {x | x ∈ Set.Ico (0 : ℝ) 1 ∧ Real.log (1 + -x) ≤
      -(Real.log (tP a T T' i) + Real.log (lik a R v T' / lik a R v T))} *
      (1 / (nPrune (canon a 1 T') 0 : ℝ)) := by
  have ha := hu.valid
  have ht := hu.trees
  obtain ⟨h1, _⟩ := canon_inv hu hT 1
  obtain ⟨h2, _⟩ := canon_inv hu hT' 1
  have hgs : Grown a.p_nonterminal.length (vaOf (canon a 1 T) 0) (spOf (canon a 1 T) 0)
      (vaOf (canon a 1 T') 0) (spOf (canon a 1 T') 0) i := by
    rw [canon_va 1 ht, canon_va 1 ht, canon_sp 1 ht, canon_sp 1 ht]; exact hg
  have hbox := prob_box (P := PruneEv a R v T T' i)
    (S := ![{x | x ∈ Set.Ico (0 : ℝ) 1 ∧ ¬ x < pGrow (canon a 1 T') 0},
      {x | x ∈ Set.Ico (0 : ℝ) 1 ∧ Real.log (1 + -x) ≤
        -(Real.log (tP a T T' i) + Real.log (lik a R v T' / lik a R v T))}, Set.Ico 0 1, Set.Ico 0 1,
      Set.Ico 0 1, {x | x ∈ Set.Ico (0 : ℝ) 1 ∧ prunePick (canon a 1 T') 0 x = i}])
    (by
      intro k
      fin_cases k
      · exact fun x hx => hx.1
      · exact fun x hx => hx.1
      · exact subset_rfl
      · exact subset_rfl
      · exact subset_rfl
      · exact fun x hx => hx.1)
    (by
      intro w hw
      have hw' : ∀ k, w k ∈ Set.Ico (0 : ℝ) 1 := fun k => hw k (Set.mem_univ k)
      constructor
      · rintro ⟨e1, e2, e5⟩ k
        fin_cases k
        · exact ⟨hw' 0, e1⟩
        · exact ⟨hw' 1, e5⟩
        · exact hw' 2
        · exact hw' 3
        · exact hw' 4
        · exact ⟨hw' 5, e2⟩
      · intro hk
        exact ⟨(hk 0).2, (hk 5).2, (hk 1).2⟩)
  rw [hbox]
  show len {x | x ∈ Set.Ico (0 : ℝ) 1 ∧ ¬ x < pGrow (canon a 1 T') 0} * len _ * len (Set.Ico 0 1) *
    len (Set.Ico 0 1) * len (Set.Ico 0 1) *
    len {x | x ∈ Set.Ico (0 : ℝ) 1 ∧ prunePick (canon a 1 T') 0 x = i} = _
  rw [len_ge_pGrow, len_unit, len_prunePick ha h2 ht
    (hgs.parent (treeInv_of h1 ht).valid (treeInv_of h2 ht).valid)]
  simp only [mul_one]
  rfl

include hp hv

theorem balance_grown :
    treePrior a.p_nonterminal a.split_bits a.max_split T.var T.split * lik a R v T * prob (Becomes a R v T T') =
    treePrior a.p_nonterminal a.split_bits a.max_split T'.var T'.split * lik a R v T' * prob (Becomes a R v T' T) := by
  have ha := hu.valid
  have ht := hu.trees
  obtain ⟨h1, _⟩ := canon_inv hu hT 1
  obtain ⟨h2, _⟩ := canon_inv hu hT' 1
  have hgs : Grown a.p_nonterminal.length (vaOf (canon a 1 T) 0) (spOf (canon a 1 T) 0)
      (vaOf (canon a 1 T') 0) (spOf (canon a 1 T') 0) i := by
    rw [canon_va 1 ht, canon_va 1 ht, canon_sp 1 ht, canon_sp 1 ht]; exact hg
  have hg' : Grown a.p_nonterminal.length T.var T.split T'.var T'.split i := hg
  have b12 : Becomes a R v T T' = GrowEv a R v T T' i :=
    funext fun w => propext (becomes_grow_iff hu hT hT' hg)
  have b21 : Becomes a R v T' T = PruneEv a R v T T' i :=
    funext fun w => propext (becomes_prune_iff hu hT hT' hg)
  have hApos : 0 < tP a T T' i := transPrior_pos ha h1 h2 ht hgs hp
  have hL := lik_pos hu.trees hv R T
  have hL' := lik_pos hu.trees hv R T'
  rw [b12, b21, prob_growEv hu hT hT' hg, prob_pruneEv hu hT hT' hg, len_accept, len_accept,
    Real.exp_neg, Real.exp_add, Real.exp_log hApos, Real.exp_log (div_pos hL' hL)]
  have hlog : Nat.log2 i < a.p_nonterminal.length :=
    (Nat.log2_lt (by have := hg.leaf.1.pos; omega)).2 hg.not_bottom
  have hd : 1 - a.p_nonterminal.getD (Nat.log2 i) 0 ≠ 0 := by
    rw [List.getD_eq_getElem _ _ hlog]
    have := hp _ (List.getElem_mem hlog)
    linarith
  have eprior : treePrior a.p_nonterminal a.split_bits a.max_split T'.var T'.split = shapePrior _ _ * _ *
      (rulesPrior _ _ _ _ * _) := congrArg₂ (· * ·) (shapePrior_grown hT.split hT'.split hg' _ hd)
        (rulesPrior_grown hT.split hT'.split hg' _ _)
  rw [eprior]
  obtain ⟨B, hB⟩ : ∃ B, lik a R v T' / lik a R v T = B := ⟨_, rfl⟩
  have hBpos : 0 < B := hB ▸ div_pos hL' hL
  have hL'' : lik a R v T' = lik a R v T * B := by rw [← hB]; field_simp
  rw [hB, hL'']
  set A := tP a T T' i with hA
  have hmin : min 1 (A * B) = A * B * min 1 (A * B)⁻¹ := by
    have hAB : 0 < A * B := mul_pos hApos hBpos
    rw [mul_min_of_nonneg _ _ hAB.le, mul_inv_cancel₀ hAB.ne', mul_one, min_comm]
  rw [hmin]
  have hA' : pGrow (canon a 1 T) 0 * ((canon a 1 T).p_propose_grow.getD i 0 /
        (growW (canon a 1 T) 0).sum) * A =
      shapeRatio a.p_nonterminal i * (1 - pGrow (canon a 1 T') 0) *
        (1 / (nPrune (canon a 1 T') 0 : ℝ)) := by
    have hg1 : pGrow (canon a 1 T) 0 ≠ 0 := by
      rw [pGrow1 ha h1 h2 ht hgs]; split_ifs <;> norm_num
    have hq : (canon a 1 T).p_propose_grow.getD i 0 / (growW (canon a 1 T) 0).sum ≠ 0 := by
      obtain ⟨_, q1, q2⟩ := growW_pos ha h1 ht (grown_growable ha h1 h2 ht hgs)
      exact (div_pos q1 q2).ne'
    have hn := (nPrune2_pos ha h1 h2 ht hgs).ne'
    rw [hA, tP, transPrior]
    generalize (canon a 1 T).p_propose_grow.getD i 0 / (growW (canon a 1 T) 0).sum = q at hq
    field_simp
  unfold shapeRatio at hA'
  unfold treePrior
  generalize (canon a 1 T).p_propose_grow.getD i 0 / (growW (canon a 1 T) 0).sum = q at hA' ⊢
  generalize shapePrior a.p_nonterminal T.split = π1
  generalize rulesPrior a.split_bits a.max_split T.var T.split = π2
  generalize lik a R v T = L
  generalize 1 / ((availVars a.split_bits a.max_split T.var T.split i).ncard : ℝ) = x
  generalize 1 / ((availSplits a.max_split T.var T.split i (at0 T'.var i)).ncard : ℝ) = c
  generalize min 1 (A * B)⁻¹ = m
  linear_combination (π1 * π2 * L * x * c * m * B) * hA'

end

theorem prob_false : prob (fun _ => False) = 0 := by simp [prob]

/-- detailed balance -/
theorem balance (hu : Usable a) (hp : ∀ x ∈ a.p_nonterminal, x < 1) (hv : 0 < v)
    (hT : PossibleTree a T) (hT' : PossibleTree a T') :
    treePrior a.p_nonterminal a.split_bits a.max_split T.var T.split * lik a R v T * prob (Becomes a R v T T') =
    treePrior a.p_nonterminal a.split_bits a.max_split T'.var T'.split * lik a R v T' * prob (Becomes a R v T' T) := by
  by_cases h1 : ∃ i, GrownT a T T' i
  · obtain ⟨i, hg⟩ := h1
    exact balance_grown hu hp hv hT hT' hg
  by_cases h2 : ∃ i, GrownT a T' T i
  · obtain ⟨i, hg⟩ := h2
    exact (balance_grown hu hp hv hT' hT hg).symm
  have e1 : Becomes a R v T T' = fun _ => False := funext fun w => propext
    ⟨fun ⟨_, i, h⟩ => h.elim (fun h => h1 ⟨i, h.1⟩) (fun h => h2 ⟨i, h.1⟩), False.elim⟩
  have e2 : Becomes a R v T' T = fun _ => False := funext fun w => propext
    ⟨fun ⟨_, i, h⟩ => h.elim (fun h => h2 ⟨i, h.1⟩) (fun h => h1 ⟨i, h.1⟩), False.elim⟩
  rw [e1, e2, prob_false, mul_zero, mul_zero]

theorem possible_treePrior_pos (hu : Usable a) (hp : ∀ x ∈ a.p_nonterminal, x < 1)
    (hT : PossibleTree a T) : 0 < treePrior a.p_nonterminal a.split_bits a.max_split T.var T.split := by
  have ht := hu.trees
  obtain ⟨h1, _⟩ := canon_inv hu hT 1
  have := treePrior_pos hu.valid h1 ht (cutsOK hu h1 ht) hp (fun i hd => by
    rw [canon_va 1 ht]
    rw [canon_sp 1 ht] at hd
    exact (hT.var_avail i hd).1)
  rwa [h1.cfg.split_bits, h1.cfg.max_split, canon_va 1 ht, canon_sp 1 ht] at this
end
end Bartz
