import Verif.Lemmas.Kernel32
import Verif.Props.Update32
import Verif.Lemmas.Detailed
/-! # Changes of a tree in a step in single precision, and their intended probabilities -/

set_option autoImplicit false

namespace Bartz
open Jax Spec

/-! ### Probabilities -/

set_option linter.constructorNameAsVariable false in
theorem updateProb_sub (p q r : UpdateBits → Prop) (h : ∀ ω, ¬ r ω → (p ω ↔ q ω)) : |updateProb p - updateProb q| ≤ updateProb r := by
  classical
  have e : ∀ p : UpdateBits → Prop, updateProb p = ((Finset.univ.filter p).card : ℝ) / (2 ^ 23 * (2 ^ 23 * 2 ^ 64 * 2 ^ 64) * 2 ^ 64 * 2 ^ 23) := by
    intro p
    unfold updateProb
    congr!
  have key : ∀ p q : UpdateBits → Prop, (∀ ω, ¬ r ω → (p ω ↔ q ω)) →
      ((Finset.univ.filter p).card : ℝ) ≤ (Finset.univ.filter q).card + (Finset.univ.filter r).card := by
    intro p q h
    have : Finset.univ.filter p ⊆ Finset.univ.filter q ∪ Finset.univ.filter r := by
      intro ω hω
      simp only [Finset.mem_union, Finset.mem_filter, Finset.mem_univ, true_and] at hω ⊢
      by_cases hr : r ω
      · exact Or.inr hr
      · exact Or.inl ((h ω hr).1 hω)
    exact_mod_cast (Finset.card_le_card this).trans (Finset.card_union_le _ _)
  have h1 := key p q h
  have h2 := key q p fun ω hr => (h ω hr).symm
  have hpos : (0 : ℝ) < 2 ^ 23 * (2 ^ 23 * 2 ^ 64 * 2 ^ 64) * 2 ^ 64 * 2 ^ 23 := by positivity
  rw [e p, e q, e r, ← sub_div, abs_div, abs_of_pos hpos]
  refine div_le_div_of_nonneg_right ?_ hpos.le
  rw [abs_le]
  constructor <;> linarith

theorem words_const (x : ℝ) : (∑ _w : Words, x) / 2 ^ 64 = x := by
  have := words_mean_near (f := fun _ => x) (x := x) (ε := 0) fun w => by simp
  exact sub_eq_zero.1 (abs_eq_zero.1 (le_antisymm this (abs_nonneg _)))

theorem fin_const (x : ℝ) : (∑ _k : Fin (2 ^ 23), x) / 2 ^ 23 = x := by
  rw [Finset.sum_const, Finset.card_univ, Fintype.card_fin, nsmul_eq_mul]
  have h : ((2 ^ 23 : Nat) : ℝ) = 2 ^ 23 := by norm_num
  rw [h]
  field_simp

theorem moveMean_leaf (f : Fin (2 ^ 23) → ℝ) : moveMean (fun ω => f ω.2.1.1) = (∑ k, f k) / 2 ^ 23 := by
  unfold moveMean growMean
  simp only [words_const, fin_const]

theorem updateProb_leaf (p : Fin (2 ^ 23) → Prop) : updateProb (fun ω => p ω.1.2.1.1) = bitsProb p := by
  classical
  have h1 : ∀ q : Prop, bitsProb (fun _ => q) = if q then 1 else 0 := by
    intro q
    by_cases hq : q
    · rw [if_pos hq]; exact bitsProb_univ _ fun _ => hq
    · rw [if_neg hq, bitsProb_eq, Finset.filter_false_of_mem fun _ _ => hq, Finset.card_empty, Nat.cast_zero, zero_div]
  rw [updateProb_mean]
  simp only [h1]
  rw [moveMean_leaf fun k => if p k then 1 else 0, bitsProb_eq, Finset.card_filter, Nat.cast_sum]
  simp only [Nat.cast_ite, Nat.cast_one, Nat.cast_zero]

section
variable {K K' : Type} [KeyLike K] [KeyLike K'] [P : Binary32.Platform] {a : InitArgs Binary32} {s s1 s2 : State Binary32} {t i : Nat}
  {p : List ℝ}

/-- the probability that the leaf chosen to be grown is not growable -/
theorem update_picks (hc : ∀ w, Binary32.Platform.cumsum w = associativeScan w) (ha : ValidArgs a) (hs : ReachablePicks K' a s)
    {rng : UpdateBits → Rng K Binary32} {key : K} (ht : t < a.num_trees) (hrng : UsesUpdateBits rng key a.num_trees t)
    {q : Nat → ℝ} (hq : ∀ d (h : d < a.p_nonterminal.length), HasValue a.p_nonterminal[d] (q d) ∧ 1 / 2 ^ 125 ≤ q d) :
    updateProb (fun ω => ¬ Picks (rng ω) s key t) ≤ 2 ^ a.p_nonterminal.length * ((4 * a.p_nonterminal.length + 1) / 2 ^ 22) := by
  have hi := ReachablePicks.inv ha hs
  obtain ⟨draw, hd, hleaf⟩ := hrng.leaf
  have hε : (0 : ℝ) ≤ (4 * a.p_nonterminal.length + 1) / 2 ^ 22 := by positivity
  have hpick : ∀ ω, Picks (rng ω) s key t ↔ ((choose_leaf (s.split_trees.getD t []) (s.affluence_trees.map fun x => x.getD t [])
      s.p_propose_grow (draw ω.1.2.1.1)).num_growable ≠ 0 → (growable_leaves (s.split_trees.getD t [])
      (s.affluence_trees.map fun x => x.getD t [])).getD (choose_leaf (s.split_trees.getD t [])
      (s.affluence_trees.map fun x => x.getD t []) s.p_propose_grow (draw ω.1.2.1.1)).leaf_to_grow false = true) := by
    intro ω
    unfold Picks
    rw [hi.leaf_length, hleaf]
  simp only [hpick]
  rw [updateProb_leaf fun k => ¬ ((choose_leaf (s.split_trees.getD t []) (s.affluence_trees.map fun x => x.getD t [])
      s.p_propose_grow (draw k)).num_growable ≠ 0 → (growable_leaves (s.split_trees.getD t [])
      (s.affluence_trees.map fun x => x.getD t [])).getD (choose_leaf (s.split_trees.getD t [])
      (s.affluence_trees.map fun x => x.getD t []) s.p_propose_grow (draw k)).leaf_to_grow false = true)]
  have hT := hi.tree t ht
  have hlg := length_growable hT.valid.length hT.aff_len
  by_cases hg : ∃ i, (growable_leaves (s.split_trees.getD t []) (s.affluence_trees.map fun x => x.getD t [])).getD i false = true
  · obtain ⟨hlt, -, -, hprob⟩ := choose_leaf_prob hc ha hs hd ht hq hg
    refine (bitsProb_mono (q := fun k => (choose_leaf (s.split_trees.getD t []) (s.affluence_trees.map fun x => x.getD t [])
      s.p_propose_grow (draw k)).leaf_to_grow ∈ (Finset.range (2 ^ a.p_nonterminal.length)) \
      (Finset.range (2 ^ a.p_nonterminal.length)).filter fun i => (growable_leaves (s.split_trees.getD t [])
      (s.affluence_trees.map fun x => x.getD t [])).getD i false = true) fun k hk => ?_).trans ?_
    · rw [Finset.mem_sdiff]
      exact ⟨Finset.mem_range.2 (hlt k), fun hcon => hk fun _ => (Finset.mem_filter.1 hcon).2⟩
    · rw [bitsProb_mem]
      refine (Finset.sum_le_sum (g := fun _ => ((4 * a.p_nonterminal.length + 1) / 2 ^ 22 : ℝ)) fun i hi => ?_).trans ?_
      · obtain ⟨h3, h4⟩ := Finset.mem_sdiff.1 hi
        have h5 := (hprob i (Finset.mem_range.1 h3)).1
        rw [if_neg h4, zero_add] at h5
        exact h5
      · rw [Finset.sum_const, nsmul_eq_mul]
        refine mul_le_mul_of_nonneg_right ?_ hε
        have := Finset.card_le_card (Finset.sdiff_subset (s := Finset.range (2 ^ a.p_nonterminal.length)) (t := (Finset.range
          (2 ^ a.p_nonterminal.length)).filter fun i => (growable_leaves (s.split_trees.getD t [])
          (s.affluence_trees.map fun x => x.getD t [])).getD i false = true))
        rw [Finset.card_range] at this
        exact_mod_cast this
  · have h0 : ∀ k, ¬ ¬ ((choose_leaf (s.split_trees.getD t []) (s.affluence_trees.map fun x => x.getD t [])
      s.p_propose_grow (draw k)).num_growable ≠ 0 → (growable_leaves (s.split_trees.getD t [])
      (s.affluence_trees.map fun x => x.getD t [])).getD (choose_leaf (s.split_trees.getD t [])
      (s.affluence_trees.map fun x => x.getD t []) s.p_propose_grow (draw k)).leaf_to_grow false = true) := by
      intro k hk
      apply hk
      intro hn
      have hn' : countNonzero (growable_leaves (s.split_trees.getD t []) (s.affluence_trees.map fun x => x.getD t [])) ≠ 0 := hn
      rw [← Nat.pos_iff_ne_zero, countNonzero_pos_iff] at hn'
      obtain ⟨j, _, hj⟩ := hn'
      exact absurd ⟨j, hj⟩ hg
    classical
    rw [bitsProb_eq, Finset.filter_false_of_mem fun k _ => h0 k, Finset.card_empty, Nat.cast_zero, zero_div]
    positivity

/-! ### Events -/

theorem step_var (hi : StateInv a s) (rng : Rng K Binary32) (key : K) (ht : t < a.num_trees) :
    (step rng s key).var_trees.getD t [] = (moveOf rng s (KeyLike.split (KeyLike.split key 2 1) 2 1) t).var_tree := by
  rw [step_eq, sample_trees_eq]
  simp only [sample_sigma, hi.leaf_length]
  rw [getD_vmap ht]

section
variable (ha : ValidArgs a) (h1 : StateInv a s1) (h2 : StateInv a s2) (ht : t < a.num_trees)
  (hg : Grown a.p_nonterminal.length (s1.var_trees.getD t []) (s1.split_trees.getD t []) (s2.var_trees.getD t []) (s2.split_trees.getD t []) i)
include ha h1 h2 ht hg

omit P ha h1 h2 ht in
theorem grown_ne : s2.split_trees.getD t [] ≠ s1.split_trees.getD t [] := by
  intro h
  have := hg.decision.2
  rw [h] at this
  exact this hg.leaf.2

theorem becomes_grow {rng : Rng K Binary32} {key : K} {mv : Move Binary32}
    (hmv : mv = moveOf rng s1 (KeyLike.split (KeyLike.split key 2 1) 2 1) t)
    (hok : MoveOK (cfgOf a) (s1.var_trees.getD t []) (s1.split_trees.getD t []) (s1.affluence_trees.map fun x => x.getD t []) mv) :
    SameTree (s2.var_trees.getD t []) (s2.split_trees.getD t []) ((step rng s1 key).var_trees.getD t [])
      ((step rng s1 key).split_trees.getD t []) ↔
    (mv.grow = true ∧ mv.node = i ∧ mv.grow_var = at0 (s2.var_trees.getD t []) i ∧ mv.grow_split = at0 (s2.split_trees.getD t []) i) ∧
      (step rng s1 key).split_trees.getD t [] ≠ s1.split_trees.getD t [] := by
  have hT1 := h1.tree t ht
  have hT2 := h2.tree t ht
  have hne12 := grown_ne hg
  have hal := accOf_allowed rng s1 (KeyLike.split key 2 1) t
  obtain ⟨g1, g2⟩ := grown_trees h1 h2 ht hg
  unfold SameTree
  rw [step_var h1 rng key ht, step_split h1 rng key ht, ← hmv]
  rw [← hmv] at hal
  have hsf := split_final (cfgOf_ok ha) hok (accOf rng s1 (KeyLike.split key 2 1) t).2.acc
  change apply_moves_to_split_tree a.split_bits _ _ _ = _ at hsf
  rw [hsf]
  generalize (accOf rng s1 (KeyLike.split key 2 1) t).2.acc = acc at hal
  constructor
  · rintro ⟨es, ev⟩
    have hne := hg.decision.2
    rw [← es] at hne
    refine ⟨?_, by rw [es]; exact hne12⟩
    cases acc with
    | false => rw [if_neg (by simp)] at hne; exact absurd hg.leaf.2 hne
    | true =>
      rw [if_pos rfl] at hne es
      cases hgr : mv.grow with
      | false =>
        rw [hgr, if_neg (by simp), at0_prune hT1.valid (hok.prune_node hgr (hal rfl))] at hne
        split_ifs at hne
        · exact absurd rfl hne
        · exact absurd hg.leaf.2 hne
      | true =>
        have hgl := hok.grow_leaf hgr
        rw [hgr, if_pos rfl, at0_grow hT1.valid hgl.2.1] at hne
        rw [hgr, if_pos rfl] at es
        have hnode : mv.node = i := by
          by_contra hc
          rw [if_neg hc] at hne
          exact hne hg.leaf.2
        have hspl : mv.grow_split = at0 (s2.split_trees.getD t []) i := by
          rw [← es, at0_grow hT1.valid hgl.2.1, if_pos hnode]
        refine ⟨rfl, hnode, ?_, hspl⟩
        have := ev i hg.decision
        rw [hok.grow_tree hgr, at0_setDrop, if_pos ⟨hnode, by rw [hT1.var_len]; exact hg.not_bottom⟩]
          at this
        exact this
  · rintro ⟨⟨e1, e2, e3, e4⟩, hch⟩
    have hacc : acc = true := by
      by_contra hc
      rw [if_neg hc] at hch
      exact hch rfl
    rw [if_pos hacc, if_pos e1, hok.grow_tree e1, e2, e3, e4]
    exact ⟨g1, g2⟩

theorem becomes_prune {rng : Rng K Binary32} {key : K} {mv : Move Binary32}
    (hmv : mv = moveOf rng s2 (KeyLike.split (KeyLike.split key 2 1) 2 1) t)
    (hok : MoveOK (cfgOf a) (s2.var_trees.getD t []) (s2.split_trees.getD t []) (s2.affluence_trees.map fun x => x.getD t []) mv) :
    SameTree (s1.var_trees.getD t []) (s1.split_trees.getD t []) ((step rng s2 key).var_trees.getD t [])
      ((step rng s2 key).split_trees.getD t []) ↔
    (mv.grow = false ∧ mv.allowed = true ∧ mv.node = i) ∧ (step rng s2 key).split_trees.getD t [] ≠ s2.split_trees.getD t [] := by
  have hT1 := h1.tree t ht
  have hT2 := h2.tree t ht
  have hne12 := grown_ne hg
  have hal := accOf_allowed rng s2 (KeyLike.split key 2 1) t
  unfold SameTree
  rw [step_var h2 rng key ht, step_split h2 rng key ht, ← hmv]
  rw [← hmv] at hal
  have hsf := split_final (cfgOf_ok ha) hok (accOf rng s2 (KeyLike.split key 2 1) t).2.acc
  change apply_moves_to_split_tree a.split_bits _ _ _ = _ at hsf
  rw [hsf]
  generalize (accOf rng s2 (KeyLike.split key 2 1) t).2.acc = acc at hal
  constructor
  · rintro ⟨es, ev⟩
    have hz := hg.leaf.2
    rw [← es] at hz
    refine ⟨?_, by rw [es]; exact hne12.symm⟩
    cases acc with
    | false => rw [if_neg (by simp)] at hz; exact absurd hz hg.decision.2
    | true =>
      rw [if_pos rfl] at hz es
      cases hgr : mv.grow with
      | false =>
        rw [hgr, if_neg (by simp), at0_prune hT2.valid (hok.prune_node hgr (hal rfl))] at hz
        by_cases hc : mv.node = i
        · exact ⟨rfl, hal rfl, hc⟩
        · rw [if_neg hc] at hz; exact absurd hz hg.decision.2
      | true =>
        have hgl := hok.grow_leaf hgr
        rw [hgr, if_pos rfl, at0_grow hT2.valid hgl.2.1] at hz
        split_ifs at hz with hc
        · exact absurd hgl.1.2 (hc ▸ hg.decision.2)
        · exact absurd hz hg.decision.2
  · rintro ⟨⟨hgr, -, hnode⟩, hch⟩
    have hacc : acc = true := by
      by_contra hc
      rw [if_neg hc] at hch
      exact hch rfl
    rw [if_pos hacc, if_neg (by simp [hgr]), hnode]
    refine ⟨(hg.split1 hT1.valid hT2.valid).symm, fun j hj => ?_⟩
    rw [hok.agree ((hg.isDecision hT1.valid hT2.valid j).2 (Or.inl hj)), hg.same_var j hj]

end

/-! ### Intended probabilities -/

omit P in
theorem avg_single {S : Set Nat} {c : Nat} (hc : c ∈ S) {f : Nat → ℝ} (hf : ∀ x, x ≠ c → f x = 0) : avg S f = f c * (1 / S.ncard) := by
  unfold avg
  rw [finsum_eq_single _ c fun x hx => by rw [hf x hx]; simp]
  simp [hc]
  ring

omit P in
theorem growExp_single {q : Nat → ℝ} {G : Finset Nat} {bits : Nat} {max_split var split : List Nat} {g : Nat → Nat → Nat → ℝ} {v c : Nat}
    (hi : i ∈ G) (hv : v ∈ availVars bits max_split var split i) (hc : c ∈ availSplits max_split var split i v)
    (hg : ∀ i' v' c', ¬ (i' = i ∧ v' = v ∧ c' = c) → g i' v' c' = 0) :
    growExp q G bits max_split var split g = q (Nat.log2 i) / (∑ j ∈ G, q (Nat.log2 j)) *
      (g i v c * (1 / (availSplits max_split var split i v).ncard) * (1 / (availVars bits max_split var split i).ncard)) := by
  have havg0 : ∀ S : Set Nat, avg S (fun _ => 0) = 0 := by
    intro S
    unfold avg
    simp
  unfold growExp
  rw [Finset.sum_eq_single i]
  · rw [avg_single hv, avg_single hc]
    · intro x hx
      exact hg _ _ _ fun h => hx h.2.2
    · intro x hx
      have : ∀ c', g i x c' = 0 := fun c' => hg _ _ _ fun h => hx h.2.1
      simp only [this, havg0]
  · intro j _ hj
    have : ∀ v' c', g j v' c' = 0 := fun v' c' => hg _ _ _ fun h => hj h.1
    simp only [this, havg0, mul_zero]
  · intro h
    exact absurd hi h

omit P in
theorem growExp_zero {q : Nat → ℝ} {G : Finset Nat} {bits : Nat} {max_split var split : List Nat} {g : Nat → Nat → Nat → ℝ}
    (hg : ∀ i' v' c', g i' v' c' = 0) : growExp q G bits max_split var split g = 0 := by
  have havg0 : ∀ S : Set Nat, avg S (fun _ => 0) = 0 := by
    intro S
    unfold avg
    simp
  unfold growExp
  simp only [hg, havg0, mul_zero, Finset.sum_const_zero]

omit P in
theorem avg_zero {S : Set Nat} {f : Nat → ℝ} (hf : ∀ x, f x = 0) : avg S f = 0 := by
  unfold avg
  simp [hf]

theorem rule_avail32 (hs : StateInv a s) (ht : t < a.num_trees)
    (hms : ∀ k, IsDecision (s.split_trees.getD t []) k → at0 (s.var_trees.getD t []) k < a.max_split.length →
      1 ≤ at0 a.max_split (at0 (s.var_trees.getD t []) k)) (hd : IsDecision (s.split_trees.getD t []) i)
    (hv : at0 (s.var_trees.getD t []) i < a.max_split.length) :
    at0 (s.var_trees.getD t []) i ∈ availVars a.split_bits a.max_split (s.var_trees.getD t []) (s.split_trees.getD t []) i ∧
    at0 (s.split_trees.getD t []) i ∈ availSplits a.max_split (s.var_trees.getD t []) (s.split_trees.getD t []) i
      (at0 (s.var_trees.getD t []) i) := by
  have hT := hs.tree t ht
  have hr := (hT.rules i hd).2
  have h1 : 1 ≤ at0 (cfgOf a).ms (at0 (s.var_trees.getD t []) i) := hms _ hd hv
  rw [if_pos h1] at hr
  have hne := interval_nonempty hT.rules hd.1 h1
  have hlr := Nat.lt_of_le_of_lt (Nat.succ_le_of_lt hr.1) hr.2
  exact ⟨⟨hv, Or.inl ((hasSplit_iff hd.1.pos hne).2 hlr)⟩, (nonRedundant_iff hd.1.pos).2 ⟨hr.1, hr.2⟩⟩

omit P in
theorem treePrior_nonneg (hp : ∀ d, 0 ≤ p.getD d 0 ∧ p.getD d 0 ≤ 1) (bits : Nat) (max_split var split : List Nat) :
    0 ≤ treePrior p bits max_split var split := by
  refine mul_nonneg (Finset.prod_nonneg fun i _ => ?_) (Finset.prod_nonneg fun i _ => ?_)
  · unfold nodeProb
    have := hp (Nat.log2 i)
    split_ifs
    · exact this.1
    · linarith
    · exact zero_le_one
  · split_ifs
    · unfold ruleProb
      positivity
    · exact zero_le_one

omit P in
theorem treeLikelihood_nonneg {tau σ : ℝ} (ht : 0 < tau) (hσ : 0 < σ) (X : List (List Nat)) (n : Nat) (r : Nat → ℝ) (var split : List Nat) :
    0 ≤ treeLikelihood tau σ X n r var split := by
  refine Finset.prod_nonneg fun i _ => ?_
  split_ifs
  · exact (leafMarginal_pos ht hσ _).le
  · exact zero_le_one

end

end Bartz
