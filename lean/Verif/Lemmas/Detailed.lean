import Verif.Lemmas.Accept
/-! # Transition probabilities of a tree -/

set_option autoImplicit false

namespace Bartz
open Jax Spec

section
variable {K : Type} [KeyLike K] {a : InitArgs ℝ} {s s1 s2 : State ℝ} {t i : Nat} {key : K}
  {rng : (Fin 6 → ℝ) → Rng K ℝ}

/-! ### The rules of a tree are possible -/

theorem rule_avail (ha : ValidArgs a) (hs : StateInv a s) (ht : t < a.num_trees)
    (hms : CutsOK a s t) (hd : IsDecision (spOf s t) i)
    (hv : at0 (vaOf s t) i < a.max_split.length) :
    at0 (vaOf s t) i ∈ availVars s.split_bits s.max_split (vaOf s t) (spOf s t) i ∧
    at0 (spOf s t) i ∈ availSplits s.max_split (vaOf s t) (spOf s t) i (at0 (vaOf s t) i) := by
  have hT := hs.tree t ht
  have hr := (hT.rules i hd).2
  have hm : (cfgOf a).ms = s.max_split := hs.cfg.max_split.symm
  have h1 : 1 ≤ at0 (cfgOf a).ms (at0 (vaOf s t) i) := hms _ hd hv
  rw [if_pos h1, hm] at hr
  rw [hm] at h1
  have hne := interval_nonempty (hm ▸ hT.rules) hd.1 h1
  have hlr := Nat.lt_of_le_of_lt (Nat.succ_le_of_lt hr.1) hr.2
  refine ⟨⟨by rw [hs.cfg.max_split]; exact hv, Or.inl ((hasSplit_iff hd.1.pos hne).2 hlr)⟩, ?_⟩
  have hlt := hd.lt hT.valid.length
  exact (nonRedundant_iff hd.1.pos).2 ⟨hr.1, hr.2⟩

theorem availVars_finite (sb : Nat) (ms va sp : List Nat) (i : Nat) : (availVars sb ms va sp i).Finite :=
  (Set.finite_lt_nat ms.length).subset fun _ hv => hv.1

theorem availSplits_finite (ms va sp : List Nat) (i v : Nat) : (availSplits ms va sp i v).Finite := by
  refine (Set.finite_le_nat (at0 ms v)).subset fun x hx => ?_
  obtain ⟨_, b, hb, _, hxb⟩ := hx
  exact le_trans hxb hb

theorem treePrior_pos (ha : ValidArgs a) (hs : StateInv a s) (ht : t < a.num_trees)
    (hms : CutsOK a s t) (hp : ∀ x ∈ a.p_nonterminal, x < 1)
    (hv : ∀ i, IsDecision (spOf s t) i → at0 (vaOf s t) i < a.max_split.length) :
    0 < treePrior a.p_nonterminal s.split_bits s.max_split (vaOf s t) (spOf s t) := by
  have hT := hs.tree t ht
  have hpd : ∀ d, d < a.p_nonterminal.length → 0 < a.p_nonterminal.getD d 0 := by
    intro d hd
    rw [List.getD_eq_getElem _ _ hd]
    have := (ha.nonterminal_pos _ (List.getElem_mem hd)).2.1
    rwa [Real.leb_iff_false] at this
  have hpl : ∀ d, a.p_nonterminal.getD d 0 < 1 := by
    intro d
    rcases Nat.lt_or_ge d a.p_nonterminal.length with h | h
    · rw [List.getD_eq_getElem _ _ h]; exact hp _ (List.getElem_mem h)
    · rw [List.getD_eq_default _ _ h]; exact one_pos
  apply mul_pos
  · apply Finset.prod_pos
    intro i _
    unfold nodeProb
    split_ifs with h1 h2
    · exact hpd _ ((Nat.log2_lt (by have := h1.1.pos; omega)).2 (h1.lt hT.valid.length))
    · have := hpl (Nat.log2 i); linarith
    · exact one_pos
  · apply Finset.prod_pos
    intro i _
    split_ifs with h1
    · obtain ⟨m1, m2⟩ := rule_avail ha hs ht hms h1 (hv i h1)
      have n1 : 0 < (availVars s.split_bits s.max_split (vaOf s t) (spOf s t) i).ncard :=
        (Set.ncard_pos (availVars_finite _ _ _ _ _)).2 ⟨_, m1⟩
      have n2 : 0 < (availSplits s.max_split (vaOf s t) (spOf s t) i (at0 (vaOf s t) i)).ncard :=
        (Set.ncard_pos (availSplits_finite _ _ _ _ _)).2 ⟨_, m2⟩
      have n1' : (0 : ℝ) < (availVars s.split_bits s.max_split (vaOf s t) (spOf s t) i).ncard := by exact_mod_cast n1
      have n2' : (0 : ℝ) < (availSplits s.max_split (vaOf s t) (spOf s t) i
        (at0 (vaOf s t) i)).ncard := by exact_mod_cast n2
      unfold ruleProb
      positivity
    · exact one_pos

/-! ### Acceptance -/

theorem acc_iff (r : Rng K ℝ) (s : State ℝ) (k : K) (t : Nat) :
    (accOf r s k t).2.acc = true ↔
      (moveOf r s (KeyLike.split k 2 1) t).allowed = true ∧
      (moveOf r s (KeyLike.split k 2 1) t).logu ≤
        (if (moveOf r s (KeyLike.split k 2 1) t).grow = true then
          (workOf r s k t).log_trans_prior_ratio + (accOf r s k t).2.log_likelihood else
          -((workOf r s k t).log_trans_prior_ratio + (accOf r s k t).2.log_likelihood)) ∧
      ∀ m, s.min_points_per_leaf = some m → m ≤ (workOf r s k t).counts.left ∧
        m ≤ (workOf r s k t).counts.right := by
  rcases hm : s.min_points_per_leaf with _ | m
  · have e : (accOf r s k t).2.acc = ((moveOf r s (KeyLike.split k 2 1) t).allowed &&
        FltFun.leb (moveOf r s (KeyLike.split k 2 1) t).logu
          (if (moveOf r s (KeyLike.split k 2 1) t).grow = true then
          (workOf r s k t).log_trans_prior_ratio + (accOf r s k t).2.log_likelihood else
          -((workOf r s k t).log_trans_prior_ratio + (accOf r s k t).2.log_likelihood))) := by
      simp only [accOf, hm]; rfl
    rw [e, Bool.and_eq_true, Real.leb_iff]
    simp
  · have e : (accOf r s k t).2.acc = ((moveOf r s (KeyLike.split k 2 1) t).allowed &&
        FltFun.leb (moveOf r s (KeyLike.split k 2 1) t).logu
          (if (moveOf r s (KeyLike.split k 2 1) t).grow = true then
          (workOf r s k t).log_trans_prior_ratio + (accOf r s k t).2.log_likelihood else
          -((workOf r s k t).log_trans_prior_ratio + (accOf r s k t).2.log_likelihood)) &&
        decide ((workOf r s k t).counts.left ≥ m) && decide ((workOf r s k t).counts.right ≥ m)) := by
      simp only [accOf, hm]; rfl
    rw [e, Bool.and_eq_true, Bool.and_eq_true, Bool.and_eq_true, Real.leb_iff, decide_eq_true_iff,
      decide_eq_true_iff]
    simp only [Option.some.injEq, forall_eq', ge_iff_le]
    tauto

theorem logu_eq (hs : StateInv a s) (hsites : TreeSites a.num_trees t key rng) (w : Fin 6 → ℝ) :
    (mvOf rng s key t w).logu = Real.log (1 + -(w 1)) := by
  have e : (mvOf rng s key t w).logu = Real.log (1 + -((rng w (KeyLike.split (KeyLike.split
      (KeyLike.split key 2 1) 2 1) (1 + s.leaf_trees.length) 0)).uniform2 1 t)) := rfl
  rw [e, hs.leaf_length, hsites.accept]

/-! ### Transitions -/

section
variable (ha : ValidArgs a) (h1 : StateInv a s1) (h2 : StateInv a s2) (ht : t < a.num_trees)
  (hg : Grown a.p_nonterminal.length (vaOf s1 t) (spOf s1 t) (vaOf s2 t) (spOf s2 t) i)
include ha h1 h2 ht hg

theorem step_grow_iff (r : Rng K ℝ) (hr : LawfulRng r) (key : K) :
    SameTree (vaOf s2 t) (spOf s2 t) (vaOf (step r s1 key) t) (spOf (step r s1 key) t) ↔
      IsGrow s2 t i (moveOf r s1 (KeyLike.split (KeyLike.split key 2 1) 2 1) t) ∧
      (accOf r s1 (KeyLike.split key 2 1) t).2.acc = true := by
  have hT1 := h1.tree t ht
  have hT2 := h2.tree t ht
  have hok := moveOf_ok ha h1 r hr (KeyLike.split (KeyLike.split key 2 1) 2 1) ht
  obtain ⟨_, _, e3, e4⟩ := leaf_step h1 r key ht
  have hal := accOf_allowed r s1 (KeyLike.split key 2 1) t
  unfold SameTree
  rw [show vaOf (step r s1 key) t = _ from e3, show spOf (step r s1 key) t = _ from e4,
    accOf_to_prune, split_final (cfgOf_ok ha) hok]
  have htree := isGrow_tree ha h1 h2 ht hg r hr (KeyLike.split key 2 1)
    (mv := moveOf r s1 (KeyLike.split (KeyLike.split key 2 1) 2 1) t) rfl
  generalize moveOf r s1 (KeyLike.split (KeyLike.split key 2 1) 2 1) t = mv at hok hal htree
  generalize (accOf r s1 (KeyLike.split key 2 1) t).2.acc = acc at hal
  constructor
  · rintro ⟨es, ev⟩
    have hne := hg.decision.2
    rw [← es] at hne
    cases acc with
    | false => rw [if_neg (by simp)] at hne; exact absurd hg.leaf.2 hne
    | true =>
      rw [if_pos rfl] at hne es
      cases hgr : mv.grow with
      | false =>
        rw [hgr, if_neg (by simp), at0_prune hT1.valid (hok.prune_node hgr (hal rfl))] at hne
        split_ifs at hne
        · exact absurd rfl hne
        · exact absurd hg.leaf.2 hne
      | true =>
        have hgl := hok.grow_leaf hgr
        rw [hgr, if_pos rfl, at0_grow hT1.valid hgl.2.1] at hne
        rw [hgr, if_pos rfl] at es
        have hnode : mv.node = i := by
          by_contra hc
          rw [if_neg hc] at hne
          exact hne hg.leaf.2
        have hspl : mv.grow_split = at0 (spOf s2 t) i := by
          rw [← es, at0_grow hT1.valid hgl.2.1, if_pos hnode]
        refine ⟨⟨hgr, hnode, ?_, hspl⟩, rfl⟩
        have := ev i hg.decision
        rw [hok.grow_tree hgr, at0_setDrop, if_pos ⟨hnode, by rw [hT1.var_len]; exact hg.not_bottom⟩]
          at this
        exact this
  · rintro ⟨hm, rfl⟩
    rw [if_pos rfl, if_pos hm.1]
    exact htree hm

theorem step_prune_iff (r : Rng K ℝ) (hr : LawfulRng r) (key : K) :
    SameTree (vaOf s1 t) (spOf s1 t) (vaOf (step r s2 key) t) (spOf (step r s2 key) t) ↔
      ((moveOf r s2 (KeyLike.split (KeyLike.split key 2 1) 2 1) t).grow = false ∧
        (moveOf r s2 (KeyLike.split (KeyLike.split key 2 1) 2 1) t).node = i) ∧
      (accOf r s2 (KeyLike.split key 2 1) t).2.acc = true := by
  have hT1 := h1.tree t ht
  have hT2 := h2.tree t ht
  have hok := moveOf_ok ha h2 r hr (KeyLike.split (KeyLike.split key 2 1) 2 1) ht
  obtain ⟨_, _, e3, e4⟩ := leaf_step h2 r key ht
  have hal := accOf_allowed r s2 (KeyLike.split key 2 1) t
  unfold SameTree
  rw [show vaOf (step r s2 key) t = _ from e3, show spOf (step r s2 key) t = _ from e4,
    accOf_to_prune, split_final (cfgOf_ok ha) hok]
  generalize moveOf r s2 (KeyLike.split (KeyLike.split key 2 1) 2 1) t = mv at hok hal
  generalize (accOf r s2 (KeyLike.split key 2 1) t).2.acc = acc at hal
  constructor
  · rintro ⟨es, ev⟩
    have hz := hg.leaf.2
    rw [← es] at hz
    cases acc with
    | false => rw [if_neg (by simp)] at hz; exact absurd hz hg.decision.2
    | true =>
      rw [if_pos rfl] at hz es
      cases hgr : mv.grow with
      | false =>
        rw [hgr, if_neg (by simp), at0_prune hT2.valid (hok.prune_node hgr (hal rfl))] at hz
        by_cases hc : mv.node = i
        · exact ⟨⟨rfl, hc⟩, rfl⟩
        · rw [if_neg hc] at hz; exact absurd hz hg.decision.2
      | true =>
        have hgl := hok.grow_leaf hgr
        rw [hgr, if_pos rfl, at0_grow hT2.valid hgl.2.1] at hz
        split_ifs at hz with hc
        · exact absurd hgl.1.2 (hc ▸ hg.decision.2)
        · exact absurd hz hg.decision.2
  · rintro ⟨⟨hgr, hnode⟩, rfl⟩
    rw [if_pos rfl, if_neg (by simp [hgr]), hnode]
    refine ⟨(hg.split1 hT1.valid hT2.valid).symm, fun j hj => ?_⟩
    rw [hok.agree ((hg.isDecision hT1.valid hT2.valid j).2 (Or.inl hj)), hg.same_var j hj]

omit h1 in
theorem prune_counts (r : Rng K ℝ) (hr : LawfulRng r) (k : K) {mv : Move ℝ}
    (hmv : mv = moveOf r s2 (KeyLike.split k 2 1) t) (hgr : mv.grow = false) (hnode : mv.node = i) :
    (workOf r s2 k t).counts.left = (s2.leaf_indices.getD t []).count (2 * i) ∧
    (workOf r s2 k t).counts.right = (s2.leaf_indices.getD t []).count (2 * i + 1) := by
  have hT2 := h2.tree t ht
  have hok := moveOf_ok ha h2 r hr (KeyLike.split k 2 1) ht
  rw [← hmv] at hok
  have hcw := counts_work ha h2 r hr k ht (by rw [← hmv, hnode]; exact hg.not_bottom)
  rw [← hmv, hnode] at hcw
  have key : ∀ x, (gidx r s2 k t).count x = (s2.leaf_indices.getD t []).count x := by
    intro x
    apply count_congr
    · rw [length_gidx ha h2 r k ht, hT2.idx_len]; rfl
    · intro j hj
      rw [length_gidx ha h2 r k ht] at hj
      have hj' : j < a.y.length := hj
      rw [gidx_iff ha h2 r hr k ht (by rw [← hmv, hgr]; simp) hj', idx_iff ha h2 ht hj', ← hmv, bigSplit, if_neg (by simp [hgr]),
        fallsInto_congr (fun j hj => hok.agree hj)]
  rw [hcw.1, hcw.2.1, key, key]
  exact ⟨rfl, rfl⟩

/-! ### Probabilities of the proposals -/

section
variable (hf : FillOK a) (hms1 : CutsOK a s1 t) (hms : CutsOK a s2 t)
  (hv : at0 (vaOf s2 t) i < a.max_split.length)
  (hsites : TreeSites a.num_trees t key rng) (hrng : ∀ w ∈ unitCube, LawfulRng (rng w))
include hf hms1 hsites hrng

theorem isGrow_iff {w : Fin 6 → ℝ} (hw : w ∈ unitCube) :
    IsGrow s2 t i (mvOf rng s1 key t w) ↔ w 0 < pGrow s1 t ∧ leafPick s1 t (w 2) = i ∧
      varPick s1 t i (w 3) = at0 (vaOf s2 t) i ∧
      splitPick s1 t i (at0 (vaOf s2 t) i) (w 4) = at0 (spOf s2 t) i := by
  have hgi := grown_growable ha h1 h2 ht hg
  have hn : nGrow s1 t ≠ 0 := (nGrow_pos_iff ha h1 ht).2 ⟨i, hgi⟩
  unfold IsGrow
  constructor
  · rintro ⟨e1, e2, e3, e4⟩
    rw [mv_grow_split ha h1 ht hsites hrng hw e1, e3, e2] at e4
    rw [mv_grow_var ha h1 ht hf hms1 hsites hrng hw e1, e2] at e3
    rw [mv_grow_node ha h1 ht hsites w e1 hn] at e2
    exact ⟨(mv_grow_iff ha h1 ht hsites w).1 e1, e2, e3, e4⟩
  · rintro ⟨e1, e2, e3, e4⟩
    have e1' := (mv_grow_iff ha h1 ht hsites w).2 e1
    have hnode := mv_grow_node ha h1 ht hsites w e1' hn
    have hvar := mv_grow_var ha h1 ht hf hms1 hsites hrng hw e1'
    have hspl := mv_grow_split ha h1 ht hsites hrng hw e1'
    rw [hnode, e2, e3] at hvar
    rw [hnode, e2, hvar, e4] at hspl
    exact ⟨e1', hnode.trans e2, hvar, hspl⟩

omit hf hms1 hrng in
theorem isPrune_iff (w : Fin 6 → ℝ) :
    ((mvOf rng s2 key t w).grow = false ∧ (mvOf rng s2 key t w).node = i) ↔
      ¬ w 0 < pGrow s2 t ∧ prunePick s2 t (w 5) = i := by
  have hroot := root2 (cfgOf_ok ha) (h1.tree t ht) (h2.tree t ht) hg
  have e : (mvOf rng s2 key t w).grow = false ↔ ¬ w 0 < pGrow s2 t := by
    rw [← mv_grow_iff ha h2 ht hsites w]; simp
  rw [e]
  refine and_congr_right fun hn => ?_
  rw [mv_prune_node ha h2 ht hsites w (e.2 hn) hroot]

include hms hv

/-- probability of an event in which the growth is proposed and `w 1` belongs to a set -/
theorem prob_grow_event {S1 : Set ℝ} (hS1 : S1 ⊆ Set.Ico 0 1) {P : (Fin 6 → ℝ) → Prop}
    (hP : ∀ w ∈ unitCube, P w ↔ IsGrow s2 t i (mvOf rng s1 key t w) ∧ w 1 ∈ S1) :
    prob P = pGrow s1 t * len S1 * (s1.p_propose_grow.getD i 0 / (growW s1 t).sum) *
      (1 / ((availVars s1.split_bits s1.max_split (vaOf s1 t) (spOf s1 t) i).ncard : ℝ)) *
      (1 / ((availSplits s1.max_split (vaOf s1 t) (spOf s1 t) i (at0 (vaOf s2 t) i)).ncard : ℝ)) := by
  have hT1 := h1.tree t ht
  have hT2 := h2.tree t ht
  have hgi := grown_growable ha h1 h2 ht hg
  obtain ⟨m1, m2⟩ := rule_avail ha h2 ht hms hg.decision hv
  have hmse : s2.max_split = s1.max_split := by rw [h1.cfg.max_split, h2.cfg.max_split]
  rw [show s2.split_bits = s1.split_bits by rw [h1.cfg.split_bits, h2.cfg.split_bits], hmse,
    hg.availVars hT1.valid hT2.valid _ _ hg.leaf.1] at m1
  rw [hmse, hg.availSplits hT1.valid hT2.valid _ hg.leaf.1] at m2
  have hbox := prob_box (P := P)
    (S := ![{x | x ∈ Set.Ico (0 : ℝ) 1 ∧ x < pGrow s1 t}, S1,
      {x | x ∈ Set.Ico (0 : ℝ) 1 ∧ leafPick s1 t x = i},
      {x | x ∈ Set.Ico (0 : ℝ) 1 ∧ varPick s1 t i x = at0 (vaOf s2 t) i},
      {x | x ∈ Set.Ico (0 : ℝ) 1 ∧
        splitPick s1 t i (at0 (vaOf s2 t) i) x = at0 (spOf s2 t) i}, Set.Ico 0 1])
    (by
      intro k
      fin_cases k
      · exact fun x hx => hx.1
      · exact hS1
      · exact fun x hx => hx.1
      · exact fun x hx => hx.1
      · exact fun x hx => hx.1
      · exact subset_rfl)
    (by
      intro w hw
      rw [hP w hw, isGrow_iff ha h1 h2 ht hg hf hms1 hsites hrng hw]
      have hw' : ∀ k, w k ∈ Set.Ico (0 : ℝ) 1 := fun k => hw k (Set.mem_univ k)
      constructor
      · rintro ⟨⟨e1, e2, e3, e4⟩, e5⟩ k
        fin_cases k
        · exact ⟨hw' 0, e1⟩
        · exact e5
        · exact ⟨hw' 2, e2⟩
        · exact ⟨hw' 3, e3⟩
        · exact ⟨hw' 4, e4⟩
        · exact hw' 5
      · intro hk
        exact ⟨⟨(hk 0).2, (hk 2).2, (hk 3).2, (hk 4).2⟩, hk 1⟩)
  rw [hbox]
  show len {x | x ∈ Set.Ico (0 : ℝ) 1 ∧ x < pGrow s1 t} * len S1 *
    len {x | x ∈ Set.Ico (0 : ℝ) 1 ∧ leafPick s1 t x = i} *
    len {x | x ∈ Set.Ico (0 : ℝ) 1 ∧ varPick s1 t i x = at0 (vaOf s2 t) i} *
    len {x | x ∈ Set.Ico (0 : ℝ) 1 ∧
        splitPick s1 t i (at0 (vaOf s2 t) i) x = at0 (spOf s2 t) i} * len (Set.Ico 0 1) = _
  rw [len_lt_pGrow, len_leafPick ha h1 ht hgi, len_varPick ha h1 ht hf hms1 hg.leaf hg.not_bottom m1,
    len_splitPick ha h1 ht hg.leaf.1.pos hg.not_bottom m2, len_unit, mul_one]

omit hf hms1 hms hrng hv in
theorem prob_prune_event {S1 : Set ℝ} (hS1 : S1 ⊆ Set.Ico 0 1) {P : (Fin 6 → ℝ) → Prop}
    (hP : ∀ w ∈ unitCube, P w ↔ ((mvOf rng s2 key t w).grow = false ∧
      (mvOf rng s2 key t w).node = i) ∧ w 1 ∈ S1) :
    prob P = (1 - pGrow s2 t) * len S1 * (1 / (nPrune s2 t : ℝ)) := by
  have hT1 := h1.tree t ht
  have hT2 := h2.tree t ht
  have hbox := prob_box (P := P)
    (S := ![{x | x ∈ Set.Ico (0 : ℝ) 1 ∧ ¬ x < pGrow s2 t}, S1, Set.Ico 0 1, Set.Ico 0 1,
      Set.Ico 0 1, {x | x ∈ Set.Ico (0 : ℝ) 1 ∧ prunePick s2 t x = i}])
    (by
      intro k
      fin_cases k
      · exact fun x hx => hx.1
      · exact hS1
      · exact subset_rfl
      · exact subset_rfl
      · exact subset_rfl
      · exact fun x hx => hx.1)
    (by
      intro w hw
      rw [hP w hw, isPrune_iff ha h1 h2 ht hg hsites w]
      have hw' : ∀ k, w k ∈ Set.Ico (0 : ℝ) 1 := fun k => hw k (Set.mem_univ k)
      constructor
      · rintro ⟨⟨e1, e2⟩, e5⟩ k
        fin_cases k
        · exact ⟨hw' 0, e1⟩
        · exact e5
        · exact hw' 2
        · exact hw' 3
        · exact hw' 4
        · exact ⟨hw' 5, e2⟩
      · intro hk
        exact ⟨⟨(hk 0).2, (hk 5).2⟩, hk 1⟩)
  rw [hbox]
  show len {x | x ∈ Set.Ico (0 : ℝ) 1 ∧ ¬ x < pGrow s2 t} * len S1 * len (Set.Ico 0 1) *
    len (Set.Ico 0 1) * len (Set.Ico 0 1) *
    len {x | x ∈ Set.Ico (0 : ℝ) 1 ∧ prunePick s2 t x = i} = _
  rw [len_ge_pGrow, len_unit, len_prunePick ha h2 ht (hg.parent hT1.valid hT2.valid)]
  ring

end
end
end
end Bartz
