import Verif.Lemmas.Ratio
/-! # Probability of proposing and of accepting a move -/

set_option autoImplicit false

namespace Bartz
open Jax Spec

/-- ratio of the a priori probabilities of the shapes of the trees -/
noncomputable def shapeRatio (p : List ℝ) (i : Nat) : ℝ :=
  p.getD (Nat.log2 i) 0 * (1 - p.getD (Nat.log2 i + 1) 0) * (1 - p.getD (Nat.log2 i + 1) 0) /
    (1 - p.getD (Nat.log2 i) 0)

theorem combine_grow {g : GrowMove ℝ} {p : PruneMove ℝ} {u l : ℝ}
    (h : (combine_moves g p u l).grow = true) :
    (combine_moves g p u l).partial_ratio = g.partial_ratio ∧ (combine_moves g p u l).node = g.node :=
  ⟨if_pos h, if_pos h⟩

theorem combine_prune {g : GrowMove ℝ} {p : PruneMove ℝ} {u l : ℝ}
    (h : (combine_moves g p u l).grow = false) :
    (combine_moves g p u l).partial_ratio = p.partial_ratio ∧ (combine_moves g p u l).node = p.node := by
  have h' : ¬ (combine_moves g p u l).grow = true := by simp [h]
  exact ⟨if_neg h', if_neg h'⟩

section
variable {K : Type} [KeyLike K] {a : InitArgs ℝ} {s s1 s2 : State ℝ} {t i : Nat} {key : K}
  {rng : (Fin 6 → ℝ) → Rng K ℝ}

theorem partial_ratio_eq (ha : ValidArgs a) (hs : StateInv a s) (hi : i < 2 ^ a.p_nonterminal.length)
    (hpos : 1 ≤ i) (q : ℝ) (n : Nat) :
    compute_partial_ratio q n s.p_nonterminal i = shapeRatio a.p_nonterminal i /
      ((if i ≠ 1 then 1 / 2 else 1) * q * n) := by
  have hp : s.p_nonterminal = a.p_nonterminal ++ [0] := by rw [hs.cfg.p_nonterminal]; rfl
  have hlog : Nat.log2 i < a.p_nonterminal.length := (Nat.log2_lt (by omega)).2 hi
  have hd : gather (tree_depths (2 ^ (s.p_nonterminal.length - 1))) i = Nat.log2 i := by
    have e : 2 ^ (s.p_nonterminal.length - 1) = 2 ^ a.p_nonterminal.length := by rw [hp]; simp
    rw [e, gather_eq_getD (by rw [length_tree_depths]; exact hi) 0, tree_depths_getD hi]
  have hg : ∀ d, d ≤ a.p_nonterminal.length → gather s.p_nonterminal d = a.p_nonterminal.getD d 0 := by
    intro d hd
    rw [hp, gather_eq_getD (by simp; omega) 0]
    rcases Nat.lt_or_ge d a.p_nonterminal.length with h | h
    · rw [List.getD_append _ _ _ _ h]
    · have : d = a.p_nonterminal.length := by omega
      subst this
      rw [List.getD_append_right _ _ _ _ (le_refl _), List.getD_eq_default _ _ (le_refl _)]
      simp
  unfold compute_partial_ratio shapeRatio
  dsimp only
  rw [hd, hg _ hlog.le, hg _ (by omega)]
  have e2 : (if decide (i ≠ 1) = true then (half : ℝ) else 1) = if i ≠ 1 then 1 / 2 else 1 := by
    unfold half; by_cases e : i = 1 <;> simp [e]
  rw [e2]
  ring

section
variable (ha : ValidArgs a) (h1 : StateInv a s1) (h2 : StateInv a s2) (ht : t < a.num_trees)
  (hg : Grown a.p_nonterminal.length (vaOf s1 t) (spOf s1 t) (vaOf s2 t) (spOf s2 t) i)
include ha h1 h2 ht hg

theorem grown_growable : Growable a.p_nonterminal.length (spOf s1 t) (affOf s1 t) i :=
  growable_node (cfgOf_ok ha) (h1.tree t ht) (h2.tree t ht) hg

theorem pGrow1 : pGrow s1 t = if i ≠ 1 then 1 / 2 else 1 := by
  have hn : nGrow s1 t ≠ 0 := (nGrow_pos_iff ha h1 ht).2 ⟨i, grown_growable ha h1 h2 ht hg⟩
  have hr := root1 (cfgOf_ok ha) (h1.tree t ht) (h2.tree t ht) hg
  unfold pGrow
  rw [if_pos hn]
  by_cases e : i = 1
  · rw [if_neg (fun h => hr.1 h e), if_neg (by simp [e])]
  · rw [if_pos (hr.2 e), if_pos e]

theorem pGrow2 : 1 - pGrow s2 t = if nGrow s2 t ≠ 0 then 1 / 2 else 1 := by
  have hr := root2 (cfgOf_ok ha) (h1.tree t ht) (h2.tree t ht) hg
  unfold pGrow
  rw [if_pos hr]
  split_ifs <;> norm_num

theorem nPrune2_pos : (0 : ℝ) < nPrune s2 t := by
  have hT := h2.tree t ht
  have h07 := (C07_prunable (spOf s2 t) _ ha.depth_pos ha.depth_lt hT.valid).2
  rw [gather_at0 (by rw [hT.valid.length]; exact two_le_pow ha.depth_pos)] at h07
  have hr := root2 (cfgOf_ok ha) (h1.tree t ht) hT hg
  have : nPrune s2 t ≠ 0 := h07.1 (bne_iff_ne.2 hr)
  exact_mod_cast Nat.pos_of_ne_zero this

/-- ratio of transition and prior probabilities, excluding the choice of the decision rule, that
cancels -/
noncomputable def transPrior (a : InitArgs ℝ) (s1 s2 : State ℝ) (t i : Nat) : ℝ :=
  shapeRatio a.p_nonterminal i /
    (pGrow s1 t * (s1.p_propose_grow.getD i 0 / (growW s1 t).sum) * nPrune s2 t) * (1 - pGrow s2 t)

omit ha h1 h2 ht hg in
theorem sample_cat_norm (ha : ValidArgs a) (hs : StateInv a s) (ht : t < a.num_trees)
    (draw : Draws ℝ) : (categorical draw (growW s t)).2 = (growW s t).sum := by
  have hne : growW s t ≠ [] := by
    intro h0
    have := growW_length ha hs ht
    rw [h0] at this
    have h2 := Nat.two_pow_pos a.p_nonterminal.length
    rw [List.length_nil] at this
    omega
  exact ((C26_categorical _ hne (growW_nonneg ha hs ht)).1 draw).2

/-- the move grows the tree into the second one -/
def IsGrow (s2 : State ℝ) (t i : Nat) (mv : Move ℝ) : Prop :=
  mv.grow = true ∧ mv.node = i ∧ mv.grow_var = at0 (vaOf s2 t) i ∧ mv.grow_split = at0 (spOf s2 t) i

section
variable (r : Rng K ℝ) (hr : LawfulRng r) (k : K)
include hr

/-- the new tree -/
theorem isGrow_tree {mv : Move ℝ} (hmv : mv = moveOf r s1 (KeyLike.split k 2 1) t)
    (hm : IsGrow s2 t i mv) :
    setDrop (spOf s1 t) mv.node mv.grow_split = spOf s2 t ∧
    ∀ j, IsDecision (spOf s2 t) j → at0 mv.var_tree j = at0 (vaOf s2 t) j := by
  have hT1 := h1.tree t ht
  have hT2 := h2.tree t ht
  have hok := moveOf_ok ha h1 r hr (KeyLike.split k 2 1) ht
  rw [← hmv] at hok
  obtain ⟨e1, e2, e3, e4⟩ := hm
  refine ⟨by rw [e2, e4]; exact (hg.split2 hT1.valid hT2.valid).symm, fun j hj => ?_⟩
  rw [hok.grow_tree e1, at0_setDrop, hT1.var_len]
  rcases (hg.isDecision hT1.valid hT2.valid j).1 hj with hd | e
  · rw [if_neg (fun h' => ?_)]
    · exact (hg.same_var j hd).symm
    · apply hd.2; rw [← h'.1, e2]; exact hg.leaf.2
  · rw [if_pos ⟨by rw [e2, e], by rw [e]; exact hg.not_bottom⟩, e3, e]

theorem isGrow_counts {mv : Move ℝ} (hmv : mv = moveOf r s1 (KeyLike.split k 2 1) t)
    (hm : IsGrow s2 t i mv) :
    (workOf r s1 k t).counts.left = (s2.leaf_indices.getD t []).count (2 * i) ∧
    (workOf r s1 k t).counts.right = (s2.leaf_indices.getD t []).count (2 * i + 1) := by
  have hT1 := h1.tree t ht
  have hT2 := h2.tree t ht
  obtain ⟨e1, e2⟩ := isGrow_tree ha h1 h2 ht hg r hr k hmv hm
  have hcw := counts_work ha h1 r hr k ht (by rw [← hmv, hm.2.1]; exact hg.not_bottom)
  rw [← hmv, hm.2.1] at hcw
  have hpos : (moveOf r s1 (KeyLike.split k 2 1) t).grow = true →
      1 ≤ (moveOf r s1 (KeyLike.split k 2 1) t).grow_split := by
    intro _
    rw [← hmv, hm.2.2.2]
    exact Nat.pos_of_ne_zero ((hg.isDecision hT1.valid hT2.valid i).2 (Or.inr rfl)).2
  have key : ∀ x, (gidx r s1 k t).count x = (s2.leaf_indices.getD t []).count x := by
    intro x
    apply count_congr
    · rw [length_gidx ha h1 r k ht, hT2.idx_len]; rfl
    · intro j hj
      rw [length_gidx ha h1 r k ht] at hj
      have hj' : j < a.y.length := hj
      rw [gidx_iff ha h1 r hr k ht hpos hj', idx_iff ha h2 ht hj', ← hmv, bigSplit, if_pos hm.1, e1,
        fallsInto_congr e2, h1.cfg.X, h2.cfg.X]
  rw [hcw.1, hcw.2.1, key, key]
  exact ⟨rfl, rfl⟩

theorem grow_log_trans {mv : Move ℝ} (hmv : mv = moveOf r s1 (KeyLike.split k 2 1) t)
    (hm : IsGrow s2 t i mv) :
    (workOf r s1 k t).log_trans_prior_ratio = Real.log (transPrior a s1 s2 t i) := by
  have hT1 := h1.tree t ht
  have hT2 := h2.tree t ht
  have hc := cfgOf_ok ha
  have hok := moveOf_ok ha h1 r hr (KeyLike.split k 2 1) ht
  obtain ⟨hcl, hcr⟩ := isGrow_counts ha h1 h2 ht hg r hr k hmv hm
  have hgi := grown_growable ha h1 h2 ht hg
  have hn : nGrow s1 t ≠ 0 := (nGrow_pos_iff ha h1 ht).2 ⟨i, hgi⟩
  have e : (workOf r s1 k t).log_trans_prior_ratio = Real.log (mv.partial_ratio *
      compute_p_prune mv (workOf r s1 k t).counts.left (workOf r s1 k t).counts.right
        s1.min_points_per_leaf) := by rw [hmv]; rfl
  have e1 : mv.partial_ratio = compute_partial_ratio
      (gather (growW s1 t) mv.node / (growW s1 t).sum)
      (countNonzero (is_leaves_parent (setDrop (spOf s1 t) mv.node 1))) s1.p_nonterminal mv.node := by
    have hgr : (moveOf r s1 (KeyLike.split k 2 1) t).grow = true := hmv ▸ hm.1
    obtain ⟨h0, h0'⟩ := combine_grow hgr
    rw [← sample_cat_norm ha h1 ht (r (KeyLike.split
      (KeyLike.split (KeyLike.split (KeyLike.split k 2 1) (1 + s1.leaf_trees.length) (1 + t)) 2 0) 3 0))]
    rw [hmv]
    unfold moveOf
    rw [h0, h0']
    rfl
  have hgrow : (if mv.grow then (if decide (countNonzero (growable_leaves (spOf s1 t) (affOf s1 t)) ≥ 2)
      || (match (cfgOf a).m with
        | none => decide (i < 2 ^ (cfgOf a).h / 2)
        | some m => decide (i < 2 ^ (cfgOf a).h / 2) &&
          (decide ((workOf r s1 k t).counts.left ≥ 2 * m) ||
            decide ((workOf r s1 k t).counts.right ≥ 2 * m))) then (half : ℝ) else 1) else
      if mv.num_growable ≠ 0 then half else 1) = 1 - pGrow s2 t := by
    rw [if_pos hm.1, pGrow2 ha h1 h2 ht hg]
    have := grow_again hc hT1 hT2 hg _ _ hcl hcr
    have key : ∀ (b : Bool) (N : Nat), (b = true ↔ N ≠ 0) →
        (if b = true then (half : ℝ) else 1) = if N ≠ 0 then 1 / 2 else 1 := by
      intro b N hbN
      unfold half
      by_cases hx : N = 0
      · rw [if_neg (fun h' => (hbN.1 h') hx), if_neg (by simp [hx])]
      · rw [if_pos (hbN.2 hx), if_pos hx]; norm_num
    exact key _ _ this
  have e2 : compute_p_prune mv (workOf r s1 k t).counts.left (workOf r s1 k t).counts.right
        s1.min_points_per_leaf = 1 - pGrow s2 t := by
    rw [← hgrow]
    have hnum : mv.num_growable = countNonzero (growable_leaves (spOf s1 t) (affOf s1 t)) := by
      rw [hmv]; exact hok.num_growable
    have hlen : mv.var_tree.length = 2 ^ (cfgOf a).h := by rw [hmv]; exact hok.len
    unfold compute_p_prune
    dsimp only
    rw [hnum, hlen, hm.2.1, h1.cfg.min_points_per_leaf]
    rfl
  rw [e, e1, e2, hm.2.1, partial_ratio_eq ha h1 hg.not_bottom hg.leaf.1.pos,
    prunable_grown hc hT1 hT2 hg, gather_eq_getD (by rw [growW_length ha h1 ht]; exact hg.not_bottom) 0,
    (growW_pos ha h1 ht hgi).1, ← pGrow1 ha h1 h2 ht hg]
  rfl

theorem prune_log_trans {mv : Move ℝ} (hmv : mv = moveOf r s2 (KeyLike.split k 2 1) t)
    (hgr : mv.grow = false) (hnode : mv.node = i) :
    (workOf r s2 k t).log_trans_prior_ratio = Real.log (transPrior a s1 s2 t i) := by
  have hT1 := h1.tree t ht
  have hT2 := h2.tree t ht
  have hc := cfgOf_ok ha
  have hok := moveOf_ok ha h2 r hr (KeyLike.split k 2 1) ht
  have hgi := grown_growable ha h1 h2 ht hg
  have e : (workOf r s2 k t).log_trans_prior_ratio = Real.log (mv.partial_ratio *
      compute_p_prune mv (workOf r s2 k t).counts.left (workOf r s2 k t).counts.right
        s2.min_points_per_leaf) := by rw [hmv]; rfl
  have e1 : mv.partial_ratio = compute_partial_ratio
      (gather s2.p_propose_grow mv.node / sumWhere s2.p_propose_grow
        (growable_leaves (setDrop (spOf s2 t) mv.node 0)
          ((affOf s2 t).map fun x => setDrop x mv.node true)))
      (countNonzero (is_leaves_parent (spOf s2 t))) s2.p_nonterminal mv.node := by
    have hgr' : (moveOf r s2 (KeyLike.split k 2 1) t).grow = false := hmv ▸ hgr
    obtain ⟨h0, h0'⟩ := combine_prune hgr'
    rw [hmv]
    unfold moveOf
    rw [h0, h0']
    rfl
  have e2 : compute_p_prune mv (workOf r s2 k t).counts.left (workOf r s2 k t).counts.right
        s2.min_points_per_leaf = 1 - pGrow s2 t := by
    have hnum : mv.num_growable = nGrow s2 t := by
      rw [hmv]; exact hok.num_growable
    unfold compute_p_prune
    dsimp only
    rw [hnum, if_neg (by simp [hgr]), pGrow2 ha h1 h2 ht hg]
    unfold half
    split_ifs <;> norm_num
  have hppg : s2.p_propose_grow = s1.p_propose_grow := by
    rw [h1.cfg.p_propose_grow, h2.cfg.p_propose_grow]
  have hsum : sumWhere s2.p_propose_grow (growable_leaves (spOf s1 t) (affOf s1 t)) =
      (growW s1 t).sum := by
    unfold sumWhere growW
    rw [jaxSum_eq, hppg, List.zipWith_comm]
  rw [e, e1, e2, hnode, partial_ratio_eq ha h2 hg.not_bottom hg.leaf.1.pos,
    growable_pruned hc hT1 hT2 hg, hsum, hppg,
    gather_eq_getD (by rw [(ppg_real ha h1).1]; exact hg.not_bottom) 0, ← pGrow1 ha h1 h2 ht hg]
  rfl

end
end
end
end Bartz
