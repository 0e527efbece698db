import Verif.Lemmas.DrawError
import Verif.Lemmas.LeafForm
/-! # Rounding errors of the leaves drawn in a step -/

set_option autoImplicit false

namespace Bartz
open Jax Spec Jax.Binary32

theorem length_valuesAt (idx : List Nat) : ∀ (values : List Binary32) (k : Nat), values.length = idx.length →
    (valuesAt idx values k).length = idx.count k := by
  induction idx with
  | nil => intro values k _; simp [valuesAt]
  | cons i idx ih =>
    intro values k h
    cases values with
    | nil => simp at h
    | cons v vs =>
      rw [valuesAt_cons, List.length_append, ih vs k (by simpa using h), List.count_cons]
      by_cases h : i = k <;> simp [h, add_comm]

theorem sum_valuesAt (g : Binary32 → ℝ) (idx : List Nat) : ∀ (values : List Binary32) (k : Nat), values.length = idx.length →
    ((valuesAt idx values k).map g).sum = ∑ j ∈ Finset.range idx.length, if at0 idx j = k then g (values.getD j 0) else 0 := by
  induction idx with
  | nil => intro values k h; simp [valuesAt]
  | cons i idx ih =>
    intro values k h
    cases values with
    | nil => simp at h
    | cons v vs =>
      rw [List.length_cons, Finset.sum_range_succ', valuesAt_cons, List.map_append, List.sum_append, ih vs k (by simpa using h), add_comm]
      congr 1
      by_cases h : i = k <;> simp [h, at0]

theorem mem_valuesAt {idx : List Nat} {values : List Binary32} {k : Nat} {x : Binary32} (h : x ∈ valuesAt idx values k) : x ∈ values := by
  unfold valuesAt at h
  rw [List.mem_filterMap] at h
  obtain ⟨p, hp, h2⟩ := h
  split_ifs at h2
  obtain ⟨rfl⟩ := h2
  exact (List.of_mem_zip hp).2

/-- A leaf drawn with an approximate sum of residuals. -/
theorem draw_error {sigma2 : Binary32} {σ : ℝ} (hs : HasValue sigma2 σ) (hσ : 1 / 2 ^ 80 ≤ σ) (hσ' : σ ≤ 2 ^ 80)
    {c n : Nat} (hc : c ≤ 2 ^ 20) (hn : 1 ≤ n) (hn' : n ≤ 2 ^ 24) {R z : Binary32} {ρ' ρ ζ A : ℝ} (hR : HasValue R ρ') (hz : HasValue z ζ)
    (hA : |ρ| ≤ A) (hρ : |ρ' - ρ| ≤ (A + 1 / 2 ^ 125) * ((c + 3 : ℝ) / 2 ^ 23))
    (hmax : (A + 1 / 2 ^ 125) / (c + n * σ) ≤ 2 ^ 118) (hmax' : |ζ| ≤ 2 ^ 120) {factor scale : Binary32}
    (hf : factor = (1 / ((c : Binary32) / sigma2 + (n : Binary32))) / sigma2)
    (hsc : scale = Binary32.sqrt (1 / ((c : Binary32) / sigma2 + (n : Binary32)))) :
    ∀ y, y = R * factor + z * scale ∨ y = fma R factor (z * scale) ∨ y = fma z scale (R * factor) →
    ∃ r, HasValue y r ∧ |r - (ρ / (c + n * σ) + ζ / Real.sqrt (c / σ + n))| ≤
      ((A + 1 / 2 ^ 125) / (c + n * σ) + |ζ|) * ((c + 8 : ℝ) / 2 ^ 23) + 1 / 2 ^ 148 := by
  have hc24 : c ≤ 2 ^ 24 := by omega
  obtain ⟨h0, -, b2, -, b4⟩ := pow_bounds hσ hσ' hc24 hn hn'
  have hD : 0 < (c : ℝ) + n * σ := lt_of_lt_of_le (by positivity) b4
  have hc' : (c : ℝ) ≤ 2 ^ 20 := by exact_mod_cast hc
  have hc0 : (0 : ℝ) ≤ c := Nat.cast_nonneg c
  obtain ⟨D, eD⟩ : ∃ D : ℝ, D = c + n * σ := ⟨_, rfl⟩
  obtain ⟨B, eB⟩ : ∃ B : ℝ, B = A + 1 / 2 ^ 125 := ⟨_, rfl⟩
  have hAB : A ≤ B := by rw [eB]; have : (0 : ℝ) ≤ 1 / 2 ^ 125 := by positivity
                         linarith
  have hB0 : 0 ≤ B := ((abs_nonneg _).trans hA).trans hAB
  have hsq : 1 ≤ Real.sqrt (c / σ + n) := by
    rw [Real.one_le_sqrt]; exact b2
  have hζ : |ζ / Real.sqrt (c / σ + n)| ≤ |ζ| := by
    rw [abs_div, abs_of_nonneg (Real.sqrt_nonneg _)]
    exact div_le_self (abs_nonneg _) hsq
  rw [← eB] at hρ hmax ⊢
  rw [← eD] at hD hmax ⊢
  have hq : ((c : ℝ) + 3) / 2 ^ 23 ≤ 1 / 4 := by
    rw [div_le_iff₀ (by norm_num)]
    calc (c : ℝ) + 3 ≤ 2 ^ 20 + 3 := by linarith
      _ ≤ 1 / 4 * 2 ^ 23 := by norm_num
  have hρ1 : |ρ'| ≤ B * (5 / 4) := by
    have e : ρ' = ρ + (ρ' - ρ) := by ring
    rw [e]
    refine (abs_add_le _ _).trans ?_
    have := mul_le_mul_of_nonneg_left hq hB0
    linarith
  have hdiv : |ρ' / D| ≤ B / D * (5 / 4) := by
    rw [abs_div, abs_of_pos hD, div_mul_eq_mul_div]
    exact div_le_div_of_nonneg_right hρ1 hD.le
  intro y hy
  obtain ⟨r, h1, h2⟩ := leaf_error hs hσ hσ' hc24 hn hn' hR hz (by
      rw [← eD]
      refine hdiv.trans ?_
      calc B / D * (5 / 4) ≤ 2 ^ 118 * (5 / 4) := mul_le_mul_of_nonneg_right hmax (by norm_num)
        _ ≤ 2 ^ 120 := by norm_num) (hζ.trans hmax') hf hsc y hy
  rw [← eD] at h2
  refine ⟨r, h1, ?_⟩
  obtain ⟨e, he⟩ : ∃ e : ℝ, e = ζ / Real.sqrt (c / σ + n) := ⟨_, rfl⟩
  rw [← he] at h2 hζ ⊢
  have e1 : r - (ρ / D + e) = (r - (ρ' / D + e)) + (ρ' - ρ) / D := by ring
  rw [e1]
  refine (abs_add_le _ _).trans ?_
  have e2 : |(ρ' - ρ) / D| ≤ B / D * ((c + 3) / 2 ^ 23) := by
    rw [abs_div, abs_of_pos hD, div_mul_eq_mul_div]
    exact div_le_div_of_nonneg_right hρ hD.le
  have hBD : 0 ≤ B / D := div_nonneg hB0 hD.le
  have e3 : (|ρ' / D| + |e|) / 2 ^ 21 ≤ (B / D * (5 / 4) + |ζ|) / 2 ^ 21 := div_le_div_of_nonneg_right (by linarith) (by norm_num)
  have e4 : (B / D + |ζ|) * ((c + 8) / 2 ^ 23) = B / D * ((c + 3) / 2 ^ 23) + (B / D * (5 / 4) + |ζ|) / 2 ^ 21 + |ζ| * ((c + 4) / 2 ^ 23) := by ring
  have e5 : 0 ≤ |ζ| * ((c + 4) / 2 ^ 23) := by positivity
  linarith

section
variable [Binary32.Platform] {a : InitArgs Binary32} {s : State Binary32} {K : Type} [KeyLike K]

omit [Binary32.Platform] in
theorem adapt_mem {F : Type} [Inhabited F] {L : List F} (hL : L ≠ []) (mv : Move F) {x : F} (h : x ∈ adapt_leaf_tree_to_grow_indices L mv) : x ∈ L := by
  unfold adapt_leaf_tree_to_grow_indices at h
  dsimp only at h
  have hg : gather L mv.node ∈ L := by
    have hl : 0 < L.length := List.length_pos_iff.2 hL
    unfold gather
    rw [List.getD_eq_getElem _ _ (by omega)]
    exact List.getElem_mem _
  unfold setDrop at h
  rcases List.mem_or_eq_of_mem_set h with h | rfl
  · rcases List.mem_or_eq_of_mem_set h with h | rfl
    · exact h
    · exact hg
  · exact hg

/-- the sum of residuals of a leaf of the tree modified as if the growth were accepted -/
theorem residTree_error (ha : ValidArgs a) (hs : StateInv a s) (rng : Rng K Binary32) (key : K) {t : Nat} (ht : t < a.num_trees)
    (hm : MoveOK (cfgOf a) (s.var_trees.getD t []) (s.split_trees.getD t [])
      (s.affluence_trees.map fun x => x.getD t []) (moveOf rng s (KeyLike.split key 2 1) t))
    (hN : a.y.length ≤ 2 ^ 20) {q o : Nat → ℝ} (hq : ∀ j < a.y.length, HasValue ((residOf rng s key t).getD j 0) (q j))
    (ho : ∀ j < a.y.length, HasValue (leafAt a s t j) (o j)) (hfin : ∀ x ∈ s.leaf_trees.getD t [], ∃ v, HasValue x v)
    {k : Nat} (hk : k < 2 ^ (a.p_nonterminal.length + 1)) (hne : k ≠ (moveOf rng s (KeyLike.split key 2 1) t).node)
    {G : Finset Nat} (hG : G = (Finset.range a.y.length).filter fun j => at0 (gidx rng s key t) j = k)
    (hmax : ∑ j ∈ G, (|q j| + |o j|) ≤ 2 ^ 120) :
    ∃ r, HasValue ((residTree rng s key t).getD k 0) r ∧
      |r - ∑ j ∈ G, (q j + o j)| ≤ (∑ j ∈ G, (|q j| + |o j|) + 1 / 2 ^ 126) * ((G.card + 2 : ℝ) / 2 ^ 23) := by
  have hc := cfgOf_ok ha
  have hT := hs.tree t ht
  have hgl := length_gidx ha hs rng key ht
  have hrl := length_resid hs ha rng key (t := t) (by omega)
  have hwl := length_work_leaf hs rng key ht
  have hcard : (gidx rng s key t).count k = G.card := by
    rw [count_eq_card, hgl, hG]
  -- value of the leaf
  obtain ⟨old, hold⟩ : ∃ v, HasValue ((workOf rng s key t).leaf_tree.getD k 0) v := by
    rw [List.getD_eq_getElem _ _ (by omega)]
    refine hfin _ (adapt_mem ?_ (moveOf rng s (KeyLike.split key 2 1) t) (List.getElem_mem (l := (workOf rng s key t).leaf_tree) (by omega)))
    intro h
    have := hs.leaf_size t ht
    rw [h] at this
    exact absurd this (Nat.two_pow_pos _).ne
  have holdj : ∀ j ∈ G, o j = old := by
    intro j hj
    rw [hG, Finset.mem_filter, Finset.mem_range] at hj
    have h1 := ho j hj.1
    rw [leafAt_train ha hs ht hj.1, ← adapt_getD hc hT hm (hs.leaf_size t ht) hj.1, ← workOf_idx hs] at h1
    rw [hj.2] at h1
    exact HasValue.unique h1 hold
  have hval := sum_valuesAt (g := Binary32.toReal) (gidx rng s key t) (residOf rng s key t) k (by omega)
  have habs := sum_valuesAt (g := fun x => |Binary32.toReal x|) (gidx rng s key t) (residOf rng s key t) k (by omega)
  have hqv : ∀ j < a.y.length, Binary32.toReal ((residOf rng s key t).getD j 0) = q j := fun j hj => (hasValue_iff.1 (hq j hj)).2
  have eval : ((valuesAt (gidx rng s key t) (residOf rng s key t) k).map Binary32.toReal).sum = ∑ j ∈ G, q j := by
    rw [hval, hgl, hG, Finset.sum_filter]
    refine Finset.sum_congr rfl fun j hj => ?_
    rw [hqv j (Finset.mem_range.1 hj)]
  have eabs : ((valuesAt (gidx rng s key t) (residOf rng s key t) k).map fun x => |Binary32.toReal x|).sum = ∑ j ∈ G, |q j| := by
    rw [habs, hgl, hG, Finset.sum_filter]
    refine Finset.sum_congr rfl fun j hj => ?_
    rw [hqv j (Finset.mem_range.1 hj)]
  have elen : (valuesAt (gidx rng s key t) (residOf rng s key t) k).length = G.card := by
    rw [length_valuesAt _ _ _ (by omega), hcard]
  have eo : ∑ j ∈ G, o j = G.card * old := by
    rw [Finset.sum_congr rfl holdj]; simp
  have eoa : ∑ j ∈ G, |o j| = G.card * |old| := by
    rw [Finset.sum_congr rfl fun j hj => by rw [holdj j hj]]; simp
  have hGl : G.card ≤ 2 ^ 20 := by
    refine le_trans ?_ hN
    rw [hG]
    exact (Finset.card_filter_le _ _).trans (by simp)
  rw [Finset.sum_add_distrib, eoa] at hmax
  rw [Finset.sum_add_distrib, Finset.sum_add_distrib, eo, eoa, residTree_getD_of hs rng key ht hm hk hne, hcard]
  have := resid_error (sums_sum_resid (residOf rng s key t) (gidx rng s key t) (2 ^ (a.p_nonterminal.length + 1)) s.resid_batch_size hk)
    (f := Binary32.toReal) (fun x hx => by
      have hx := mem_valuesAt hx
      obtain ⟨j, hj, rfl⟩ := List.mem_iff_getElem.1 hx
      have := hq j (by omega)
      rw [List.getD_eq_getElem _ _ hj] at this
      exact hasValue_iff.2 ⟨(hasValue_iff.1 this).1, rfl⟩) hold (by omega) (by rw [eabs, elen]; exact hmax) _ (Or.inl rfl)
  rw [eabs, eval, elen] at this
  exact this

/-- The leaves drawn in a step, given the residuals before the tree is updated. -/
theorem leaf_error_step (ha : ValidArgs a) (hs : StateInv a s) (rng : Rng K Binary32) (key : K) {t : Nat} (ht : t < a.num_trees)
    (hm : MoveOK (cfgOf a) (s.var_trees.getD t []) (s.split_trees.getD t [])
      (s.affluence_trees.map fun x => x.getD t []) (moveOf rng s (KeyLike.split key 2 1) t))
    (hN : a.y.length ≤ 2 ^ 20) (hn' : a.num_trees ≤ 2 ^ 24)
    {q o : Nat → ℝ} (hq : ∀ j < a.y.length, HasValue ((residOf rng s key t).getD j 0) (q j))
    (ho : ∀ j < a.y.length, HasValue (leafAt a s t j) (o j)) (hfin : ∀ x ∈ s.leaf_trees.getD t [], ∃ v, HasValue x v)
    {σ : ℝ} (hsv : HasValue s.sigma2 σ) (hσ : 1 / 2 ^ 80 ≤ σ) (hσ' : σ ≤ 2 ^ 80) {i : Nat}
    (hi : IsLeaf (apply_moves_to_split_tree (cfgOf a).split_bits (s.split_trees.getD t [])
      (moveOf rng s (KeyLike.split key 2 1) t) (accOf rng s key t).2.to_prune) i)
    {ζ : ℝ} (hz : HasValue ((rng (KeyLike.split key 2 0)).normal t i) ζ) (hζ : |ζ| ≤ 2 ^ 120)
    {G : Finset Nat} (hG : G = (Finset.range a.y.length).filter fun j => at0 (idxOf rng s key t) j = i)
    (hmax : ∑ j ∈ G, (|q j| + |o j|) ≤ 2 ^ 120)
    (hmax' : (∑ j ∈ G, (|q j| + |o j|) + 1 / 2 ^ 125) / (G.card + a.num_trees * σ) ≤ 2 ^ 118) :
    ∃ r, HasValue ((accOf rng s key t).2.leaf_tree.getD i 0) r ∧
      |r - ((∑ j ∈ G, (q j + o j)) / (G.card + a.num_trees * σ) + ζ / Real.sqrt (G.card / σ + a.num_trees))| ≤
        ((∑ j ∈ G, (|q j| + |o j|) + 1 / 2 ^ 125) / (G.card + a.num_trees * σ) + |ζ|) * ((G.card + 8 : ℝ) / 2 ^ 23) + 1 / 2 ^ 148 := by
  have hT := hs.tree t ht
  have hil : i < 2 ^ (a.p_nonterminal.length + 1) := by
    have := (tree_step_of ha hs rng key ht hm).valid.length
    rw [hs.cfg.split_bits] at this
    exact hi.1.lt this
  have hp : 2 ^ (a.p_nonterminal.length + 1) = 2 * 2 ^ a.p_nonterminal.length := by
    rw [pow_succ]; omega
  have hidx := fun j (hj : j < a.y.length) => idxOf_eq_iff_of ha hs rng key ht hm hi hj
  have hGl : G.card ≤ 2 ^ 20 := by
    refine le_trans ?_ hN
    rw [hG]
    exact (Finset.card_filter_le _ _).trans (by simp)
  have hcast : (G.card : ℝ) ≤ 2 ^ 20 := by exact_mod_cast hGl
  have habs : |∑ j ∈ G, (q j + o j)| ≤ ∑ j ∈ G, (|q j| + |o j|) :=
    (Finset.abs_sum_le_sum_abs _ _).trans (Finset.sum_le_sum fun j _ => abs_add_le _ _)
  have hpos : 0 ≤ ∑ j ∈ G, (|q j| + |o j|) := Finset.sum_nonneg fun j _ => by positivity
  obtain ⟨R, eR⟩ : ∃ R : Binary32, R = if i = (moveOf rng s (KeyLike.split key 2 1) t).node then
        (residTree rng s key t).getD (2 * i) 0 + (residTree rng s key t).getD (2 * i + 1) 0
       else (residTree rng s key t).getD i 0 := ⟨_, rfl⟩
  have hRe : ∃ r, HasValue R r ∧ |r - ∑ j ∈ G, (q j + o j)| ≤
      (∑ j ∈ G, (|q j| + |o j|) + 1 / 2 ^ 125) * ((G.card + 3 : ℝ) / 2 ^ 23) := by
    by_cases e : i = (moveOf rng s (KeyLike.split key 2 1) t).node
    · rw [if_pos e] at eR
      have hpos1 : 1 ≤ i := hi.1.pos
      have hnl : i < 2 ^ a.p_nonterminal.length := by
        rw [e]
        cases hal' : (moveOf rng s (KeyLike.split key 2 1) t).allowed with
        | true => exact allowed_node_lt hT hm hal'
        | false =>
          exfalso
          have hg : (moveOf rng s (KeyLike.split key 2 1) t).grow = false := by
            cases hg : (moveOf rng s (KeyLike.split key 2 1) t).grow with
            | true => rw [hm.grow_allowed hg] at hal'; cases hal'
            | false => rfl
          have := (hm.none_node hg hal').1
          rw [← e] at this
          have h3 : 2 ^ (cfgOf a).h = 2 ^ a.p_nonterminal.length := rfl
          omega
      obtain ⟨U, hU⟩ : ∃ U, U = (Finset.range a.y.length).filter fun j => at0 (gidx rng s key t) j = 2 * i := ⟨_, rfl⟩
      obtain ⟨V, hV⟩ : ∃ V, V = (Finset.range a.y.length).filter fun j => at0 (gidx rng s key t) j = 2 * i + 1 := ⟨_, rfl⟩
      have hdisj : Disjoint U V := by
        rw [Finset.disjoint_left]
        intro j h3 h4
        rw [hU, Finset.mem_filter] at h3
        rw [hV, Finset.mem_filter] at h4
        omega
      have hun : G = U ∪ V := by
        rw [hG, hU, hV]
        ext j
        simp only [Finset.mem_union, Finset.mem_filter, Finset.mem_range]
        constructor
        · rintro ⟨h, h'⟩
          have := (hidx j h).1 h'
          rw [if_pos e] at this
          tauto
        · rintro (h | h)
          · exact ⟨h.1, (hidx j h.1).2 (by rw [if_pos e]; exact Or.inl h.2)⟩
          · exact ⟨h.1, (hidx j h.1).2 (by rw [if_pos e]; exact Or.inr h.2)⟩
      rw [hun, Finset.sum_union hdisj] at hmax hpos
      rw [hun, Finset.sum_union hdisj, Finset.sum_union hdisj, Finset.card_union_of_disjoint hdisj]
      have pL : 0 ≤ ∑ j ∈ U, (|q j| + |o j|) := Finset.sum_nonneg fun j _ => by positivity
      have pR : 0 ≤ ∑ j ∈ V, (|q j| + |o j|) := Finset.sum_nonneg fun j _ => by positivity
      obtain ⟨l, l1, l2⟩ := residTree_error ha hs rng key ht hm hN hq ho hfin (k := 2 * i) (by omega) (by omega) hU (by linarith)
      obtain ⟨r, r1, r2⟩ := residTree_error ha hs rng key ht hm hN hq ho hfin (k := 2 * i + 1) (by omega) (by omega) hV (by linarith)
      have hle : U.card + V.card ≤ 2 ^ 20 := by
        rw [← Finset.card_union_of_disjoint hdisj, ← hun]; exact hGl
      obtain ⟨x, x1, x2⟩ := resid_total_error l1 r1
        ((Finset.abs_sum_le_sum_abs _ _).trans (Finset.sum_le_sum fun j _ => abs_add_le _ _))
        ((Finset.abs_sum_le_sum_abs _ _).trans (Finset.sum_le_sum fun j _ => abs_add_le _ _)) l2 r2 (by omega) hmax
      refine ⟨x, by rw [eR]; exact x1, ?_⟩
      push_cast
      exact x2
    · rw [if_neg e] at eR
      have hG' : G = (Finset.range a.y.length).filter fun j => at0 (gidx rng s key t) j = i := by
        rw [hG]
        ext j
        simp only [Finset.mem_filter, Finset.mem_range]
        refine and_congr_right fun hj => ?_
        have := hidx j hj
        rwa [if_neg e] at this
      obtain ⟨r, r1, r2⟩ := residTree_error ha hs rng key ht hm hN hq ho hfin hil e hG' hmax
      refine ⟨r, by rw [eR]; exact r1, r2.trans ?_⟩
      have h25 : (1 : ℝ) / 2 ^ 126 ≤ 1 / 2 ^ 125 := by norm_num
      refine mul_le_mul (by linarith) (div_le_div_of_nonneg_right (by linarith) (by norm_num)) (by positivity) (by positivity)
  obtain ⟨ρ', h1, h2⟩ := hRe
  have hform := leavesOf_getD_of ha hs rng key ht hm hi
  dsimp only at hform
  rw [← hG, ← eR] at hform
  rw [hform]
  exact draw_error hsv hσ hσ' hGl (by omega) hn' h1 hz habs h2 hmax' hζ rfl rfl _ (Or.inl rfl)

end
end Bartz
