import Verif.Lemmas.Categorical32
import Verif.Props.Binary32
/-!
# Property C84: probability of choosing each leaf in single precision

In exact arithmetic `categorical` chooses each item with probability proportional to its weight (C26). In single precision
the cumulative sums are rounded, and the uniform variate takes a finite number of values, each rounded. Here
are bounds to the error on the probability, both if `jnp.cumsum` adds the terms from the left, and if it is implemented with
`lax.associative_scan`. In the second case an item with zero weight may be chosen, so the bound also says
how often the invariants of the MCMC may be broken as shown in C80.
-/

set_option autoImplicit false

namespace Bartz
open Jax Spec

open scoped Classical in
theorem card_mem_eq_sum {α : Type} [Fintype α] (f : α → Nat) (s : Finset Nat) :
    (Finset.univ.filter fun k => f k ∈ s).card = ∑ i ∈ s, (Finset.univ.filter fun k => f k = i).card := by
  have h0 : ∀ k ∈ Finset.univ.filter fun k => f k ∈ s, f k ∈ s := fun k hk => (Finset.mem_filter.1 hk).2
  rw [Finset.card_eq_sum_card_fiberwise h0]
  refine Finset.sum_congr rfl fun i hi => ?_
  congr 1
  ext k
  simp only [Finset.mem_filter, Finset.mem_univ, true_and]
  exact ⟨fun h => h.2, fun h => ⟨h ▸ hi, h⟩⟩

/-- the probability that the result is in a set is the sum of the probabilities of the results -/
theorem bitsProb_mem (f : Fin (2 ^ 23) → Nat) (s : Finset Nat) :
    bitsProb (fun k => f k ∈ s) = ∑ i ∈ s, bitsProb (fun k => f k = i) := by
  classical
  rw [Finset.sum_congr rfl fun i _ => bitsProb_eq (fun k => f k = i), bitsProb_eq, ← Finset.sum_div, ← Nat.cast_sum,
    card_mem_eq_sum]

theorem bitsProb_univ (p : Fin (2 ^ 23) → Prop) (h : ∀ k, p k) : bitsProb p = 1 := by
  classical
  rw [bitsProb_eq, Finset.filter_true_of_mem fun k _ => h k, Finset.card_univ, Fintype.card_fin]
  rw [Nat.cast_pow, Nat.cast_ofNat]
  exact div_self (by positivity)

theorem bitsProb_mono {p q : Fin (2 ^ 23) → Prop} (h : ∀ k, p k → q k) : bitsProb p ≤ bitsProb q := by
  classical
  rw [bitsProb_eq, bitsProb_eq]
  refine div_le_div_of_nonneg_right ?_ (by positivity)
  exact_mod_cast Finset.card_le_card fun k hk =>
    Finset.mem_filter.2 ⟨Finset.mem_univ _, h k (Finset.mem_filter.1 hk).2⟩

section
variable [Binary32.Platform] {draw : Fin (2 ^ 23) → Draws Binary32} {w : List Binary32} {ω : Nat → ℝ} {D : Nat}

/-- what holds for any cumulative sum with a bounded error -/
theorem categorical_prob (hdraw : UsesBits draw) (h0 : ∀ i, i < w.length → 0 ≤ ω i) (hc : CumsumOk w ω D) (hD : D ≤ 2 ^ 21)
    (hW1 : 1 / 2 ^ 125 ≤ ∑ j ∈ Finset.range w.length, ω j) (hW2 : ∑ j ∈ Finset.range w.length, ω j ≤ 2 ^ 126) :
    (∀ k, (categorical (draw k) w).1 < w.length) ∧ ∀ i, i < w.length →
      bitsProb (fun k => (categorical (draw k) w).1 = i) ≤ ω i / (∑ j ∈ Finset.range w.length, ω j) + (2 * D + 1) / 2 ^ 22 ∧
      ω i / (∑ j ∈ Finset.range w.length, ω j) - w.length * ((2 * D + 1) / 2 ^ 22) ≤
        bitsProb (fun k => (categorical (draw k) w).1 = i) := by
  have hn : 0 < w.length := by
    rcases Nat.eq_zero_or_pos w.length with h | h
    · exfalso
      rw [h, Finset.range_zero, Finset.sum_empty] at hW1
      have : (0 : ℝ) < 1 / 2 ^ 125 := by positivity
      linarith
    · exact h
  have hlt := fun k => categorical_lt hdraw hc hD hn hW1 hW2 k
  refine ⟨hlt, fun i hi => ?_⟩
  have hup := fun j (hj : j < w.length) => categorical_prob_le hdraw h0 hc hD hW1 hW2 hj
  refine ⟨hup i hi, ?_⟩
  have h1 := bitsProb_mem (fun k => (categorical (draw k) w).1) (Finset.range w.length)
  rw [bitsProb_univ _ fun k => Finset.mem_range.2 (hlt k), ← Finset.add_sum_erase _ _ (Finset.mem_range.2 hi)] at h1
  set W := ∑ j ∈ Finset.range w.length, ω j with hW
  have hW0 : 0 < W := lt_of_lt_of_le (by positivity) hW1
  have h2 : ∑ j ∈ (Finset.range w.length).erase i, bitsProb (fun k => (categorical (draw k) w).1 = j) ≤
      ∑ j ∈ (Finset.range w.length).erase i, (ω j / W + (2 * D + 1) / 2 ^ 22) :=
    Finset.sum_le_sum fun j hj => hup j (Finset.mem_range.1 (Finset.mem_of_mem_erase hj))
  rw [Finset.sum_add_distrib, Finset.sum_const, Finset.card_erase_of_mem (Finset.mem_range.2 hi), Finset.card_range,
    nsmul_eq_mul, ← Finset.sum_div] at h2
  have h3 : ω i + ∑ j ∈ (Finset.range w.length).erase i, ω j = W :=
    Finset.add_sum_erase _ _ (Finset.mem_range.2 hi)
  have h4 : (∑ j ∈ (Finset.range w.length).erase i, ω j) / W = 1 - ω i / W := by
    rw [eq_sub_iff_add_eq, ← add_div, add_comm, h3, div_self hW0.ne']
  have h5 : ((w.length - 1 : Nat) : ℝ) * ((2 * D + 1) / 2 ^ 22) ≤ w.length * ((2 * D + 1) / 2 ^ 22) := by
    refine mul_le_mul_of_nonneg_right ?_ (by positivity)
    exact_mod_cast Nat.sub_le _ _
  rw [h4] at h2
  linarith

omit [Binary32.Platform] in
theorem forall₂_near {w : List Binary32} {ω : Nat → ℝ} (hω : ∀ i (h : i < w.length), HasValue w[i] (ω i) ∧ 0 ≤ ω i) :
    List.Forall₂ (Binary32.Near 0) w ((List.range w.length).map ω) := by
  rw [List.forall₂_iff_get]
  refine ⟨by simp, fun i h1 h2 => ?_⟩
  simp only [List.get_eq_getElem, List.getElem_map, List.getElem_range]
  exact near_zero (hω i h1).1 (hω i h1).2

/-- **C84**, if `jnp.cumsum` adds the terms from the left: in single precision, `categorical` applied to `n` nonnegative weights with sum
`W` returns an index in the range, the probability of item `i` exceeds `w_i / W` by at most `(2 n + 1) / 2 ** 22`, and is lower than
that by at most `n` times as much. -/
theorem C84_left (hc : ∀ w, Binary32.Platform.cumsum w = cumsum w) (hdraw : UsesBits draw)
    (hω : ∀ i (h : i < w.length), HasValue w[i] (ω i) ∧ 0 ≤ ω i) (hn : w.length ≤ 2 ^ 21)
    (hW1 : 1 / 2 ^ 125 ≤ ∑ j ∈ Finset.range w.length, ω j) (hW2 : ∑ j ∈ Finset.range w.length, ω j ≤ 2 ^ 126) :
    (∀ k, (categorical (draw k) w).1 < w.length) ∧ ∀ i, i < w.length →
      bitsProb (fun k => (categorical (draw k) w).1 = i) ≤
        ω i / (∑ j ∈ Finset.range w.length, ω j) + (2 * w.length + 1) / 2 ^ 22 ∧
      ω i / (∑ j ∈ Finset.range w.length, ω j) - w.length * ((2 * w.length + 1) / 2 ^ 22) ≤
        bitsProb (fun k => (categorical (draw k) w).1 = i) := by
  have h1 := Binary32.near_cumsum (forall₂_near hω)
  rw [← hc] at h1
  exact categorical_prob hdraw (fun i h => (hω i h).2) (cumsumOk (fun i h => (hω i h).2) h1 hn hW2) hn hW1 hW2

/-- **C84**, if `jnp.cumsum` is implemented with `lax.associative_scan`, like on CPU: the error is lower because the
number of consecutive additions is logarithmic, but it may also affect the items with zero weight. -/
theorem C84_cpu (hc : ∀ w, Binary32.Platform.cumsum w = associativeScan w) (hdraw : UsesBits draw)
    (hω : ∀ i (h : i < w.length), HasValue w[i] (ω i) ∧ 0 ≤ ω i) (hn : Nat.log2 w.length ≤ 2 ^ 20)
    (hW1 : 1 / 2 ^ 125 ≤ ∑ j ∈ Finset.range w.length, ω j) (hW2 : ∑ j ∈ Finset.range w.length, ω j ≤ 2 ^ 126) :
    (∀ k, (categorical (draw k) w).1 < w.length) ∧ ∀ i, i < w.length →
      bitsProb (fun k => (categorical (draw k) w).1 = i) ≤
        ω i / (∑ j ∈ Finset.range w.length, ω j) + (4 * Nat.log2 w.length + 1) / 2 ^ 22 ∧
      ω i / (∑ j ∈ Finset.range w.length, ω j) - w.length * ((4 * Nat.log2 w.length + 1) / 2 ^ 22) ≤
        bitsProb (fun k => (categorical (draw k) w).1 = i) := by
  have h1 := Binary32.near_associativeScan (forall₂_near hω)
  rw [← hc] at h1
  have := categorical_prob hdraw (fun i h => (hω i h).2) (cumsumOk (fun i h => (hω i h).2) h1 (by omega) hW2) (by omega) hW1 hW2
  have e : 2 * ((2 * Nat.log2 w.length : Nat) : ℝ) + 1 = 4 * Nat.log2 w.length + 1 := by push_cast; ring
  rwa [e] at this

end

/-! ### The leaf to grow -/

section
variable {K : Type} [KeyLike K] [Binary32.Platform] {a : InitArgs Binary32} {s : State Binary32}

/-- the probability of growing a node at a given index, if it is growable -/
theorem ppg_mem (ha : ValidArgs a) {x : Binary32} (hx : x ∈ (init a).p_propose_grow) : x ∈ a.p_nonterminal := by
  have hlen := length_tree_depths (2 ^ a.p_nonterminal.length)
  have hl : (init a).p_propose_grow =
      (tree_depths (2 ^ a.p_nonterminal.length)).map fun d => gather (a.p_nonterminal ++ [0]) d := by
    simp [init]
  rw [hl, List.mem_map] at hx
  obtain ⟨d, hd, rfl⟩ := hx
  have hdlt : d < a.p_nonterminal.length := by
    obtain ⟨i, hi, rfl⟩ := List.getElem_of_mem hd
    rw [← List.getD_eq_getElem _ 0 hi, tree_depths_getD (by omega)]
    rcases Nat.eq_zero_or_pos i with h0 | h0
    · subst h0; have := ha.depth_pos; simp; omega
    · exact (Nat.log2_lt (by omega)).2 (by omega)
  rw [gather_of_lt (by simp; omega), List.getElem_append_left hdlt]
  exact List.getElem_mem _

open scoped Classical in
/-- the leaf chosen is in the tree, the probability of each exceeds the intended one by at most `(4 h + 1) / 2 ** 22`, and is lower
than it by at most `2 ** h` times as much -/
theorem choose_leaf_prob (hc : ∀ w, Binary32.Platform.cumsum w = associativeScan w) (ha : ValidArgs a) (hs : ReachablePicks K a s)
    {draw : Fin (2 ^ 23) → Draws Binary32} (hdraw : UsesBits draw) {t : Nat} (ht : t < a.num_trees)
    {q : Nat → ℝ} (hq : ∀ d (h : d < a.p_nonterminal.length), HasValue a.p_nonterminal[d] (q d) ∧ 1 / 2 ^ 125 ≤ q d)
    (hg : ∃ i, (growable_leaves (s.split_trees.getD t []) (s.affluence_trees.map fun x => x.getD t [])).getD i false = true) :
    let h := a.p_nonterminal.length
    let G := (Finset.range (2 ^ h)).filter fun i =>
      (growable_leaves (s.split_trees.getD t []) (s.affluence_trees.map fun x => x.getD t [])).getD i false = true
    let leaf := fun k => (choose_leaf (s.split_trees.getD t []) (s.affluence_trees.map fun x => x.getD t []) s.p_propose_grow
      (draw k)).leaf_to_grow
    (∀ k, leaf k < 2 ^ h) ∧ (∀ i ∈ G, 0 ≤ q (Nat.log2 i)) ∧ 0 < ∑ j ∈ G, q (Nat.log2 j) ∧ ∀ i, i < 2 ^ h →
      bitsProb (fun k => leaf k = i) ≤ (if i ∈ G then q (Nat.log2 i) / ∑ j ∈ G, q (Nat.log2 j) else 0) + (4 * h + 1) / 2 ^ 22 ∧
      (if i ∈ G then q (Nat.log2 i) / ∑ j ∈ G, q (Nat.log2 j) else 0) - 2 ^ h * ((4 * h + 1) / 2 ^ 22) ≤
        bitsProb (fun k => leaf k = i) := by
  intro h G leaf
  obtain ⟨π, hπ⟩ : ∃ π : Nat → ℝ, ∀ i, π i = q (Nat.log2 i) := ⟨_, fun _ => rfl⟩
  simp only [← hπ]
  have hinv := ReachablePicks.inv ha hs
  have hT := hinv.tree t ht
  set gl := growable_leaves (s.split_trees.getD t []) (s.affluence_trees.map fun x => x.getD t []) with hgl
  have hlg : gl.length = 2 ^ h := length_growable hT.valid.length hT.aff_len
  have hpl : s.p_propose_grow.length = 2 ^ h := by rw [hinv.cfg.p_propose_grow]; exact (ppg_ok ha).1
  set w := List.zipWith (fun g p => if g then p else (0 : Binary32)) gl s.p_propose_grow with hw
  have hwl : w.length = 2 ^ h := by rw [hw, List.length_zipWith, hlg, hpl, Nat.min_self]
  obtain ⟨g, hgt⟩ := hg
  have hglt : g < 2 ^ h := by
    by_contra hcon
    rw [List.getD_eq_default _ _ (by omega)] at hgt
    cases hgt
  have hne : countNonzero gl ≠ 0 := Nat.pos_iff_ne_zero.1 ((countNonzero_pos_iff _).2 ⟨g, by omega, hgt⟩)
  have hleaf : ∀ k, leaf k = (categorical (draw k) w).1 := by
    intro k
    show (choose_leaf _ _ _ _).leaf_to_grow = _
    simp only [choose_leaf]
    rw [if_pos hne]
  -- the values of the weights
  have hroot : ¬ gl.getD 0 false = true := by
    intro h0
    have := ((growable_iff hT.valid (cfgOf_ok ha).hh (cfgOf_ok ha).h64).1 h0).1.1.pos
    omega
  have hq1 : ∀ d (hd : d < a.p_nonterminal.length), q d ≤ 1 := by
    intro d hd
    have h1 := (ha.nonterminal_pos _ (List.getElem_mem hd)).2.2
    have h2 := toReal_le h1
    rw [(hasValue_iff.1 (hq d hd).1).2, Binary32.one_exact.2] at h2
    exact h2
  set ω : Nat → ℝ := fun i => if gl.getD i false = true then π i else 0 with hωdef
  have hdep : ∀ i, 1 ≤ i → i < 2 ^ h → Nat.log2 i < a.p_nonterminal.length := fun i h1 h2 => (Nat.log2_lt (by omega)).2 h2
  have hπ1 : ∀ i, gl.getD i false = true → i < 2 ^ h → 1 / 2 ^ 125 ≤ π i ∧ π i ≤ 1 := by
    intro i hi hlt
    have h1 : 1 ≤ i := by
      rcases Nat.eq_zero_or_pos i with h0 | h0
      · subst h0; exact absurd hi hroot
      · exact h0
    rw [hπ i]
    exact ⟨(hq _ (hdep i h1 hlt)).2, hq1 _ (hdep i h1 hlt)⟩
  have hω : ∀ i (hi : i < w.length), HasValue w[i] (ω i) ∧ 0 ≤ ω i := by
    intro i hi
    have hi' : i < 2 ^ h := by omega
    simp only [hw, List.getElem_zipWith, hωdef]
    rw [← List.getD_eq_getElem (l := gl) (d := false) (by omega)]
    cases hgi : gl.getD i false with
    | false => simpa using hasValue_zero
    | true =>
      have h1 : 1 ≤ i := by
        rcases Nat.eq_zero_or_pos i with h0 | h0
        · subst h0; exact absurd hgi hroot
        · exact h0
      simp only [if_true]
      refine ⟨?_, (le_of_lt (by positivity)).trans (hπ1 i hgi hi').1⟩
      rw [hπ i]
      have e : s.p_propose_grow[i]'(by omega) = a.p_nonterminal[Nat.log2 i]'(hdep i h1 hi') := by
        have hpp : s.p_propose_grow = (tree_depths (2 ^ a.p_nonterminal.length)).map fun d =>
            gather (a.p_nonterminal ++ [0]) d := by
          rw [hinv.cfg.p_propose_grow]; simp [init]
        simp only [hpp, List.getElem_map]
        have hd : (tree_depths (2 ^ a.p_nonterminal.length))[i]'(by rw [length_tree_depths]; exact hi') = Nat.log2 i := by
          rw [← List.getD_eq_getElem (d := 0), tree_depths_getD (by omega)]
        rw [hd, gather_of_lt (by simp; have := hdep i h1 hi'; omega), List.getElem_append_left (hdep i h1 hi')]
      rw [e]
      exact (hq _ _).1
  have hsum : ∑ j ∈ Finset.range w.length, ω j = ∑ j ∈ G, π j := by
    rw [hwl, Finset.sum_filter]
  have hgG : g ∈ G := Finset.mem_filter.2 ⟨Finset.mem_range.2 hglt, hgt⟩
  have hGlt : ∀ j ∈ G, gl.getD j false = true ∧ j < 2 ^ h := fun j hj =>
    ⟨(Finset.mem_filter.1 hj).2, Finset.mem_range.1 (Finset.mem_filter.1 hj).1⟩
  have hW1 : 1 / 2 ^ 125 ≤ ∑ j ∈ Finset.range w.length, ω j := by
    rw [hsum]
    refine (hπ1 g hgt hglt).1.trans ?_
    exact Finset.single_le_sum (f := π) (fun j hj => (le_of_lt (by positivity)).trans (hπ1 j (hGlt j hj).1 (hGlt j hj).2).1) hgG
  have hh64 : h < 64 := ha.depth_lt
  have hW2 : ∑ j ∈ Finset.range w.length, ω j ≤ 2 ^ 126 := by
    rw [hsum]
    have h1 : ∑ j ∈ G, π j ≤ ∑ j ∈ G, (1 : ℝ) := Finset.sum_le_sum fun j hj => (hπ1 j (hGlt j hj).1 (hGlt j hj).2).2
    rw [Finset.sum_const, nsmul_eq_mul, mul_one] at h1
    have h2 : G.card ≤ 2 ^ h := by
      have := Finset.card_filter_le (Finset.range (2 ^ h)) fun i => gl.getD i false = true
      rwa [Finset.card_range] at this
    have h3 : (G.card : ℝ) ≤ 2 ^ h := by exact_mod_cast h2
    have h4 : (2 : ℝ) ^ h ≤ 2 ^ 126 := pow_le_pow_right₀ (by norm_num) (by omega)
    linarith
  have hlog : Nat.log2 w.length = h := by rw [hwl]; exact Nat.log2_two_pow
  obtain ⟨hlt, hprob⟩ := C84_cpu hc hdraw hω (by rw [hlog]; omega) hW1 hW2
  rw [hlog, hsum, hwl] at hprob
  rw [hwl] at hlt
  have hcast : ((2 ^ h : Nat) : ℝ) = 2 ^ h := by rw [Nat.cast_pow, Nat.cast_ofNat]
  rw [hcast] at hprob
  refine ⟨fun k => by rw [hleaf]; exact hlt k, fun i hi => (le_of_lt (by positivity)).trans (hπ1 i (hGlt i hi).1 (hGlt i hi).2).1,
    hsum ▸ lt_of_lt_of_le (by positivity) hW1, fun i hi => ?_⟩
  simp only [hleaf]
  have e : (if i ∈ G then π i / ∑ j ∈ G, π j else 0) = ω i / ∑ j ∈ G, π j := by
    simp only [hωdef]
    by_cases hi2 : gl.getD i false = true
    · rw [if_pos hi2, if_pos (Finset.mem_filter.2 ⟨Finset.mem_range.2 hi, hi2⟩)]
    · rw [if_neg hi2, if_neg (fun h => hi2 (hGlt i h).1), zero_div]
  rw [e]
  exact hprob i hi

open scoped Classical in
/-- **C84** for `choose_leaf`, with `jnp.cumsum` implemented like on CPU: in a state of the MCMC in which all the choices made so far are
of growable leaves, let the tree `t` have growable leaves. Then the probability that leaf `i` is
chosen is its weight (the probability that a node at its depth is nonterminal if it is growable, 0 otherwise) divided by the sum of the weights, up to `2 ** h (4 h + 1) / 2 ** 22`, where `h` is
`maxdepth - 1`. And the probability that the leaf chosen is not growable, thus that the invariants of the MCMC may be broken
(C80), is at most that; with the default `maxdepth=6` it is less than 1/6000. -/
theorem C84_choose_leaf (hc : ∀ w, Binary32.Platform.cumsum w = associativeScan w) (ha : ValidArgs a) (hs : ReachablePicks K a s)
    {rng : Fin (2 ^ 23) → Rng K Binary32} {key : K} {t : Nat} (ht : t < a.num_trees)
    (hrng : UsesBits fun k => rng k
      (KeyLike.split (KeyLike.split (KeyLike.split key (1 + s.leaf_trees.length) (1 + t)) 2 0) 3 0))
    {q : Nat → ℝ} (hq : ∀ d (h : d < a.p_nonterminal.length), HasValue a.p_nonterminal[d] (q d) ∧ 1 / 2 ^ 125 ≤ q d)
    (hg : ∃ i, (growable_leaves (s.split_trees.getD t []) (s.affluence_trees.map fun x => x.getD t [])).getD i false = true) :
    let h := a.p_nonterminal.length
    let G := (Finset.range (2 ^ h)).filter fun i =>
      (growable_leaves (s.split_trees.getD t []) (s.affluence_trees.map fun x => x.getD t [])).getD i false = true
    let leaf := fun k => (choose_leaf (s.split_trees.getD t []) (s.affluence_trees.map fun x => x.getD t []) s.p_propose_grow
      (rng k (KeyLike.split (KeyLike.split (KeyLike.split key (1 + s.leaf_trees.length) (1 + t)) 2 0) 3 0))).leaf_to_grow
    (∀ i, i < 2 ^ h → |bitsProb (fun k => leaf k = i) - (if i ∈ G then q (Nat.log2 i) / ∑ j ∈ G, q (Nat.log2 j) else 0)| ≤
      2 ^ h * ((4 * h + 1) / 2 ^ 22)) ∧
    bitsProb (fun k => ¬ Picks (rng k) s key t) ≤ 2 ^ h * ((4 * h + 1) / 2 ^ 22) := by
  intro h G leaf
  obtain ⟨hlt, -, -, hprob⟩ := choose_leaf_prob hc ha hs hrng ht hq hg
  have hε : (0 : ℝ) ≤ (4 * h + 1) / 2 ^ 22 := by positivity
  have h2h : (1 : ℝ) ≤ 2 ^ h := one_le_pow₀ (by norm_num)
  have hNε : (4 * (h : ℝ) + 1) / 2 ^ 22 ≤ 2 ^ h * ((4 * h + 1) / 2 ^ 22) := le_mul_of_one_le_left hε h2h
  constructor
  · intro i hi
    obtain ⟨p1, p2⟩ := hprob i hi
    rw [abs_le]
    constructor <;> linarith
  · have h1 : bitsProb (fun k => ¬ Picks (rng k) s key t) ≤ bitsProb (fun k => leaf k ∈ (Finset.range (2 ^ h)) \ G) := by
      refine bitsProb_mono fun k hk => ?_
      rw [Finset.mem_sdiff]
      exact ⟨Finset.mem_range.2 (hlt k), fun hcon => hk fun _ => (Finset.mem_filter.1 hcon).2⟩
    refine h1.trans ?_
    rw [bitsProb_mem]
    have h2 : ∀ i ∈ Finset.range (2 ^ h) \ G, bitsProb (fun k => leaf k = i) ≤ (4 * h + 1) / 2 ^ 22 := by
      intro i hi
      obtain ⟨h3, h4⟩ := Finset.mem_sdiff.1 hi
      have h5 := (hprob i (Finset.mem_range.1 h3)).1
      rw [if_neg h4, zero_add] at h5
      exact h5
    refine (Finset.sum_le_sum h2).trans ?_
    rw [Finset.sum_const, nsmul_eq_mul]
    refine mul_le_mul_of_nonneg_right ?_ hε
    have := Finset.card_le_card (Finset.sdiff_subset (s := Finset.range (2 ^ h)) (t := G))
    rw [Finset.card_range] at this
    exact_mod_cast this

end

-- the bound with the default settings
example : (2 : ℝ) ^ 5 * ((4 * (5 : Nat) + 1) / 2 ^ 22) < 1 / 6000 := by norm_num

namespace ExS

/-- the random draws in which all the variates are equal to the one obtained from the bits `k` meet the hypothesis -/
theorem usesBits (v : Nat) : UsesBits fun k => rng k v () := fun _ _ => rfl

theorem p_value (d : Nat) (h : d < p.length) : HasValue p[d] p[d].toReal ∧ 1 / 2 ^ 125 ≤ p[d].toReal := by
  have h1 : ∀ x ∈ p, Binary32.le (.num false ⟨0x01000000, by decide⟩) x = true ∧ (∃ b, x = .num false b ∧ b.val < infBits) := by
    intro x hx
    fin_cases hx <;> exact ⟨by decide +kernel, _, rfl, by decide⟩
  obtain ⟨h2, b, h3, h4⟩ := h1 _ (List.getElem_mem h)
  refine ⟨hasValue_iff.2 ⟨?_, rfl⟩, ?_⟩
  · rw [h3]; exact h4
  · have h5 := toReal_le h2
    rw [Binary32.toReal_num] at h5
    have h6 : Binary32.mag 0x01000000 = 2 ^ 24 := by decide +kernel
    rw [h6] at h5
    refine _root_.le_trans (le_of_eq ?_) h5
    rw [if_neg (by decide), Nat.cast_pow, Nat.cast_ofNat, show (149 : Nat) = 24 + 125 from rfl, pow_add,
      div_mul_eq_div_div, div_self (by positivity)]

/-- the hypotheses hold in the state from which C80 shows that a leaf which can not grow may be chosen; the bounds are those for all the
states of an MCMC with the default settings -/
example : letI := cpu
    bitsProb (fun k => ¬ Picks (rng k 8) (state 8) () 0) ≤ 2 ^ 5 * ((4 * (5 : Nat) + 1) / 2 ^ 22) ∧
    ¬ Picks (rng ⟨7664845, by decide⟩ 8) (state 8) () 0 := by
  letI := cpu
  refine ⟨?_, by decide +kernel⟩
  have hg : (growable_leaves ((state 8).split_trees.getD 0 []) ((state 8).affluence_trees.map fun x => x.getD 0 [])).getD 31 false
      = true := by decide +kernel
  exact (C84_choose_leaf (K := Unit) (t := 0) (fun _ => rfl) args_valid state_picks (by decide) (usesBits 8)
    (q := fun d => (p.getD d 0).toReal) (fun d h => by
      have h' : d < p.length := h
      show HasValue p[d] _ ∧ _
      rw [List.getD_eq_getElem _ _ h']
      exact p_value d h') ⟨_, hg⟩).2

end ExS

-- three items with weights 1, 0, 1, with the sums computed like on CPU
example : letI := ExS.cpu
    (∀ k, (categorical (ExS.rng k 0 ()) [1, 0, 1]).1 < 3) ∧
    bitsProb (fun k => (categorical (ExS.rng k 0 ()) [1, 0, 1]).1 = 1) ≤ 5 / 2 ^ 22 ∧
    1 / 2 - 15 / 2 ^ 22 ≤ bitsProb (fun k => (categorical (ExS.rng k 0 ()) [1, 0, 1]).1 = 2) := by
  letI := ExS.cpu
  have h1 : HasValue 1 1 := hasValue_iff.2 Binary32.one_exact
  have h := C84_cpu (w := [1, 0, 1]) (ω := fun i => [1, 0, 1].getD i 0) (fun _ => rfl) (ExS.usesBits 0) (by
    intro i hi
    match i, hi with
    | 0, _ => exact ⟨h1, zero_le_one⟩
    | 1, _ => exact ⟨hasValue_zero, le_refl _⟩
    | 2, _ => exact ⟨h1, zero_le_one⟩
    | k + 3, h => simp at h) (by decide) (by norm_num [Finset.sum_range_succ]) (by norm_num [Finset.sum_range_succ])
  have hl : Nat.log2 3 = 1 := by decide
  refine ⟨h.1, (h.2 1 (by decide)).1.trans (le_of_eq ?_), _root_.le_trans (le_of_eq ?_) (h.2 2 (by decide)).2⟩ <;>
    norm_num [Finset.sum_range_succ, hl]

end Bartz
