import Verif.Lemmas.Move32
import Verif.Props.Proposal32
/-!
# Property C99: distribution of the proposed move in single precision

C97 is about the proposal to grow a tree. Here it is combined with the choice between growing and pruning, and with the choice of
the node to prune.
-/

set_option autoImplicit false

namespace Bartz
open Jax Spec

section
variable {K K' : Type} [KeyLike K] [KeyLike K'] [Binary32.Platform] {a : InitArgs Binary32} {s : State Binary32}

omit [Binary32.Platform] in
/-- the node to prune, in terms of the random bits -/
theorem prune_prob {h : Nat} {split : List Nat} (hh : 1 ≤ h) (h16 : h ≤ 16) (hv : ValidSplit h split) {draw : Words → Draws Binary32}
    (hd : UsesWords draw) (aff : Option (List Bool)) (ppg : List Binary32) {g : Nat → ℝ} (hg : ∀ i, 0 ≤ g i ∧ g i ≤ 1)
    (hne : ∃ i, IsLeafParent split i) :
    |(∑ w, g (choose_leaf_parent split aff ppg (draw w)).node_to_prune) / 2 ^ 64 - avg {i | IsLeafParent split i} g| ≤ 1 / 2 ^ 48 := by
  have hC := fun j => C05_is_leaves_parent split h (by omega) hv j
  have hset : {j | IsLeafParent split j} = {j | (is_leaves_parent split).getD j false = true} := by
    ext j
    exact (hC j).2.symm
  have hcount : countNonzero (is_leaves_parent split) ≠ 0 := by
    have h07 := C07_prunable split h hh (by omega) hv
    exact h07.2.1 (h07.1.2 hne)
  have hlen : (is_leaves_parent split).length ≤ 2 ^ 16 := by
    rw [(hC 0).1]
    exact Nat.pow_le_pow_right (by norm_num) h16
  have h90 := C90_randint_masked hd hlen
  have e : ∀ w, (choose_leaf_parent split aff ppg (draw w)).node_to_prune = randint_masked (draw w) (is_leaves_parent split) := by
    intro w
    unfold choose_leaf_parent
    exact if_pos hcount
  simp only [e]
  rw [hset]
  have hsub : {j | (is_leaves_parent split).getD j false = true} ⊆ {j | j < (is_leaves_parent split).length} := by
    intro j hj
    by_contra hc
    rw [Set.mem_ofPred_eq, List.getD_eq_default _ _ (by simpa using hc)] at hj
    exact Bool.false_ne_true hj
  have hfin := (Set.finite_lt_nat (is_leaves_parent split).length).subset hsub
  have hcard : {j | (is_leaves_parent split).getD j false = true}.ncard ≤ 2 ^ 16 :=
    ((Set.ncard_le_ncard hsub (Set.finite_lt_nat _)).trans (ncard_lt _).le).trans hlen
  have hne' : {j | (is_leaves_parent split).getD j false = true}.Nonempty := by
    rw [← hset]
    exact hne
  have := mean_near (X := fun w => randint_masked (draw w) (is_leaves_parent split)) hfin h90.1 h90.2 hcard (le_refl 0)
    (g := g) hg (fun he => absurd he hne'.ne_empty) (g' := g) (fun i _ => by simp)
  rwa [add_zero] at this

open scoped Classical in
/-- the average of a function of the proposal -/
theorem move_mean (hc : ∀ w, Binary32.Platform.cumsum w = associativeScan w) (ha : ValidArgs a) (hs : ReachablePicks K' a s)
    {rng : MoveBits → Rng K Binary32} {key : K} {t : Nat} (ht : t < a.num_trees) (hrng : UsesMoveBits rng key a.num_trees t)
    {q : Nat → ℝ} (hq : ∀ d (h : d < a.p_nonterminal.length), HasValue a.p_nonterminal[d] (q d) ∧ 1 / 2 ^ 125 ≤ q d)
    (hP : a.max_split.length ≤ 2 ^ 16) (hm : ∀ m ∈ a.max_split, m < 2 ^ 16) (hdepth : a.p_nonterminal.length ≤ 16)
    (hf : FillerOK a.max_split)
    (hrules : ((∀ v j, v < a.max_split.length → j < a.y.length → (a.X.getD v []).getD j 0 ≤ at0 a.max_split v) ∧
        ∃ m, 1 ≤ m ∧ a.min_points_per_leaf = some m) ∨ ∀ v, v < a.max_split.length → 1 ≤ at0 a.max_split v)
    {g : Nat → Nat → Nat → ℝ} (hg01 : ∀ i v c, 0 ≤ g i v c ∧ g i v c ≤ 1)
    {d : Nat → ℝ} (hd01 : ∀ i, 0 ≤ d i ∧ d i ≤ 1) :
    let h := a.p_nonterminal.length
    let var := s.var_trees.getD t []
    let split := s.split_trees.getD t []
    let aff := s.affluence_trees.map fun x => x.getD t []
    let G := (Finset.range (2 ^ h)).filter fun i => (growable_leaves split aff).getD i false = true
    (∀ i ∈ G, ∀ v c, g i v c ≠ 0 → (availVars a.split_bits a.max_split var split i).Nonempty ∧
      (v ∈ availVars a.split_bits a.max_split var split i → (availSplits a.max_split var split i v).Nonempty)) →
    |moveMean (fun ω =>
        let m := moveOf (rng ω) s key t
        if m.grow then g m.node m.grow_var m.grow_split else if m.allowed then d m.node else 0) -
      moveExp q G a.split_bits a.max_split var split g d| ≤ 2 ^ h * ((4 * h + 1) / 2 ^ 22) + 1 / 2 ^ 47 := by
  intro h var split aff G hE
  have hb0 : (0 : ℝ) ≤ 2 ^ h * ((4 * h + 1) / 2 ^ 22) := by positivity
  have h47 : (0 : ℝ) ≤ 1 / 2 ^ 47 := by positivity
  have hinv := ReachablePicks.inv ha hs
  have hT := hinv.tree t ht
  have hnt := hinv.leaf_length
  have hh := ha.depth_pos
  -- the two possible proposals
  obtain ⟨gm, hgm⟩ : ∃ gm : MoveBits → GrowMove Binary32, ∀ ω, gm ω = grow_move (rng ω) s.var_bits s.split_bits var split aff s.max_split
      s.p_nonterminal s.p_propose_grow (KeyLike.split (KeyLike.split key (1 + a.num_trees) (1 + t)) 2 0) := ⟨_, fun _ => rfl⟩
  obtain ⟨dr, hd, ed⟩ := hrng.prune
  obtain ⟨pn, hpn⟩ : ∃ pn : Words → Nat, ∀ w, pn w = (choose_leaf_parent split aff s.p_propose_grow (dr w)).node_to_prune :=
    ⟨_, fun _ => rfl⟩
  have hroot : gather split 1 = at0 split 1 := gather_at0 (by
    rw [hT.valid.length]
    exact lt_of_lt_of_le (by norm_num) (Nat.pow_le_pow_right (by norm_num) hh : 2 ^ 1 ≤ 2 ^ h))
  have hprunable : (gather split 1 != 0) = true ↔ ∃ i, IsLeafParent split i :=
    (C07_prunable split h hh ha.depth_lt hT.valid).1
  have hlen : (growable_leaves split aff).length = 2 ^ h := length_growable hT.valid.length hT.aff_len
  have hgrowable : countNonzero (growable_leaves split aff) ≠ 0 ↔ G.Nonempty := by
    rw [← Nat.pos_iff_ne_zero, countNonzero_pos_iff]
    constructor
    · rintro ⟨i, hi, hi'⟩
      rw [hlen] at hi
      exact ⟨i, Finset.mem_filter.2 ⟨Finset.mem_range.2 hi, hi'⟩⟩
    · rintro ⟨i, hi⟩
      obtain ⟨h1, h2⟩ := Finset.mem_filter.1 hi
      exact ⟨i, by rw [hlen]; exact Finset.mem_range.1 h1, h2⟩
  -- the event, in terms of the random bits
  have hev : ∀ ω, (if (moveOf (rng ω) s key t).grow then g (moveOf (rng ω) s key t).node (moveOf (rng ω) s key t).grow_var
        (moveOf (rng ω) s key t).grow_split else if (moveOf (rng ω) s key t).allowed then d (moveOf (rng ω) s key t).node else 0) =
      if G.Nonempty ∧ ((∃ i, IsLeafParent split i) → ω.1.val < 2 ^ 22) then g (gm ω).node (gm ω).var (gm ω).split
      else if ∃ i, IsLeafParent split i then d (pn ω.2.2) else 0 := by
    intro ω
    have hng : (gm ω).num_growable = countNonzero (growable_leaves split aff) := by rw [hgm]; rfl
    have hpm : (prune_move (rng ω) split aff s.p_nonterminal s.p_propose_grow
        (KeyLike.split (KeyLike.split key (1 + a.num_trees) (1 + t)) 2 1)).node = pn ω.2.2 := by
      rw [hpn, ← ed]
      rfl
    have hpa : (prune_move (rng ω) split aff s.p_nonterminal s.p_propose_grow
        (KeyLike.split (KeyLike.split key (1 + a.num_trees) (1 + t)) 2 1)).allowed = true ↔ ∃ i, IsLeafParent split i := hprunable
    obtain ⟨k1, k2, k3⟩ := kind_iff ω.1
    have hmo : moveOf (rng ω) s key t = combine_moves (gm ω) (prune_move (rng ω) split aff s.p_nonterminal s.p_propose_grow
        (KeyLike.split (KeyLike.split key (1 + a.num_trees) (1 + t)) 2 1)) (Binary32.uniform ω.1 1)
        ((rng ω (KeyLike.split key (1 + a.num_trees) 0)).uniform2 1 t) := by
      unfold moveOf
      rw [hnt, hrng.kind, hgm]
    rw [hmo]
    generalize prune_move (rng ω) split aff s.p_nonterminal s.p_propose_grow
        (KeyLike.split (KeyLike.split key (1 + a.num_trees) (1 + t)) 2 1) = pm at hpm hpa
    generalize (rng ω (KeyLike.split key (1 + a.num_trees) 0)).uniform2 1 t = lu
    generalize Binary32.uniform ω.1 1 = u at k1 k2 k3
    rw [← hng] at hgrowable
    have hgrow : (combine_moves (gm ω) pm u lu).grow = true ↔ G.Nonempty ∧ ((∃ i, IsLeafParent split i) → ω.1.val < 2 ^ 22) := by
      unfold combine_moves
      dsimp only
      by_cases c1 : G.Nonempty
      · have c1' := hgrowable.2 c1
        by_cases c2 : ∃ i, IsLeafParent split i
        · simp only [c1', ne_eq, not_false_eq_true, decide_true, hpa.2 c2, Bool.and_self, if_true, k1]
          exact ⟨fun h => ⟨c1, fun _ => h⟩, fun h => h.2 c2⟩
        · have c2' : pm.allowed = false := Bool.eq_false_iff.2 fun hcon => c2 (hpa.1 hcon)
          simp only [c1', ne_eq, not_false_eq_true, decide_true, c2', Bool.and_false, Bool.false_eq_true, if_false, if_true, k2]
          exact ⟨fun _ => ⟨c1, fun h => absurd h c2⟩, fun _ => trivial⟩
      · have c1' : (gm ω).num_growable = 0 := by
          by_contra hcon
          exact c1 (hgrowable.1 hcon)
        simp only [c1', ne_eq, not_true_eq_false, decide_false, Bool.false_and, Bool.false_eq_true, if_false, k3]
        exact ⟨fun h => h.elim, fun h => c1 h.1⟩
    by_cases c : G.Nonempty ∧ ((∃ i, IsLeafParent split i) → ω.1.val < 2 ^ 22)
    · have c' := hgrow.2 c
      rw [if_pos c, if_pos c']
      unfold combine_moves at c' ⊢
      dsimp only at c' ⊢
      rw [if_pos c']
    · have c' : ¬ (combine_moves (gm ω) pm u lu).grow = true := fun hcon => c (hgrow.1 hcon)
      have hn : (combine_moves (gm ω) pm u lu).node = pm.node := by
        unfold combine_moves at c' ⊢
        dsimp only at c' ⊢
        rw [if_neg c']
      have hl : (combine_moves (gm ω) pm u lu).allowed = pm.allowed := by
        unfold combine_moves at c' ⊢
        dsimp only at c' ⊢
        rw [Bool.eq_false_iff.2 c', Bool.false_or]
      rw [if_neg c, if_neg c', hn, hl, hpm]
      simp only [hpa]
  simp only [hev]
  unfold moveMean
  -- the averages given the kind of move
  have hgrow : G.Nonempty → ∀ k w, |growMean (fun b => g (gm (k, b, w)).node (gm (k, b, w)).var (gm (k, b, w)).split) -
      growExp q G a.split_bits a.max_split var split g| ≤ 2 ^ h * ((4 * h + 1) / 2 ^ 22) + 1 / 2 ^ 47 := by
    rintro ⟨i, hi⟩ k w
    have := grow_mean (K' := K') (rng := fun g => rng (k, g, w)) (key := KeyLike.split (KeyLike.split key (1 + a.num_trees) (1 + t)) 2 0)
      hc ha hs
      { leaf := by obtain ⟨d, h1, h2⟩ := hrng.leaf; exact ⟨d, h1, fun g => h2 (k, g, w)⟩
        var := by obtain ⟨d, h1, h2⟩ := hrng.var; exact ⟨d, h1, fun g => h2 (k, g, w)⟩
        cut := by obtain ⟨d, h1, h2⟩ := hrng.cut; exact ⟨d, h1, fun g => h2 (k, g, w)⟩ } ht hq ⟨i, (Finset.mem_filter.1 hi).2⟩ hP hm hf hrules
      hg01 hE
    simp only [hgm]
    exact this
  have hprune : (∃ i, IsLeafParent split i) → |(∑ w, d (pn w)) / 2 ^ 64 - avg {i | IsLeafParent split i} d| ≤ (2 : ℝ) ^ h * ((4 * h + 1) / 2 ^ 22) + 1 / 2 ^ 47 := by
    intro hne
    simp only [hpn]
    refine (prune_prob hh hdepth hT.valid hd aff s.p_propose_grow hd01 hne).trans ?_
    have : (1 : ℝ) / 2 ^ 48 ≤ 1 / 2 ^ 47 := by norm_num
    linarith
  have hε : (0 : ℝ) ≤ 2 ^ h * ((4 * h + 1) / 2 ^ 22) + 1 / 2 ^ 47 := add_nonneg hb0 h47
  generalize (2 : ℝ) ^ h * ((4 * h + 1) / 2 ^ 22) + 1 / 2 ^ 47 = ε at hgrow hprune hε ⊢
  have hwords : ∀ (f : Words → ℝ) (x : ℝ), (∀ w, |f w - x| ≤ ε) → |(∑ w, f w) / 2 ^ 64 - x| ≤ ε := by
    intro f x hfx
    exact words_mean_near hfx
  have h23 : (((2 ^ 23 : Nat) : Nat) : ℝ) = 2 ^ 23 := by norm_num
  have hconst : ∀ (f : Fin (2 ^ 23) → ℝ) (x : ℝ), (∀ k, |f k - x| ≤ ε) → |(∑ k, f k) / 2 ^ 23 - x| ≤ ε := by
    intro f x hfx
    have := kind_near (M := 2 ^ 23) (N := 2 ^ 22) (by norm_num) (by norm_num) (f := f) (x := x) (y := x) (fun k _ => hfx k) (fun k _ => hfx k)
    rw [h23, show 1 / 2 * x + 1 / 2 * x = x by ring] at this
    exact this
  unfold moveExp
  dsimp only
  by_cases c1 : G.Nonempty
  · rw [if_pos c1]
    by_cases c2 : ∃ i, IsLeafParent split i
    · rw [if_pos c2]
      have := kind_near (M := 2 ^ 23) (N := 2 ^ 22) (by norm_num) (by norm_num) (ε := ε)
        (f := fun k => (∑ w, growMean fun b => if G.Nonempty ∧ ((∃ i, IsLeafParent split i) → k.val < 2 ^ 22) then
          g (gm (k, b, w)).node (gm (k, b, w)).var (gm (k, b, w)).split else if ∃ i, IsLeafParent split i then d (pn w) else 0) / 2 ^ 64)
        (x := growExp q G a.split_bits a.max_split var split g)
        (y := avg {i | IsLeafParent split i} d) ?_ ?_
      · rw [h23] at this
        exact this
      · intro k hk
        refine hwords _ _ fun w => ?_
        simp only [c1, c2, hk, implies_true, and_self, if_true]
        exact hgrow c1 k w
      · intro k hk
        simp only [c1, c2, hk, true_implies, and_false, if_false, if_true, growMean_const]
        exact hprune c2
    · rw [if_neg c2]
      refine hconst _ _ fun k => hwords _ _ fun w => ?_
      simp only [c1, c2, false_implies, and_self, if_true]
      exact hgrow c1 k w
  · rw [if_neg c1]
    refine hconst _ _ fun k => ?_
    simp only [c1, false_and, if_false]
    by_cases c2 : ∃ i, IsLeafParent split i
    · simp only [c2, if_true, growMean_const]
      exact hprune c2
    · have e : {i | IsLeafParent split i} = ∅ := by
        ext i
        exact ⟨fun hi => c2 ⟨i, hi⟩, fun hi => hi.elim⟩
      rw [e, avg_empty]
      simp only [c2, growMean_const, if_false, Finset.sum_const_zero, zero_div, sub_zero, abs_zero]
      exact hε

open scoped Classical in
/-- **C99**: in single precision, with `jnp.cumsum` implemented like on CPU, from a state of the MCMC in which all the choices made so far
are of growable leaves, the probability that the move proposed for the tree `t` is to grow a leaf with a decision rule such that `E`, or
to prune a node such that `D`, differs from the intended one by at most `2 ** h (4 h + 1) / 2 ** 22 + 2 ** -47`, where `h` is
`maxdepth - 1`. If `E` may hold for a growable leaf, there must be decision rules left for the leaf. -/
theorem C99_move (hc : ∀ w, Binary32.Platform.cumsum w = associativeScan w) (ha : ValidArgs a) (hs : ReachablePicks K' a s)
    {rng : MoveBits → Rng K Binary32} {key : K} {t : Nat} (ht : t < a.num_trees) (hrng : UsesMoveBits rng key a.num_trees t)
    {q : Nat → ℝ} (hq : ∀ d (h : d < a.p_nonterminal.length), HasValue a.p_nonterminal[d] (q d) ∧ 1 / 2 ^ 125 ≤ q d)
    (hP : a.max_split.length ≤ 2 ^ 16) (hm : ∀ m ∈ a.max_split, m < 2 ^ 16) (hdepth : a.p_nonterminal.length ≤ 16)
    (hf : FillerOK a.max_split)
    (hrules : ((∀ v j, v < a.max_split.length → j < a.y.length → (a.X.getD v []).getD j 0 ≤ at0 a.max_split v) ∧
        ∃ m, 1 ≤ m ∧ a.min_points_per_leaf = some m) ∨ ∀ v, v < a.max_split.length → 1 ≤ at0 a.max_split v)
    {E : Nat → Nat → Nat → Prop} {D : Nat → Prop} :
    let h := a.p_nonterminal.length
    let var := s.var_trees.getD t []
    let split := s.split_trees.getD t []
    let aff := s.affluence_trees.map fun x => x.getD t []
    let G := (Finset.range (2 ^ h)).filter fun i => (growable_leaves split aff).getD i false = true
    (∀ i ∈ G, ∀ v c, E i v c → (availVars a.split_bits a.max_split var split i).Nonempty ∧
      (v ∈ availVars a.split_bits a.max_split var split i → (availSplits a.max_split var split i v).Nonempty)) →
    |moveProb (fun ω => ∃ m, (sample_moves (rng ω) s key)[t]? = some m ∧
        if m.grow then E m.node m.grow_var m.grow_split else m.allowed = true ∧ D m.node) -
      moveDist q G a.split_bits a.max_split var split E D| ≤ 2 ^ h * ((4 * h + 1) / 2 ^ 22) + 1 / 2 ^ 47 := by
  intro h var split aff G hE
  have hnt := (ReachablePicks.inv ha hs).leaf_length
  have := move_mean hc ha hs ht hrng hq hP hm hdepth hf hrules (g := fun i v c => if E i v c then 1 else 0)
    (fun i v c => by split_ifs <;> norm_num) (d := fun i => if D i then 1 else 0) (fun i => by split_ifs <;> norm_num)
    fun i hi v c hcon => hE i hi v c (by
      by_contra h0
      exact hcon (if_neg h0))
  have e : ∀ ω, (if ∃ m, (sample_moves (rng ω) s key)[t]? = some m ∧
        if m.grow then E m.node m.grow_var m.grow_split else m.allowed = true ∧ D m.node then (1 : ℝ) else 0) =
      let m := moveOf (rng ω) s key t
      if m.grow then (if E m.node m.grow_var m.grow_split then 1 else 0) else if m.allowed then (if D m.node then 1 else 0) else 0 := by
    intro ω
    have hmove : (sample_moves (rng ω) s key)[t]? = some (moveOf (rng ω) s key t) := by
      rw [sample_moves_eq, vmap, List.getElem?_map, List.getElem?_range (by rw [hnt]; exact ht)]
      rfl
    rw [hmove]
    simp only [Option.some.injEq, exists_eq_left']
    cases (moveOf (rng ω) s key t).grow with
    | true => simp only [if_true]
    | false => cases (moveOf (rng ω) s key t).allowed <;> simp
  have e' := congrArg moveMean (funext e)
  rw [moveProb_mean, e']
  exact this

end

/-! ### Examples -/

namespace ExS

def kindDraw (k : Fin (2 ^ 23)) : Draws Binary32 :=
  { uniform2 := fun _ _ => Binary32.uniform k 1, uniformTo := fun _ => 0, randint := fun lo _ => lo, normal := fun _ _ => 0
    gamma := fun _ => 1 }

/-- the variates made by JAX from separate random bits for each key -/
def moveRng (ω : MoveBits) : Rng Spec.Path Binary32 := fun key =>
  if key.getLast? = some (3, 0) then leafDraw ω.2.1.1 else if key.getLast? = some (3, 1) then wordsDraw ω.2.1.2.1 else
  if key.getLast? = some (3, 2) then wordsDraw ω.2.1.2.2 else if key.getLast? = some (2, 1) then wordsDraw ω.2.2 else kindDraw ω.1

theorem moveRng_uses (key : Spec.Path) : UsesMoveBits moveRng key 1 0 where
  kind ω := by simp [moveRng, KeyLike.split, kindDraw]
  leaf := ⟨leafDraw, fun _ _ => rfl, fun ω => by simp [moveRng, KeyLike.split]⟩
  var := ⟨wordsDraw, fun _ _ _ _ _ => rfl, fun ω => by simp [moveRng, KeyLike.split]⟩
  cut := ⟨wordsDraw, fun _ _ _ _ _ => rfl, fun ω => by simp [moveRng, KeyLike.split]⟩
  prune := ⟨wordsDraw, fun _ _ _ _ _ => rfl, fun ω => by simp [moveRng, KeyLike.split]⟩

open scoped Classical in
/-- the hypotheses hold in the state of the example of C97, where the tree can be both grown and pruned -/
example (E : Nat → Nat → Nat → Prop) (D : Nat → Prop) : letI := cpu
    let s := state 8
    let var := s.var_trees.getD 0 []
    let split := s.split_trees.getD 0 []
    let aff := s.affluence_trees.map fun x => x.getD 0 []
    let G := (Finset.range 32).filter fun i => (growable_leaves split aff).getD i false = true
    let E' := fun i v c => E i v c ∧ v ∈ availVars 8 [8] var split i ∧ c ∈ availSplits [8] var split i v
    |moveProb (fun ω => ∃ m, (sample_moves (moveRng ω) s [])[0]? = some m ∧
        if m.grow then E' m.node m.grow_var m.grow_split else m.allowed = true ∧ D m.node) -
      (1 / 2 * growDist (fun d => (p.getD d 0).toReal) G 8 [8] var split E' +
        1 / 2 * avg {i | IsLeafParent split i} fun i => if D i then 1 else 0)| < 1 / 6000 := by
  letI := cpu
  have hg : (growable_leaves ((state 8).split_trees.getD 0 []) ((state 8).affluence_trees.map fun x => x.getD 0 [])).getD 31 false
      = true := by decide +kernel
  have hv := ((ReachablePicks.inv args_valid state_picks : StateInv args (state 8)).tree 0 (by decide)).valid
  have hp : ∃ i, IsLeafParent ((state 8).split_trees.getD 0 []) i :=
    (C07_prunable _ _ args_valid.depth_pos args_valid.depth_lt hv).1.1 (by decide +kernel)
  intro s var split aff G E'
  have h := C99_move (K' := Unit) (t := 0) (fun _ => rfl) args_valid state_picks (by decide) (moveRng_uses [])
    p_values (by decide) (by decide) (by decide) (Or.inr args_cuts) (Or.inr args_cuts) (E := E') (D := D)
    fun i _ v c h => ⟨⟨v, h.2.1⟩, fun _ => ⟨c, h.2.2⟩⟩
  unfold moveDist moveExp at h
  dsimp only at h
  rw [if_pos ⟨31, Finset.mem_filter.2 ⟨by decide, hg⟩⟩, if_pos hp] at h
  refine lt_of_le_of_lt h ?_
  show (2 : ℝ) ^ 5 * ((4 * (5 : Nat) + 1) / 2 ^ 22) + 1 / 2 ^ 47 < 1 / 6000
  norm_num

end ExS

end Bartz
