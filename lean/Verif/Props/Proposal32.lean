import Verif.Lemmas.Proposal32
import Verif.Props.Choice32
import Verif.Props.Randint
import Verif.Spec.Program
/-!
# Property C97: distribution of the proposal to grow a tree in single precision

`grow_move` chooses a leaf, then a variable for it, then a cutpoint for the variable. C84 and C90 are about each of the choices. Here is the
joint distribution, compared with the intended one, used to compute the Metropolis-Hastings ratio: the total variation distance is bounded.
-/

set_option autoImplicit false

namespace Bartz
open Jax Spec

section
variable {K K' : Type} [KeyLike K] [KeyLike K'] [Binary32.Platform] {a : InitArgs Binary32} {s : State Binary32}

omit [Binary32.Platform] in
/-- the filler used in place of the missing ancestors is not the index of a predictor without cutpoints -/
theorem filler_cuts {p : Nat} {ms : List Nat} (hp : p = ms.length) (h1 : 0 < ms.length) (h2 : ms.length < 2 ^ 64) (h : FillerOK ms)
    (hlt : astype (minimal_unsigned_dtype ((p : Int) - 1)) ms.length < ms.length) :
    1 ≤ at0 ms (astype (minimal_unsigned_dtype ((p : Int) - 1)) ms.length) := by
  rcases h with h | h
  · exfalso
    rw [hp, astype_of_lt] at hlt
    · omega
    · unfold minimal_unsigned_dtype
      split_ifs <;> omega
  · exact h _ hlt

open scoped Classical in
/-- the average of a function of the proposal to grow -/
theorem grow_mean (hc : ∀ w, Binary32.Platform.cumsum w = associativeScan w) (ha : ValidArgs a) (hs : ReachablePicks K' a s)
    {rng : GrowBits → Rng K Binary32} {key : K} (hrng : UsesGrowBits rng key) {t : Nat} (ht : t < a.num_trees)
    {q : Nat → ℝ} (hq : ∀ d (h : d < a.p_nonterminal.length), HasValue a.p_nonterminal[d] (q d) ∧ 1 / 2 ^ 125 ≤ q d)
    (hg : ∃ i, (growable_leaves (s.split_trees.getD t []) (s.affluence_trees.map fun x => x.getD t [])).getD i false = true)
    (hP : a.max_split.length ≤ 2 ^ 16) (hm : ∀ m ∈ a.max_split, m < 2 ^ 16) (hf : FillerOK a.max_split)
    (hrules : ((∀ v j, v < a.max_split.length → j < a.y.length → (a.X.getD v []).getD j 0 ≤ at0 a.max_split v) ∧
        ∃ m, 1 ≤ m ∧ a.min_points_per_leaf = some m) ∨ ∀ v, v < a.max_split.length → 1 ≤ at0 a.max_split v)
    {g : Nat → Nat → Nat → ℝ} (hg01 : ∀ i v c, 0 ≤ g i v c ∧ g i v c ≤ 1) :
    let h := a.p_nonterminal.length
    let var := s.var_trees.getD t []
    let split := s.split_trees.getD t []
    let aff := s.affluence_trees.map fun x => x.getD t []
    let G := (Finset.range (2 ^ h)).filter fun i => (growable_leaves split aff).getD i false = true
    (∀ i ∈ G, ∀ v c, g i v c ≠ 0 → (availVars a.split_bits a.max_split var split i).Nonempty ∧
      (v ∈ availVars a.split_bits a.max_split var split i → (availSplits a.max_split var split i v).Nonempty)) →
    |growMean (fun ω =>
        let m := grow_move (rng ω) s.var_bits s.split_bits var split aff s.max_split s.p_nonterminal s.p_propose_grow key
        g m.node m.var m.split) - growExp q G a.split_bits a.max_split var split g| ≤
      2 ^ h * ((4 * h + 1) / 2 ^ 22) + 1 / 2 ^ 47 := by
  intro h var split aff G hE
  have hη : (0 : ℝ) ≤ (4 * h + 1) / 2 ^ 22 := by positivity
  have hinv := ReachablePicks.inv ha hs
  have hT := hinv.tree t ht
  obtain ⟨d0, hd0, e0⟩ := hrng.leaf
  obtain ⟨d1, hd1, e1⟩ := hrng.var
  obtain ⟨d2, hd2, e2⟩ := hrng.cut
  have hfit := (cfgOf_ok ha).ms_fits
  have h16 : ∀ v, at0 a.max_split v < 2 ^ 16 := by
    intro v
    unfold at0
    by_cases hv : v < a.max_split.length
    · rw [List.getD_eq_getElem _ _ hv]
      exact hm _ (List.getElem_mem hv)
    · rw [List.getD_eq_default _ _ (by omega)]
      norm_num
  have hcut : ∀ k, IsDecision split k → at0 var k < a.max_split.length → 1 ≤ at0 a.max_split (at0 var k) := by
    intro k hk hv
    rcases hrules with h1 | h1
    · exact hT.good (Or.inl h1) k hk
    · exact h1 _ hv
  obtain ⟨hlt, hq0, hQ0, hprob⟩ := choose_leaf_prob hc ha hs hd0 ht hq hg
  -- the probability given the leaf and the variable, and given the leaf
  obtain ⟨f1, hf1⟩ : ∃ f1 : Nat → Nat → ℝ, ∀ i v, f1 i v = (∑ w : Words, g i v (choose_split s.split_bits
      (setDrop var i (astype s.var_bits v)) split s.max_split i (d2 w))) / 2 ^ 64 := ⟨_, fun _ _ => rfl⟩
  obtain ⟨f0, hf0⟩ : ∃ f0 : Nat → ℝ, ∀ i, f0 i = (∑ w : Words, f1 i (choose_variable s.var_bits s.split_bits var split
      s.max_split i (d1 w))) / 2 ^ 64 := ⟨_, fun _ => rfl⟩
  have hwords : ∀ f : Words → ℝ, (∀ w, 0 ≤ f w ∧ f w ≤ 1) → 0 ≤ (∑ w, f w) / 2 ^ 64 ∧ (∑ w, f w) / 2 ^ 64 ≤ 1 := by
    intro f hf01
    refine ⟨div_nonneg (Finset.sum_nonneg fun w _ => (hf01 w).1) (by positivity), ?_⟩
    rw [div_le_one (by positivity)]
    refine (Finset.sum_le_sum (g := fun _ => (1 : ℝ)) fun w _ => (hf01 w).2).trans (le_of_eq ?_)
    rw [Finset.sum_const, Finset.card_univ, Fintype.card_prod, Fintype.card_fin, nsmul_eq_mul, mul_one]
    push_cast
    ring
  have hb1 : ∀ i v, 0 ≤ f1 i v ∧ f1 i v ≤ 1 := by
    intro i v
    rw [hf1]
    exact hwords _ fun w => hg01 _ _ _
  have hb0 : ∀ i, 0 ≤ f0 i ∧ f0 i ≤ 1 := by
    intro i
    rw [hf0]
    exact hwords _ fun w => hb1 _ _
  have hP' : growMean (fun ω =>
        let m := grow_move (rng ω) s.var_bits s.split_bits var split aff s.max_split s.p_nonterminal s.p_propose_grow key
        g m.node m.var m.split) =
      (∑ k, f0 ((choose_leaf split aff s.p_propose_grow (d0 k)).leaf_to_grow)) / 2 ^ 23 := by
    unfold growMean
    simp only [hf0, hf1, grow_move, e0, e1, e2]
  rw [hP']
  have hvb : s.var_bits = minimal_unsigned_dtype ((a.X.length : Int) - 1) := hinv.cfg.var_bits
  -- the choice of the cutpoint
  have step1 : ∀ i ∈ G, ∀ v ∈ availVars a.split_bits a.max_split var split i,
      |f1 i v - avg (availSplits a.max_split var split i v) fun c => g i v c| ≤ 1 / 2 ^ 48 + 0 := by
    intro i hi v hv
    obtain ⟨hi1, hi2⟩ := Finset.mem_filter.1 hi
    have hi1 := Finset.mem_range.1 hi1
    have hl : IsLeaf split i := ((growable_iff hT.valid (cfgOf_ok ha).hh (cfgOf_ok ha).h64).1 hi2).1
    have hva : astype s.var_bits v = v := by
      apply astype_of_lt
      have h1 := hv.1
      have h2 := ha.predictors_lt
      rw [hvb, ha.X_length]
      unfold minimal_unsigned_dtype
      split_ifs <;> omega
    have hat : at0 (setDrop var i v) i = v := by
      rw [at0_setDrop, if_pos ⟨rfl, by rw [hT.var_len]; exact hi1⟩]
    have hav : availSplits a.max_split (setDrop var i v) split i v = availSplits a.max_split var split i v := by
      refine availSplits_congr hl.1 fun j hj => ?_
      rw [at0_setDrop, if_neg]
      rintro ⟨rfl, -⟩
      exact hj.2 hl.2
    have h90 := C90_choose_split hd2 (bits := a.split_bits) (var := setDrop var i v) (split := split) (max_split := a.max_split)
      ha.depth_pos (by rw [length_setDrop]; exact hT.var_len) hT.valid.1 hfit h16 (i := i) hl.1.pos hi1
    rw [hat, hav] at h90
    rw [hf1, hva, hinv.cfg.split_bits, hinv.cfg.max_split]
    have hcard : (availSplits a.max_split var split i v).ncard ≤ 2 ^ 16 := by
      have hsub : availSplits a.max_split var split i v ⊆ {u | u < 2 ^ 16} := by
        rintro c ⟨-, y, hy, -, hcy⟩
        have := h16 v
        show c < 2 ^ 16
        omega
      exact (Set.ncard_le_ncard hsub (Set.finite_lt_nat _)).trans (ncard_lt _).le
    refine mean_near (X := fun w => choose_split a.split_bits (setDrop var i v) split a.max_split i (d2 w))
      (availSplits_finite _ _ _ _ _) (fun hne => (h90 hne).1) (fun c hc => (h90 ⟨c, hc⟩).2 c hc) hcard (le_refl 0)
      (g := fun c => g i v c) (fun c => hg01 i v c) (fun he c => ?_) (fun c _ => by simp)
    by_contra hcon
    have := (hE i hi v c hcon).2 hv
    rw [he] at this
    exact Set.not_nonempty_empty this
  -- the choice of the variable
  have step0 : ∀ i ∈ G, |f0 i - avg (availVars a.split_bits a.max_split var split i) fun v =>
      avg (availSplits a.max_split var split i v) fun c => g i v c| ≤ 1 / 2 ^ 48 + (1 / 2 ^ 48 + 0) := by
    intro i hi
    obtain ⟨hi1, hi2⟩ := Finset.mem_filter.1 hi
    have hi1 := Finset.mem_range.1 hi1
    have hl : IsLeaf split i := ((growable_iff hT.valid (cfgOf_ok ha).hh (cfgOf_ok ha).h64).1 hi2).1
    have h90 := C90_choose_variable hd1 (var_bits := minimal_unsigned_dtype ((a.X.length : Int) - 1)) ha.depth_pos ha.depth_lt hT.var_len
      hT.valid hP hcut (filler_cuts ha.X_length ha.predictors_pos ha.predictors_lt hf) hT.var_ok hT.rules hl hi1 ha.split_bits hfit
    rw [hf0, hinv.cfg.split_bits, hinv.cfg.max_split, hvb]
    have hcard : (availVars a.split_bits a.max_split var split i).ncard ≤ 2 ^ 16 :=
      ((Set.ncard_le_ncard (fun v hv => hv.1) (Set.finite_lt_nat a.max_split.length)).trans (ncard_lt _).le).trans hP
    refine mean_near (X := fun w => choose_variable (minimal_unsigned_dtype ((a.X.length : Int) - 1)) a.split_bits var split a.max_split
      i (d1 w)) (availVars_finite _ _ _ _ _) h90.1 h90.2 hcard (by positivity) (hb1 i) (fun he v => ?_) (step1 i hi)
    rw [hf1, div_eq_zero_iff]
    left
    refine Finset.sum_eq_zero fun w _ => ?_
    by_contra hcon
    have := (hE i hi v _ hcon).1
    rw [he] at this
    exact Set.not_nonempty_empty this
  -- the choice of the leaf
  have hπ1 : ∑ i ∈ G, q (Nat.log2 i) / (∑ j ∈ G, q (Nat.log2 j)) = 1 := by
    rw [← Finset.sum_div, div_self hQ0.ne']
  have hcast : ((2 ^ h : Nat) : ℝ) = 2 ^ h := by rw [Nat.cast_pow, Nat.cast_ofNat]
  have fin := choice_near (X := fun k => (choose_leaf split aff s.p_propose_grow (d0 k)).leaf_to_grow) (N := 2 ^ h) hlt
    (G := G) (Finset.filter_subset _ _) (π := fun i => q (Nat.log2 i) / (∑ j ∈ G, q (Nat.log2 j))) (η := (4 * h + 1) / 2 ^ 22)
    hη (fun i hi => div_nonneg (hq0 i hi) hQ0.le) hπ1 (fun i hi => (hprob i hi).1) hb0 step0
  refine fin.trans (le_of_eq ?_)
  generalize (4 * (h : ℝ) + 1) / 2 ^ 22 = η
  rw [hcast, add_zero, show (1 : ℝ) / 2 ^ 48 + 1 / 2 ^ 48 = 1 / 2 ^ 47 by norm_num]

open scoped Classical in
/-- **C97**: in single precision, with `jnp.cumsum` implemented like on CPU, from a state of the MCMC in which all the choices made so far
are of growable leaves, let the tree `t` have growable leaves. The probability that the leaf, the variable and the cutpoint proposed by
`grow_move` satisfy any condition `E` differs from the intended one by at most `2 ** h (4 h + 1) / 2 ** 22 + 2 ** -47`, where `h` is
`maxdepth - 1`. If `E` may hold for a growable leaf, there must be decision rules left for the leaf. -/
theorem C97_grow_move (hc : ∀ w, Binary32.Platform.cumsum w = associativeScan w) (ha : ValidArgs a) (hs : ReachablePicks K' a s)
    {rng : GrowBits → Rng K Binary32} {key : K} (hrng : UsesGrowBits rng key) {t : Nat} (ht : t < a.num_trees)
    {q : Nat → ℝ} (hq : ∀ d (h : d < a.p_nonterminal.length), HasValue a.p_nonterminal[d] (q d) ∧ 1 / 2 ^ 125 ≤ q d)
    (hg : ∃ i, (growable_leaves (s.split_trees.getD t []) (s.affluence_trees.map fun x => x.getD t [])).getD i false = true)
    (hP : a.max_split.length ≤ 2 ^ 16) (hm : ∀ m ∈ a.max_split, m < 2 ^ 16) (hf : FillerOK a.max_split)
    (hrules : ((∀ v j, v < a.max_split.length → j < a.y.length → (a.X.getD v []).getD j 0 ≤ at0 a.max_split v) ∧
        ∃ m, 1 ≤ m ∧ a.min_points_per_leaf = some m) ∨ ∀ v, v < a.max_split.length → 1 ≤ at0 a.max_split v)
    {E : Nat → Nat → Nat → Prop} :
    let h := a.p_nonterminal.length
    let var := s.var_trees.getD t []
    let split := s.split_trees.getD t []
    let aff := s.affluence_trees.map fun x => x.getD t []
    let G := (Finset.range (2 ^ h)).filter fun i => (growable_leaves split aff).getD i false = true
    (∀ i ∈ G, ∀ v c, E i v c → (availVars a.split_bits a.max_split var split i).Nonempty ∧
      (v ∈ availVars a.split_bits a.max_split var split i → (availSplits a.max_split var split i v).Nonempty)) →
    |growProb (fun ω =>
        let m := grow_move (rng ω) s.var_bits s.split_bits var split aff s.max_split s.p_nonterminal s.p_propose_grow key
        E m.node m.var m.split) - growDist q G a.split_bits a.max_split var split E| ≤
      2 ^ h * ((4 * h + 1) / 2 ^ 22) + 1 / 2 ^ 47 := by
  intro h var split aff G hE
  have := grow_mean hc ha hs hrng ht hq hg hP hm hf hrules (g := fun i v c => if E i v c then 1 else 0)
    (fun i v c => by split_ifs <;> norm_num) fun i hi v c hcon => hE i hi v c (by
      by_contra h0
      exact hcon (if_neg h0))
  rw [growProb_eq]
  exact this

end

/-! ### Examples -/

-- the bound with the default settings
example : (2 : ℝ) ^ 5 * ((4 * (5 : Nat) + 1) / 2 ^ 22) + 1 / 2 ^ 47 < 1 / 6000 := by norm_num

namespace ExS

def leafDraw (k : Fin (2 ^ 23)) : Draws Binary32 :=
  { uniform2 := fun _ _ => 0, uniformTo := fun hi => Binary32.uniform k hi, randint := fun lo _ => lo, normal := fun _ _ => 0
    gamma := fun _ => 1 }

def wordsDraw (w : Words) : Draws Binary32 :=
  { uniform2 := fun _ _ => 0, uniformTo := fun _ => 0, randint := fun lo hi => randint32 w.1 w.2 lo hi, normal := fun _ _ => 0
    gamma := fun _ => 1 }

/-- the variates made by JAX from separate random bits for each key -/
def growRng (ω : GrowBits) : Rng Spec.Path Binary32 := fun key =>
  if key.getLast? = some (3, 0) then leafDraw ω.1 else if key.getLast? = some (3, 1) then wordsDraw ω.2.1 else wordsDraw ω.2.2

theorem growRng_uses (key : Spec.Path) : UsesGrowBits growRng key where
  leaf := ⟨leafDraw, fun _ _ => rfl, fun ω => by simp [growRng, KeyLike.split]⟩
  var := ⟨wordsDraw, fun _ _ _ _ _ => rfl, fun ω => by simp [growRng, KeyLike.split]⟩
  cut := ⟨wordsDraw, fun _ _ _ _ _ => rfl, fun ω => by simp [growRng, KeyLike.split]⟩

theorem p_values (d : Nat) (h : d < args.p_nonterminal.length) :
    HasValue args.p_nonterminal[d] (p.getD d 0).toReal ∧ 1 / 2 ^ 125 ≤ (p.getD d 0).toReal := by
  have h' : d < p.length := h
  show HasValue p[d] _ ∧ _
  rw [List.getD_eq_getElem _ _ h']
  exact p_value d h'

theorem args_cuts : ∀ v, v < args.max_split.length → 1 ≤ at0 args.max_split v := by decide

open scoped Classical in
/-- the hypotheses hold in the state from which C80 shows that a leaf which can not grow may be chosen, for all the events in which the
decision rule is possible -/
example (E : Nat → Nat → Nat → Prop) : letI := cpu
    let s := state 8
    let var := s.var_trees.getD 0 []
    let split := s.split_trees.getD 0 []
    let aff := s.affluence_trees.map fun x => x.getD 0 []
    let G := (Finset.range 32).filter fun i => (growable_leaves split aff).getD i false = true
    let E' := fun i v c => E i v c ∧ v ∈ availVars 8 [8] var split i ∧ c ∈ availSplits [8] var split i v
    |growProb (fun ω =>
        let m := grow_move (growRng ω) s.var_bits s.split_bits var split aff s.max_split s.p_nonterminal s.p_propose_grow []
        E' m.node m.var m.split) - growDist (fun d => (p.getD d 0).toReal) G 8 [8] var split E'| < 1 / 6000 := by
  letI := cpu
  have hg : (growable_leaves ((state 8).split_trees.getD 0 []) ((state 8).affluence_trees.map fun x => x.getD 0 [])).getD 31 false
      = true := by decide +kernel
  intro s var split aff G E'
  refine lt_of_le_of_lt (C97_grow_move (K' := Unit) (t := 0) (fun _ => rfl) args_valid state_picks (growRng_uses []) (by decide)
    p_values ⟨_, hg⟩ (by decide) (by decide) (Or.inr args_cuts) (Or.inr args_cuts) (E := E')
    fun i _ v c h => ⟨⟨v, h.2.1⟩, fun _ => ⟨c, h.2.2⟩⟩) ?_
  show (2 : ℝ) ^ 5 * ((4 * (5 : Nat) + 1) / 2 ^ 22) + 1 / 2 ^ 47 < 1 / 6000
  norm_num

theorem init_splits : availSplits [8] (List.replicate 32 0) (List.replicate 32 0) 1 0 = (Finset.Icc 1 8 : Finset Nat) := by
  ext c
  show NonRedundant _ _ _ 1 0 c ↔ _
  rw [nonRedundant_iff (by norm_num)]
  simp [interval, at0]
  omega

theorem init_vars : availVars 8 [8] (List.replicate 32 0) (List.replicate 32 0) 1 = {0} := by
  ext v
  constructor
  · rintro ⟨h, -⟩
    exact Nat.lt_one_iff.1 h
  · rintro rfl
    have h : 1 ∈ availSplits [8] (List.replicate 32 0) (List.replicate 32 0) 1 0 := by
      rw [init_splits]
      simp
    obtain ⟨⟨u, -, hu, h1⟩, ⟨w, h2, hw, h3⟩⟩ := h
    exact ⟨Nat.zero_lt_one, Or.inl ⟨u, w, by omega, h2, hu, hw⟩⟩

/-- in the initial state, the probability of proposing each of the 8 cutpoints is about 1/8 -/
example (c : Nat) (h1 : 1 ≤ c) (h8 : c ≤ 8) : letI := cpu
    let s := init args
    |growProb (fun ω =>
        let m := grow_move (growRng ω) s.var_bits s.split_bits (s.var_trees.getD 0 []) (s.split_trees.getD 0 [])
          (s.affluence_trees.map fun x => x.getD 0 []) s.max_split s.p_nonterminal s.p_propose_grow []
        m.node = 1 ∧ m.var = 0 ∧ m.split = c) - 1 / 8| < 1 / 6000 := by
  letI := cpu
  classical
  have hl : ∀ i, (growable_leaves ((init args).split_trees.getD 0 []) ((init args).affluence_trees.map fun x => x.getD 0 [])).getD i
      false = true ↔ i = 1 := by
    have h0 : growable_leaves ((init args).split_trees.getD 0 []) ((init args).affluence_trees.map fun x => x.getD 0 []) =
        false :: true :: List.replicate 30 false := by decide +kernel
    rw [h0]
    intro i
    match i with
    | 0 => simp
    | 1 => simp
    | k + 2 =>
      rw [List.getD_cons_succ, List.getD_cons_succ]
      by_cases h : k < 30
      · rw [List.getD_eq_getElem _ _ (by simpa using h), List.getElem_replicate]; simp
      · rw [List.getD_eq_default _ _ (by simpa using h)]; simp
  have hv : (init args).var_trees.getD 0 [] = List.replicate 32 0 := by decide +kernel
  have hsp : (init args).split_trees.getD 0 [] = List.replicate 32 0 := by decide +kernel
  have h := C97_grow_move (K' := Unit) (t := 0) (fun _ => rfl) args_valid .init (growRng_uses []) (by decide)
    p_values ⟨1, (hl 1).2 rfl⟩ (by decide) (by decide) (Or.inr args_cuts) (Or.inr args_cuts)
    (E := fun i v c' => i = 1 ∧ v = 0 ∧ c' = c)
  simp only [hl] at h
  intro s
  have hG : (Finset.range (2 ^ args.p_nonterminal.length)).filter (fun i => i = 1) = {1} := by
    ext i
    simp only [Finset.mem_filter, Finset.mem_range, Finset.mem_singleton]
    exact ⟨fun h => h.2, fun h => ⟨by rw [h]; decide, h⟩⟩
  rw [hG] at h
  have hQ : growDist (fun d => (p.getD d 0).toReal) {1} args.split_bits args.max_split ((init args).var_trees.getD 0 [])
      ((init args).split_trees.getD 0 []) (fun i v c' => i = 1 ∧ v = 0 ∧ c' = c) = 1 / 8 := by
    rw [hv, hsp]
    show growDist _ {1} 8 [8] _ _ _ = _
    unfold growDist growExp
    have hpos : (p.getD 0 0).toReal ≠ 0 := by
      have := (p_values 0 (by decide)).2
      have h3 : (0 : ℝ) < 1 / 2 ^ 125 := by positivity
      exact (lt_of_lt_of_le h3 this).ne'
    rw [Finset.sum_singleton, Finset.sum_singleton, show Nat.log2 1 = 0 by decide, div_self hpos, one_mul, init_vars,
      ← Finset.coe_singleton, avg_finset, Finset.sum_singleton, init_splits, avg_finset]
    simp only [true_and]
    rw [← Finset.sum_mul, Finset.sum_ite_eq', if_pos (Finset.mem_Icc.2 ⟨h1, h8⟩)]
    norm_num
  rw [hQ] at h
  refine lt_of_le_of_lt (h ?_) ?_
  · intro i hi v c' hE
    obtain ⟨rfl, rfl, rfl⟩ := hE
    rw [hv, hsp]
    show (availVars 8 [8] _ _ 1).Nonempty ∧ (_ → (availSplits [8] _ _ 1 0).Nonempty)
    rw [init_vars, init_splits]
    exact ⟨⟨0, rfl⟩, fun _ => ⟨1, by simp⟩⟩
  · show (2 : ℝ) ^ 5 * ((4 * (5 : Nat) + 1) / 2 ^ 22) + 1 / 2 ^ 47 < 1 / 6000
    norm_num

end ExS

end Bartz
