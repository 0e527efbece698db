import Verif.Lemmas.Volume
import Verif.Lemmas.StateInv
import Verif.Props.Rules
import Verif.Spec.TreePrior
import Verif.Spec.Sites
/-! # Probabilities of the proposed moves -/

set_option autoImplicit false

namespace Bartz
open Jax Spec MeasureTheory

/-! ### One site at a time -/

theorem mul_mem_iff {W x A B : ℝ} (hW : 0 < W) :
    W * x ∈ Set.Ico A B ↔ x ∈ Set.Ico (A / W) (B / W) := by
  rw [Set.mem_Ico, Set.mem_Ico, div_le_iff₀ hW, lt_div_iff₀ hW, mul_comm]

/-- the leaf to grow -/
theorem len_categorical {D : List ℝ} (hD : ∀ x ∈ D, 0 ≤ x) (hW : 0 < D.sum) {i : Nat}
    (hi : i < D.length) :
    len {x | x ∈ Set.Ico (0 : ℝ) 1 ∧ (categorical (constUniform (D.sum * x)) D).1 = i} =
      D.getD i 0 / D.sum := by
  have hne : D ≠ [] := by rintro rfl; simp at hi
  obtain ⟨h1, _⟩ := (C26_categorical D hne hD).2 i hi
  have e : {x | x ∈ Set.Ico (0 : ℝ) 1 ∧ (categorical (constUniform (D.sum * x)) D).1 = i} =
      Set.Ico ((D.take i).sum / D.sum) ((D.take (i + 1)).sum / D.sum) := by
    ext x
    rw [← mul_mem_iff hW, ← h1]
    simp only [Set.mem_ofPred_eq, Set.mem_Ico]
    constructor
    · rintro ⟨⟨h2, h3⟩, h4⟩; exact ⟨by positivity, by nlinarith, h4⟩
    · rintro ⟨h2, h3, h4⟩
      exact ⟨⟨by by_contra hc; push Not at hc; nlinarith, by by_contra hc; push Not at hc; nlinarith⟩,
        h4⟩
  have hm := take_sum_mono D hD (i := i) (j := i + 1) (by omega)
  rw [e, len_Ico (div_le_div_of_nonneg_right hm hW.le), List.sum_take_succ D i hi,
    List.getD_eq_getElem _ _ hi]
  ring

/-- a one to one function of a uniform integer -/
theorem len_bij {f : Nat → Nat} {N : Nat} {V : Set Nat}
    (hf : Set.BijOn f {u | u < N} V) {v : Nat} (hv : v ∈ V) :
    len {x | x ∈ Set.Ico (0 : ℝ) 1 ∧ f (unifInt x 0 N) = v} = 1 / (N : ℝ) := by
  obtain ⟨u, hu, rfl⟩ := hf.surjOn hv
  rw [Set.mem_ofPred_eq] at hu
  have e : {x | x ∈ Set.Ico (0 : ℝ) 1 ∧ f (unifInt x 0 N) = f u} =
      {x | x ∈ Set.Ico (0 : ℝ) 1 ∧ unifInt x 0 N = u} := by
    ext x
    simp only [Set.mem_ofPred_eq]
    refine and_congr_right fun hx => ⟨fun h => ?_, fun h => by rw [h]⟩
    exact hf.injOn (unifInt_lt hx (by omega)).2 hu h
  rw [e, len_unifInt (by omega) hu]
  simp

/-! ### The state of a tree -/

section
variable (s : State ℝ) (t : Nat)

abbrev affOf : Option (List Bool) := s.affluence_trees.map fun x => x.getD t []
abbrev spOf : List Nat := s.split_trees.getD t []
abbrev vaOf : List Nat := s.var_trees.getD t []

/-- number of leaves that can grow -/
def nGrow : Nat := countNonzero (growable_leaves (spOf s t) (affOf s t))

/-- probability of proposing to grow -/
noncomputable def pGrow : ℝ :=
  if nGrow s t ≠ 0 then (if at0 (spOf s t) 1 ≠ 0 then 1 / 2 else 1) else 0

/-- weights of the leaves that can grow -/
noncomputable def growW : List ℝ :=
  List.zipWith (fun g p => if g then p else 0) (growable_leaves (spOf s t) (affOf s t))
    s.p_propose_grow

/-- number of nodes that can be pruned -/
def nPrune : Nat := countNonzero (is_leaves_parent (spOf s t))
end

section
variable {K : Type} [KeyLike K] {a : InitArgs ℝ} {s : State ℝ} {t : Nat} {key : K}
  {rng : (Fin 6 → ℝ) → Rng K ℝ}

/-- the proposed move -/
noncomputable abbrev mvOf (rng : (Fin 6 → ℝ) → Rng K ℝ) (s : State ℝ) (key : K) (t : Nat)
    (w : Fin 6 → ℝ) : Move ℝ :=
  moveOf (rng w) s (KeyLike.split (KeyLike.split key 2 1) 2 1) t

theorem two_le_pow {h : Nat} (hh : 1 ≤ h) : 2 ≤ 2 ^ h := by
  calc 2 = 2 ^ 1 := rfl
    _ ≤ 2 ^ h := Nat.pow_le_pow_right (by norm_num) hh

theorem ppg_real (ha : ValidArgs a) (hs : StateInv a s) :
    s.p_propose_grow.length = 2 ^ a.p_nonterminal.length ∧ ∀ x ∈ s.p_propose_grow, 0 < x := by
  have hp := ppg_ok ha
  rw [hs.cfg.p_propose_grow]
  refine ⟨hp.1, fun x hx => ?_⟩
  have := (hp.2 x hx).2.1
  rwa [Real.leb_iff_false] at this

theorem ppg_le_one (ha : ValidArgs a) (hs : StateInv a s) : ∀ x ∈ s.p_propose_grow, x ≤ 1 := by
  rw [hs.cfg.p_propose_grow]
  intro x hx
  have := ((ppg_ok ha).2 x hx).2.2
  rwa [Real.leb_iff] at this

theorem growW_length (ha : ValidArgs a) (hs : StateInv a s) (ht : t < a.num_trees) :
    (growW s t).length = 2 ^ a.p_nonterminal.length := by
  have hT := hs.tree t ht
  unfold growW
  rw [List.length_zipWith, length_growable hT.valid.length hT.aff_len, (ppg_real ha hs).1]
  show min (2 ^ a.p_nonterminal.length) _ = _
  simp

theorem growW_getD (ha : ValidArgs a) (hs : StateInv a s) (ht : t < a.num_trees) {i : Nat}
    (hi : i < 2 ^ a.p_nonterminal.length) :
    (growW s t).getD i 0 = if (growable_leaves (spOf s t) (affOf s t)).getD i false = true
      then s.p_propose_grow.getD i 0 else 0 := by
  have hT := hs.tree t ht
  have h1 : (growable_leaves (spOf s t) (affOf s t)).length = 2 ^ a.p_nonterminal.length :=
    length_growable hT.valid.length hT.aff_len
  have h2 := (ppg_real ha hs).1
  have h3 := growW_length ha hs ht
  rw [List.getD_eq_getElem _ _ (by omega), List.getD_eq_getElem _ _ (by omega),
    List.getD_eq_getElem _ _ (by omega)]
  unfold growW
  rw [List.getElem_zipWith]

theorem growW_nonneg (ha : ValidArgs a) (hs : StateInv a s) (ht : t < a.num_trees) :
    ∀ x ∈ growW s t, 0 ≤ x := by
  intro x hx
  obtain ⟨i, hi, rfl⟩ := List.getElem_of_mem hx
  have h3 := growW_length ha hs ht
  rw [← List.getD_eq_getElem _ 0 hi, growW_getD ha hs ht (by omega)]
  split_ifs
  · rw [List.getD_eq_getElem _ _ (by rw [(ppg_real ha hs).1]; omega)]
    exact ((ppg_real ha hs).2 _ (List.getElem_mem _)).le
  · exact le_refl _

theorem growW_pos (ha : ValidArgs a) (hs : StateInv a s) (ht : t < a.num_trees) {i : Nat}
    (hg : Growable a.p_nonterminal.length (spOf s t) (affOf s t) i) :
    (growW s t).getD i 0 = s.p_propose_grow.getD i 0 ∧ 0 < s.p_propose_grow.getD i 0 ∧
      0 < (growW s t).sum := by
  have hT := hs.tree t ht
  have hi := hg.2.1
  have h1 : (growW s t).getD i 0 = s.p_propose_grow.getD i 0 := by
    rw [growW_getD ha hs ht hi, if_pos ((growable_iff hT.valid ha.depth_pos ha.depth_lt).2 hg)]
  have h2 : 0 < s.p_propose_grow.getD i 0 := by
    rw [List.getD_eq_getElem _ _ (by rw [(ppg_real ha hs).1]; exact hi)]
    exact (ppg_real ha hs).2 _ (List.getElem_mem _)
  refine ⟨h1, h2, ?_⟩
  have h3 := growW_length ha hs ht
  have h4 : (growW s t).getD i 0 ≤ (growW s t).sum := by
    rw [List.getD_eq_getElem _ _ (by omega)]
    exact List.single_le_sum (growW_nonneg ha hs ht) _ (List.getElem_mem _)
  linarith

theorem nGrow_pos_iff (ha : ValidArgs a) (hs : StateInv a s) (ht : t < a.num_trees) :
    nGrow s t ≠ 0 ↔ ∃ i, Growable a.p_nonterminal.length (spOf s t) (affOf s t) i := by
  have hT := hs.tree t ht
  unfold nGrow
  rw [← Nat.pos_iff_ne_zero, countNonzero_pos_iff]
  constructor
  · rintro ⟨i, _, hi⟩; exact ⟨i, (growable_iff hT.valid ha.depth_pos ha.depth_lt).1 hi⟩
  · rintro ⟨i, hi⟩
    refine ⟨i, ?_, (growable_iff hT.valid ha.depth_pos ha.depth_lt).2 hi⟩
    rw [length_growable hT.valid.length hT.aff_len]; exact hi.2.1

/-! ### The choice between growing and pruning -/

theorem mv_grow_iff (ha : ValidArgs a) (hs : StateInv a s) (ht : t < a.num_trees)
    (hsites : TreeSites a.num_trees t key rng) (w : Fin 6 → ℝ) :
    (mvOf rng s key t w).grow = true ↔ w 0 < pGrow s t := by
  have hT := hs.tree t ht
  have hroot : gather (spOf s t) 1 = at0 (spOf s t) 1 :=
    gather_at0 (by rw [hT.valid.length]; exact two_le_pow ha.depth_pos)
  have e : (mvOf rng s key t w).grow = FltFun.ltb
      ((rng w (KeyLike.split (KeyLike.split (KeyLike.split key 2 1) 2 1) (1 + s.leaf_trees.length)
        0)).uniform2 0 t)
      (if decide (nGrow s t ≠ 0) && (gather (spOf s t) 1 != 0) then (half : ℝ) else
        if decide (nGrow s t ≠ 0) then 1 else 0) := rfl
  rw [e, hs.leaf_length, hsites.grow, Real.ltb_iff, hroot]
  have e2 : (if decide (nGrow s t ≠ 0) && (at0 (spOf s t) 1 != 0) then (half : ℝ) else
        if decide (nGrow s t ≠ 0) then 1 else 0) = pGrow s t := by
    unfold pGrow half
    by_cases h1 : nGrow s t = 0 <;> by_cases h2 : at0 (spOf s t) 1 = 0 <;> simp [h1, h2]
  rw [e2]

theorem mv_allowed (ha : ValidArgs a) (hs : StateInv a s) (ht : t < a.num_trees)
    (w : Fin 6 → ℝ) (hroot : at0 (spOf s t) 1 ≠ 0) : (mvOf rng s key t w).allowed = true := by
  have hT := hs.tree t ht
  have e : (mvOf rng s key t w).allowed = ((mvOf rng s key t w).grow || (gather (spOf s t) 1 != 0)) :=
    rfl
  rw [e, gather_at0 (by rw [hT.valid.length]; exact two_le_pow ha.depth_pos)]
  have h2 : (at0 (spOf s t) 1 != 0) = true := bne_iff_ne.2 hroot
  rw [h2, Bool.or_true]

theorem pGrow_nonneg : 0 ≤ pGrow s t := by unfold pGrow; split_ifs <;> norm_num
theorem pGrow_le : pGrow s t ≤ 1 := by unfold pGrow; split_ifs <;> norm_num

theorem len_lt_pGrow : len {x | x ∈ Set.Ico (0 : ℝ) 1 ∧ x < pGrow s t} = pGrow s t := by
  have e : {x | x ∈ Set.Ico (0 : ℝ) 1 ∧ x < pGrow s t} = Set.Ico 0 (pGrow s t) := by
    ext x
    simp only [Set.mem_ofPred_eq, Set.mem_Ico]
    have := pGrow_le (s := s) (t := t)
    constructor
    · rintro ⟨⟨h1, _⟩, h2⟩; exact ⟨h1, h2⟩
    · rintro ⟨h1, h2⟩; exact ⟨⟨h1, by linarith⟩, h2⟩
  rw [e, len_Ico pGrow_nonneg]; ring

theorem len_ge_pGrow : len {x | x ∈ Set.Ico (0 : ℝ) 1 ∧ ¬ x < pGrow s t} = 1 - pGrow s t := by
  have e : {x | x ∈ Set.Ico (0 : ℝ) 1 ∧ ¬ x < pGrow s t} = Set.Ico (pGrow s t) 1 := by
    ext x
    simp only [Set.mem_ofPred_eq, Set.mem_Ico, not_lt]
    have := pGrow_nonneg (s := s) (t := t)
    constructor
    · rintro ⟨⟨_, h1⟩, h2⟩; exact ⟨h2, h1⟩
    · rintro ⟨h1, h2⟩; exact ⟨⟨by linarith, h2⟩, h1⟩
  rw [e, len_Ico pGrow_le]

/-! ### Growing -/

/-- the leaf picked by `x` -/
noncomputable def leafPick (s : State ℝ) (t : Nat) (x : ℝ) : Nat :=
  (categorical (constUniform ((growW s t).sum * x)) (growW s t)).1

theorem mv_grow_node (ha : ValidArgs a) (hs : StateInv a s) (ht : t < a.num_trees)
    (hsites : TreeSites a.num_trees t key rng) (w : Fin 6 → ℝ)
    (hg : (mvOf rng s key t w).grow = true) (hn : nGrow s t ≠ 0) :
    (mvOf rng s key t w).node = leafPick s t (w 2) := by
  have e : (mvOf rng s key t w).node = if (mvOf rng s key t w).grow then
      (if nGrow s t ≠ 0 then (categorical (rng w (KeyLike.split (KeyLike.split (KeyLike.split
        (KeyLike.split (KeyLike.split key 2 1) 2 1) (1 + s.leaf_trees.length) (1 + t)) 2 0) 3 0))
        (growW s t)).1 else 2 * (spOf s t).length)
      else (choose_leaf_parent (spOf s t) (affOf s t) s.p_propose_grow (rng w
        (KeyLike.split (KeyLike.split (KeyLike.split (KeyLike.split key 2 1) 2 1)
          (1 + s.leaf_trees.length) (1 + t)) 2 1))).node_to_prune := rfl
  have hne : growW s t ≠ [] := by
    intro h0
    have := growW_length ha hs ht
    rw [h0] at this
    have h2 := Nat.two_pow_pos a.p_nonterminal.length
    rw [List.length_nil] at this
    omega
  rw [e, if_pos hg, if_pos hn, hs.leaf_length,
    ((C26_categorical _ hne (growW_nonneg ha hs ht)).1 _).1, hsites.leaf]
  rfl

theorem len_leafPick (ha : ValidArgs a) (hs : StateInv a s) (ht : t < a.num_trees) {i : Nat}
    (hg : Growable a.p_nonterminal.length (spOf s t) (affOf s t) i) :
    len {x | x ∈ Set.Ico (0 : ℝ) 1 ∧ leafPick s t x = i} =
      s.p_propose_grow.getD i 0 / (growW s t).sum := by
  obtain ⟨h1, h2, h3⟩ := growW_pos ha hs ht hg
  rw [← h1]
  exact len_categorical (growW_nonneg ha hs ht) h3 (by rw [growW_length ha hs ht]; exact hg.2.1)

/-- the decision rules are on predictors with cutpoints, or on non-existing ones -/
def CutsOK (a : InitArgs ℝ) (s : State ℝ) (t : Nat) : Prop :=
  ∀ k, IsDecision (spOf s t) k → at0 (vaOf s t) k < a.max_split.length → 1 ≤ at0 a.max_split (at0 (vaOf s t) k)

/-- the filler used in place of the missing ancestors is not the index of a predictor without cutpoints -/
def FillOK (a : InitArgs ℝ) : Prop :=
  astype (minimal_unsigned_dtype (a.X.length - 1 : Int)) a.max_split.length < a.max_split.length →
    1 ≤ at0 a.max_split (astype (minimal_unsigned_dtype (a.X.length - 1 : Int)) a.max_split.length)

theorem fillOK (ha : ValidArgs a) (h : FillerOK a.max_split) : FillOK a := by
  intro hlt
  rcases h with h | h
  · exfalso
    have h1 := ha.predictors_lt
    have h2 := ha.predictors_pos
    rw [ha.X_length] at hlt
    rw [astype_of_lt] at hlt
    · omega
    · unfold minimal_unsigned_dtype
      split_ifs <;> omega
  · exact h _ hlt

/-- the variable picked by `x` -/
noncomputable def varPick (s : State ℝ) (t i : Nat) (x : ℝ) : Nat :=
  choose_variable s.var_bits s.split_bits (vaOf s t) (spOf s t) s.max_split i
    (constRandint (F := ℝ) (unifInt x 0 (availVars s.split_bits s.max_split (vaOf s t) (spOf s t) i).ncard))

theorem varPick_bij (ha : ValidArgs a) (hs : StateInv a s) (ht : t < a.num_trees)
    (hf : FillOK a) (hms : CutsOK a s t) {i : Nat}
    (hl : IsLeaf (spOf s t) i) (hi : i < 2 ^ a.p_nonterminal.length) :
    (∀ draw : Draws ℝ, choose_variable s.var_bits s.split_bits (vaOf s t) (spOf s t) s.max_split i draw =
      choose_variable s.var_bits s.split_bits (vaOf s t) (spOf s t) s.max_split i (constRandint (F := ℝ)
        (draw.randint 0 (availVars s.split_bits s.max_split (vaOf s t) (spOf s t) i).ncard))) ∧
    Set.BijOn (fun u => choose_variable s.var_bits s.split_bits (vaOf s t) (spOf s t) s.max_split i
      (constRandint (F := ℝ) u))
      {u | u < (availVars s.split_bits s.max_split (vaOf s t) (spOf s t) i).ncard}
      (availVars s.split_bits s.max_split (vaOf s t) (spOf s t) i) := by
  have hT := hs.tree t ht
  rw [hs.cfg.max_split, hs.cfg.split_bits, hs.cfg.var_bits]
  exact choose_variable_bij (F := ℝ) ha.depth_pos ha.depth_lt hT.var_len hT.valid ha.predictors_lt
    hms hf hT.var_ok hT.rules hl hi ha.split_bits (cfgOf_ok ha).ms_fits

theorem mv_grow_var (ha : ValidArgs a) (hs : StateInv a s) (ht : t < a.num_trees)
    (hf : FillOK a) (hms : CutsOK a s t)
    (hsites : TreeSites a.num_trees t key rng) (hrng : ∀ w ∈ unitCube, LawfulRng (rng w))
    {w : Fin 6 → ℝ} (hw : w ∈ unitCube)
    (hg : (mvOf rng s key t w).grow = true) :
    (mvOf rng s key t w).grow_var = varPick s t (mvOf rng s key t w).node (w 3) := by
  have hm := moveOf_ok ha hs (rng w) (hrng w hw) (KeyLike.split (KeyLike.split key 2 1) 2 1) ht
  have hgl := hm.grow_leaf hg
  have e : (mvOf rng s key t w).grow_var = choose_variable s.var_bits s.split_bits (vaOf s t) (spOf s t) s.max_split
      (mvOf rng s key t w).node (rng w (KeyLike.split (KeyLike.split (KeyLike.split
        (KeyLike.split (KeyLike.split key 2 1) 2 1) (1 + s.leaf_trees.length) (1 + t)) 2 0) 3 1)) := by
    have : (mvOf rng s key t w).node = if (mvOf rng s key t w).grow then _ else _ := rfl
    rw [this, if_pos hg]; rfl
  rw [e, (varPick_bij ha hs ht hf hms hgl.1 hgl.2.1).1, hs.leaf_length, hsites.var]
  rfl

theorem len_varPick (ha : ValidArgs a) (hs : StateInv a s) (ht : t < a.num_trees)
    (hf : FillOK a) (hms : CutsOK a s t) {i v : Nat}
    (hl : IsLeaf (spOf s t) i) (hi : i < 2 ^ a.p_nonterminal.length)
    (hv : v ∈ availVars s.split_bits s.max_split (vaOf s t) (spOf s t) i) :
    len {x | x ∈ Set.Ico (0 : ℝ) 1 ∧ varPick s t i x = v} =
      1 / ((availVars s.split_bits s.max_split (vaOf s t) (spOf s t) i).ncard : ℝ) :=
  len_bij (varPick_bij ha hs ht hf hms hl hi).2 hv

/-- the cutpoint picked by `x` -/
noncomputable def splitPick (s : State ℝ) (t i v : Nat) (x : ℝ) : Nat :=
  unifInt x (split_range s.split_bits (vaOf s t) (spOf s t) s.max_split i v).1
    (split_range s.split_bits (vaOf s t) (spOf s t) s.max_split i v).2

theorem mv_grow_split (ha : ValidArgs a) (hs : StateInv a s) (ht : t < a.num_trees)
    (hsites : TreeSites a.num_trees t key rng) (hrng : ∀ w ∈ unitCube, LawfulRng (rng w))
    {w : Fin 6 → ℝ} (hw : w ∈ unitCube)
    (hg : (mvOf rng s key t w).grow = true) :
    (mvOf rng s key t w).grow_split = splitPick s t (mvOf rng s key t w).node
      (mvOf rng s key t w).grow_var (w 4) := by
  have hT := hs.tree t ht
  have hm := moveOf_ok ha hs (rng w) (hrng w hw) (KeyLike.split (KeyLike.split key 2 1) 2 1) ht
  have hgl := hm.grow_leaf hg
  have htree := hm.grow_tree hg
  have e : (mvOf rng s key t w).grow_split = choose_split s.split_bits (mvOf rng s key t w).var_tree (spOf s t)
      s.max_split (mvOf rng s key t w).node (rng w (KeyLike.split (KeyLike.split (KeyLike.split
        (KeyLike.split (KeyLike.split key 2 1) 2 1) (1 + s.leaf_trees.length) (1 + t)) 2 0) 3 2)) := by
    have : (mvOf rng s key t w).node = if (mvOf rng s key t w).grow then _ else _ := rfl
    rw [this, if_pos hg]; rfl
  rw [e, hs.leaf_length]
  unfold choose_split splitPick
  dsimp only
  rw [hsites.split]
  have hva : gather (mvOf rng s key t w).var_tree (mvOf rng s key t w).node =
      (mvOf rng s key t w).grow_var := by
    rw [gather_at0 (by rw [hm.len]; exact hgl.2.1), htree, at0_setDrop,
      if_pos ⟨rfl, by rw [hT.var_len]; exact hgl.2.1⟩]
  have hi : interval (mvOf rng s key t w).var_tree (spOf s t) (mvOf rng s key t w).grow_var
      (1 + at0 s.max_split (mvOf rng s key t w).grow_var) (mvOf rng s key t w).node =
      interval (vaOf s t) (spOf s t) (mvOf rng s key t w).grow_var
      (1 + at0 s.max_split (mvOf rng s key t w).grow_var) (mvOf rng s key t w).node :=
    interval_congr hgl.1.1 (fun j hj => ⟨hm.agree hj, rfl⟩)
  have hr : split_range s.split_bits (mvOf rng s key t w).var_tree (spOf s t) s.max_split
      (mvOf rng s key t w).node (mvOf rng s key t w).grow_var =
      split_range s.split_bits (vaOf s t) (spOf s t) s.max_split (mvOf rng s key t w).node
        (mvOf rng s key t w).grow_var := by
    rw [split_range_eq ha.depth_pos hm.len hT.valid.length s.max_split hgl.2.1,
      split_range_eq ha.depth_pos hT.var_len hT.valid.length s.max_split hgl.2.1, hi]
  rw [hva, hr]

theorem len_splitPick (ha : ValidArgs a) (hs : StateInv a s) (ht : t < a.num_trees) {i v sp : Nat}
    (h1 : 1 ≤ i) (hi : i < 2 ^ a.p_nonterminal.length)
    (hv : sp ∈ availSplits s.max_split (vaOf s t) (spOf s t) i v) :
    len {x | x ∈ Set.Ico (0 : ℝ) 1 ∧ splitPick s t i v x = sp} =
      1 / ((availSplits s.max_split (vaOf s t) (spOf s t) i v).ncard : ℝ) := by
  have hT := hs.tree t ht
  have h27 : ∀ sp, ((split_range s.split_bits (vaOf s t) (spOf s t) s.max_split i v).1 ≤ sp ∧
      sp < (split_range s.split_bits (vaOf s t) (spOf s t) s.max_split i v).2) ↔
      NonRedundant s.max_split (vaOf s t) (spOf s t) i v sp := by
    intro sp'
    have hv' := (nonRedundant_iff h1).1 hv
    have h3 : (interval (vaOf s t) (spOf s t) v (1 + at0 s.max_split v) i).2 ≤ 1 + at0 s.max_split v :=
      interval_snd_le
    have h4 := (cfgOf_ok ha).ms_fits v
    change at0 a.max_split v < 2 ^ a.split_bits at h4
    rw [split_range_eq ha.depth_pos hT.var_len hT.valid.length s.max_split hi, nonRedundant_iff h1,
      astype_of_lt]
    · rfl
    · rw [hs.cfg.split_bits, hs.cfg.max_split]
      rw [hs.cfg.max_split] at hv' h3
      have h5 : (interval (vaOf s t) (spOf s t) v (1 + at0 a.max_split v) i).1 + 1 < 2 ^ a.split_bits := by
        omega
      exact h5
  obtain ⟨h2, h3⟩ := (h27 sp).2 hv
  unfold splitPick
  rw [len_unifInt h2 h3]
  congr 2
  have e : availSplits s.max_split (vaOf s t) (spOf s t) i v =
      ↑(Finset.Ico (split_range s.split_bits (vaOf s t) (spOf s t) s.max_split i v).1
        (split_range s.split_bits (vaOf s t) (spOf s t) s.max_split i v).2) := by
    ext x
    rw [Finset.coe_Ico, Set.mem_Ico]
    exact (h27 x).symm
  rw [e, Set.ncard_coe_finset, Nat.card_Ico]

/-! ### Pruning -/

/-- the node picked by `x` -/
noncomputable def prunePick (s : State ℝ) (t : Nat) (x : ℝ) : Nat :=
  randint_masked (constRandint (F := ℝ) (unifInt x 0 (nPrune s t))) (is_leaves_parent (spOf s t))

theorem mv_prune_node (ha : ValidArgs a) (hs : StateInv a s) (ht : t < a.num_trees)
    (hsites : TreeSites a.num_trees t key rng) (w : Fin 6 → ℝ)
    (hg : (mvOf rng s key t w).grow = false) (hroot : at0 (spOf s t) 1 ≠ 0) :
    (mvOf rng s key t w).node = prunePick s t (w 5) := by
  have hT := hs.tree t ht
  have h07 := (C07_prunable (spOf s t) _ ha.depth_pos ha.depth_lt hT.valid).2
  rw [gather_at0 (by rw [hT.valid.length]; exact two_le_pow ha.depth_pos)] at h07
  have hne : nPrune s t ≠ 0 := h07.1 (by simpa using hroot)
  have e : (mvOf rng s key t w).node = if (mvOf rng s key t w).grow then
      (choose_leaf (spOf s t) (affOf s t) s.p_propose_grow (rng w (KeyLike.split (KeyLike.split
        (KeyLike.split (KeyLike.split (KeyLike.split key 2 1) 2 1) (1 + s.leaf_trees.length)
          (1 + t)) 2 0) 3 0))).leaf_to_grow
      else (if nPrune s t ≠ 0 then randint_masked (rng w
        (KeyLike.split (KeyLike.split (KeyLike.split (KeyLike.split key 2 1) 2 1)
          (1 + s.leaf_trees.length) (1 + t)) 2 1)) (is_leaves_parent (spOf s t))
          else 2 * (spOf s t).length) := rfl
  rw [e, if_neg (by simp [hg]), if_pos hne, hs.leaf_length, (C24_randint_masked _).1, hsites.prune]
  rfl

theorem len_prunePick (ha : ValidArgs a) (hs : StateInv a s) (ht : t < a.num_trees) {i : Nat}
    (hp : IsLeafParent (spOf s t) i) :
    len {x | x ∈ Set.Ico (0 : ℝ) 1 ∧ prunePick s t x = i} = 1 / (nPrune s t : ℝ) := by
  have hT := hs.tree t ht
  exact len_bij (C24_randint_masked (F := ℝ) (is_leaves_parent (spOf s t))).2
    ((C05_is_leaves_parent (spOf s t) _ ha.depth_lt hT.valid i).2.2 hp)

end
end Bartz
