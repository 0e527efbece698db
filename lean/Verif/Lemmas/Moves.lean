import Verif.Lemmas.Rules
import Verif.Props.Sampling
import Verif.Props.Grove
/-! # The moves proposed by `sample_moves` -/

set_option autoImplicit false

namespace Bartz
open Jax Spec

/-- The part of the configuration relevant to the structure of the trees. -/
structure Cfg where
  h : Nat
  n : Nat
  X : List (List Nat)
  ms : List Nat
  m : Option Nat
  var_bits : Nat
  split_bits : Nat
  idx_bits : Nat

structure Cfg.OK (c : Cfg) : Prop where
  hh : 1 ≤ c.h
  h64 : c.h < 64
  p_pos : 0 < c.ms.length
  p_le : c.ms.length < 2 ^ 64
  X_len : c.X.length = c.ms.length
  X_row : ∀ row ∈ c.X, row.length = c.n
  ms_fits : ∀ v, at0 c.ms v < 2 ^ c.split_bits
  split_bits : 8 ≤ c.split_bits
  no_wrap : (∀ v, at0 c.ms v + 1 < 2 ^ c.split_bits) ∨
    ((∀ v j, v < c.ms.length → j < c.n → (c.X.getD v []).getD j 0 ≤ at0 c.ms v) ∧ ∃ m, 1 ≤ m ∧ c.m = some m)
  var_bits : c.var_bits = minimal_unsigned_dtype ((c.ms.length : Int) - 1)
  idx_bits : c.idx_bits = minimal_unsigned_dtype ((2 : Int) ^ (c.h + 1) - 1)

variable {F : Type} [Inhabited F] [Zero F] [One F] [Add F] [Sub F] [Mul F] [Div F]
  [Neg F] [NatCast F] [FltFun F]
variable {h i : Nat} {split var : List Nat} {aff : Option (List Bool)} {ppg : List F}

/-- The leaf `i` is marked as growable. -/
def Growable (h : Nat) (split : List Nat) (aff : Option (List Bool)) (i : Nat) : Prop :=
  IsLeaf split i ∧ i < 2 ^ h ∧ ∀ a, aff = some a → a.getD i false = true

def AffLen (h : Nat) (aff : Option (List Bool)) : Prop := ∀ a, aff = some a → a.length = 2 ^ h

theorem length_growable (hs : split.length = 2 ^ h) (ha : AffLen h aff) :
    (growable_leaves split aff).length = 2 ^ h := by
  unfold growable_leaves
  cases aff with
  | none => simp [length_is_actual_leaf, hs]
  | some a => simp [length_is_actual_leaf, hs, ha a rfl]

theorem growable_iff (hv : ValidSplit h split) (hh : 1 ≤ h) (h64 : h < 64) :
    (growable_leaves split aff).getD i false = true ↔ Growable h split aff i := by
  have hC := (C04_is_actual_leaf split h hh h64 hv i).2.2
  unfold growable_leaves Growable
  cases aff with
  | none => simp only [hC]; simp
  | some a =>
    simp only
    rw [getD_zipWith_and, Bool.and_eq_true, hC]
    simp [and_assoc]

/-- the weights are in (0, 1] and represented with full precision -/
def Positive (ppg : List F) : Prop := ∀ x ∈ ppg, FltFun.leb FltFun.tiny x = true ∧ FltFun.leb x 0 = false ∧
  FltFun.leb x 1 = true

theorem choose_leaf_none (hs : split.length = 2 ^ h) (draw : Draws F)
    (he : (choose_leaf split aff ppg draw).num_growable = 0) :
    (choose_leaf split aff ppg draw).leaf_to_grow = 2 * 2 ^ h := by
  have he' : countNonzero (growable_leaves split aff) = 0 := he
  simp only [choose_leaf]
  rw [if_neg (by simp [he']), hs]

theorem choose_leaf_spec [FloatLaws F] (hv : ValidSplit h split) (hh : 1 ≤ h) (h64 : h < 64)
    (ha : AffLen h aff) (hl : ppg.length = 2 ^ h) (hpos : Positive ppg) (draw : Draws F)
    (hd : LawfulDraws draw) :
    (choose_leaf split aff ppg draw).num_growable = countNonzero (growable_leaves split aff) ∧
    ((choose_leaf split aff ppg draw).num_growable ≠ 0 →
      Growable h split aff (choose_leaf split aff ppg draw).leaf_to_grow) ∧
    ((choose_leaf split aff ppg draw).num_growable = 0 →
      (choose_leaf split aff ppg draw).leaf_to_grow = 2 * 2 ^ h) := by
  refine ⟨rfl, ?_, ?_⟩
  · intro hne
    have hne' : countNonzero (growable_leaves split aff) ≠ 0 := hne
    have hleaf : (choose_leaf split aff ppg draw).leaf_to_grow = (categorical draw
        (List.zipWith (fun g p => if g then p else 0) (growable_leaves split aff) ppg)).1 := by
      simp only [choose_leaf]
      rw [if_pos hne']
    rw [hleaf]
    have hlg := length_growable hv.length ha
    obtain ⟨i, hi, hgi⟩ := (countNonzero_pos_iff _).1 (Nat.pos_of_ne_zero hne')
    have hiff : ∀ j, (hj : j < (List.zipWith (fun g (p : F) => if g then p else 0)
        (growable_leaves split aff) ppg).length) →
        (List.zipWith (fun g (p : F) => if g then p else 0) (growable_leaves split aff) ppg)[j] =
        if (growable_leaves split aff).getD j false then ppg.getD j 0 else 0 := by
      intro j hj
      rw [List.length_zipWith] at hj
      rw [List.getElem_zipWith, List.getD_eq_getElem _ _ (by omega),
        List.getD_eq_getElem _ _ (by omega)]
    obtain ⟨hlt, hw⟩ := categorical_spec draw hd
      (List.zipWith (fun g (p : F) => if g then p else 0) (growable_leaves split aff) ppg) (by
        intro x hx
        obtain ⟨j, hj, rfl⟩ := List.getElem_of_mem hx
        rw [hiff]
        rw [List.length_zipWith] at hj
        split_ifs
        · rw [List.getD_eq_getElem _ _ (by omega)]
          exact ⟨FloatLaws.tiny_le _ (hpos _ (List.getElem_mem _)).1, (hpos _ (List.getElem_mem _)).2.2⟩
        · exact ⟨FloatLaws.zero_le_zero, FloatLaws.zero_le_one⟩) (by
        refine ⟨_, List.getElem_mem (n := i) (by rw [List.length_zipWith]; omega), ?_⟩
        rw [hiff, if_pos hgi, List.getD_eq_getElem _ _ (by omega)]
        exact ⟨(hpos _ (List.getElem_mem _)).1, (hpos _ (List.getElem_mem _)).2.1⟩)
    rw [hiff] at hw
    rw [← growable_iff hv hh h64]
    by_contra hc
    rw [if_neg hc] at hw
    exact hw rfl
  · exact choose_leaf_none hv.length draw

theorem choose_leaf_parent_spec (hv : ValidSplit h split) (hh : 1 ≤ h) (h64 : h < 64)
    (draw : Draws F) (hd : LawfulDraws draw) :
    (at0 split 1 ≠ 0 → IsLeafParent split (choose_leaf_parent split aff ppg draw).node_to_prune) ∧
    (at0 split 1 = 0 → (choose_leaf_parent split aff ppg draw).node_to_prune = 2 * 2 ^ h) := by
  have h07 := (C07_prunable split h hh h64 hv).2
  have h2 : 2 ≤ 2 ^ h := by
    calc 2 = 2 ^ 1 := rfl
      _ ≤ 2 ^ h := Nat.pow_le_pow_right (by norm_num) hh
  rw [gather_at0 (by rw [hv.length]; omega)] at h07
  constructor
  · intro h1
    have hne : countNonzero (is_leaves_parent split) ≠ 0 := h07.1 (by simpa using h1)
    have hnode : (choose_leaf_parent split aff ppg draw).node_to_prune =
        randint_masked draw (is_leaves_parent split) := by
      simp only [choose_leaf_parent]
      rw [if_pos hne]
    rw [hnode]
    obtain ⟨heq, hbij⟩ := C24_randint_masked (F := F) (is_leaves_parent split)
    rw [heq draw]
    have hne' : 0 < (is_leaves_parent split).count true := Nat.pos_of_ne_zero hne
    have := hbij.mapsTo (x := draw.randint 0 ((is_leaves_parent split).count true))
      (hd.randint_mem _ _ hne').2
    exact (C05_is_leaves_parent split h h64 hv _).2.1 this
  · intro h1
    have he : countNonzero (is_leaves_parent split) = 0 := by
      by_contra hc
      have := h07.2 hc
      simp [h1] at this
    simp only [choose_leaf_parent]
    rw [if_neg (by simp [he]), hv.length]

/-- What is known about the split proposed at leaf `i` for variable `v`. -/
structure SplitChoice (ms var split : List Nat) (i v s : Nat) : Prop where
  pos : 1 ≤ s
  rule : if 1 ≤ at0 ms v then
      (interval var split v (1 + at0 ms v) i).1 < s ∧ s < (interval var split v (1 + at0 ms v) i).2
    else s ≤ Nat.log2 i + 1

theorem Cfg.OK.split_fits {c : Cfg} (hc : c.OK) {v i s : Nat} (hi : i < 2 ^ c.h)
    (hsc : SplitChoice c.ms var split i v s) : s < 2 ^ c.split_bits := by
  have h8 : 2 ^ 8 ≤ 2 ^ c.split_bits := Nat.pow_le_pow_right (by norm_num) hc.split_bits
  have h1 := hsc.rule
  split_ifs at h1 with hms
  · have h2 := hc.ms_fits v
    have h3 : (interval var split v (1 + at0 c.ms v) i).2 ≤ 1 + at0 c.ms v := interval_snd_le
    omega
  · have h2 := hc.h64
    have := log2_lt_depth hc.hh hi
    omega

/-- What is known about a proposed move for a tree. -/
structure MoveOK (c : Cfg) (var split : List Nat) (aff : Option (List Bool)) (mv : Move F) :
    Prop where
  left : mv.left = 2 * mv.node
  right : mv.right = 2 * mv.node + 1
  num_growable : mv.num_growable = countNonzero (growable_leaves split aff)
  len : mv.var_tree.length = 2 ^ c.h
  vars : ∀ i, at0 mv.var_tree i ≠ at0 var i → Growable c.h split aff i ∧
    (at0 mv.var_tree i < c.ms.length ∨ at0 mv.var_tree i < c.h)
  grow_leaf : mv.grow = true → Growable c.h split aff mv.node
  grow_allowed : mv.grow = true → mv.allowed = true
  grow_tree : mv.grow = true → mv.var_tree = setDrop var mv.node mv.grow_var
  grow_var : mv.grow = true → VarChoice c.h c.var_bits c.split_bits c.ms var split mv.node mv.grow_var
  grow_split : mv.grow = true → ¬ Wraps c.split_bits c.ms var split mv.node mv.grow_var →
    SplitChoice c.ms var split mv.node mv.grow_var mv.grow_split
  grow_fits : mv.grow = true → mv.grow_split < 2 ^ c.split_bits
  prune_node : mv.grow = false → mv.allowed = true → IsLeafParent split mv.node
  none_node : mv.grow = false → mv.allowed = false → mv.node = 2 * 2 ^ c.h ∧ at0 split 1 = 0

theorem at0_setDrop (a : List Nat) (i j v : Nat) :
    at0 (setDrop a i v) j = if i = j ∧ j < a.length then v else at0 a j := by
  unfold at0; exact getD_setDrop a i j v 0

section moves
variable {K : Type} [KeyLike K]

/-- the moves are valid if the leaf chosen to be grown is one of the growable ones -/
theorem move_ok_of (c : Cfg) (hc : c.OK) (rng : Rng K F) (hrng : LawfulRng rng)
    (hvar : var.length = 2 ^ c.h) (hv : ValidSplit c.h split)
    (hok : VarOK c.ms.length c.h var) (hr : RulesOK c.ms var split)
    (p_nonterminal : List F) (k0 k1 : K)
    (hg2 : (choose_leaf split aff ppg (rng (KeyLike.split k0 3 0))).num_growable ≠ 0 →
      Growable c.h split aff (choose_leaf split aff ppg (rng (KeyLike.split k0 3 0))).leaf_to_grow)
    (u logu : F) (hu : FltFun.ltb u 0 = false) :
    MoveOK c var split aff
      (combine_moves (grow_move rng c.var_bits c.split_bits var split aff c.ms p_nonterminal ppg k0)
        (prune_move rng split aff p_nonterminal ppg k1) u logu) := by
  have h2 : 2 ≤ 2 ^ c.h := by
    calc 2 = 2 ^ 1 := rfl
      _ ≤ 2 ^ c.h := Nat.pow_le_pow_right (by norm_num) hc.hh
  set gm := grow_move rng c.var_bits c.split_bits var split aff c.ms p_nonterminal ppg k0 with hgm
  set pm := prune_move rng split aff p_nonterminal ppg k1 with hpm
  have hg1 : (choose_leaf split aff ppg (rng (KeyLike.split k0 3 0))).num_growable =
    countNonzero (growable_leaves split aff) := rfl
  have hg3 := choose_leaf_none (ppg := ppg) (aff := aff) hv.length (rng (KeyLike.split k0 3 0))
  obtain ⟨hp1, hp2⟩ := choose_leaf_parent_spec (aff := aff) (ppg := ppg) hv hc.hh hc.h64 (rng k1)
    (hrng _)
  -- facts on the grow move
  have gnode : gm.node = (choose_leaf split aff ppg (rng (KeyLike.split k0 3 0))).leaf_to_grow := rfl
  have gnum : gm.num_growable =
      (choose_leaf split aff ppg (rng (KeyLike.split k0 3 0))).num_growable := rfl
  have gvar : gm.var = choose_variable c.var_bits c.split_bits var split c.ms gm.node (rng (KeyLike.split k0 3 1)) := rfl
  have gtree : gm.var_tree = setDrop var gm.node (astype c.var_bits gm.var) := rfl
  have gsplit : gm.split = choose_split c.split_bits gm.var_tree split c.ms gm.node
      (rng (KeyLike.split k0 3 2)) := rfl
  have pnode : pm.node = (choose_leaf_parent split aff ppg (rng k1)).node_to_prune := rfl
  have pall : pm.allowed = (at0 split 1 != 0) := by
    rw [← gather_at0 (by rw [hv.length]; omega)]; rfl
  rw [← gnode, ← gnum] at hg2 hg3
  rw [← gnum] at hg1
  rw [← pnode] at hp1 hp2
  have vch : gm.num_growable ≠ 0 → VarChoice c.h c.var_bits c.split_bits c.ms var split gm.node gm.var ∧
      astype c.var_bits gm.var = gm.var := by
    intro hne
    have hgr := hg2 hne
    have hch := choose_variable_ok (ms := c.ms) hc.hh hc.h64 hvar hv.length hc.p_le.le hok hr
      hgr.1.1 hgr.2.1 (vb := c.var_bits) hc.ms_fits hc.split_bits (rng (KeyLike.split k0 3 1)) (hrng _)
    rw [← gvar] at hch
    refine ⟨hch, astype_of_lt ?_⟩
    rw [hc.var_bits]
    exact varOK_fits hc.h64 hc.p_le.le hch.small (le_refl _)
  have growne : (combine_moves gm pm u logu).grow = true → gm.num_growable ≠ 0 := by
    intro hgrow hz
    have : FltFun.ltb u (0 : F) = true := by
      simp only [combine_moves, hz] at hgrow
      simpa using hgrow
    rw [hu] at this
    simp at this
  have hs : gm.num_growable ≠ 0 → gm.split = (rng (KeyLike.split k0 3 2)).randint
      (astype c.split_bits ((interval var split gm.var (1 + at0 c.ms gm.var) gm.node).1 + 1))
      (interval var split gm.var (1 + at0 c.ms gm.var) gm.node).2 := by
    intro hnz
    obtain ⟨hch, hast⟩ := vch hnz
    have hgr := hg2 hnz
    have hlen : gm.var_tree.length = 2 ^ c.h := by
      rw [gtree]; unfold setDrop; rw [List.length_set, hvar]
    have hgv : gather gm.var_tree gm.node = gm.var := by
      rw [gather_at0 (by rw [hlen]; exact hgr.2.1), gtree, at0_setDrop,
        if_pos ⟨rfl, by rw [hvar]; exact hgr.2.1⟩, hast]
    have hint : ∀ R, interval gm.var_tree split gm.var R gm.node =
        interval var split gm.var R gm.node := by
      intro R
      apply interval_congr hgr.1.1
      intro j hj
      refine ⟨?_, rfl⟩
      rw [gtree, at0_setDrop, if_neg]
      rintro ⟨e, _⟩
      rw [← e] at hj
      exact hj.2 hgr.1.2
    rw [gsplit, choose_split]
    simp only
    rw [hgv, split_range_eq hc.hh hlen hv.length c.ms hgr.2.1, hint]
  have gchoice : gm.num_growable ≠ 0 → ¬ Wraps c.split_bits c.ms var split gm.node gm.var →
      SplitChoice c.ms var split gm.node gm.var gm.split := by
    intro hnz hnw
    have hch := (vch hnz).1
    have hgr := hg2 hnz
    have hs' := hs hnz
    rw [astype_fst hnw hr hgr.1.1 (hc.ms_fits _) hc.split_bits hc.hh hc.h64 hgr.2.1] at hs'
    by_cases hms : 1 ≤ at0 c.ms gm.var
    · have hroom := hch.room hms hnw
      have := (hrng (KeyLike.split k0 3 2)).randint_mem _ _ hroom
      rw [← hs'] at this
      refine ⟨by omega, ?_⟩
      rw [if_pos hms]
      omega
    · have hle : (interval var split gm.var (1 + at0 c.ms gm.var) gm.node).2 ≤
          1 + at0 c.ms gm.var := interval_snd_le
      have := (hrng (KeyLike.split k0 3 2)).randint_empty
        ((interval var split gm.var (1 + at0 c.ms gm.var) gm.node).1 + 1)
        (interval var split gm.var (1 + at0 c.ms gm.var) gm.node).2 (by omega)
      rw [← hs'] at this
      have hb := interval_fst_bound (R := 1 + at0 c.ms gm.var) hr hgr.1.1 (by omega : at0 c.ms gm.var = 0)
      refine ⟨by omega, ?_⟩
      rw [if_neg hms]
      omega
  refine
    { left := ?_, right := ?_, num_growable := hg1, len := ?_, vars := ?_, grow_leaf := ?_,
      grow_allowed := ?_, grow_tree := ?_, grow_var := ?_, grow_split := ?_, grow_fits := ?_, prune_node := ?_,
      none_node := ?_ }
  · simp only [combine_moves, Nat.shiftLeft_eq]; omega
  · simp only [combine_moves, Nat.shiftLeft_eq]; omega
  · show gm.var_tree.length = _
    rw [gtree]; unfold setDrop; rw [List.length_set, hvar]
  · intro i hne
    have e : (combine_moves gm pm u logu).var_tree = gm.var_tree := rfl
    rw [e, gtree, at0_setDrop] at hne ⊢
    by_cases hcnd : gm.node = i ∧ i < var.length
    · have hnz : gm.num_growable ≠ 0 := by
        intro hz
        have := hg3 hz
        omega
      rw [if_pos hcnd, (vch hnz).2]
      rw [← hcnd.1]
      exact ⟨hg2 hnz, (vch hnz).1.small⟩
    · rw [if_neg hcnd] at hne; exact absurd rfl hne
  · intro hgrow
    have hnz := growne hgrow
    have : (combine_moves gm pm u logu).node = gm.node := by
      simp only [combine_moves] at hgrow ⊢; rw [if_pos hgrow]
    rw [this]; exact hg2 hnz
  · intro hgrow
    simp only [combine_moves] at hgrow ⊢; rw [hgrow]; rfl
  · intro hgrow
    have hnz := growne hgrow
    have : (combine_moves gm pm u logu).node = gm.node := by
      simp only [combine_moves] at hgrow ⊢; rw [if_pos hgrow]
    rw [this]
    show gm.var_tree = setDrop var gm.node gm.var
    rw [gtree, (vch hnz).2]
  · intro hgrow
    have hnz := growne hgrow
    have : (combine_moves gm pm u logu).node = gm.node := by
      simp only [combine_moves] at hgrow ⊢; rw [if_pos hgrow]
    rw [this]
    exact (vch hnz).1
  · intro hgrow
    have hnz := growne hgrow
    have : (combine_moves gm pm u logu).node = gm.node := by
      simp only [combine_moves] at hgrow ⊢; rw [if_pos hgrow]
    rw [this]
    exact gchoice hnz
  · intro hgrow
    have hnz := growne hgrow
    show gm.split < _
    by_cases hw : Wraps c.split_bits c.ms var split gm.node gm.var
    · obtain ⟨w1, w2, w3⟩ := hw.spec hr (hg2 hnz).1.1 (hc.ms_fits _) hc.split_bits hc.hh hc.h64 (hg2 hnz).2.1
      rw [hs hnz, show (interval var split gm.var (1 + at0 c.ms gm.var) gm.node).1 + 1 = 2 ^ c.split_bits from hw,
        w3, show astype c.split_bits (2 ^ c.split_bits) = 0 from Nat.mod_self _]
      exact ((hrng (KeyLike.split k0 3 2)).randint_mem _ _ (Nat.two_pow_pos _)).2
    · exact hc.split_fits (hg2 hnz).2.1 (gchoice hnz hw)
  · intro hgrow hall
    have hn : (combine_moves gm pm u logu).node = pm.node := by
      simp only [combine_moves] at hgrow ⊢; rw [if_neg (by rw [hgrow]; simp)]
    have ha' : pm.allowed = true := by
      simp only [combine_moves] at hgrow hall
      rw [hgrow] at hall
      simpa using hall
    rw [hn]
    rw [pall] at ha'
    exact hp1 (by simpa using ha')
  · intro hgrow hall
    have hn : (combine_moves gm pm u logu).node = pm.node := by
      simp only [combine_moves] at hgrow ⊢; rw [if_neg (by rw [hgrow]; simp)]
    have ha' : pm.allowed = false := by
      simp only [combine_moves] at hgrow hall
      rw [hgrow] at hall
      simpa using hall
    rw [hn]
    rw [pall] at ha'
    have : at0 split 1 = 0 := by simpa using ha'
    exact ⟨hp2 this, this⟩

theorem move_ok [FloatLaws F] (c : Cfg) (hc : c.OK) (rng : Rng K F) (hrng : LawfulRng rng)
    (hvar : var.length = 2 ^ c.h) (hv : ValidSplit c.h split) (ha : AffLen c.h aff)
    (hok : VarOK c.ms.length c.h var) (hr : RulesOK c.ms var split)
    (hl : ppg.length = 2 ^ c.h) (hpos : Positive ppg) (p_nonterminal : List F) (k0 k1 : K)
    (u logu : F) (hu : FltFun.leb 0 u = true) :
    MoveOK c var split aff
      (combine_moves (grow_move rng c.var_bits c.split_bits var split aff c.ms p_nonterminal ppg k0)
        (prune_move rng split aff p_nonterminal ppg k1) u logu) :=
  move_ok_of c hc rng hrng hvar hv hok hr p_nonterminal k0 k1
    (choose_leaf_spec hv hc.hh hc.h64 ha hl hpos (rng (KeyLike.split k0 3 0)) (hrng _)).2.1 u logu
    (by rw [FloatLaws.lt_iff u 0 hu FloatLaws.zero_le_zero, hu]; rfl)

end moves
end Bartz
