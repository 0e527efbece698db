import Verif.Lemmas.StepForm
import Verif.Spec.Mcmc
import Verif.Spec.Picks
/-! # The invariant of the mcmc state -/

set_option autoImplicit false

namespace Bartz
open Jax Spec

section
variable {K F : Type} [KeyLike K] [Inhabited F] [Zero F] [One F] [Add F] [Sub F] [Mul F] [Div F]
  [Neg F] [NatCast F] [FltFun F]

/-- the configuration set by `init` -/
def cfgOf (a : InitArgs F) : Cfg :=
  { h := a.p_nonterminal.length, n := a.y.length, X := a.X, ms := a.max_split
    m := a.min_points_per_leaf
    var_bits := minimal_unsigned_dtype ((a.X.length : Int) - 1)
    split_bits := a.split_bits
    idx_bits := minimal_unsigned_dtype ((2 : Int) ^ (a.p_nonterminal.length + 1) - 1) }

omit [KeyLike K] [Inhabited F] [Add F] [Sub F] [Mul F] [Div F] [Neg F] [NatCast F] in
theorem at0_no_overflow {a : InitArgs F} (ha : ValidArgs a) (hno : NoOverflow a) (v : Nat) :
    at0 a.max_split v + 1 < 2 ^ a.split_bits := by
  unfold at0
  by_cases h : v < a.max_split.length
  · rw [List.getD_eq_getElem _ _ h]
    exact hno _ (List.getElem_mem _)
  · rw [List.getD_eq_default _ _ (by omega)]
    have : 2 ^ 8 ≤ 2 ^ a.split_bits := Nat.pow_le_pow_right (by norm_num) ha.split_bits
    omega

omit [KeyLike K] [Inhabited F] [Add F] [Sub F] [Mul F] [Div F] [Neg F] [NatCast F] in
theorem cfgOf_ok {a : InitArgs F} (ha : ValidArgs a) : (cfgOf a).OK where
  hh := ha.depth_pos
  h64 := ha.depth_lt
  p_pos := ha.predictors_pos
  p_le := ha.predictors_lt
  X_len := ha.X_length
  X_row := ha.X_row
  ms_fits := by
    intro v
    show at0 a.max_split v < 2 ^ a.split_bits
    unfold at0
    by_cases h : v < a.max_split.length
    · rw [List.getD_eq_getElem _ _ h]
      exact ha.max_split_fits _ (List.getElem_mem _)
    · rw [List.getD_eq_default _ _ (by omega)]
      exact Nat.two_pow_pos _
  split_bits := ha.split_bits
  no_wrap := ha.overflow.imp_left fun h => at0_no_overflow ha h
  var_bits := by show minimal_unsigned_dtype _ = minimal_unsigned_dtype _; rw [ha.X_length]; rfl
  idx_bits := rfl

/-- The part of the state that does not change. -/
structure SameConfig (a : InitArgs F) (s : State F) : Prop where
  p_nonterminal : s.p_nonterminal = (init a).p_nonterminal
  p_propose_grow : s.p_propose_grow = (init a).p_propose_grow
  sigma2_alpha : s.sigma2_alpha = a.sigma2_alpha
  sigma2_beta : s.sigma2_beta = a.sigma2_beta
  max_split : s.max_split = a.max_split
  y : s.y = a.y
  X : s.X = a.X
  min_points_per_leaf : s.min_points_per_leaf = a.min_points_per_leaf
  resid_batch_size : s.resid_batch_size = a.resid_batch_size
  count_batch_size : s.count_batch_size = a.count_batch_size
  ratios : s.ratios.isSome = a.save_ratios
  var_bits : s.var_bits = (cfgOf a).var_bits
  split_bits : s.split_bits = (cfgOf a).split_bits
  idx_bits : s.idx_bits = (cfgOf a).idx_bits

/-- The invariant of the state. -/
structure StateInv (a : InitArgs F) (s : State F) : Prop where
  cfg : SameConfig a s
  leaf_length : s.leaf_trees.length = a.num_trees
  var_length : s.var_trees.length = a.num_trees
  split_length : s.split_trees.length = a.num_trees
  idx_length : s.leaf_indices.length = a.num_trees
  aff_length : ∀ x, s.affluence_trees = some x → x.length = a.num_trees
  resid_length : s.resid.length = a.y.length
  leaf_size : ∀ t, t < a.num_trees →
    (s.leaf_trees.getD t []).length = 2 ^ (a.p_nonterminal.length + 1)
  ratios_length : ∀ x, s.ratios = some x → x.1.length = a.num_trees ∧ x.2.length = a.num_trees
  tree : ∀ t, t < a.num_trees → TreeInv (cfgOf a) (s.var_trees.getD t []) (s.split_trees.getD t [])
    (s.leaf_indices.getD t []) (s.affluence_trees.map fun x => x.getD t [])

theorem SameConfig.step {a : InitArgs F} {s : State F} (h : SameConfig a s) (rng : Rng K F)
    (key : K) : SameConfig a (Bartz.step rng s key) := by
  rw [step_eq, sample_trees_eq]
  exact
    { p_nonterminal := h.p_nonterminal, p_propose_grow := h.p_propose_grow,
      sigma2_alpha := h.sigma2_alpha, sigma2_beta := h.sigma2_beta, max_split := h.max_split,
      y := h.y, X := h.X, min_points_per_leaf := h.min_points_per_leaf,
      resid_batch_size := h.resid_batch_size, count_batch_size := h.count_batch_size,
      ratios := by
        have := h.ratios
        simp only [sample_sigma, Option.isSome_map]
        exact this
      var_bits := h.var_bits, split_bits := h.split_bits, idx_bits := h.idx_bits }

/-! ### Initial state -/

omit [KeyLike K] [Add F] [Sub F] [Mul F] [Neg F] [NatCast F] in
theorem ppg_ok {a : InitArgs F} (ha : ValidArgs a) :
    (init a).p_propose_grow.length = 2 ^ (cfgOf a).h ∧ Positive (init a).p_propose_grow := by
  have hlen := length_tree_depths (2 ^ a.p_nonterminal.length)
  have hl : (init a).p_propose_grow =
      (tree_depths (2 ^ a.p_nonterminal.length)).map fun d => gather (a.p_nonterminal ++ [0]) d := by
    simp [init]
  rw [hl]
  constructor
  · rw [List.length_map, hlen]; rfl
  · intro x hx
    rw [List.mem_map] at hx
    obtain ⟨d, hd, rfl⟩ := hx
    have hdlt : d < a.p_nonterminal.length := by
      obtain ⟨i, hi, rfl⟩ := List.getElem_of_mem hd
      rw [← List.getD_eq_getElem _ 0 hi, tree_depths_getD (by omega)]
      rcases Nat.eq_zero_or_pos i with h0 | h0
      · subst h0; have := ha.depth_pos; simp; omega
      · exact (Nat.log2_lt (by omega)).2 (by omega)
    rw [gather_of_lt (by simp; omega), List.getElem_append_left hdlt]
    exact ha.nonterminal_pos _ (List.getElem_mem _)

theorem at0_make_tree (h i : Nat) : at0 (make_tree h 0) i = 0 := by
  simp only [at0, make_tree, List.getD_eq_getElem?_getD, List.getElem?_replicate]
  split_ifs <;> rfl

omit [KeyLike K] [Add F] [Sub F] [Mul F] [Neg F] [NatCast F] in
theorem treeInv_init {a : InitArgs F} (ha : ValidArgs a) :
    TreeInv (cfgOf a) (make_tree a.p_nonterminal.length 0) (make_tree a.p_nonterminal.length 0)
      (List.replicate a.y.length 1)
      (a.min_points_per_leaf.map fun m => setDrop (make_tree a.p_nonterminal.length false) 1
        (decide (a.y.length ≥ 2 * m))) := by
  have hz := at0_make_tree a.p_nonterminal.length
  have hC := C06_depths.2.2.2 a.p_nonterminal.length
  have h2 : 2 ≤ 2 ^ a.p_nonterminal.length := by
    calc 2 = 2 ^ 1 := rfl
      _ ≤ 2 ^ _ := Nat.pow_le_pow_right (by norm_num) ha.depth_pos
  have hroot : ∀ i, IsLeaf (make_tree a.p_nonterminal.length 0) i ↔ i = 1 := fun i =>
    ⟨fun h => (hC i).2.1 h.1, fun h => ⟨(hC i).2.2 h, hz i⟩⟩
  refine
    { var_len := by simp [make_tree, cfgOf], valid := (hC 0).1, var_zero := hz 0,
      var_ok := fun i => Or.inl (by rw [hz]; exact ha.predictors_pos)
      rules := fun i hd => absurd (hz i) hd.2, idx_len := by simp [cfgOf]
      falls := ?_, aff_len := ?_, aff_some := by simp [cfgOf], aff_ok := ?_
      minpts := fun m _ h1 => absurd (hz 1) h1, good := fun _ i hd => absurd (hz i) hd.2 }
  · intro j hj
    have : at0 (List.replicate a.y.length 1) j = 1 := by
      have hj' : j < a.y.length := hj
      unfold at0; rw [List.getD_eq_getElem _ _ (by simpa using hj')]; simp
    rw [this]
    exact ⟨(hroot 1).2 rfl, .root⟩
  · intro x hx
    cases hm : a.min_points_per_leaf with
    | none => simp [hm] at hx
    | some m =>
      simp only [hm, Option.map_some, Option.some.injEq] at hx
      rw [← hx]; simp [make_tree, cfgOf]
  · intro m x hm hx i hl hi
    have hm' : a.min_points_per_leaf = some m := hm
    simp only [hm', Option.map_some, Option.some.injEq] at hx
    have := (hroot i).1 hl
    subst this
    rw [← hx, getD_setDrop, if_pos ⟨rfl, by simp only [make_tree, List.length_replicate]; omega⟩]
    simp [List.count_replicate_self]

omit [KeyLike K] [Add F] [Sub F] [Mul F] [Neg F] [NatCast F] in
theorem stateInv_init {a : InitArgs F} (ha : ValidArgs a) : StateInv a (init a) := by
  refine
    { cfg := ?_, leaf_length := by simp [init, make_forest], var_length := by simp [init, make_forest]
      split_length := by simp [init, make_forest], idx_length := by simp [init]
      aff_length := ?_, resid_length := rfl, leaf_size := ?_, ratios_length := ?_, tree := ?_ }
  · exact
      { p_nonterminal := rfl, p_propose_grow := rfl, sigma2_alpha := rfl, sigma2_beta := rfl,
        max_split := rfl, y := rfl, X := rfl, min_points_per_leaf := rfl, resid_batch_size := rfl,
        count_batch_size := rfl
        ratios := by
          simp only [init]
          cases a.save_ratios <;> simp
        var_bits := rfl, split_bits := rfl
        idx_bits := by simp [init, cfgOf] }
  · intro x hx
    simp only [init] at hx
    cases hm : a.min_points_per_leaf with
    | none => simp [hm] at hx
    | some m =>
      simp only [hm, Option.map_some, Option.some.injEq] at hx
      rw [← hx]; simp [make_forest]
  · intro t ht
    simp only [init, make_forest]
    rw [getD_vmap ht]
    simp [make_tree]
  · intro x hx
    simp only [init] at hx
    split_ifs at hx
    simp only [Option.some.injEq] at hx
    rw [← hx]; simp
  · intro t ht
    have := treeInv_init ha
    simp only [init, make_forest]
    rw [getD_vmap ht, getD_vmap ht]
    simp only [List.length_append, List.length_singleton, Nat.add_sub_cancel]
    convert this using 1
    rw [Option.map_map]
    congr 1
    funext m
    simp only [Function.comp]
    rw [map_vmap, getD_vmap ht]

/-! ### Steps -/

variable {a : InitArgs F} {s : State F}

theorem moveOf_ok_of (ha : ValidArgs a) (hs : StateInv a s) (rng : Rng K F)
    (hrng : LawfulRng rng) (key : K) {t : Nat} (ht : t < a.num_trees) (hp : Picks rng s key t)
    (hu : FltFun.ltb ((rng (KeyLike.split key (1 + s.leaf_trees.length) 0)).uniform2 0 t) 0 = false) :
    MoveOK (cfgOf a) (s.var_trees.getD t []) (s.split_trees.getD t [])
      (s.affluence_trees.map fun x => x.getD t []) (moveOf rng s key t) := by
  have hT := hs.tree t ht
  have := move_ok_of (cfgOf a) (cfgOf_ok ha) rng hrng hT.var_len hT.valid hT.var_ok hT.rules s.p_nonterminal
    (KeyLike.split (KeyLike.split key (1 + s.leaf_trees.length) (1 + t)) 2 0)
    (KeyLike.split (KeyLike.split key (1 + s.leaf_trees.length) (1 + t)) 2 1)
    (fun h => (growable_iff hT.valid (cfgOf_ok ha).hh (cfgOf_ok ha).h64).1 (hp h))
    ((rng (KeyLike.split key (1 + s.leaf_trees.length) 0)).uniform2 0 t)
    ((rng (KeyLike.split key (1 + s.leaf_trees.length) 0)).uniform2 1 t) hu
  unfold moveOf
  rw [hs.cfg.var_bits, hs.cfg.split_bits, hs.cfg.max_split]
  exact this

theorem moveOf_ok [FloatLaws F] (ha : ValidArgs a) (hs : StateInv a s) (rng : Rng K F)
    (hrng : LawfulRng rng) (key : K) {t : Nat} (ht : t < a.num_trees) :
    MoveOK (cfgOf a) (s.var_trees.getD t []) (s.split_trees.getD t [])
      (s.affluence_trees.map fun x => x.getD t []) (moveOf rng s key t) := by
  have hT := hs.tree t ht
  have hp := ppg_ok ha
  rw [← hs.cfg.p_propose_grow] at hp
  have := move_ok (cfgOf a) (cfgOf_ok ha) rng hrng hT.var_len hT.valid hT.aff_len hT.var_ok hT.rules
    hp.1 hp.2 s.p_nonterminal
    (KeyLike.split (KeyLike.split key (1 + s.leaf_trees.length) (1 + t)) 2 0)
    (KeyLike.split (KeyLike.split key (1 + s.leaf_trees.length) (1 + t)) 2 1)
    ((rng (KeyLike.split key (1 + s.leaf_trees.length) 0)).uniform2 0 t)
    ((rng (KeyLike.split key (1 + s.leaf_trees.length) 0)).uniform2 1 t)
    ((hrng _).uniform2_nonneg _ _)
  unfold moveOf
  rw [hs.cfg.var_bits, hs.cfg.split_bits, hs.cfg.max_split]
  exact this

theorem workOf_move (rng : Rng K F) (s : State F) (key : K) (t : Nat) :
    (workOf rng s key t).move = moveOf rng s (KeyLike.split key 2 1) t := rfl

theorem workOf_idx (hs : StateInv a s) (rng : Rng K F) (key : K) (t : Nat) :
    (workOf rng s key t).leaf_indices = apply_grow_to_indices (cfgOf a).idx_bits
      (moveOf rng s (KeyLike.split key 2 1) t) (s.leaf_indices.getD t []) (cfgOf a).X := by
  rw [← hs.cfg.idx_bits, show (cfgOf a).X = s.X from hs.cfg.X.symm]; rfl

theorem workOf_counts (rng : Rng K F) (s : State F) (key : K) (t : Nat) :
    ((workOf rng s key t).count_tree, (workOf rng s key t).counts) =
      compute_count_tree (workOf rng s key t).leaf_indices (moveOf rng s (KeyLike.split key 2 1) t)
        s.count_batch_size := rfl

theorem accOf_to_prune (rng : Rng K F) (s : State F) (key : K) (t : Nat) :
    (accOf rng s key t).2.to_prune =
      ((accOf rng s key t).2.acc ^^ (moveOf rng s (KeyLike.split key 2 1) t).grow) := rfl

theorem accOf_allowed (rng : Rng K F) (s : State F) (key : K) (t : Nat)
    (h : (accOf rng s key t).2.acc = true) :
    (moveOf rng s (KeyLike.split key 2 1) t).allowed = true := by
  unfold accOf accept_move_and_sample_leaves at h
  dsimp only at h
  rw [workOf_move] at h
  rcases hm : s.min_points_per_leaf with _ | m
  · rw [hm] at h; simp at h; exact h.1
  · rw [hm] at h; simp at h; exact h.1.1.1

theorem accOf_min (rng : Rng K F) (s : State F) (key : K) (t m : Nat)
    (hm : s.min_points_per_leaf = some m) (h : (accOf rng s key t).2.acc = true) :
    m ≤ (workOf rng s key t).counts.left ∧ m ≤ (workOf rng s key t).counts.right := by
  unfold accOf accept_move_and_sample_leaves at h
  dsimp only at h
  rw [hm] at h
  simp at h
  exact ⟨h.1.2, h.2⟩

theorem length_accOf_leaf (rng : Rng K F) (s : State F) (key : K) (t L : Nat)
    (hr : (workOf rng s key t).leaf_tree.length = L)
    (hc : (workOf rng s key t).count_tree.length = L) :
    (accOf rng s key t).2.leaf_tree.length = L := by
  unfold accOf accept_move_and_sample_leaves
  dsimp only
  have hsr : ∀ (r : List F) (i : List Nat) (size : Nat) (b : Option Nat),
      (sum_resid r i size b).length = size := by
    intro r i size b
    unfold sum_resid
    cases b with
    | none => exact length_aggregate_scatter r i size
    | some b => exact length_aggregate_batched r i size b
  simp only [length_setDrop, List.length_zipWith, hsr, hr, hc]
  have h1 : (workOf rng s key t).prelf.mean_factor.length = L := by
    rw [← hc]; simp [workOf, parallel_stage_tree, precompute_leaf_terms]
  have h2 : (workOf rng s key t).prelf.centered_leaves.length = L := by
    rw [← hc]; simp [workOf, parallel_stage_tree, precompute_leaf_terms]
  rw [h1, h2]; omega

theorem length_work_leaf (hs : StateInv a s) (rng : Rng K F) (key : K) {t : Nat}
    (ht : t < a.num_trees) :
    (workOf rng s key t).leaf_tree.length = 2 ^ (a.p_nonterminal.length + 1) := by
  rw [← hs.leaf_size t ht]
  simp [workOf, parallel_stage_tree, adapt_leaf_tree_to_grow_indices]

theorem length_work_count_of (rng : Rng K F) (key : K) {t : Nat}
    (hm : MoveOK (cfgOf a) (s.var_trees.getD t []) (s.split_trees.getD t [])
      (s.affluence_trees.map fun x => x.getD t []) (moveOf rng s (KeyLike.split key 2 1) t)) :
    (workOf rng s key t).count_tree.length = 2 ^ (a.p_nonterminal.length + 1) := by
  have : (workOf rng s key t).count_tree = (compute_count_tree (workOf rng s key t).leaf_indices
      (moveOf rng s (KeyLike.split key 2 1) t) s.count_batch_size).1 := rfl
  rw [this, length_count_tree, hm.len]
  show 2 ^ a.p_nonterminal.length * 2 = _
  rw [pow_succ]

theorem length_work_count [FloatLaws F] (ha : ValidArgs a) (hs : StateInv a s) (rng : Rng K F)
    (hrng : LawfulRng rng) (key : K) {t : Nat} (ht : t < a.num_trees) :
    (workOf rng s key t).count_tree.length = 2 ^ (a.p_nonterminal.length + 1) :=
  length_work_count_of rng key (moveOf_ok ha hs rng hrng (KeyLike.split key 2 1) ht)

/-- the minimum number of datapoints in the children is checked -/
theorem accOf_min' (hs : StateInv a s) (rng : Rng K F) (key : K) {t : Nat} (ht : t < a.num_trees)
    (hmv : MoveOK (cfgOf a) (s.var_trees.getD t []) (s.split_trees.getD t [])
      (s.affluence_trees.map fun x => x.getD t []) (moveOf rng s (KeyLike.split key 2 1) t)) (m : Nat)
    (hm : (cfgOf a).m = some m) (h : (accOf rng s key t).2.acc = true) :
    m ≤ (apply_grow_to_indices (cfgOf a).idx_bits
      (moveOf rng s (KeyLike.split key 2 1) t) (s.leaf_indices.getD t []) (cfgOf a).X).count
        (2 * (moveOf rng s (KeyLike.split key 2 1) t).node) ∧
    m ≤ (apply_grow_to_indices (cfgOf a).idx_bits
      (moveOf rng s (KeyLike.split key 2 1) t) (s.leaf_indices.getD t []) (cfgOf a).X).count
        (2 * (moveOf rng s (KeyLike.split key 2 1) t).node + 1) := by
  have hT := hs.tree t ht
  have hal := accOf_allowed rng s key t h
  have hmin := accOf_min rng s key t m (hs.cfg.min_points_per_leaf.trans hm) h
  have e : (workOf rng s key t).counts = (compute_count_tree (workOf rng s key t).leaf_indices
      (moveOf rng s (KeyLike.split key 2 1) t) s.count_batch_size).2 := rfl
  rw [e, workOf_idx hs] at hmin
  have hnode : (moveOf rng s (KeyLike.split key 2 1) t).node < 2 ^ (cfgOf a).h := by
    cases hg : (moveOf rng s (KeyLike.split key 2 1) t).grow with
    | true => exact (hmv.grow_leaf hg).2.1
    | false => exact (hmv.prune_node hg hal).1.lt hT.valid.length
  obtain ⟨h1, h2, _⟩ := counts_lr (apply_grow_to_indices (cfgOf a).idx_bits
      (moveOf rng s (KeyLike.split key 2 1) t) (s.leaf_indices.getD t []) (cfgOf a).X) (cfgOf a).h
      hmv.len hmv.left hmv.right s.count_batch_size hnode
  rw [h1, h2] at hmin
  exact hmin

/-- the rules proposed due to an overflow are not accepted -/
theorem acc_not_wraps (ha : ValidArgs a) (hs : StateInv a s) (rng : Rng K F) (key : K) {t : Nat}
    (ht : t < a.num_trees)
    (hmv : MoveOK (cfgOf a) (s.var_trees.getD t []) (s.split_trees.getD t [])
      (s.affluence_trees.map fun x => x.getD t []) (moveOf rng s (KeyLike.split key 2 1) t))
    (h : (accOf rng s key t).2.acc = true) (hg : (moveOf rng s (KeyLike.split key 2 1) t).grow = true) :
    ¬ Wraps (cfgOf a).split_bits (cfgOf a).ms (s.var_trees.getD t []) (s.split_trees.getD t [])
      (moveOf rng s (KeyLike.split key 2 1) t).node (moveOf rng s (KeyLike.split key 2 1) t).grow_var :=
  not_wraps_of_min (cfgOf_ok ha) (hs.tree t ht) hmv hg fun m hm => accOf_min' hs rng key ht hmv m hm h

omit [KeyLike K] [Inhabited F] [Add F] [Sub F] [Mul F] [Div F] [Neg F] [NatCast F] in
/-- there are no overflows -/
theorem move_not_wraps (ha : ValidArgs a) (hno : NoOverflow a) {var split idx : List Nat}
    {aff : Option (List Bool)} (hT : TreeInv (cfgOf a) var split idx aff) {mv : Move F}
    (hmv : MoveOK (cfgOf a) var split aff mv) (hg : mv.grow = true) :
    ¬ Wraps (cfgOf a).split_bits (cfgOf a).ms var split mv.node mv.grow_var :=
  not_wraps hT.rules (hmv.grow_leaf hg).1.1 (at0_no_overflow ha hno _) (cfgOf_ok ha).split_bits
    (cfgOf_ok ha).hh (cfgOf_ok ha).h64 (hmv.grow_leaf hg).2.1

theorem tree_step_of (ha : ValidArgs a) (hs : StateInv a s) (rng : Rng K F) (key : K) {t : Nat}
    (ht : t < a.num_trees)
    (hmv : MoveOK (cfgOf a) (s.var_trees.getD t []) (s.split_trees.getD t [])
      (s.affluence_trees.map fun x => x.getD t []) (moveOf rng s (KeyLike.split key 2 1) t)) :
    TreeInv (cfgOf a) (moveOf rng s (KeyLike.split key 2 1) t).var_tree
      (apply_moves_to_split_tree s.split_bits (s.split_trees.getD t [])
        (moveOf rng s (KeyLike.split key 2 1) t) (accOf rng s key t).2.to_prune)
      (apply_moves_to_leaf_indices s.idx_bits (workOf rng s key t).leaf_indices
        (moveOf rng s (KeyLike.split key 2 1) t) (accOf rng s key t).2.to_prune)
      (a.min_points_per_leaf.map fun m => ((workOf rng s key t).count_tree.take
        (2 ^ a.p_nonterminal.length)).map fun k => decide (k ≥ 2 * m)) := by
  have hT := hs.tree t ht
  have := treeInv_step (cfgOf_ok ha) hT hmv (accOf_allowed rng s key t) s.count_batch_size
    (fun m hm h => accOf_min' hs rng key ht hmv m hm h)
  rw [accOf_to_prune, hs.cfg.split_bits, hs.cfg.idx_bits, workOf_idx hs]
  have e : (workOf rng s key t).count_tree = (compute_count_tree (workOf rng s key t).leaf_indices
      (moveOf rng s (KeyLike.split key 2 1) t) s.count_batch_size).1 := rfl
  rw [e, workOf_idx hs]
  exact this

theorem tree_step [FloatLaws F] (ha : ValidArgs a) (hs : StateInv a s) (rng : Rng K F)
    (hrng : LawfulRng rng) (key : K) {t : Nat} (ht : t < a.num_trees) :
    TreeInv (cfgOf a) (moveOf rng s (KeyLike.split key 2 1) t).var_tree
      (apply_moves_to_split_tree s.split_bits (s.split_trees.getD t [])
        (moveOf rng s (KeyLike.split key 2 1) t) (accOf rng s key t).2.to_prune)
      (apply_moves_to_leaf_indices s.idx_bits (workOf rng s key t).leaf_indices
        (moveOf rng s (KeyLike.split key 2 1) t) (accOf rng s key t).2.to_prune)
      (a.min_points_per_leaf.map fun m => ((workOf rng s key t).count_tree.take
        (2 ^ a.p_nonterminal.length)).map fun k => decide (k ≥ 2 * m)) :=
  tree_step_of ha hs rng key ht (moveOf_ok ha hs rng hrng (KeyLike.split key 2 1) ht)

theorem length_resid (hs : StateInv a s) (ha : ValidArgs a) (rng : Rng K F) (key : K) {t : Nat}
    (ht : t ≤ a.num_trees) : (residOf rng s key t).length = a.y.length := by
  induction t with
  | zero => rw [residOf_zero]; exact hs.resid_length
  | succ t ih =>
    have hl : (workOf rng s key t).leaf_indices.length = a.y.length := by
      rw [workOf_idx hs]
      exact length_grow_idx (cfgOf_ok ha) (hs.tree t (by omega)).idx_len
    rw [residOf_succ _ _ _ (by rw [hs.leaf_length]; omega)]
    unfold accOf accept_move_and_sample_leaves
    dsimp only
    rw [List.length_zipWith, ih (by omega), hl, Nat.min_self]

theorem stateInv_step_of (ha : ValidArgs a) (hs : StateInv a s) (rng : Rng K F) (key : K)
    (hmv : ∀ t, t < a.num_trees → MoveOK (cfgOf a) (s.var_trees.getD t []) (s.split_trees.getD t [])
      (s.affluence_trees.map fun x => x.getD t [])
      (moveOf rng s (KeyLike.split (KeyLike.split key 2 1) 2 1) t)) : StateInv a (step rng s key) := by
  have hcfg := hs.cfg.step rng key
  set k := KeyLike.split key 2 1 with hk
  refine { cfg := hcfg, leaf_length := ?_, var_length := ?_, split_length := ?_, idx_length := ?_,
           aff_length := ?_, resid_length := ?_, leaf_size := ?_, ratios_length := ?_, tree := ?_ }
  all_goals rw [step_eq, sample_trees_eq]
  all_goals simp only [sample_sigma, length_vmap, hs.leaf_length, ← hk]
  · intro x hx
    cases hm : s.min_points_per_leaf with
    | none => rw [hm] at hx; exact hs.aff_length x hx
    | some m =>
      rw [hm] at hx
      simp only [Option.some.injEq] at hx
      rw [← hx]; simp
  · exact length_resid hs ha rng k (le_refl _)
  · intro t ht
    rw [getD_vmap ht]
    exact length_accOf_leaf rng s k t _ (length_work_leaf hs rng k ht)
      (length_work_count_of rng k (hmv t ht))
  · intro x hx
    cases hr : s.ratios with
    | none => rw [hr] at hx; simp at hx
    | some r =>
      rw [hr] at hx
      simp only [Option.map_some, Option.some.injEq] at hx
      rw [← hx]; simp
  · intro t ht
    rw [getD_vmap ht, getD_vmap ht, getD_vmap ht]
    have := tree_step_of ha hs rng k ht (hmv t ht)
    convert this using 1
    rw [hs.cfg.min_points_per_leaf]
    cases hm : a.min_points_per_leaf with
    | none =>
      have h1 := (hs.tree t ht).aff_some
      have h2 : (cfgOf a).m = none := hm
      rw [h2] at h1
      simpa using h1
    | some m =>
      simp only [Option.map_some]
      rw [getD_vmap ht, (hs.tree 0 (by omega)).var_len]
      rfl

theorem stateInv_step [FloatLaws F] (ha : ValidArgs a) (hs : StateInv a s) (rng : Rng K F)
    (hrng : LawfulRng rng) (key : K) : StateInv a (step rng s key) :=
  stateInv_step_of ha hs rng key fun _ ht => moveOf_ok ha hs rng hrng _ ht

theorem reachable_inv [FloatLaws F] (ha : ValidArgs a) (hs : Reachable K a s) : StateInv a s := by
  induction hs with
  | init => exact stateInv_init ha
  | step rng key _ hrng ih => exact stateInv_step ha ih rng hrng key

end
end Bartz
