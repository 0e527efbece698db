import Verif.Lemmas.StateCons
import Verif.Lemmas.Change
import Verif.Props.Rules
/-!
# Properties C19, C20, C22, C23, C29, C34, C36, C37, C39, C52: invariants of the MCMC

All the theorems are about any state reachable from `init` with any number of steps, for any
floating point type that satisfies `Spec.FloatLaws` and any random draws in the documented ranges.
Below, `d = a.p_nonterminal.length + 1` is the maximum depth of the trees.
-/

set_option autoImplicit false

namespace Bartz
open Jax Spec

variable {K F : Type} [KeyLike K] [Inhabited F] [Zero F] [One F] [Add F] [Sub F] [Mul F] [Div F]
  [Neg F] [NatCast F] [FltFun F] [FloatLaws F] {a : InitArgs F} {s : State F}

/-! ### A concrete reachable state, to show that the hypotheses can be met

Integers are used as "floating point" type (the structural properties do not use any other
property of the numbers); so everything can be computed by the kernel. -/

namespace Ex

scoped instance : FltFun Int where
  log _ := 0
  log1p x := x
  sqrt x := x + 1
  isFinite _ := true
  ltb a b := decide (a < b)
  leb a b := decide (a ≤ b)
  cumsum := Jax.cumsum
  tiny := 0

theorem addLaws : AddLaws Int where
  zero_le_zero := rfl
  add_nonneg a b := by simp only [FltFun.leb, decide_eq_true_eq]; omega
  total a b := by simp only [FltFun.leb, decide_eq_true_eq]; omega
  trans a b c := by simp only [FltFun.leb, decide_eq_true_eq]; omega
  lt_iff a b _ _ := by
    rw [Bool.eq_iff_iff]; simp only [FltFun.leb, FltFun.ltb, decide_eq_true_eq]; simp
  le_add_right a b := by simp only [FltFun.leb, decide_eq_true_eq]; omega
  le_add_left a b := by simp only [FltFun.leb, decide_eq_true_eq]; omega
  add_zero_le a := by simp only [FltFun.leb, decide_eq_true_eq]; omega
  tiny_nonneg := rfl
  zero_le_one := rfl
  finite := ⟨fun _ => True, trivial, fun _ _ => rfl, fun _ _ _ => trivial, fun _ _ _ _ _ _ => trivial⟩

scoped instance : FloatLaws Int := floatLaws_of_left addLaws fun _ => rfl

scoped instance : KeyLike Unit where
  split _ _ _ := ()

/-- the lowest possible value for all the draws -/
def rng : Rng Unit Int := fun _ =>
  { uniform2 := fun _ _ => 0, uniformTo := fun _ => 0, randint := fun lo _ => lo
    normal := fun _ _ => 1, gamma := fun _ => 1 }

theorem rng_lawful : LawfulRng rng := fun _ =>
  { uniform2_nonneg := fun _ _ => rfl, uniform2_lt_one := fun _ _ => rfl
    uniformTo := fun hi h1 h2 _ => ⟨rfl, h2⟩
    randint_mem := fun lo hi h => ⟨le_refl _, h⟩, randint_empty := fun _ _ _ => rfl }

/-- 4 datapoints, 2 predictors with 3 and 2 cutpoints, 2 trees of depth at most 3 -/
def args : InitArgs Int :=
  { X := [[0, 1, 2, 3], [2, 1, 0, 0]], y := [1, 2, 3, 4], max_split := [3, 2], split_bits := 8,
    num_trees := 2, p_nonterminal := [1, 1], sigma2_alpha := 1, sigma2_beta := 1,
    min_points_per_leaf := some 1, resid_batch_size := none, count_batch_size := some 3,
    save_ratios := true, nan := 0 }

theorem args_valid : ValidArgs args where
  depth_pos := by decide
  depth_lt := by decide
  predictors_pos := by decide
  predictors_lt := by decide
  X_length := rfl
  X_row := by decide
  max_split_fits := by decide
  split_bits := by decide
  overflow := Or.inl (by unfold NoOverflow; decide)
  nonterminal_pos := by decide

def state1 : State Int := step rng (init args) ()

theorem state1_reachable : Reachable Unit args state1 := .step rng () .init rng_lawful

-- both trees have grown: `x[0] < 1`
example : state1.split_trees = [[0, 1, 0, 0], [0, 1, 0, 0]] := by decide
example : state1.leaf_indices = [[2, 3, 3, 3], [2, 3, 3, 3]] := by decide
example : state1.affluence_trees = some [[false, true, false, true], [false, true, false, true]] := by
  decide

end Ex
open Ex

/-! ### C19 -/

/-- C19. The trees are always valid and the arrays have the documented sizes. -/
theorem C19_valid_trees (ha : ValidArgs a) (hs : Reachable K a s) :
    s.leaf_trees.length = a.num_trees ∧ s.var_trees.length = a.num_trees ∧
    s.split_trees.length = a.num_trees ∧
    ∀ t, t < a.num_trees →
      (s.leaf_trees.getD t []).length = 2 ^ (a.p_nonterminal.length + 1) ∧
      (s.var_trees.getD t []).length = 2 ^ a.p_nonterminal.length ∧
      at0 (s.var_trees.getD t []) 0 = 0 ∧
      ValidSplit a.p_nonterminal.length (s.split_trees.getD t []) := by
  have h := reachable_inv ha hs
  exact ⟨h.leaf_length, h.var_length, h.split_length, fun t ht => ⟨h.leaf_size t ht,
    (h.tree t ht).var_len, (h.tree t ht).var_zero, (h.tree t ht).valid⟩⟩

example : ValidSplit 2 (state1.split_trees.getD 0 []) :=
  ((C19_valid_trees args_valid state1_reachable).2.2.2 0 (by decide)).2.2.2

/-! ### C20 -/

/-- C20. The leaf indices are those obtained by traversing the trees. -/
theorem C20_leaf_indices (ha : ValidArgs a) (hs : Reachable K a s) :
    s.leaf_indices = traverse_forest s.y.length s.X s.var_trees s.split_trees :=
  (reachable_inv ha hs).leaf_indices_eq ha

example : state1.leaf_indices = traverse_forest 4 state1.X state1.var_trees state1.split_trees :=
  C20_leaf_indices args_valid state1_reachable

/-! ### C22 -/

/-- C22. Unless the tree is just a root, each leaf contains at least `m` datapoints and at most
`n - m`. -/
theorem C22_min_points (ha : ValidArgs a) (hs : Reachable K a s) (m : Nat)
    (hm : a.min_points_per_leaf = some m) (t : Nat) (ht : t < a.num_trees) (i : Nat)
    (hi : IsLeaf (s.split_trees.getD t []) i) (hroot : ¬ IsLeaf (s.split_trees.getD t []) 1) :
    m ≤ pointsIn a.X a.y.length (s.var_trees.getD t []) (s.split_trees.getD t []) i ∧
    pointsIn a.X a.y.length (s.var_trees.getD t []) (s.split_trees.getD t []) i + m ≤
      a.y.length :=
  (reachable_inv ha hs).min_points ha m hm t ht i hi hroot

example : 1 ≤ pointsIn args.X 4 (state1.var_trees.getD 0 []) (state1.split_trees.getD 0 []) 2 ∧
    pointsIn args.X 4 (state1.var_trees.getD 0 []) (state1.split_trees.getD 0 []) 2 + 1 ≤ 4 :=
  C22_min_points args_valid state1_reachable 1 rfl 0 (by decide) 2
    ⟨.left .root (by decide), by decide⟩ (fun h => by
      have := h.2
      revert this; decide)

/-! ### C23 -/

/-- C23. The leaves considered for growth are exactly those not at the bottom with at least `2 m`
datapoints (if the minimum number of points `m` is specified). -/
theorem C23_growable (ha : ValidArgs a) (hs : Reachable K a s) (t : Nat) (ht : t < a.num_trees)
    (i : Nat) :
    (growable_leaves (s.split_trees.getD t [])
      (s.affluence_trees.map fun x => x.getD t [])).getD i false = true ↔
    IsLeaf (s.split_trees.getD t []) i ∧ i < 2 ^ a.p_nonterminal.length ∧
      ∀ m, a.min_points_per_leaf = some m → 2 * m ≤
        pointsIn a.X a.y.length (s.var_trees.getD t []) (s.split_trees.getD t []) i :=
  (reachable_inv ha hs).growable_iff ha t ht i

example : (growable_leaves (state1.split_trees.getD 0 [])
      (state1.affluence_trees.map fun x => x.getD 0 [])) = [false, false, false, true] := by decide

/-! ### C29 -/

/-- C29. All the decision rules are meaningful, if the predictors are in `0..max_split` and at least
one datapoint per leaf is required, or if each predictor has at least one cutpoint and there are at
least `d - 1` predictors. -/
theorem C29_rules (ha : ValidArgs a) (hs : Reachable K a s)
    (hgood :
      ((∀ v j, v < a.max_split.length → j < a.y.length →
        (a.X.getD v []).getD j 0 ≤ at0 a.max_split v) ∧
        ∃ m, 1 ≤ m ∧ a.min_points_per_leaf = some m) ∨
      ((∀ v, v < a.max_split.length → 1 ≤ at0 a.max_split v) ∧
        a.p_nonterminal.length ≤ a.max_split.length))
    (t : Nat) (ht : t < a.num_trees) (i : Nat) (hi : IsDecision (s.split_trees.getD t []) i) :
    let var := s.var_trees.getD t []
    let split := s.split_trees.getD t []
    at0 var i < a.max_split.length ∧ 1 ≤ at0 split i ∧
    at0 split i ≤ at0 a.max_split (at0 var i) ∧
    NonRedundant a.max_split var split i (at0 var i) (at0 split i) := by
  have h := (reachable_inv ha hs).tree t ht
  have hc := cfgOf_ok ha
  have hg : (cfgOf a).Good := by
    rcases hgood with h1 | h1
    · exact Or.inl h1
    · right
      refine ⟨h1.1, ?_⟩
      show a.p_nonterminal.length - 1 < a.max_split.length
      have := ha.depth_pos
      omega
  have h1 := h.good hg i hi
  have h2 := h.rules i hi
  have h1' : 1 ≤ at0 a.max_split (at0 (s.var_trees.getD t []) i) := h1
  have hms : (cfgOf a).ms = a.max_split := rfl
  unfold RuleAt at h2
  rw [if_pos h1, hms] at h2
  have hnr := (nonRedundant_iff (max_split := a.max_split) hi.1.pos).2 h2.2
  refine ⟨?_, h2.1, ?_, hnr⟩
  · exact lt_of_at0_ne (by omega)
  · obtain ⟨b, hb, _, hsb⟩ := hnr.2
    omega

example : NonRedundant args.max_split (state1.var_trees.getD 0 []) (state1.split_trees.getD 0 []) 1
    (at0 (state1.var_trees.getD 0 []) 1) (at0 (state1.split_trees.getD 0 []) 1) :=
  (C29_rules args_valid state1_reachable
    (Or.inr ⟨by
      intro v hv
      have : v < 2 := hv
      interval_cases v <;> decide, by decide⟩) 0 (by decide) 1 ⟨.root, by decide⟩).2.2.2

/-! ### C36 -/

/-- the possible changes of a tree -/
theorem one_node (ha : ValidArgs a) (h : StateInv a s) (rng : Rng K F)
    (hrng : LawfulRng rng) (key : K) (t : Nat) (ht : t < a.num_trees) :
    let s' := step rng s key
    let var := s.var_trees.getD t []
    let split := s.split_trees.getD t []
    let idx := s.leaf_indices.getD t []
    let var' := s'.var_trees.getD t []
    let split' := s'.split_trees.getD t []
    let idx' := s'.leaf_indices.getD t []
    (SameTree var split var' split' ∧ idx' = idx) ∨
    (∃ i, Grown a.p_nonterminal.length var split var' split' i ∧ ∀ j, j < a.y.length →
      (at0 idx j ≠ i → at0 idx' j = at0 idx j) ∧
      (at0 idx j = i → at0 idx' j = 2 * i ∨ at0 idx' j = 2 * i + 1)) ∨
    (∃ i, Grown a.p_nonterminal.length var' split' var split i ∧ ∀ j, j < a.y.length →
      (at0 idx' j ≠ i → at0 idx j = at0 idx' j) ∧
      (at0 idx' j = i → at0 idx j = 2 * i ∨ at0 idx j = 2 * i + 1)) := by
  have hT := h.tree t ht
  have hc := cfgOf_ok ha
  have hmv := moveOf_ok ha h rng hrng (KeyLike.split (KeyLike.split key 2 1) 2 1) ht
  have hal := accOf_allowed rng s (KeyLike.split key 2 1) t
  intro s' var split idx var' split' idx'
  have e1 : var' = (moveOf rng s (KeyLike.split (KeyLike.split key 2 1) 2 1) t).var_tree := by
    simp only [var', s', step_eq, sample_trees_eq, sample_sigma]
    rw [getD_vmap (by rw [h.leaf_length]; exact ht)]
  have e2 : split' = apply_moves_to_split_tree (cfgOf a).split_bits (s.split_trees.getD t [])
      (moveOf rng s (KeyLike.split (KeyLike.split key 2 1) 2 1) t)
      ((accOf rng s (KeyLike.split key 2 1) t).2.acc ^^
        (moveOf rng s (KeyLike.split (KeyLike.split key 2 1) 2 1) t).grow) := by
    simp only [split', s', step_eq, sample_trees_eq, sample_sigma]
    rw [getD_vmap (by rw [h.leaf_length]; exact ht), h.cfg.split_bits, accOf_to_prune]
  have e3 : idx' = apply_moves_to_leaf_indices (cfgOf a).idx_bits
      (apply_grow_to_indices (cfgOf a).idx_bits
        (moveOf rng s (KeyLike.split (KeyLike.split key 2 1) 2 1) t) (s.leaf_indices.getD t [])
        (cfgOf a).X)
      (moveOf rng s (KeyLike.split (KeyLike.split key 2 1) 2 1) t)
      ((accOf rng s (KeyLike.split key 2 1) t).2.acc ^^
        (moveOf rng s (KeyLike.split (KeyLike.split key 2 1) 2 1) t).grow) := by
    simp only [idx', s', step_eq, sample_trees_eq, sample_sigma]
    rw [getD_vmap (by rw [h.leaf_length]; exact ht), h.cfg.idx_bits, accOf_to_prune, workOf_idx h]
  rw [e1, e2, e3]
  cases hacc : (accOf rng s (KeyLike.split key 2 1) t).2.acc with
  | false =>
    left
    exact change_rejected hc hT hmv (acc := false) (by simp) rfl
  | true =>
    right
    rw [hacc] at hal
    cases hg : (moveOf rng s (KeyLike.split (KeyLike.split key 2 1) 2 1) t).grow with
    | true =>
      left
      refine ⟨(moveOf rng s (KeyLike.split (KeyLike.split key 2 1) 2 1) t).node, ?_⟩
      have := change_grow hc hT hmv (acc := true) hal rfl hg (acc_not_wraps ha h rng _ ht hmv hacc hg)
      rw [hg] at this
      exact this
    | false =>
      right
      refine ⟨(moveOf rng s (KeyLike.split (KeyLike.split key 2 1) 2 1) t).node, ?_⟩
      have := change_prune hc hT hmv (acc := true) hal rfl hg
      rw [hg] at this
      exact this

/-- C36. In a step each tree is unchanged, or grows by one node, or is pruned by one node. -/
theorem C36_one_node (ha : ValidArgs a) (hs : Reachable K a s) (rng : Rng K F)
    (hrng : LawfulRng rng) (key : K) (t : Nat) (ht : t < a.num_trees) :
    let s' := step rng s key
    let var := s.var_trees.getD t []
    let split := s.split_trees.getD t []
    let idx := s.leaf_indices.getD t []
    let var' := s'.var_trees.getD t []
    let split' := s'.split_trees.getD t []
    let idx' := s'.leaf_indices.getD t []
    (SameTree var split var' split' ∧ idx' = idx) ∨
    (∃ i, Grown a.p_nonterminal.length var split var' split' i ∧ ∀ j, j < a.y.length →
      (at0 idx j ≠ i → at0 idx' j = at0 idx j) ∧
      (at0 idx j = i → at0 idx' j = 2 * i ∨ at0 idx' j = 2 * i + 1)) ∨
    (∃ i, Grown a.p_nonterminal.length var' split' var split i ∧ ∀ j, j < a.y.length →
      (at0 idx' j ≠ i → at0 idx j = at0 idx' j) ∧
      (at0 idx' j = i → at0 idx j = 2 * i ∨ at0 idx j = 2 * i + 1)) :=
  one_node ha (reachable_inv ha hs) rng hrng key t ht

-- hypotheses: the second step from `init` prunes the trees
example : (step Ex.rng state1 ()).split_trees = [[0, 0, 0, 0], [0, 0, 0, 0]] ∧
    (step Ex.rng state1 ()).leaf_indices = [[1, 1, 1, 1], [1, 1, 1, 1]] := by decide

example := C36_one_node args_valid state1_reachable Ex.rng rng_lawful () 1 (by decide)

/-! ### C34 -/

/-- C34. The counters are consistent with each other and with what happened in the step. -/
theorem C34_counters (ha : ValidArgs a) (hs : Reachable K a s) (rng : Rng K F)
    (hrng : LawfulRng rng) (key : K) :
    let s' := step rng s key
    s'.grow_acc_count ≤ s'.grow_prop_count ∧
    s'.prune_acc_count ≤ s'.prune_prop_count ∧
    s'.grow_prop_count + s'.prune_prop_count ≤ a.num_trees ∧
    s'.grow_acc_count = {t | t < a.num_trees ∧ numDecisions (s'.split_trees.getD t []) =
      numDecisions (s.split_trees.getD t []) + 1}.ncard ∧
    s'.prune_acc_count = {t | t < a.num_trees ∧ numDecisions (s'.split_trees.getD t []) + 1 =
      numDecisions (s.split_trees.getD t [])}.ncard := by
  have h := reachable_inv ha hs
  have h' := stateInv_step ha h rng hrng key
  have hc := cfgOf_ok ha
  intro s'
  set k := KeyLike.split key 2 1 with hk
  set mv := moveOf rng s (KeyLike.split k 2 1) with hmv
  set ac := fun t => (accOf rng s k t).2.acc with hac
  have e1 : s'.grow_acc_count = {t | t < a.num_trees ∧ (ac t && (mv t).grow) = true}.ncard := by
    rw [← countNonzero_vmap, ← h.leaf_length]
    simp only [s', step_eq, sample_trees_eq, sample_sigma]; rfl
  have e2 : s'.prune_acc_count = {t | t < a.num_trees ∧ (ac t && !(mv t).grow) = true}.ncard := by
    rw [← countNonzero_vmap, ← h.leaf_length]
    simp only [s', step_eq, sample_trees_eq, sample_sigma]; rfl
  have e3 : s'.grow_prop_count = {t | t < a.num_trees ∧ (mv t).grow = true}.ncard := by
    rw [← countNonzero_vmap, ← h.leaf_length]
    simp only [s', step_eq, sample_trees_eq, sample_sigma]; rfl
  have e4 : s'.prune_prop_count =
      {t | t < a.num_trees ∧ ((mv t).allowed && !(mv t).grow) = true}.ncard := by
    rw [← countNonzero_vmap, ← h.leaf_length]
    simp only [s', step_eq, sample_trees_eq, sample_sigma]; rfl
  have hfin : ∀ p : Nat → Prop, {t | t < a.num_trees ∧ p t}.Finite := fun p =>
    Set.Finite.subset (Finset.finite_toSet (Finset.range a.num_trees)) (by
      intro t ht; simpa using ht.1)
  have hall : ∀ t, ac t = true → (mv t).allowed = true := fun t ht => accOf_allowed rng s k t ht
  have hsp : ∀ t, t < a.num_trees → s'.split_trees.getD t [] =
      apply_moves_to_split_tree (cfgOf a).split_bits (s.split_trees.getD t []) (mv t)
        (ac t ^^ (mv t).grow) := by
    intro t ht
    simp only [s', step_eq, sample_trees_eq, sample_sigma]
    rw [getD_vmap (by rw [h.leaf_length]; exact ht), h.cfg.split_bits, accOf_to_prune]
  -- what happens to the number of decision nodes
  have hnum : ∀ t, t < a.num_trees →
      (ac t = false → numDecisions (s'.split_trees.getD t []) =
        numDecisions (s.split_trees.getD t [])) ∧
      (ac t = true → (mv t).grow = true → numDecisions (s'.split_trees.getD t []) =
        numDecisions (s.split_trees.getD t []) + 1) ∧
      (ac t = true → (mv t).grow = false → numDecisions (s'.split_trees.getD t []) + 1 =
        numDecisions (s.split_trees.getD t [])) := by
    intro t ht
    have hT := h.tree t ht
    have hT' := h'.tree t ht
    have hm := moveOf_ok ha h rng hrng (KeyLike.split k 2 1) ht
    refine ⟨fun h0 => ?_, fun h0 hg => ?_, fun h0 hg => ?_⟩
    · have := (change_rejected hc hT hm (acc := ac t) (hall t) h0).1.1
      rw [hsp t ht, this]
    · have := (change_grow hc hT hm (acc := ac t) (hall t) h0 hg (acc_not_wraps ha h rng _ ht hm h0 hg)).1
      rw [← hsp t ht] at this
      exact numDecisions_grown hT.valid hT'.valid this
    · have := (change_prune hc hT hm (acc := ac t) (hall t) h0 hg).1
      rw [← hsp t ht] at this
      exact (numDecisions_grown hT'.valid hT.valid this).symm
  refine ⟨?_, ?_, ?_, ?_, ?_⟩
  · rw [e1, e3]
    apply Set.ncard_le_ncard _ (hfin _)
    rintro t ⟨h1, h2⟩
    exact ⟨h1, by simp at h2; exact h2.2⟩
  · rw [e2, e4]
    apply Set.ncard_le_ncard _ (hfin _)
    rintro t ⟨h1, h2⟩
    simp at h2
    exact ⟨h1, by simp [hall t h2.1, h2.2]⟩
  · rw [e3, e4, ← Set.ncard_union_eq _ (hfin _) (hfin _)]
    · calc _ ≤ ((Finset.range a.num_trees : Finset Nat) : Set Nat).ncard := by
            apply Set.ncard_le_ncard _ (Finset.finite_toSet _)
            rintro t (ht | ht) <;> simpa using ht.1
        _ = a.num_trees := by rw [Set.ncard_coe_finset, Finset.card_range]
    · rw [Set.disjoint_left]
      rintro t ⟨_, h1⟩ ⟨_, h2⟩
      simp at h1 h2
      simp [h1] at h2
  · rw [e1]
    congr 1
    ext t
    simp only [Set.mem_ofPred_eq]
    refine and_congr_right fun ht => ?_
    obtain ⟨h1, h2, h3⟩ := hnum t ht
    generalize numDecisions (s'.split_trees.getD t []) = n1 at h1 h2 h3 ⊢
    generalize numDecisions (s.split_trees.getD t []) = n2 at h1 h2 h3 ⊢
    cases ha' : ac t <;> cases hg : (mv t).grow <;> simp
    · have := h1 ha'; omega
    · have := h1 ha'; omega
    · have := h3 ha' hg; omega
    · exact h2 ha' hg
  · rw [e2]
    congr 1
    ext t
    simp only [Set.mem_ofPred_eq]
    refine and_congr_right fun ht => ?_
    obtain ⟨h1, h2, h3⟩ := hnum t ht
    generalize numDecisions (s'.split_trees.getD t []) = n1 at h1 h2 h3 ⊢
    generalize numDecisions (s.split_trees.getD t []) = n2 at h1 h2 h3 ⊢
    cases ha' : ac t <;> cases hg : (mv t).grow <;> simp
    · have := h1 ha'; omega
    · have := h1 ha'; omega
    · exact h3 ha' hg
    · have := h2 ha' hg; omega

example : state1.grow_prop_count = 2 ∧ state1.grow_acc_count = 2 ∧ state1.prune_prop_count = 0 ∧
    (step Ex.rng state1 ()).prune_acc_count = 2 ∧ (step Ex.rng state1 ()).grow_acc_count = 0 := by
  decide

/-! ### C37 -/

/-- C37. Configuration and shapes are as set by `init` in all the reachable states. -/
theorem C37_configuration (ha : ValidArgs a) (hs : Reachable K a s) :
    (s.X = a.X ∧ s.y = a.y ∧ s.max_split = a.max_split ∧ s.sigma2_alpha = a.sigma2_alpha ∧
      s.sigma2_beta = a.sigma2_beta ∧ s.p_nonterminal = (init a).p_nonterminal ∧
      s.p_propose_grow = (init a).p_propose_grow ∧
      s.min_points_per_leaf = a.min_points_per_leaf ∧ s.resid_batch_size = a.resid_batch_size ∧
      s.count_batch_size = a.count_batch_size ∧ s.var_bits = (init a).var_bits ∧
      s.split_bits = a.split_bits ∧ s.idx_bits = (init a).idx_bits) ∧
    (s.resid.length = a.y.length ∧ s.leaf_trees.length = a.num_trees ∧
      s.var_trees.length = a.num_trees ∧ s.split_trees.length = a.num_trees ∧
      s.leaf_indices.length = a.num_trees ∧
      s.affluence_trees.isSome = a.min_points_per_leaf.isSome ∧
      (∀ x, s.affluence_trees = some x → x.length = a.num_trees) ∧
      s.ratios.isSome = a.save_ratios ∧
      (∀ x, s.ratios = some x → x.1.length = a.num_trees ∧ x.2.length = a.num_trees)) ∧
    ∀ t, t < a.num_trees →
      (s.leaf_trees.getD t []).length = 2 ^ (a.p_nonterminal.length + 1) ∧
      (s.var_trees.getD t []).length = 2 ^ a.p_nonterminal.length ∧
      (s.split_trees.getD t []).length = 2 ^ a.p_nonterminal.length ∧
      (s.leaf_indices.getD t []).length = a.y.length ∧
      (∀ x, s.affluence_trees = some x → (x.getD t []).length = 2 ^ a.p_nonterminal.length) := by
  have h := reachable_inv ha hs
  have h0 := stateInv_init ha
  have hsome : s.affluence_trees.isSome = a.min_points_per_leaf.isSome := by
    clear h h0
    induction hs with
    | init => simp [init]
    | step rng key hs' hrng ih =>
      have hm := (reachable_inv ha hs').cfg.min_points_per_leaf
      rw [step_eq, sample_trees_eq]
      simp only [sample_sigma]
      rw [hm]
      cases hm' : a.min_points_per_leaf with
      | none => simp only []; rw [ih, hm']
      | some m => rfl
  refine ⟨⟨h.cfg.X, h.cfg.y, h.cfg.max_split, h.cfg.sigma2_alpha, h.cfg.sigma2_beta,
    h.cfg.p_nonterminal, h.cfg.p_propose_grow, h.cfg.min_points_per_leaf, h.cfg.resid_batch_size,
    h.cfg.count_batch_size, h.cfg.var_bits.trans h0.cfg.var_bits.symm, h.cfg.split_bits,
    h.cfg.idx_bits.trans h0.cfg.idx_bits.symm⟩,
    ⟨h.resid_length, h.leaf_length, h.var_length, h.split_length, h.idx_length, hsome, h.aff_length,
      h.cfg.ratios, h.ratios_length⟩, fun t ht => ?_⟩
  have hT := h.tree t ht
  exact ⟨h.leaf_size t ht, hT.var_len, hT.valid.length, hT.idx_len, fun x hx =>
    hT.aff_len _ (by rw [hx]; rfl)⟩

example : state1.X = args.X ∧ state1.resid.length = 4 :=
  ⟨(C37_configuration args_valid state1_reachable).1.1,
    (C37_configuration args_valid state1_reachable).2.1.1⟩

/-! ### C39 -/

/-- C39. With less than `2 m` datapoints the trees are always just a root, and the predictions do
not depend on the point. -/
theorem C39_few_points (ha : ValidArgs a) (hs : Reachable K a s) (m : Nat)
    (hm : a.min_points_per_leaf = some m) (hn : a.y.length < 2 * m) :
    (∀ t, t < a.num_trees → ∀ i, IsNode (s.split_trees.getD t []) i ↔ i = 1) ∧
    ∀ (n' : Nat) (X' : List (List Nat)) (j j' : Nat), j < n' → j' < n' →
      (evaluate_forest n' X' s.leaf_trees s.var_trees s.split_trees).getD j 0 =
        (evaluate_forest n' X' s.leaf_trees s.var_trees s.split_trees).getD j' 0 := by
  have h := reachable_inv ha hs
  have hroot : ∀ t, t < a.num_trees → at0 (s.split_trees.getD t []) 1 = 0 := by
    intro t ht
    have hT := h.tree t ht
    by_contra hne
    obtain ⟨i, _, hi⟩ := exists_other_leaf (cfgOf_ok ha).hh (cfgOf_ok ha).h64 hT.valid hne 0
    have h1 := hT.minpts_le (cfgOf_ok ha) hm hne hi
    have h2 : (cfgOf a).n = a.y.length := rfl
    omega
  have hnode : ∀ t, t < a.num_trees → ∀ i, IsNode (s.split_trees.getD t []) i ↔ i = 1 := by
    intro t ht i
    rw [(h.tree t ht).valid.isNode_iff]
    constructor
    · rintro (h1 | ⟨h1, h2⟩)
      · exact h1
      · exfalso
        have : ∀ q, 1 ≤ q → at0 (s.split_trees.getD t []) q = 0 := by
          intro q
          induction q using Nat.strong_induction_on with
          | _ q ih =>
            intro hq
            rcases Nat.lt_or_ge q 2 with h4 | h4
            · rw [show q = 1 by omega]; exact hroot t ht
            · by_contra h5
              exact (h.tree t ht).valid.closed q h4 h5 (ih (q / 2) (by omega) (by omega))
        exact h2 (this (i / 2) (by omega))
    · exact Or.inl
  refine ⟨hnode, ?_⟩
  intro n' X' j j' hj hj'
  rw [C03_evaluate_forest n' a.num_trees a.p_nonterminal.length ha.depth_lt X' s.leaf_trees
    s.var_trees s.split_trees h.leaf_length h.var_length h.leaf_size
    (fun t ht => (h.tree t ht).var_len) (fun t ht => (h.tree t ht).valid.length)]
  rw [List.getD_eq_getElem _ _ (by simpa using hj), List.getD_eq_getElem _ _ (by simpa using hj')]
  simp only [List.getElem_map]
  congr 1
  apply List.map_congr_left
  intro t ht
  rw [List.mem_range] at ht
  have : ∀ x, (readTree default (s.leaf_trees.getD t []) (s.var_trees.getD t [])
      (s.split_trees.getD t []) a.p_nonterminal.length 1).eval x =
      (s.leaf_trees.getD t []).getD 1 default := by
    intro x
    obtain ⟨q, hq⟩ : ∃ q, a.p_nonterminal.length = q + 1 := ⟨a.p_nonterminal.length - 1, by
      have := ha.depth_pos; omega⟩
    rw [hq]
    simp only [readTree, hroot t ht, if_true, DTree.eval]
  rw [this, this]

-- hypotheses: 4 datapoints, at least 3 per leaf
example : ∀ i, IsNode ((step Ex.rng (init { args with min_points_per_leaf := some 3 })
    ()).split_trees.getD 0 []) i ↔ i = 1 :=
  (C39_few_points (K := Unit) (a := { args with min_points_per_leaf := some 3 })
    { depth_pos := by decide, depth_lt := by decide, predictors_pos := by decide,
      predictors_lt := by decide, X_length := rfl, X_row := by decide, max_split_fits := by decide,
      split_bits := by decide, overflow := Or.inl (by unfold NoOverflow; decide), nonterminal_pos := by decide }
    (.step Ex.rng () .init rng_lawful) 3 rfl (by decide)).1 0 (by decide)

/-! ### C52 -/

/-- C52. The integers stored in the state, and the raw values produced in a step for valid
proposals, fit in the small types. -/
theorem C52_no_overflow (ha : ValidArgs a) (hs : Reachable K a s) (t : Nat)
    (ht : t < a.num_trees) :
    (∀ i, at0 (s.var_trees.getD t []) i < 2 ^ s.var_bits ∧
      at0 (s.split_trees.getD t []) i < 2 ^ s.split_bits ∧
      at0 (s.leaf_indices.getD t []) i < 2 ^ s.idx_bits) ∧
    ∀ (rng : Rng K F), LawfulRng rng → ∀ key,
      ∃ mv, (sample_moves rng s key)[t]? = some mv ∧
      (mv.grow = true → mv.grow_var < 2 ^ s.var_bits ∧ mv.grow_split < 2 ^ s.split_bits ∧
        mv.var_tree = setDrop (s.var_trees.getD t []) mv.node mv.grow_var) ∧
      (mv.allowed = true → mv.node < 2 ^ s.idx_bits ∧ mv.left < 2 ^ s.idx_bits ∧
        mv.right < 2 ^ s.idx_bits ∧ mv.left = 2 * mv.node ∧ mv.right = 2 * mv.node + 1) := by
  have h := reachable_inv ha hs
  have hT := h.tree t ht
  have hc := cfgOf_ok ha
  refine ⟨fun i => ⟨?_, ?_, ?_⟩, fun rng hrng key => ?_⟩
  · rw [h.cfg.var_bits, hc.var_bits]
    exact varOK_fits hc.h64 hc.p_le.le (hT.var_ok i) (le_refl _)
  · by_cases hz : at0 (s.split_trees.getD t []) i = 0
    · rw [hz]; exact Nat.two_pow_pos _
    · have hd := hT.valid.isDecision_iff.2 hz
      have hr := hT.rules i hd
      rw [h.cfg.split_bits]
      exact hc.split_fits (hd.lt hT.valid.length) ⟨hr.1, hr.2⟩
  · rw [h.cfg.idx_bits]
    by_cases hj : i < (cfgOf a).n
    · exact hc.idx_fits (hT.idx_lt hj)
    · rw [show at0 (s.leaf_indices.getD t []) i = 0 from at0_of_le (by rw [hT.idx_len]; omega)]
      exact Nat.two_pow_pos _
  · have hm := moveOf_ok ha h rng hrng key ht
    refine ⟨moveOf rng s key t, ?_, ?_, ?_⟩
    · rw [sample_moves_eq, h.leaf_length]
      simp [vmap, ht]
    · intro hg
      rw [h.cfg.var_bits, h.cfg.split_bits, hc.var_bits]
      exact ⟨varOK_fits hc.h64 hc.p_le.le (hm.grow_var hg).small (le_refl _),
        hm.grow_fits hg, hm.grow_tree hg⟩
    · intro hal
      have hnode : (moveOf rng s key t).node < 2 ^ (cfgOf a).h := by
        cases hg : (moveOf rng s key t).grow with
        | true => exact (hm.grow_leaf hg).2.1
        | false => exact (hm.prune_node hg hal).1.lt hT.valid.length
      have hp : 2 ^ ((cfgOf a).h + 1) = 2 * 2 ^ (cfgOf a).h := by rw [pow_succ]; omega
      rw [h.cfg.idx_bits, hm.left, hm.right]
      exact ⟨hc.idx_fits (by omega), hc.idx_fits (by omega), hc.idx_fits (by omega), rfl, rfl⟩

example : (∀ i, at0 (state1.var_trees.getD 0 []) i < 2 ^ state1.var_bits) ∧ state1.idx_bits = 8 :=
  ⟨fun i => ((C52_no_overflow args_valid state1_reachable 0 (by decide)).1 i).1, by decide⟩

end Bartz
