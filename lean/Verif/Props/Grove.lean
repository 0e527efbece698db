import Verif.Lemmas.Eval
/-!
# Properties C01–C08: trees as heaps (`grove.py`, `jaxext.minimal_unsigned_dtype`)

The hypothesis `h < 64` says that the node indices fit in 64 bits (`h = d - 1` where `d` is the
maximum depth).
-/

set_option autoImplicit false

namespace Bartz
open Jax Spec

/-! ### C01 -/

/-- C01. `traverse_tree` returns a leaf of the tree, the point satisfies all the decisions on the
path to it, and it is the only such leaf; whatever the content of the arrays. -/
theorem C01_traverse_tree (x var split : List Nat) (h : Nat) (h64 : h < 64)
    (hvar : var.length = 2 ^ h) (hsplit : split.length = 2 ^ h) :
    FallsInto x var split (traverse_tree x var split) ∧
    ∀ j, FallsInto x var split j → j = traverse_tree x var split :=
  ⟨traverse_fallsInto h64 hvar hsplit,
   fun _ hj => (traverse_eq_of_fallsInto h64 hvar hsplit hj).symm⟩

-- a tree with root `x[1] < 3` and left child `x[0] < 2`; the right child is a leaf
example : traverse_tree [5, 2] [0, 1, 0, 0] [0, 3, 2, 0] = 5 := by decide
example : FallsInto [5, 2] [0, 1, 0, 0] [0, 3, 2, 0] 5 :=
  (C01_traverse_tree [5, 2] [0, 1, 0, 0] [0, 3, 2, 0] 2 (by omega) rfl rfl).1

/-! ### C02 -/

/-- C02, first part: every point falls into exactly one leaf. -/
theorem C02_partition (x var split : List Nat) (h : Nat) (h64 : h < 64)
    (hvar : var.length = 2 ^ h) (hsplit : split.length = 2 ^ h) :
    ∃! i, FallsInto x var split i :=
  ⟨traverse_tree x var split, traverse_fallsInto h64 hvar hsplit,
   fun _ hj => (traverse_eq_of_fallsInto h64 hvar hsplit hj).symm⟩

open Classical in
/-- C02, second part: the numbers of datapoints in the leaves add up to the number of
datapoints. -/
theorem C02_counts (n : Nat) (X : Nat → List Nat) (var split : List Nat) (h : Nat) (h64 : h < 64)
    (hvar : var.length = 2 ^ h) (hsplit : split.length = 2 ^ h) :
    ∑ i ∈ (Finset.range (2 ^ (h + 1))).filter (IsLeaf split),
      ((Finset.range n).filter fun j => FallsInto (X j) var split i).card = n := by
  have key := Finset.card_eq_sum_card_fiberwise (s := Finset.range n)
    (t := (Finset.range (2 ^ (h + 1))).filter (IsLeaf split))
    (f := fun j => traverse_tree (X j) var split) (by
      intro j _
      rw [Finset.mem_coe, Finset.mem_filter, Finset.mem_range]
      exact ⟨traverse_lt h64 hvar hsplit, (traverse_fallsInto h64 hvar hsplit).1⟩)
  rw [Finset.card_range] at key
  conv_rhs => rw [key]
  apply Finset.sum_congr rfl
  intro i _
  congr 1
  ext j
  simp only [Finset.mem_filter, Finset.mem_range]
  rw [traverse_iff h64 hvar hsplit]

-- non trivial instance: three points over the three leaves of the tree above
example : (List.map (fun x => traverse_tree x [0, 1, 0, 0] [0, 3, 2, 0]) [[0, 0], [5, 2], [1, 7]]) =
    [4, 5, 3] := by decide

/-! ### C03 -/

/-- C03. With `sum_trees=False`, the matrix of the values of each tree function at each point. -/
theorem C03_evaluate_trees {F : Type} [Inhabited F] (n m h : Nat) (h64 : h < 64)
    (X : List (List Nat)) (leaf_trees : List (List F)) (var_trees split_trees : List (List Nat))
    (hml : leaf_trees.length = m) (hmv : var_trees.length = m)
    (hl : ∀ t < m, (leaf_trees.getD t []).length = 2 ^ (h + 1))
    (hv : ∀ t < m, (var_trees.getD t []).length = 2 ^ h)
    (hs : ∀ t < m, (split_trees.getD t []).length = 2 ^ h) :
    evaluate_forest_trees n X leaf_trees var_trees split_trees =
      (List.range m).map fun t => (List.range n).map fun j =>
        (readTree default (leaf_trees.getD t []) (var_trees.getD t []) (split_trees.getD t [])
          h 1).eval (X.map fun row => row.getD j 0) := by
  unfold evaluate_forest_trees vmap
  rw [hml]
  apply List.map_congr_left
  intro t ht
  rw [List.mem_range] at ht
  apply List.map_congr_left
  intro j hj
  rw [List.mem_range] at hj
  have e : ((traverse_forest n X var_trees split_trees).getD t []).getD j 0 =
      traverse_tree (column X j) (var_trees.getD t []) (split_trees.getD t []) := by
    unfold traverse_forest
    rw [getD_vmap (by omega), getD_vmap hj]
  rw [e, gather_eq_getD (by rw [hl t ht]; exact traverse_lt h64 (hv t ht) (hs t ht)) default,
    eval_readTree_root default _ h64 (hv t ht) (hs t ht)]
  rfl

/-- C03. `evaluate_forest` at point `j` is the sum over the trees (in the order of the trees) of the
functions represented by the arrays. -/
theorem C03_evaluate_forest {F : Type} [Inhabited F] [Zero F] [Add F] (n m h : Nat) (h64 : h < 64)
    (X : List (List Nat)) (leaf_trees : List (List F)) (var_trees split_trees : List (List Nat))
    (hml : leaf_trees.length = m) (hmv : var_trees.length = m)
    (hl : ∀ t < m, (leaf_trees.getD t []).length = 2 ^ (h + 1))
    (hv : ∀ t < m, (var_trees.getD t []).length = 2 ^ h)
    (hs : ∀ t < m, (split_trees.getD t []).length = 2 ^ h) :
    evaluate_forest n X leaf_trees var_trees split_trees =
      (List.range n).map fun j => ((List.range m).map fun t =>
        (readTree default (leaf_trees.getD t []) (var_trees.getD t []) (split_trees.getD t [])
          h 1).eval (X.map fun row => row.getD j 0)).foldl (· + ·) 0 := by
  unfold evaluate_forest
  rw [C03_evaluate_trees n m h h64 X leaf_trees var_trees split_trees hml hmv hl hv hs]
  unfold vmap Jax.sum
  apply List.map_congr_left
  intro j hj
  rw [List.mem_range] at hj
  rw [List.map_map]
  congr 1
  apply List.map_congr_left
  intro t _
  simp only [Function.comp]
  rw [gather_of_lt (by simpa using hj)]
  simp

-- two trees at two points
example : evaluate_forest 2 [[5, 0], [2, 0]] [[0, 0, 0, 30, 40, 50, 0, 0], [0, 7, 0, 0, 0, 0, 0, 0]]
    [[0, 1, 0, 0], [0, 0, 0, 0]] [[0, 3, 2, 0], [0, 0, 0, 0]] = [57, 47] := by decide

/-! ### C04 -/

/-- C04. `is_actual_leaf` marks exactly the leaves: with the bottom level, all of them; without, the
ones not at the bottom. -/
theorem C04_is_actual_leaf (split : List Nat) (h : Nat) (hh : 1 ≤ h) (h64 : h < 64)
    (hv : ValidSplit h split) (i : Nat) :
    ((is_actual_leaf split true).length = 2 ^ (h + 1) ∧
      ((is_actual_leaf split true).getD i false = true ↔ IsLeaf split i)) ∧
    ((is_actual_leaf split false).length = 2 ^ h ∧
      ((is_actual_leaf split false).getD i false = true ↔ IsLeaf split i ∧ i < 2 ^ h)) := by
  have l1 : (is_actual_leaf split true).length = 2 ^ (h + 1) := by
    rw [length_is_actual_leaf, hv.length]; simp [pow_succ, mul_comm]
  have l2 : (is_actual_leaf split false).length = 2 ^ h := by
    rw [length_is_actual_leaf, hv.length]; simp
  refine ⟨⟨l1, ?_⟩, ⟨l2, ?_⟩⟩
  · by_cases hi : i < 2 ^ (h + 1)
    · exact is_actual_leaf_iff hv hh h64 (by simpa using hi)
    · constructor
      · intro hc
        rw [List.getD_eq_default _ _ (by omega)] at hc; simp at hc
      · intro hl; exact absurd (hl.1.lt hv.length) hi
  · by_cases hi : i < 2 ^ h
    · rw [is_actual_leaf_iff hv hh h64 (by simpa using hi)]; simp [hi]
    · constructor
      · intro hc
        rw [List.getD_eq_default _ _ (by omega)] at hc; simp at hc
      · intro hl; exact absurd hl.2 hi

/-- a valid tree of depth 3 -/
theorem exampleValid : ValidSplit 2 [0, 3, 2, 0] where
  length := rfl
  zero := rfl
  closed := by
    intro i h2 hi
    have hlt := lt_of_at0_ne hi
    simp only [List.length_cons, List.length_nil] at hlt
    have : i = 2 ∨ i = 3 := by omega
    rcases this with rfl | rfl <;> decide

example : is_actual_leaf [0, 3, 2, 0] true = [false, false, false, true, true, true, false, false] :=
  by decide
example : IsLeaf [0, 3, 2, 0] 5 :=
  ((C04_is_actual_leaf [0, 3, 2, 0] 2 (by omega) (by omega) exampleValid 5).1.2).1 (by decide)

/-! ### C05 -/

/-- C05. `is_leaves_parent` marks exactly the decision nodes with two leaf children. -/
theorem C05_is_leaves_parent (split : List Nat) (h : Nat) (h64 : h < 64) (hv : ValidSplit h split)
    (i : Nat) :
    (is_leaves_parent split).length = 2 ^ h ∧
    ((is_leaves_parent split).getD i false = true ↔ IsLeafParent split i) := by
  have l1 : (is_leaves_parent split).length = 2 ^ h := by rw [length_is_leaves_parent, hv.length]
  refine ⟨l1, ?_⟩
  by_cases hi : i < 2 ^ h
  · exact is_leaves_parent_iff hv h64 hi
  · constructor
    · intro hc
      rw [List.getD_eq_default _ _ (by omega)] at hc; simp at hc
    · intro hl; exact absurd (hl.1.lt hv.length) hi

example : is_leaves_parent [0, 3, 2, 0] = [false, false, true, false] := by decide
example : IsLeafParent [0, 3, 2, 0] 2 :=
  ((C05_is_leaves_parent [0, 3, 2, 0] 2 (by omega) exampleValid 2).2).1 (by decide)

/-! ### C06 -/

/-- The number of steps `i -> i // 2` to go from node `i` to the root, by recursion. -/
def stepsToRoot (i : Nat) : Nat :=
  if h : i ≤ 1 then 0 else stepsToRoot (i / 2) + 1
termination_by i
decreasing_by omega

theorem stepsToRoot_eq_log2 (i : Nat) : stepsToRoot i = Nat.log2 i := by
  induction i using Nat.strong_induction_on with
  | _ i ih =>
    rw [stepsToRoot, Nat.log2_def]
    split_ifs with h1 h2 h2
    · omega
    · rfl
    · rw [ih _ (by omega)]
    · omega

/-- C06. `tree_depths(n)[i]` is the number of steps from node `i` to the root, for any `n` and all
`i < n` (0 for the unused node); `tree_depth` of `make_tree(d)` is `d`; `make_tree` is a valid tree
with a leaf root as its only node. -/
theorem C06_depths :
    (∀ n, (tree_depths n).length = n) ∧
    (∀ n i, i < n → (tree_depths n).getD i 0 = stepsToRoot i) ∧
    (∀ (α : Type) (zero : α) d, tree_depth (make_tree d zero) = d) ∧
    (∀ h i, ValidSplit h (make_tree h 0) ∧ (IsNode (make_tree h 0) i ↔ i = 1)) := by
  have zer : ∀ h i, at0 (make_tree h 0) i = 0 := by
    intro h i
    simp only [at0, make_tree, List.getD_eq_getElem?_getD, List.getElem?_replicate]
    split_ifs <;> rfl
  refine ⟨length_tree_depths, fun n i hi => ?_, fun α z d => ?_, fun h i => ⟨⟨?_, ?_, ?_⟩, ?_⟩⟩
  · rw [tree_depths_getD hi, stepsToRoot_eq_log2]
  · exact tree_depth_pow (by simp [make_tree])
  · simp [make_tree]
  · exact zer _ _
  · intro i _ hi; exact absurd (zer _ _) hi
  · constructor
    · intro hn
      cases hn with
      | root => rfl
      | left _ hs => exact absurd (zer _ _) hs
      | right _ hs => exact absurd (zer _ _) hs
    · rintro rfl; exact .root

example : tree_depths 11 = [0, 0, 1, 1, 2, 2, 2, 2, 3, 3, 3] := by decide

/-! ### C07 -/

open Classical in
/-- C07, first part: a tree has one leaf more than it has decision nodes. -/
theorem C07_count (split : List Nat) (h : Nat) (hv : ValidSplit h split) :
    ((Finset.range (2 ^ (h + 1))).filter (IsLeaf split)).card =
      ((Finset.range (2 ^ h)).filter (IsDecision split)).card + 1 := by
  have hlen := hv.length
  have hpow : (2 : Nat) ^ (h + 1) = 2 ^ h * 2 := pow_succ 2 h
  -- the nodes are the root and the children of the decision nodes
  have hnodes : (Finset.range (2 ^ (h + 1))).filter (IsNode split) =
      insert 1 ((((Finset.range (2 ^ h)).filter (IsDecision split)).image (2 * ·)) ∪
        (((Finset.range (2 ^ h)).filter (IsDecision split)).image (2 * · + 1))) := by
    ext i
    simp only [Finset.mem_filter, Finset.mem_range, Finset.mem_insert, Finset.mem_union,
      Finset.mem_image]
    constructor
    · rintro ⟨hi, hn⟩
      cases hn with
      | root => exact .inl rfl
      | @left k hk hs => exact .inr (.inl ⟨k, ⟨by omega, hk, hs⟩, rfl⟩)
      | @right k hk hs => exact .inr (.inr ⟨k, ⟨by omega, hk, hs⟩, rfl⟩)
    · rintro (rfl | ⟨k, ⟨hk, hd⟩, rfl⟩ | ⟨k, ⟨hk, hd⟩, rfl⟩)
      · exact ⟨by have := Nat.two_pow_pos h; omega, .root⟩
      · exact ⟨by omega, .left hd.1 hd.2⟩
      · exact ⟨by omega, .right hd.1 hd.2⟩
  have hcard : ((Finset.range (2 ^ (h + 1))).filter (IsNode split)).card =
      2 * ((Finset.range (2 ^ h)).filter (IsDecision split)).card + 1 := by
    rw [hnodes, Finset.card_insert_of_notMem, Finset.card_union_of_disjoint,
      Finset.card_image_of_injective, Finset.card_image_of_injective]
    · omega
    · intro a b hab; simp at hab; exact hab
    · intro a b hab; simp at hab; exact hab
    · rw [Finset.disjoint_left]
      intro a ha hb
      rw [Finset.mem_image] at ha hb
      obtain ⟨u, _, hu⟩ := ha
      obtain ⟨v, _, hv⟩ := hb
      omega
    · rw [Finset.mem_union, Finset.mem_image, Finset.mem_image]
      rintro (⟨u, _, hu⟩ | ⟨u, hu', hu⟩)
      · omega
      · rw [Finset.mem_filter] at hu'
        have := hu'.2.1.pos
        omega
  -- nodes are either leaves or decision nodes
  have hsplit : ((Finset.range (2 ^ (h + 1))).filter (IsNode split)).card =
      ((Finset.range (2 ^ (h + 1))).filter (IsLeaf split)).card +
      ((Finset.range (2 ^ h)).filter (IsDecision split)).card := by
    rw [← Finset.card_union_of_disjoint]
    · congr 1
      ext i
      simp only [Finset.mem_filter, Finset.mem_range, Finset.mem_union]
      constructor
      · rintro ⟨hi, hn⟩
        by_cases h0 : at0 split i = 0
        · exact .inl ⟨hi, hn, h0⟩
        · exact .inr ⟨by have := lt_of_at0_ne h0; omega, hn, h0⟩
      · rintro (⟨hi, hl⟩ | ⟨hi, hd⟩)
        · exact ⟨hi, hl.1⟩
        · exact ⟨by omega, hd.1⟩
    · rw [Finset.disjoint_left]
      intro a ha hb
      rw [Finset.mem_filter] at ha hb
      exact hb.2.2 ha.2.2
  omega

/-- C07, second part: the test used by `prune_move` (`split_tree[1] != 0`) is true iff some node can
be pruned, iff `is_leaves_parent` marks something. -/
theorem C07_prunable (split : List Nat) (h : Nat) (hh : 1 ≤ h) (h64 : h < 64)
    (hv : ValidSplit h split) :
    ((gather split 1 != 0) = true ↔ ∃ i, IsLeafParent split i) ∧
    ((gather split 1 != 0) = true ↔ countNonzero (is_leaves_parent split) ≠ 0) := by
  have hp : 2 ≤ 2 ^ h := by
    calc 2 = 2 ^ 1 := rfl
      _ ≤ 2 ^ h := Nat.pow_le_pow_right (by omega) hh
  have hlen := hv.length
  rw [gather_at0 (by omega), bne_iff_ne]
  have root_of : ∀ i, IsDecision split i → at0 split 1 ≠ 0 := by
    intro i
    induction i using Nat.strong_induction_on with
    | _ i ih =>
      intro hd
      rcases Nat.lt_or_ge i 2 with h2 | h2
      · have := hd.1.pos
        have : i = 1 := by omega
        subst this; exact hd.2
      · exact ih (i / 2) (by omega) (hd.1.parent h2)
  have key : at0 split 1 ≠ 0 ↔ ∃ i, IsLeafParent split i :=
    ⟨fun h1 => let ⟨i, _, hi⟩ := exists_leafParent hv h1; ⟨i, hi⟩, fun ⟨i, hi⟩ => root_of i hi.1⟩
  refine ⟨key, ?_⟩
  rw [key, ← Nat.pos_iff_ne_zero, countNonzero_pos_iff]
  constructor
  · rintro ⟨i, hi⟩
    refine ⟨i, ?_, ((C05_is_leaves_parent split h h64 hv i).2).2 hi⟩
    rw [(C05_is_leaves_parent split h h64 hv i).1]
    exact hi.1.lt hv.length
  · rintro ⟨i, _, hi⟩
    exact ⟨i, ((C05_is_leaves_parent split h h64 hv i).2).1 hi⟩

example : ∃ i, IsLeafParent [0, 3, 2, 0] i :=
  (C07_prunable _ 2 (by omega) (by omega) exampleValid).1.1 (by decide)

/-! ### C08 -/

/-- C08. The returned type can represent `max_value`, and no smaller unsigned type can. -/
theorem C08_minimal_unsigned_dtype (max_value : Int) (h : max_value < 2 ^ 64) :
    let b := minimal_unsigned_dtype max_value
    (b = 8 ∨ b = 16 ∨ b = 32 ∨ b = 64) ∧ max_value < 2 ^ b ∧
    ∀ b', (b' = 8 ∨ b' = 16 ∨ b' = 32 ∨ b' = 64) → b' < b → ¬ max_value < 2 ^ b' := by
  unfold minimal_unsigned_dtype
  split_ifs with h1 h2 h3
  · refine ⟨by omega, by omega, ?_⟩
    rintro b' hb' hlt; omega
  · refine ⟨by omega, by omega, ?_⟩
    rintro b' (rfl | rfl | rfl | rfl) hlt <;> omega
  · refine ⟨by omega, by omega, ?_⟩
    rintro b' (rfl | rfl | rfl | rfl) hlt <;> omega
  · refine ⟨by omega, by omega, ?_⟩
    rintro b' (rfl | rfl | rfl | rfl) hlt <;> omega

example : minimal_unsigned_dtype 255 = 8 ∧ minimal_unsigned_dtype 256 = 16 ∧
    minimal_unsigned_dtype (-1) = 8 := by decide

end Bartz
