import Verif.Lemmas.Print
import Verif.Lemmas.Debug
import Verif.Props.Mcmc
/-!
# Properties C50, C51, C53, C55: printing, statistics and checks of trees (`debug.py`)
-/

set_option autoImplicit false

namespace Bartz
open Jax Spec

/-! ### C53 -/

section
variable {F : Type} [Inhabited F]

/-- C53. Printing a tree never fails; the nodes of the tree are listed, each once, parents before
children and left before right; each is shown with the lines that connect it to its parent, and with
its rule if a decision node or its value if a leaf. No condition is posed on the content of the
arrays, only on their lengths. -/
theorem C53_print_tree (leaf : List F) (var split : List Nat)
    (hlen : leaf.length = 2 * split.length) (hpos : 0 < split.length) :
    ∃ lines, print_tree leaf var split false = some lines ∧
      (lines.map (·.index)).Pairwise Before ∧
      (lines.map (·.index)).Nodup ∧
      (∀ i, i ∈ lines.map (·.index) ↔ IsNode split i) ∧
      ∀ l ∈ lines, l.indent = branch l.index ∧
        (IsLeaf split l.index → l.text = .value (leaf.getD l.index default) ∧
          l.link = if 2 * l.index < leaf.length then " " else "╢") ∧
        (IsDecision split l.index → l.text = .rule (at0 var l.index) (at0 split l.index) ∧
          l.link = "┐") := by
  refine ⟨_, print_tree_eq leaf var split false, ?_⟩
  have hmap : ∀ L : List Nat, (L.map (nodeLine leaf var split false)).map (·.index) = L := by
    intro L; rw [List.map_map]; exact List.map_id' L
  rw [hmap]
  refine ⟨visited_pairwise (by omega), ?_, mem_visited_false hlen hpos, ?_⟩
  · exact (visited_pairwise (by omega)).imp fun h e => by subst e; exact h.irrefl
  · intro l hl
    obtain ⟨i, hi, rfl⟩ := List.mem_map.1 hl
    refine ⟨rfl, fun h => ?_, fun h => ?_⟩
    · have h0 : at0 split i = 0 := h.2
      have hi2 : (nodeLine leaf var split false i).index = i := rfl
      rw [hi2]
      refine ⟨by simp [nodeLine, nodeText, h0], ?_⟩
      by_cases hb : 2 * i < leaf.length
      · simp [nodeLine, nodeLink, h0, hb]
      · simp [nodeLine, nodeLink, h0, hb, Nat.le_of_not_lt hb]
    · have h0 : at0 split i ≠ 0 := h.2
      exact ⟨by simp [nodeLine, nodeText, h0], by simp [nodeLine, nodeLink, h0]⟩

/-- C53, with `print_all=True`: all the positions of the array but the unused one are listed, each
once, in the same order, and the ones that are not nodes of the tree are marked as unused. -/
theorem C53_print_all (leaf : List F) (var split : List Nat) :
    ∃ lines, print_tree leaf var split true = some lines ∧
      (lines.map (·.index)).Pairwise Before ∧
      (lines.map (·.index)).Nodup ∧
      (∀ i, i ∈ lines.map (·.index) ↔ 1 ≤ i ∧ i < leaf.length) ∧
      ∀ l ∈ lines, l.indent = branch l.index ∧ ∃ category,
        l.text = .category category (at0 var l.index) (at0 split l.index)
          (leaf.getD l.index default) ∧
        (¬ IsNode split l.index → category = "unused") ∧
        (IsLeaf split l.index → category = "leaf") ∧
        (IsDecision split l.index → category = "decision") := by
  refine ⟨_, print_tree_eq leaf var split true, ?_⟩
  have hmap : ∀ L : List Nat, (L.map (nodeLine leaf var split true)).map (·.index) = L := by
    intro L; rw [List.map_map]; exact List.map_id' L
  rw [hmap]
  refine ⟨visited_pairwise (by omega), ?_, mem_visited_true, ?_⟩
  · exact (visited_pairwise (by omega)).imp fun h e => by subst e; exact h.irrefl
  · intro l hl
    obtain ⟨i, hi, rfl⟩ := List.mem_map.1 hl
    have h1 := ((mem_visited_true i).1 hi).1
    refine ⟨rfl, _, by simp only [nodeLine, nodeText, if_true]; rfl, ?_, ?_, ?_⟩
    · intro hn
      have hn' : ¬ IsNode split i := hn
      rw [← isUnused_iff h1] at hn'
      simp [nodeLine, hn']
    · intro hn
      have hu := (isUnused_iff h1).2 hn.1
      have h0 : at0 split i = 0 := hn.2
      simp [hu, h0]
    · intro hn
      have hu := (isUnused_iff h1).2 hn.1
      have h0 : at0 split i ≠ 0 := hn.2
      simp [hu, h0]

/-- a larger number has at least as many digits -/
theorem length_toString_mono {m n : Nat} (hn : n ≤ m) : (toString n).length ≤ (toString m).length := by
  have e : ∀ k : Nat, (toString k).length = (Nat.toDigits 10 k).length := fun k => by
    rw [show toString k = Nat.repr k from rfl, Nat.repr_eq_ofList_toDigits]; simp
  rw [e, e]
  induction m using Nat.strong_induction_on generalizing n with
  | _ m ih =>
    rw [Nat.toDigits_eq_if (n := n) (by decide), Nat.toDigits_eq_if (n := m) (by decide)]
    by_cases h1 : n < 10
    · rw [if_pos h1]; split <;> simp
    · rw [if_neg h1, if_neg (by omega)]
      simpa using ih (m / 10) (by omega) (show n / 10 ≤ m / 10 by omega)

/-- C53, alignment. Each printed line begins with a space and the index of the node, written with spaces in front in a column as wide
as the greatest index in the array, followed by a space, the connecting lines, and the content of the node. -/
theorem C53_aligned (str short : F → String) (leaf : List F) (var split : List Nat) (print_all : Bool) :
    ∃ lines, print_tree leaf var split print_all = some lines ∧ ∀ l ∈ lines, ∃ pad,
      l.render str short leaf.length =
        " " ++ (String.ofList (List.replicate pad ' ') ++ toString l.index) ++ " " ++ l.indent ++ l.link ++ l.text.render str short ∧
      (String.ofList (List.replicate pad ' ') ++ toString l.index).length = (toString (leaf.length - 1)).length := by
  refine ⟨_, print_tree_eq leaf var split print_all, fun l hl => ?_⟩
  obtain ⟨i, hi, rfl⟩ := List.mem_map.1 hl
  have hlt : i < leaf.length := (visited_anc hi).2
  have hd : (toString i).length ≤ (toString (leaf.length - 1)).length := length_toString_mono (by omega)
  refine ⟨(toString (leaf.length - 1)).length - (toString i).length, rfl, ?_⟩
  rw [show (nodeLine leaf var split print_all i).index = i from rfl]
  rw [String.length_append, String.length_ofList, List.length_replicate]
  omega

end

-- the tree with root `x[1] < 3` and left child `x[0] < 2`, with all leaves nonzero
example : (print_tree [0, 10, 20, 30, 40, 50, 60, 70] [0, 1, 0, 0] [0, 3, 2, 0] false).map
    (·.map (Line.render toString toString 8)) = some
      [" 1 ┐(1: 3)",
       " 2 ├──┐(0: 2)",
       " 4 │  ├──╢40",
       " 5 │  └──╢50",
       " 3 └── 30"] := by decide +kernel
example : (print_tree [0, 10, 20, 30] [0, 1] [0, 0] true).map
    (·.map (Line.render toString toString 4)) = some
      [" 1 ┐leaf(1, 0, 10)",
       " 2 ├── unused(0, 0, 20)",
       " 3 └── unused(0, 0, 30)"] := by decide +kernel
-- the indices are aligned
example : (print_tree (List.range 16) [0, 1, 0, 0, 0, 0, 0, 0] [0, 3, 0, 0, 0, 0, 0, 0] false).map
    (·.map (Line.render toString toString 16)) = some
      ["  1 ┐(1: 3)",
       "  2 ├── 2",
       "  3 └── 3"] := by decide +kernel

/-! ### C51 -/

/-- C51, depth. `tree_actual_depth` is the depth of the deepest leaf. -/
theorem C51_tree_depth (split : List Nat) (h : Nat) (hh : 1 ≤ h) (h64 : h < 64)
    (hv : ValidSplit h split) : IsTreeDepth split (tree_actual_depth split) :=
  tree_actual_depth_spec hv hh h64

open Classical in
/-- C51, distribution of depths. `forest_depth_distr` counts the trees by depth, all of them. -/
theorem C51_forest_depth (splits : List (List Nat)) (h : Nat) (hh : 1 ≤ h) (h64 : h < 64)
    (hv : ∀ split ∈ splits, ValidSplit h split) :
    (forest_depth_distr (2 ^ h) splits).length = h + 1 ∧
    (∀ k ≤ h, (forest_depth_distr (2 ^ h) splits).getD k 0 =
      splits.countP fun split => decide (IsTreeDepth split k)) ∧
    (forest_depth_distr (2 ^ h) splits).sum = splits.length := by
  set depths := vmap splits.length fun t => tree_actual_depth (splits.getD t []) with hd
  have hdef : forest_depth_distr (2 ^ h) splits = bincount depths (h + 1) := by
    unfold forest_depth_distr; rw [Nat.log2_two_pow]
  have hdepths : depths = splits.map tree_actual_depth := by
    apply List.ext_getElem
    · simp [hd]
    · intro i h1 h2
      have hi : i < splits.length := by simpa [hd] using h1
      rw [← List.getD_eq_getElem _ 0 h1, hd, getD_vmap hi, List.getElem_map,
        List.getD_eq_getElem _ _ hi]
  have hlen : (bincount depths (h + 1)).length = h + 1 := length_bincount _ _
  rw [hdef]
  refine ⟨hlen, fun k hk => ?_, ?_⟩
  · rw [bincount_getD _ _ _ (by omega), hdepths, List.count_eq_countP, List.countP_map]
    apply List.countP_congr
    intro split hs
    have hD := C51_tree_depth split h hh h64 (hv split hs)
    simp only [Function.comp, beq_iff_eq, decide_eq_true_eq]
    constructor
    · intro e; rw [← e]; exact hD
    · intro e; exact hD.unique e
  · rw [eq_map_range (bincount depths (h + 1)), hlen, sum_map_range,
      Finset.sum_congr rfl fun k hk => bincount_getD depths (h + 1) k (Finset.mem_range.1 hk),
      sum_count_range, hdepths, List.length_map]
    intro v hv'
    rw [hdepths, List.mem_map] at hv'
    obtain ⟨split, hs, rfl⟩ := hv'
    have := tree_actual_depth_le (hv split hs) hh h64
    omega

example : ValidSplit 2 [0, 3, 2, 0] ∧ tree_actual_depth [0, 3, 2, 0] = 2 ∧
    forest_depth_distr 4 [[0, 3, 2, 0], [0, 0, 0, 0], [0, 1, 0, 0], [0, 7, 0, 1]] = [1, 1, 2] :=
  ⟨exampleValid, by decide, by decide⟩

/-- C51, number of datapoints per leaf, partial: the bins of the histogram are computed modulo
2^8. The full statement has no `% 2 ^ 8`; what is missing is false, see `C51_not`. The reason is
that `is_leaf` is converted to `uint8` (debug.py:89) and `jnp.bincount` accumulates in the type of
the weights. -/
theorem C51_points_per_leaf_partial (n : Nat) (X : List (List Nat)) (var split : List Nat) (h : Nat)
    (hh : 1 ≤ h) (h64 : h < 64) (hn : n < 2 ^ 64) (hvar : var.length = 2 ^ h)
    (hv : ValidSplit h split) :
    (points_per_leaf_distr n var split X).length = n + 1 ∧
    ∀ k ≤ n, (points_per_leaf_distr n var split X).getD k 0 =
      leavesWith X n var split k % 2 ^ 8 :=
  points_per_leaf_distr_spec hv hh h64 hvar X hn

/-- C51, number of datapoints per leaf: the histogram is right if the maximum depth `d = h + 1` is at
most 8, and whatever the maximum depth if the tree has less than 256 leaves. -/
theorem C51_points_per_leaf (n : Nat) (X : List (List Nat)) (var split : List Nat) (h : Nat)
    (hh : 1 ≤ h) (h64 : h < 64) (hn : n < 2 ^ 64) (hvar : var.length = 2 ^ h)
    (hv : ValidSplit h split) (hsmall : h + 1 ≤ 8 ∨ numLeaves split < 256) :
    (points_per_leaf_distr n var split X).length = n + 1 ∧
    ∀ k ≤ n, (points_per_leaf_distr n var split X).getD k 0 = leavesWith X n var split k := by
  obtain ⟨h1, h2⟩ := points_per_leaf_distr_spec hv hh h64 hvar X hn
  refine ⟨h1, fun k hk => ?_⟩
  rw [h2 k hk]
  have h3 := leavesWith_le hv.length X n var k
  apply Nat.mod_eq_of_lt
  rcases hsmall with h4 | h4
  · have h5 := numLeaves_le hv.length
    have h6 : 2 ^ h ≤ 2 ^ 7 := Nat.pow_le_pow_right (by omega) (by omega)
    have h7 : (2 : Nat) ^ 7 < 2 ^ 8 := by decide
    omega
  · have : (2 : Nat) ^ 8 = 256 := by decide
    omega

/-- C51, sum over a forest. `forest_points_per_leaf_distr` adds the histograms of the trees. -/
theorem C51_forest_points (n : Nat) (X : List (List Nat)) (vars splits : List (List Nat)) (h : Nat)
    (hh : 1 ≤ h) (h64 : h < 64) (hn : n < 2 ^ 64) (hd : h + 1 ≤ 8)
    (hvar : ∀ var ∈ vars, var.length = 2 ^ h) (hv : ∀ split ∈ splits, ValidSplit h split)
    (k : Nat) (hk : k ≤ n) :
    (forest_points_per_leaf_distr n vars splits X).getD k 0 =
      ((vars.zip splits).map fun t => leavesWith X n t.1 t.2 k).sum := by
  have hT : ∀ t ∈ vars.zip splits,
      (points_per_leaf_distr n t.1 t.2 X).length = n + 1 ∧
      ∀ k ≤ n, (points_per_leaf_distr n t.1 t.2 X).getD k 0 = leavesWith X n t.1 t.2 k := by
    intro t ht
    obtain ⟨h1, h2⟩ := List.of_mem_zip ht
    exact C51_points_per_leaf n X t.1 t.2 h hh h64 hn (hvar _ h1) (hv _ h2) (.inl hd)
  unfold forest_points_per_leaf_distr
  rw [scan_distr _ (fun t ht => (hT t ht).1) _ (by simp) k]
  have hz : (List.replicate (n + 1) 0).getD k 0 = 0 := by
    rw [List.getD_eq_getElem _ _ (by simp; omega)]; simp
  rw [hz, zero_add]
  refine congrArg List.sum (List.map_congr_left fun t ht => ?_)
  exact (hT t ht).2 k hk

-- three leaves, four points: one leaf without points, two with two points each
example : points_per_leaf_distr 4 [0, 1, 0, 0] [0, 3, 2, 0] [[0, 1, 5, 6], [0, 0, 0, 0]] =
    [1, 0, 2, 0, 0] := by decide
example : leavesWith [[0, 1, 5, 6], [0, 0, 0, 0]] 4 [0, 1, 0, 0] [0, 3, 2, 0] 2 = 2 :=
  ((C51_points_per_leaf 4 [[0, 1, 5, 6], [0, 0, 0, 0]] [0, 1, 0, 0] [0, 3, 2, 0] 2 (by omega)
    (by omega) (by omega) rfl exampleValid (.inl (by omega))).2 2 (by omega)).symm

namespace ExD

/-- a full tree with 512 leaves -/
def var : List Nat := List.replicate 512 0
def split : List Nat := 0 :: List.replicate 511 1

theorem at0_split (i : Nat) : at0 split i = if 1 ≤ i ∧ i < 512 then 1 else 0 := by
  unfold at0 split
  rcases i with _ | i
  · rfl
  · rw [List.getD_cons_succ, List.getD_eq_getElem?_getD, List.getElem?_replicate]
    by_cases hi : i < 511
    · simp [hi]
    · simp [hi]; omega

theorem valid : ValidSplit 9 split where
  length := by rw [split, List.length_cons, List.length_replicate]
  zero := by rw [at0_split]; simp
  closed i h2 h := by
    rw [at0_split] at h ⊢
    rw [if_pos (by split_ifs at h with hc <;> [omega; exact absurd rfl h])]
    omega

theorem decisions : numDecisions split = 511 := by
  have : {i | IsDecision split i} = ((Finset.Ico 1 512 : Finset Nat) : Set Nat) := by
    ext i
    rw [Finset.coe_Ico]
    simp only [Set.mem_ofPred_eq, Set.mem_Ico]
    constructor
    · intro hd
      have := hd.lt valid.length
      have := hd.1.pos
      omega
    · intro hi
      have h0 : at0 split i ≠ 0 := by rw [at0_split, if_pos hi]; omega
      exact ⟨valid.isNode_of_ne h0, h0⟩
  rw [numDecisions, this, Set.ncard_coe_finset, Nat.card_Ico]

end ExD

open ExD in
/-- C51 is false as stated for `points_per_leaf_distr`: in a tree with 512 leaves and 1 datapoint,
511 leaves are empty but the function says 255. -/
theorem C51_not : ¬ ∀ (n : Nat) (X : List (List Nat)) (var split : List Nat) (h : Nat), 1 ≤ h →
    h < 64 → n < 2 ^ 64 → var.length = 2 ^ h → ValidSplit h split →
    ∀ k ≤ n, (points_per_leaf_distr n var split X).getD k 0 = leavesWith X n var split k := by
  intro hc
  have hX := hc 1 [[0]] var split 9 (by omega) (by omega) (by omega) List.length_replicate valid
  have hvar : var.length = 2 ^ 9 := List.length_replicate
  have hpart : leavesWith [[0]] 1 var split 0 + leavesWith [[0]] 1 var split 1 ≥ 512 := by
    have hnl : numLeaves split = 512 := by rw [numLeaves_eq valid.length, decisions]
    rw [← hnl]
    refine le_trans (Set.ncard_le_ncard (t := {i | IsLeaf split i ∧ pointsIn [[0]] 1 var split i = 0} ∪
      {i | IsLeaf split i ∧ pointsIn [[0]] 1 var split i = 1}) ?_ ?_) (Set.ncard_union_le _ _)
    · intro i hi
      have hle : pointsIn [[0]] 1 var split i ≤ 1 := by
        have hsub : {j | j < 1 ∧ FallsInto (point [[0]] j) var split i} ⊆ {0} := by
          intro j hj; have := hj.1; simp; omega
        have := Set.ncard_le_ncard hsub (Set.finite_singleton 0)
        rwa [Set.ncard_singleton] at this
      rcases Nat.le_one_iff_eq_zero_or_eq_one.1 hle with h0 | h0
      · exact .inl ⟨hi, h0⟩
      · exact .inr ⟨hi, h0⟩
    · exact (leaves_finite valid.length).subset fun i hi => by
        rcases hi with hi | hi <;> exact hi.1
  have h0 := hX 0 (by omega)
  have h1 := hX 1 (by omega)
  have p := C51_points_per_leaf_partial 1 [[0]] var split 9 (by omega) (by omega) (by omega) hvar
    valid
  have p0 := p.2 0 (by omega)
  have p1 := p.2 1 (by omega)
  have : (2 : Nat) ^ 8 = 256 := by decide
  omega

-- what the function returns
example : points_per_leaf_distr 1 ExD.var ExD.split [[0]] = [255, 1] := by decide +kernel

/-! ### C50 -/

section
variable {F : Type} [FltFun F]

/-- What each of the checks is about, with its name, in the order in which they are listed. -/
def checkList (t : TreeArrays F) (max_split : MaxSplit) : List (String × Prop) :=
  [-- the types of the variable and decision boundary arrays are those that `init` would use
   ("check_types", t.var_bits = minimal_unsigned_dtype (max_split.values.length - 1 : Int) ∧
      t.split_bits = max_split.bits),
   -- the lengths of the arrays match
   ("check_sizes", t.leaf_tree.length = 2 * t.var_tree.length ∧
      t.var_tree.length = t.split_tree.length),
   -- the unused node is zero
   ("check_unused_node", at0 t.var_tree 0 = 0 ∧ at0 t.split_tree 0 = 0),
   -- the values of the leaves are finite
   ("check_leaf_values", ∀ x ∈ t.leaf_tree, FltFun.isFinite x = true),
   -- the parents of decision nodes are decision nodes
   ("check_stray_nodes", ∀ i, 2 ≤ i → at0 t.split_tree i ≠ 0 → at0 t.split_tree (i / 2) ≠ 0)]

omit [FltFun F] in
theorem check_stray_nodes_iff (t : TreeArrays F) (ms : MaxSplit) (hs : 0 < t.split_tree.length)
    (h64 : 2 * t.split_tree.length ≤ 2 ^ 64) :
    check_stray_nodes t ms = true ↔
      ∀ i, 2 ≤ i → at0 t.split_tree i ≠ 0 → at0 t.split_tree (i / 2) ≠ 0 := by
  set split := t.split_tree with hsplit
  set n := 2 * split.length with hn
  unfold check_stray_nodes
  dsimp only
  set L := setDrop (List.zipWith (· && ·)
    ((arange n (minimal_unsigned_dtype (2 * (split.length : Int) - 1))).map
      fun i => getFill split i 0 != 0)
    (((arange n (minimal_unsigned_dtype (2 * (split.length : Int) - 1))).map (· >>> 1)).map
      fun i => gather split i == 0)) 1 false with hL
  have hLl : L.length = n := by simp [hL]
  have hLg : ∀ i, i < n → L.getD i false =
      (i != 1 && (at0 split i != 0 && at0 split (i / 2) == 0)) := by
    intro i hi
    have hfit : i < 2 ^ minimal_unsigned_dtype (2 * (split.length : Int) - 1) := by
      have := size_fits hi h64
      rwa [hn, Nat.cast_mul] at this
    rw [hL, getD_setDrop]
    by_cases h1 : 1 = i
    · subst h1; simp; omega
    · simp only [h1, false_and, if_false]
      rw [getD_zipWith_and, getD_map_lt (d := 0) (by simpa using hi),
        getD_map_lt (d := 0) (by simpa using hi), getD_map_lt (d := 0) (by simpa using hi),
        getD_arange hi hfit]
      have hsh : i >>> 1 = i / 2 := by simp [Nat.shiftRight_eq_div_pow]
      have hg : gather split (i / 2) = at0 split (i / 2) := gather_eq_getD (by omega) _
      rw [hsh, hg]
      have h2 : (i != 1) = true := by simp; omega
      rw [h2, Bool.true_and]
      rfl
  have key : (!(L.any id)) = true ↔ ∀ i, i < n → L.getD i false = false := by
    rw [Bool.not_eq_true', List.any_eq_false]
    constructor
    · intro h i hi
      rw [List.getD_eq_getElem _ _ (by omega)]
      simpa using h _ (List.getElem_mem _)
    · intro h x hx
      obtain ⟨i, hi, rfl⟩ := List.getElem_of_mem hx
      have := h i (by omega)
      rw [List.getD_eq_getElem _ _ hi] at this
      simpa using this
  rw [key]
  constructor
  · intro h i h2 h0 hp
    have hi := lt_of_at0_ne h0
    have := h i (by omega)
    rw [hLg i (by omega)] at this
    simp [h0, hp] at this
    omega
  · intro h i hi
    rw [hLg i hi]
    by_cases h1 : i = 1
    · simp [h1]
    · by_cases h0 : at0 split i = 0
      · simp [h0]
      · rcases Nat.lt_or_ge i 2 with h2 | h2
        · have : i = 0 := by omega
          subst this; simp [h0]
        · simp [h i h2 h0]

theorem check_functions_iff (t : TreeArrays F) (ms : MaxSplit) (hv : 0 < t.var_tree.length)
    (hs : 0 < t.split_tree.length) (h64 : 2 * t.split_tree.length ≤ 2 ^ 64) :
    (check_functions (F := F)).map (·.1) = (checkList t ms).map (·.1) ∧
    (check_functions (F := F)).map (fun c => c.2 t ms = true) = (checkList t ms).map (·.2) := by
  refine ⟨rfl, ?_⟩
  have e1 : (check_types t ms = true) = _ := propext (by
    unfold check_types; simp only [Bool.and_eq_true, beq_iff_eq] :
    check_types t ms = true ↔ t.var_bits = minimal_unsigned_dtype (ms.values.length - 1 : Int) ∧
      t.split_bits = ms.bits)
  have e2 : (check_sizes t ms = true) = _ := propext (by
    unfold check_sizes; simp only [Bool.and_eq_true, beq_iff_eq]; omega :
    check_sizes t ms = true ↔ t.leaf_tree.length = 2 * t.var_tree.length ∧
      t.var_tree.length = t.split_tree.length)
  have e3 : (check_unused_node t ms = true) = _ := propext (by
    unfold check_unused_node; simp only [Bool.and_eq_true, beq_iff_eq]
    rw [gather_eq_getD hv 0, gather_eq_getD hs 0]; exact Iff.rfl :
    check_unused_node t ms = true ↔ at0 t.var_tree 0 = 0 ∧ at0 t.split_tree 0 = 0)
  have e4 : (check_leaf_values t ms = true) = _ := propext (by
    unfold check_leaf_values; rw [List.all_eq_true] :
    check_leaf_values t ms = true ↔ ∀ x ∈ t.leaf_tree, FltFun.isFinite x = true)
  have e5 := propext (check_stray_nodes_iff t ms hs h64)
  simp only [check_functions, checkList, List.map_cons, List.map_nil]
  rw [e1, e2, e3, e4, e5]

/-- the error code as a function of the outcomes of the checks -/
def errorCode (b1 b2 b3 b4 b5 : Bool) : Nat :=
  0 ||| astype 8 ((if !b1 then 1 else 0) <<< 0) ||| astype 8 ((if !b2 then 1 else 0) <<< 1) |||
    astype 8 ((if !b3 then 1 else 0) <<< 2) ||| astype 8 ((if !b4 then 1 else 0) <<< 3) |||
    astype 8 ((if !b5 then 1 else 0) <<< 4)

theorem check_tree_eq (t : TreeArrays F) (ms : MaxSplit) :
    check_tree t ms = errorCode (check_types t ms) (check_sizes t ms) (check_unused_node t ms)
      (check_leaf_values t ms) (check_stray_nodes t ms) := by
  have hbits : minimal_unsigned_dtype (2 ^ 5 - 1) = 8 := by decide
  unfold check_tree errorCode
  simp only [check_functions, List.length_cons, List.length_nil, List.zipIdx_cons, List.zipIdx_nil,
    List.foldl_cons, List.foldl_nil, Nat.zero_add, Nat.reduceAdd, hbits]

theorem describe_errorCode (b1 b2 b3 b4 b5 : Bool) :
    describe_error F (errorCode b1 b2 b3 b4 b5) =
      (if b1 then [] else ["check_types"]) ++ (if b2 then [] else ["check_sizes"]) ++
      (if b3 then [] else ["check_unused_node"]) ++ (if b4 then [] else ["check_leaf_values"]) ++
      (if b5 then [] else ["check_stray_nodes"]) := by
  cases b1 <;> cases b2 <;> cases b3 <;> cases b4 <;> cases b5 <;>
    simp [describe_error, errorCode, check_functions, astype, List.filter_cons]

open Classical in
/-- C50. For any arrays, valid or not: the error code is zero iff all the checks are satisfied, and
`describe_error` lists the names of those which are not, in order. -/
theorem C50_check_tree (t : TreeArrays F) (ms : MaxSplit) (hv : 0 < t.var_tree.length)
    (hs : 0 < t.split_tree.length) (h64 : 2 * t.split_tree.length ≤ 2 ^ 64) :
    (check_tree t ms = 0 ↔ ∀ c ∈ checkList t ms, c.2) ∧
    describe_error F (check_tree t ms) =
      ((checkList t ms).filter fun c => decide (¬ c.2)).map (·.1) := by
  have hcf := (check_functions_iff t ms hv hs h64).2
  simp only [check_functions, checkList, List.map_cons, List.map_nil, List.cons.injEq,
    and_true] at hcf
  obtain ⟨e1, e2, e3, e4, e5⟩ := hcf
  simp only [checkList]
  rw [← e1, ← e2, ← e3, ← e4, ← e5]
  rw [check_tree_eq, describe_errorCode]
  constructor
  · simp only [List.mem_cons, List.not_mem_nil, or_false, forall_eq_or_imp, forall_eq]
    generalize check_types t ms = b1
    generalize check_sizes t ms = b2
    generalize check_unused_node t ms = b3
    generalize check_leaf_values t ms = b4
    generalize check_stray_nodes t ms = b5
    cases b1 <;> cases b2 <;> cases b3 <;> cases b4 <;> cases b5 <;> decide
  · simp only [List.filter_cons, List.filter_nil, decide_not, Bool.decide_eq_true]
    cases check_types t ms <;> cases check_sizes t ms <;> cases check_unused_node t ms <;>
      cases check_leaf_values t ms <;> cases check_stray_nodes t ms <;> rfl

/-- C50, consequence: if the arrays have the length they have in the code and there is no error then
the tree is valid. -/
theorem C50_valid (t : TreeArrays F) (ms : MaxSplit) (h : Nat) (h64 : h < 64)
    (hl : t.split_tree.length = 2 ^ h) (hv : 0 < t.var_tree.length) (h0 : check_tree t ms = 0) :
    ValidSplit h t.split_tree := by
  have hp : 0 < 2 ^ h := Nat.two_pow_pos h
  have h2 : 2 * t.split_tree.length ≤ 2 ^ 64 := by
    rw [hl, mul_comm, ← pow_succ]; exact Nat.pow_le_pow_right (by omega) (by omega)
  have hc := (C50_check_tree t ms hv (by omega) h2).1.1 h0
  simp only [checkList, List.mem_cons, List.not_mem_nil, or_false, forall_eq_or_imp,
    forall_eq] at hc
  exact ⟨hl, hc.2.2.1.2, hc.2.2.2.2⟩

end

section
open Ex

-- an array with a stray node (7 is a decision node but 3 is not) and a nonzero unused node
example : check_tree (F := Int) ⟨[0, 0, 0, 0, 0, 0, 0, 0, 0, 0, 0, 0, 0, 0, 0, 0],
      [1, 0, 0, 0, 0, 0, 0, 0], 8, [0, 1, 0, 0, 0, 0, 0, 1], 8⟩ ⟨[3, 3], 8⟩ = 20 ∧
    describe_error Int 20 = ["check_unused_node", "check_stray_nodes"] := by decide
example : check_tree (F := Int) ⟨[0, 0, 0, 4, 5, 6, 0, 0], [0, 1, 0, 0], 8, [0, 3, 2, 0], 8⟩
    ⟨[3, 3], 8⟩ = 0 := by decide

end

/-! ### C55 -/

section
variable {K F : Type} [KeyLike K] [Inhabited F] [Zero F] [One F] [Add F] [Sub F] [Mul F] [Div F]
  [Neg F] [NatCast F] [FltFun F] [FloatLaws F] {a : InitArgs F} {s : State F}

/-- The arguments of the checks for the `t`-th tree of a state. -/
def treeArrays (s : State F) (t : Nat) : TreeArrays F :=
  { leaf_tree := s.leaf_trees.getD t [], var_tree := s.var_trees.getD t [], var_bits := s.var_bits
    split_tree := s.split_trees.getD t [], split_bits := s.split_bits }

/-- C55. The checks are satisfied by all the trees of any state reachable by the MCMC, but for the
finiteness of the leaves: if the leaves are finite the error code is 0, otherwise it is the one of
`check_leaf_values` only. -/
theorem C55_checks (ha : ValidArgs a) (hs : Reachable K a s) :
    (check_forest ((List.range a.num_trees).map (treeArrays s)) ⟨s.max_split, s.split_bits⟩).length =
      a.num_trees ∧
    ∀ t < a.num_trees,
    (check_forest ((List.range a.num_trees).map (treeArrays s)) ⟨s.max_split, s.split_bits⟩).getD t
      0 = if (s.leaf_trees.getD t []).all FltFun.isFinite then 0 else 8 := by
  have h := reachable_inv ha hs
  refine ⟨by simp [check_forest], fun t ht => ?_⟩
  unfold check_forest
  rw [getD_vmap (by simpa using ht), getD_map_lt (d := 0) (by simpa using ht),
    List.getD_eq_getElem _ _ (by simpa using ht), List.getElem_range]
  have hT := h.tree t ht
  have hl : (s.split_trees.getD t []).length = 2 ^ a.p_nonterminal.length := hT.valid.length
  have hvl : (s.var_trees.getD t []).length = 2 ^ a.p_nonterminal.length := hT.var_len
  have hp : 0 < 2 ^ a.p_nonterminal.length := Nat.two_pow_pos _
  have h64 : 2 * (s.split_trees.getD t []).length ≤ 2 ^ 64 := by
    rw [hl, mul_comm, ← pow_succ]
    exact Nat.pow_le_pow_right (by omega) (by have := ha.depth_lt; omega)
  have hcf := (check_functions_iff (treeArrays s t) ⟨s.max_split, s.split_bits⟩
    (by show 0 < (s.var_trees.getD t []).length; omega)
    (by show 0 < (s.split_trees.getD t []).length; omega) h64).2
  simp only [check_functions, checkList, List.map_cons, List.map_nil, List.cons.injEq,
    and_true] at hcf
  obtain ⟨e1, e2, e3, -, e5⟩ := hcf
  have b1 := e1.mpr ⟨by
    show s.var_bits = minimal_unsigned_dtype ((s.max_split.length : Int) - 1)
    rw [h.cfg.var_bits, h.cfg.max_split, ← ha.X_length]; rfl, rfl⟩
  have b2 := e2.mpr ⟨by
    show (s.leaf_trees.getD t []).length = 2 * (s.var_trees.getD t []).length
    rw [h.leaf_size t ht, hvl, pow_succ, mul_comm], by
    show (s.var_trees.getD t []).length = (s.split_trees.getD t []).length
    rw [hvl, hl]⟩
  have b3 := e3.mpr ⟨hT.var_zero, hT.valid.zero⟩
  have b5 := e5.mpr hT.valid.closed
  have b4 : check_leaf_values (treeArrays s t) ⟨s.max_split, s.split_bits⟩ =
    (s.leaf_trees.getD t []).all FltFun.isFinite := rfl
  rw [check_tree_eq, b1, b2, b3, b4, b5]
  cases (s.leaf_trees.getD t []).all FltFun.isFinite <;> rfl

end

section
open Ex

example : check_forest ((List.range args.num_trees).map (treeArrays state1))
    ⟨state1.max_split, state1.split_bits⟩ = [0, 0] := by decide +kernel

end

end Bartz
