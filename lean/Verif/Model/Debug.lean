import Verif.Model.Jax
import Verif.Model.Jaxext
import Verif.Model.Grove
/-!
# Model of `/repo/src/bartz/debug.py`

Printing of a tree, statistics of trees, consistency checks.
-/

set_option autoImplicit false

namespace Jax

/-- `jnp.max` of a nonempty array of unsigned integers. -/
def maxNat (a : List Nat) : Nat := a.foldl max 0

/-- `jnp.bincount(x, length=length)`, the bins having type int32 (not wrapped): element `k` counts
the entries of `x` equal to `k`; entries not less than `length` are dropped. -/
def bincount (x : List Nat) (length : Nat) : List Nat :=
  scatterAdd (List.replicate length 0) x (List.replicate x.length 1)

/-- `jnp.bincount(x, weights, length=length)` with unsigned weights of `bits` bits. The bins have
the type of the weights (`jnp.zeros(length, weights.dtype).at[x].add(weights, mode='drop')`), so
the sums wrap around. -/
def bincountWeights (bits : Nat) (x weights : List Nat) (length : Nat) : List Nat :=
  (scatterAdd (List.replicate length 0) x weights).map (astype bits)

end Jax

namespace Bartz
open Jax

/-! ### `print_tree` -/

/-- What is written after the link: the three f-strings at debug.py:40, 44, 46. The formatting of
numbers is left to `NodeText.render`. -/
inductive NodeText (F : Type) where
  | category (name : String) (var split : Nat) (leaf : F)
  | value (leaf : F)
  | rule (var split : Nat)

/-- A printed line (debug.py:59), split in its parts: `indent` is `{indent}{first_indent}`. -/
structure Line (F : Type) where
  index : Nat
  indent : String
  link : String
  text : NodeText F

/-- `print_tree.traverse_tree` (debug.py:20-66), as the list of lines printed. `none` stands for an
exception: the failure of `assert not unused` (debug.py:42), or running out of stack, `fuel` being
the number of nested calls available. The argument `depth`, which is not used, is omitted. -/
def print_traverse {F : Type} [Inhabited F] (leaf_tree : List F) (var_tree split_tree : List Nat)
    (print_all : Bool) : (fuel index : Nat) → (indent first_indent next_indent : String) →
    (unused : Bool) → Option (List (Line F))
  | 0, _, _, _, _, _ => none
  | fuel + 1, index, indent, first_indent, next_indent, unused =>
    if index ≥ leaf_tree.length then some []
    else
      let var := getFill var_tree index 0
      let split := getFill split_tree index 0
      let is_leaf := split == 0
      let left_child := 2 * index
      let right_child := 2 * index + 1
      let node_str : Option (NodeText F) :=
        if print_all then
          let category := if unused then "unused" else if is_leaf then "leaf" else "decision"
          some (.category category var split (gather leaf_tree index))
        else if unused then none
        else if is_leaf then some (.value (gather leaf_tree index))
        else some (.rule var split)
      let link :=
        if !is_leaf || (print_all && decide (left_child < leaf_tree.length)) then "┐"
        else if !print_all && decide (left_child ≥ leaf_tree.length) then "╢"
        else " "
      match node_str with
      | none => none
      | some node_str =>
        let line : Line F :=
          { index := index, indent := indent ++ first_indent, link := link, text := node_str }
        let indent := indent ++ next_indent
        let unused := unused || is_leaf
        if unused && !print_all then some [line]
        else
          match print_traverse leaf_tree var_tree split_tree print_all fuel left_child indent
              "├──" "│  " unused,
            print_traverse leaf_tree var_tree split_tree print_all fuel right_child indent
              "└──" "   " unused with
          | some l, some r => some (line :: (l ++ r))
          | _, _ => none

/-- `print_tree` (debug.py:11-68), as the list of lines printed. The number of nested calls allowed
is the length of the array plus one. -/
def print_tree {F : Type} [Inhabited F] (leaf_tree : List F) (var_tree split_tree : List Nat)
    (print_all : Bool) : Option (List (Line F)) :=
  print_traverse leaf_tree var_tree split_tree print_all (leaf_tree.length + 1) 1 "" "" "" false

/-- The string after the link (debug.py:40, 44, 46). `str` and `short` are the formattings of a
floating point number with `{}` and with `{:#.2g}`. -/
def NodeText.render {F : Type} (str short : F → String) : NodeText F → String
  | .category name var split leaf => s!"{name}({var}, {split}, {str leaf})"
  | .value leaf => short leaf
  | .rule var split => s!"({var}: {split})"

/-- The printed line (debug.py:55-59); `size` is `len(leaf_tree)`. -/
def Line.render {F : Type} (str short : F → String) (size : Nat) (l : Line F) : String :=
  let ndigits := (toString (size - 1)).length
  let digits := toString l.index
  let number := String.ofList (List.replicate (ndigits - digits.length) ' ') ++ digits
  s!" {number} {l.indent}{l.link}{l.text.render str short}"

/-! ### Statistics of trees -/

/-- `tree_actual_depth` (debug.py:70-74). -/
def tree_actual_depth (split_tree : List Nat) : Nat :=
  let is_leaf := is_actual_leaf split_tree true
  let depth := tree_depths is_leaf.length
  let depth := List.zipWith (fun (l : Bool) d => if l then d else 0) is_leaf depth
  maxNat depth

/-- `forest_depth_distr` (debug.py:76-79). `size` is `split_trees.shape[-1]`. -/
def forest_depth_distr (size : Nat) (split_trees : List (List Nat)) : List Nat :=
  let depth := Nat.log2 size + 1
  let depths := vmap split_trees.length fun t => tree_actual_depth (split_trees.getD t [])
  bincount depths depth

/-- `trace_depth_distr` (debug.py:81-82). -/
def trace_depth_distr (size : Nat) (split_trees_trace : List (List (List Nat))) : List (List Nat) :=
  vmap split_trees_trace.length fun k => forest_depth_distr size (split_trees_trace.getD k [])

/-- `points_per_leaf_distr` (debug.py:84-90). `n` is `X.shape[1]`. -/
def points_per_leaf_distr (n : NumPoints) (var_tree split_tree : List Nat) (X : List (List Nat)) :
    List Nat :=
  let indices := vmap n fun j => traverse_tree (column X j) var_tree split_tree
  let bits := minimal_unsigned_dtype (indices.length : Int)
  let count_tree := (scatterAdd (List.replicate (2 * split_tree.length) 0) indices
    (List.replicate indices.length 1)).map (astype bits)
  let is_leaf := (is_actual_leaf split_tree true).map fun b => if b then 1 else 0
  bincountWeights 8 count_tree is_leaf (n + 1)

/-- `forest_points_per_leaf_distr` (debug.py:92-98). -/
def forest_points_per_leaf_distr (n : NumPoints) (var_trees split_trees X : List (List Nat)) :
    List Nat :=
  (scan (fun distr (tree : List Nat × List Nat) =>
    (List.zipWith (· + ·) distr (points_per_leaf_distr n tree.1 tree.2 X), ()))
    (List.replicate (n + 1) 0) (var_trees.zip split_trees)).1

/-- `trace_points_per_leaf_distr` (debug.py:100-104). -/
def trace_points_per_leaf_distr (n : NumPoints)
    (trace : List (List (List Nat) × List (List Nat))) (X : List (List Nat)) : List (List Nat) :=
  (scan (fun (_ : Unit) (bart : List (List Nat) × List (List Nat)) =>
    ((), forest_points_per_leaf_distr n bart.1 bart.2 X)) () trace).2

/-! ### Consistency checks -/

/-- The arguments of the check functions. The types of the arrays of integers are represented by
their numbers of bits. -/
structure TreeArrays (F : Type) where
  leaf_tree : List F
  var_tree : List Nat
  var_bits : Nat
  split_tree : List Nat
  split_bits : Nat

/-- The argument `max_split` of the check functions. -/
structure MaxSplit where
  values : List Nat
  bits : Nat

variable {F : Type}

/-- `check_types` (debug.py:106-109). -/
def check_types (t : TreeArrays F) (max_split : MaxSplit) : Bool :=
  let expected_var_dtype := minimal_unsigned_dtype (max_split.values.length - 1 : Int)
  let expected_split_dtype := max_split.bits
  t.var_bits == expected_var_dtype && t.split_bits == expected_split_dtype

/-- `check_sizes` (debug.py:111-112). -/
def check_sizes (t : TreeArrays F) (_max_split : MaxSplit) : Bool :=
  t.leaf_tree.length == 2 * t.var_tree.length && 2 * t.var_tree.length == 2 * t.split_tree.length

/-- `check_unused_node` (debug.py:114-115), for nonempty arrays. -/
def check_unused_node (t : TreeArrays F) (_max_split : MaxSplit) : Bool :=
  gather t.var_tree 0 == 0 && gather t.split_tree 0 == 0

/-- `check_leaf_values` (debug.py:117-118). -/
def check_leaf_values [FltFun F] (t : TreeArrays F) (_max_split : MaxSplit) : Bool :=
  t.leaf_tree.all FltFun.isFinite

/-- `check_stray_nodes` (debug.py:120-127). -/
def check_stray_nodes (t : TreeArrays F) (_max_split : MaxSplit) : Bool :=
  let index := arange (2 * t.split_tree.length)
    (minimal_unsigned_dtype (2 * t.split_tree.length - 1 : Int))
  let parent_index := index.map (· >>> 1)
  let is_not_leaf := index.map fun i => getFill t.split_tree i 0 != 0
  let parent_is_leaf := parent_index.map fun i => gather t.split_tree i == 0
  let stray := List.zipWith (· && ·) is_not_leaf parent_is_leaf
  let stray := setDrop stray 1 false
  !(stray.any id)

/-- `check_functions` (debug.py:129-135), each with its `__name__`. -/
def check_functions [FltFun F] : List (String × (TreeArrays F → MaxSplit → Bool)) :=
  [("check_types", check_types),
   ("check_sizes", check_sizes),
   ("check_unused_node", check_unused_node),
   ("check_leaf_values", check_leaf_values),
   ("check_stray_nodes", check_stray_nodes)]

/-- `check_tree` (debug.py:137-145). -/
def check_tree [FltFun F] (t : TreeArrays F) (max_split : MaxSplit) : Nat :=
  let funcs := check_functions (F := F)
  let error_type := minimal_unsigned_dtype (2 ^ funcs.length - 1 : Int)
  funcs.zipIdx.foldl (fun error (p : (String × (TreeArrays F → MaxSplit → Bool)) × Nat) =>
    let ok := p.1.2 t max_split
    let bit := (if !ok then 1 else 0) <<< p.2
    error ||| astype error_type bit) 0

/-- `describe_error` (debug.py:147-152). The names do not depend on the type of the leaves. -/
def describe_error (F : Type) [FltFun F] (error : Nat) : List String :=
  ((check_functions (F := F)).zipIdx.filter fun p => error &&& (1 <<< p.2) != 0).map (·.1.1)

/-- `check_forest` (debug.py:154). -/
def check_forest [FltFun F] (trees : List (TreeArrays F)) (max_split : MaxSplit) : List Nat :=
  vmap trees.length fun t =>
    check_tree (trees.getD t ⟨[], [], 0, [], 0⟩) max_split

/-- `check_trace` (debug.py:156-158). -/
def check_trace [FltFun F] (trace : List (List (TreeArrays F))) (max_split : MaxSplit) :
    List (List Nat) :=
  vmap trace.length fun k => check_forest (trace.getD k []) max_split

end Bartz
