import Verif.Model.Jax
import Verif.Model.Jaxext
/-!
# Model of `/repo/src/bartz/grove.py`

A tree array is a `List`; index 0 is unused, the root is at 1, the children of `i` are `2i`, `2i+1`
(grove.py:29). `var` and `split` arrays have length `2 ** (d - 1)`, `leaf` arrays `2 ** d`.
-/

set_option autoImplicit false

namespace Bartz
open Jax

/-- `grove.make_tree` (grove.py:52-69): an array of zeros of length `2 ** depth`; the zero of the
dtype is passed explicitly. -/
def make_tree {α : Type _} (depth : Nat) (zero : α) : List α := List.replicate (2 ^ depth) zero

/-- `grove.tree_depth` (grove.py:71-86): `int(round(math.log2(n)))` of the array length.
Simplification: the rounding is irrelevant because lengths are powers of two; we use the integer
logarithm. -/
def tree_depth {α : Type _} (tree : List α) : Nat := Nat.log2 tree.length

/-- One iteration of the loop in `grove.traverse_tree` (grove.py:112-122). `bits` is the width of
the unsigned type of the index. -/
def traverse_loop (bits : Nat) (x var_tree split_tree : List Nat) (carry : Bool × Nat) :
    Bool × Nat :=
  let (leaf_found, index) := carry
  let split := gather split_tree index
  let var := gather var_tree index
  let leaf_found := leaf_found || split == 0
  let child_index :=
    astype bits (astype bits (index <<< 1) + (if gather x var ≥ split then 1 else 0))
  let index := if leaf_found then index else child_index
  (leaf_found, index)

/-- `grove.traverse_tree` (grove.py:88-126). -/
def traverse_tree (x var_tree split_tree : List Nat) : Nat :=
  let bits := minimal_unsigned_dtype (2 * var_tree.length - 1 : Int)
  (scanN (traverse_loop bits x var_tree split_tree) (false, 1) (tree_depth var_tree)).2

/-- the `j`-th column of a `(p, n)` matrix stored by rows, i.e., `X[:, j]` -/
def column (X : List (List Nat)) (j : Nat) : List Nat := X.map (fun row => row.getD j 0)

/-- `X.shape[1]`; the number of points has to be given because a matrix with zero rows does not
know its number of columns. -/
abbrev NumPoints := Nat

/-- `grove.traverse_forest` (grove.py:128-148), the two nested vmaps: over trees, over columns of
`X`. `n` is `X.shape[1]`. -/
def traverse_forest (n : NumPoints) (X var_trees split_trees : List (List Nat)) :
    List (List Nat) :=
  vmap var_trees.length fun t =>
    vmap n fun j => traverse_tree (column X j) (var_trees.getD t []) (split_trees.getD t [])

/-- `grove.evaluate_forest(..., sum_trees=False)` (grove.py:150-184). -/
def evaluate_forest_trees {F : Type} [Inhabited F] (n : NumPoints) (X : List (List Nat))
    (leaf_trees : List (List F)) (var_trees split_trees : List (List Nat)) : List (List F) :=
  let indices := traverse_forest n X var_trees split_trees
  let ntree := leaf_trees.length
  vmap ntree fun t => vmap n fun j =>
    gather (leaf_trees.getD t []) ((indices.getD t []).getD j 0)

/-- `grove.evaluate_forest(..., sum_trees=True)` (grove.py:150-184). -/
def evaluate_forest {F : Type} [Inhabited F] [Zero F] [Add F] (n : NumPoints)
    (X : List (List Nat)) (leaf_trees : List (List F)) (var_trees split_trees : List (List Nat)) :
    List F :=
  let leaves := evaluate_forest_trees n X leaf_trees var_trees split_trees
  vmap n fun j => Jax.sum (leaves.map fun row => gather row j)

/-- `grove.is_actual_leaf` (grove.py:186-212). -/
def is_actual_leaf (split_tree : List Nat) (add_bottom_level : Bool) : List Bool :=
  let is_leaf := split_tree.map (· == 0)
  let size := if add_bottom_level then split_tree.length * 2 else split_tree.length
  let is_leaf := if add_bottom_level then is_leaf ++ is_leaf.map (fun _ => true) else is_leaf
  let index := arange size (minimal_unsigned_dtype (size - 1 : Int))
  let parent_index := index.map (· >>> 1)
  let parent_nonleaf := parent_index.map fun i => gather split_tree i != 0
  let parent_nonleaf := setDrop parent_nonleaf 1 true
  List.zipWith (· && ·) is_leaf parent_nonleaf

/-- `grove.is_leaves_parent` (grove.py:214-235). -/
def is_leaves_parent (split_tree : List Nat) : List Bool :=
  let bits := minimal_unsigned_dtype (2 * split_tree.length - 1 : Int)
  let index := arange split_tree.length bits
  let left_index := index.map fun i => astype bits (i <<< 1)
  let right_index := left_index.map fun i => astype bits (i + 1)
  let left_leaf := left_index.map fun i => getFill split_tree i 0 == 0
  let right_leaf := right_index.map fun i => getFill split_tree i 0 == 0
  let is_not_leaf := split_tree.map (· != 0)
  List.zipWith (· && ·) (List.zipWith (· && ·) is_not_leaf left_leaf) right_leaf

/-- The python loop in `grove.tree_depths` (grove.py:253-258), state: `(depths, depth)`; `depths`
is kept reversed. -/
def tree_depths_loop : (fuel i : Nat) → (depth : Int) → List Int
  | 0, _, _ => []
  | fuel + 1, i, depth =>
    let depth := if (i : Int) = 2 ^ depth.toNat then depth + 1 else depth
    (depth - 1) :: tree_depths_loop fuel (i + 1) depth

/-- `grove.tree_depths` (grove.py:237-260), for `tree_length >= 1` (the code raises `IndexError` on
0). Simplification: the final cast to the minimal unsigned type is the identity on these values and
is written as `Int.toNat`. -/
def tree_depths (tree_length : Nat) : List Nat :=
  let depths := tree_depths_loop tree_length 0 0
  (depths.set 0 0).map Int.toNat

end Bartz
