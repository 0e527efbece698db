import Verif.Model.Jax
/-!
# Model of `/repo/src/bartz/jaxext.py`: `autobatch`

Multidimensional arrays are functions from multi-indices. All the arrays have elements of the same
Lean type `α` (the union of the numerical types), and remember the size in bytes of an element
(`x.dtype.itemsize`). Pytrees are represented by the list of their leaves, so
`tree_util.tree_map` is `List.map`/`List.zipWith`. The evaluation fails (`none`) when Python would
raise an exception.

Not modelled: `jax.jit`, the text of the warning.
-/

set_option autoImplicit false

namespace Jax

/-- whether a multi-index is in the bounds of an array with the given shape -/
def inRange : List Nat → List Nat → Bool
  | [], [] => true
  | n :: shape, i :: idx => decide (i < n) && inRange shape idx
  | _, _ => false

/-- A multidimensional array. The elements out of bounds are conventionally the default one, such that
arrays are equal when they have the same shape, type, and elements. -/
structure NDArray (α : Type) [Inhabited α] where
  shape : List Nat
  itemsize : Nat
  data : List Nat → α
  junk : ∀ idx, inRange shape idx = false → data idx = default

namespace NDArray
variable {α : Type} [Inhabited α]

/-- array with elements given by a function -/
def ofFn (shape : List Nat) (itemsize : Nat) (f : List Nat → α) : NDArray α :=
  { shape := shape, itemsize := itemsize
    data := fun idx => if inRange shape idx then f idx else default
    junk := fun idx h => by simp [h] }

/-- row-major position of a multi-index -/
def ravel : List Nat → List Nat → Nat
  | _ :: shape, i :: idx => i * shape.prod + ravel shape idx
  | _, _ => 0

/-- inverse of `ravel` -/
def unravel : List Nat → Nat → List Nat
  | [], _ => []
  | _ :: shape, k => k / shape.prod :: unravel shape (k % shape.prod)

/-- `x.reshape(shape)` (row-major order) -/
def reshape (x : NDArray α) (shape : List Nat) : NDArray α :=
  ofFn shape x.itemsize fun idx => x.data (unravel x.shape (ravel shape idx))

/-- `jnp.moveaxis(x, axis, 0)`, with `axis` in range -/
def moveaxisOut (x : NDArray α) (axis : Nat) : NDArray α :=
  ofFn (x.shape.getD axis 0 :: x.shape.eraseIdx axis) x.itemsize fun idx =>
    x.data (idx.tail.insertIdx axis (idx.headD 0))

/-- `jnp.moveaxis(x, 0, axis)`, with `axis` in range -/
def moveaxisIn (x : NDArray α) (axis : Nat) : NDArray α :=
  ofFn (x.shape.tail.insertIdx axis (x.shape.headD 0)) x.itemsize fun idx =>
    x.data (idx.getD axis 0 :: idx.eraseIdx axis)

/-- `x[i]`, indexing along the first axis (what `lax.scan` does with its inputs) -/
def index (x : NDArray α) (i : Nat) : NDArray α :=
  ofFn x.shape.tail x.itemsize fun idx => x.data (i :: idx)

/-- stacking along a new first axis (what `lax.scan` does with its outputs); the first array is used
for the shape -/
def stack (shape : List Nat) (itemsize : Nat) (n : Nat) (x : Nat → NDArray α) : NDArray α :=
  ofFn (n :: shape) itemsize fun idx => (x (idx.headD 0)).data idx.tail

/-- `math.prod(x.shape) * x.dtype.itemsize` -/
def nbytes (x : NDArray α) : Nat := x.shape.prod * x.itemsize

end NDArray
end Jax

namespace Bartz
open Jax

/-! ### Number of batches -/

/-- `next_divisor_small` in `autobatch` (jaxext.py:243-247). `isqrt` stands for `int(math.sqrt(_))`,
any function is allowed. -/
def next_divisor_small (isqrt : Nat → Nat) (dividend min_divisor : Nat) : Nat :=
  match (List.range' min_divisor (isqrt dividend + 1 - min_divisor)).find?
      fun divisor => dividend % divisor == 0 with
  | some divisor => divisor
  | none => dividend

/-- `next_divisor_large` in `autobatch` (jaxext.py:249-254) -/
def next_divisor_large (dividend min_divisor : Nat) : Nat :=
  let max_inv_divisor := dividend / min_divisor
  match (List.range' 1 max_inv_divisor).reverse.find?
      fun inv_divisor => dividend % inv_divisor == 0 with
  | some inv_divisor => dividend / inv_divisor
  | none => dividend

/-- `next_divisor` in `autobatch` (jaxext.py:256-261) -/
def next_divisor (isqrt : Nat → Nat) (dividend min_divisor : Nat) : Nat :=
  if dividend = 0 then min_divisor
  else if min_divisor * min_divisor ≤ dividend then next_divisor_small isqrt dividend min_divisor
  else next_divisor_large dividend min_divisor

/-- The part of `batched_func` in `autobatch` that chooses the number of batches (jaxext.py:321-332).
Returns the number of batches and whether the warning is emitted. -/
def choose_nbatches (isqrt : Nat → Nat) (size total_nbytes max_io_nbytes : Nat) :
    Option (Nat × Bool) := do
  guard (max_io_nbytes ≠ 0) -- ZeroDivisionError
  let min_nbatches := total_nbytes / max_io_nbytes +
    (if total_nbytes % max_io_nbytes ≠ 0 then 1 else 0)
  let min_nbatches := max 1 min_nbatches
  let nbatches := next_divisor isqrt size min_nbatches
  guard (1 ≤ nbatches ∧ nbatches ≤ max 1 size)
  guard (size % nbatches = 0)
  guard (total_nbytes % nbatches = 0)
  let batch_nbytes := total_nbytes / nbatches
  if batch_nbytes > max_io_nbytes then
    guard (size = nbatches)
    return (nbatches, true)
  else
    return (nbatches, false)

/-! ### Axes -/

/-- `in_axes` or `out_axes`: a single number or one axis for each array -/
inductive Axes where
  | all (axis : Int)
  | each (axes : List (Option Int))

section
variable {α : Type} [Inhabited α]

/-- `expand_axes` in `autobatch` (jaxext.py:217-220). Fails if the number of axes is wrong. -/
def expand_axes (axes : Axes) (tree : List (NDArray α)) : Option (List (Option Int)) :=
  match axes with
  | .all axis => some (tree.map fun _ => some axis)
  | .each axes => if axes.length = tree.length then some axes else none

/-- Python indexing: negative axes count from the end; fails if out of range. -/
def norm_axis (ndim : Nat) (axis : Int) : Option Nat :=
  let a := if axis < 0 then axis + ndim else axis
  if 0 ≤ a ∧ a < ndim then some a.toNat else none

/-- The axes of the arrays as non-negative numbers. Fails if some axis is out of range, as
`x.shape[axis]` would do (jaxext.py:232). -/
def norm_axes (axes : List (Option Int)) (tree : List (NDArray α)) : Option (List (Option Nat)) :=
  (List.zipWith (fun (x : NDArray α) (axis : Option Int) => match axis with
    | none => some none
    | some axis => (norm_axis x.shape.length axis).map some) tree axes).mapM id

/-- `extract_size` in `autobatch` (jaxext.py:227-236), with the axes made non-negative -/
def extract_size (axes : List (Option Nat)) (tree : List (NDArray α)) : Option Nat :=
  let sizes := (List.zipWith (fun (x : NDArray α) (axis : Option Nat) =>
    axis.map fun axis => x.shape.getD axis 0) tree axes).filterMap id
  match sizes with
  | [] => none
  | s :: sizes => if sizes.all (· == s) then some s else none

/-- `sum_nbytes` in `autobatch` (jaxext.py:238-241) -/
def sum_nbytes (tree : List (NDArray α)) : Nat := tree.foldl (fun size x => size + x.nbytes) 0

/-- `pull_nonbatched` in `autobatch` (jaxext.py:263-269) -/
def pull_nonbatched (axes : List (Option Nat)) (tree : List (NDArray α)) : List (Option (NDArray α)) :=
  List.zipWith (fun x (axis : Option Nat) => axis.map fun _ => x) tree axes

/-- `push_nonbatched` in `autobatch` (jaxext.py:271-277) -/
def push_nonbatched (axes : List (Option Nat)) (tree : List (Option (NDArray α)))
    (original_tree : List (NDArray α)) : List (NDArray α) :=
  List.zipWith (fun (original_x : NDArray α) (xa : Option (NDArray α) × Option Nat) =>
    match xa.2 with
    | none => original_x
    | some _ => xa.1.getD original_x) original_tree (tree.zip axes)

/-- `move_axes_out` in `autobatch` (jaxext.py:279-282), for the inputs -/
def move_axes_out (axes : List (Option Nat)) (tree : List (Option (NDArray α))) :
    List (Option (NDArray α)) :=
  List.zipWith (fun (x : Option (NDArray α)) (axis : Option Nat) =>
    x.map fun x => x.moveaxisOut (axis.getD 0)) tree axes

/-- `move_axes_in` in `autobatch` (jaxext.py:284-287) -/
def move_axes_in (axes : List (Option Nat)) (tree : List (Option (NDArray α))) :
    List (Option (NDArray α)) :=
  List.zipWith (fun (x : Option (NDArray α)) (axis : Option Nat) =>
    x.map fun x => x.moveaxisIn (axis.getD 0)) tree axes

/-- `batch` in `autobatch` (jaxext.py:289-292) -/
def batch (x : NDArray α) (nbatches : Nat) : NDArray α :=
  x.reshape (nbatches :: x.shape.headD 0 / nbatches :: x.shape.tail)

/-- `unbatch` in `autobatch` (jaxext.py:294-297) -/
def unbatch (x : NDArray α) : NDArray α :=
  x.reshape (x.shape.getD 0 0 * x.shape.getD 1 0 :: x.shape.drop 2)

/-- `check_same` in `autobatch` (jaxext.py:299-303) -/
def check_same (tree1 tree2 : List (NDArray α)) : Bool :=
  tree1.length == tree2.length &&
  (List.zipWith (fun (x1 x2 : NDArray α) => x1.shape == x2.shape && x1.itemsize == x2.itemsize)
    tree1 tree2).all id

/-- output of the function returned by `autobatch` -/
structure Batched (α : Type) [Inhabited α] where
  result : List (NDArray α)
  nbatches : Nat
  warned : Bool

/-- The function returned by `autobatch` (jaxext.py:308-353). `jax.eval_shape(func, *args)` provides
the shapes and types of `func(*args)`. The outputs of the scan are stacked using the shapes of the
first one. -/
def autobatch (isqrt : Nat → Nat) (func : List (NDArray α) → List (NDArray α)) (max_io_nbytes : Nat)
    (in_axes out_axes : Axes) (args : List (NDArray α)) : Option (Batched α) := do
  let example_result := func args
  let in_axes ← expand_axes in_axes args
  let out_axes ← expand_axes out_axes example_result
  guard (out_axes.all Option.isSome)
  let in_axes ← norm_axes in_axes args
  let out_axes ← norm_axes out_axes example_result
  let size ← extract_size (in_axes ++ out_axes) (args ++ example_result)
  let nonbatched_args := args
  let args := pull_nonbatched in_axes args
  let total_nbytes := sum_nbytes (args.filterMap id ++ example_result)
  let (nbatches, warned) ← choose_nbatches isqrt size total_nbytes max_io_nbytes
  let loop := fun args : List (Option (NDArray α)) =>
    let args := move_axes_in in_axes args
    let args := push_nonbatched in_axes args nonbatched_args
    let result := func args
    move_axes_out out_axes (result.map some)
  let args := move_axes_out in_axes args
  let args := args.map fun x => x.map fun x => batch x nbatches
  -- lax.scan(loop, None, args), which requires at least one array to get the number of iterations from
  guard (args.any Option.isSome)
  let outputs := fun i => loop (args.map fun x => x.map fun x => x.index i)
  let result := (outputs 0).mapIdx fun k x0 => x0.map fun x0 =>
    NDArray.stack x0.shape x0.itemsize nbatches fun i => ((outputs i).getD k none).getD x0
  let result := result.map fun x => x.map unbatch
  let result := (move_axes_in out_axes result).filterMap id
  guard (check_same example_result result)
  return { result := result, nbatches := nbatches, warned := warned }

end
end Bartz
