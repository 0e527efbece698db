import Verif.Model.Autobatch
import Verif.Model.Prepcovars
import Verif.Model.Mcmcloop
/-!
# Model of the functions of `/repo/src/bartz/prepcovars.py` and `/repo/src/bartz/mcmcloop.py` that use `autobatch`

In `Model.Prepcovars` the batching is left out, and in `Model.Mcmcloop` it is represented by dividing the trees in groups. Here
the functions are written with `autobatch`, as they are in the source. The elements of the arrays are numbers of the
type of the predictors, or of the leaves, or unsigned integers.

Simplification: the matrices given as lists of rows are converted to arrays and back.
-/

set_option autoImplicit false

namespace Jax

/-- an element of an array, either in a given numerical type or unsigned integer -/
inductive Elem (α : Type) where
  | num (v : α)
  | int (n : Nat)

instance {α : Type} : Inhabited (Elem α) := ⟨.int 0⟩

variable {α β : Type}

/-- the number in an element -/
def Elem.toNum : Elem α → Option α
  | .num v => some v
  | .int _ => none

/-- the unsigned integer in an element -/
def Elem.toInt : Elem α → Option Nat
  | .num _ => none
  | .int n => some n

namespace NDArray

/-- array with the given rows, with `cols` columns -/
def ofRows (e : β → Elem α) (itemsize cols : Nat) (X : List (List β)) : NDArray (Elem α) :=
  ofFn [X.length, cols] itemsize fun idx =>
    match (X.getD (idx.getD 0 0) [])[idx.getD 1 0]? with
    | some v => e v
    | none => default

/-- the rows of an array with two axes -/
def toRows (d : Elem α → Option β) (x : NDArray (Elem α)) : List (List β) :=
  (List.range (x.shape.getD 0 0)).map fun i => (List.range (x.shape.getD 1 0)).filterMap fun j => d (x.data [i, j])

/-- array with one axis -/
def ofVec (e : β → Elem α) (itemsize : Nat) (v : List β) : NDArray (Elem α) :=
  ofFn [v.length] itemsize fun idx =>
    match v[idx.getD 0 0]? with
    | some v => e v
    | none => default

/-- the elements of an array with one axis -/
def toVec (d : Elem α → Option β) (x : NDArray (Elem α)) : List β :=
  (List.range (x.shape.getD 0 0)).filterMap fun i => d (x.data [i])

end NDArray
end Jax

namespace Bartz
open Jax

/-! ### `prepcovars.py` -/

section
variable {α : Type} [LinearOrder α]

/-- `quantilize` in `quantilized_splits_from_matrix`, before batching (prepcovars.py:59-60): `_quantilized_splits_from_matrix` on
each row. `splits_bytes` is the size of an element of the cutpoints. -/
def quantilize (fl : ℚ → ℚ) (t : Dtype α) (splits_bytes : Nat) (out_length : Int) (args : List (NDArray (Elem α))) :
    List (NDArray (Elem α)) :=
  match args with
  | [X] =>
    let out := ((X.toRows Elem.toNum).map fun x => quantilized_row fl t x out_length).unzip
    [.ofRows .num splits_bytes out_length.toNat out.1, .ofVec .int (minimal_unsigned_dtype out_length / 8) out.2]
  | _ => []

/-- `quantilized_splits_from_matrix` (prepcovars.py:33-61), with `autobatch`. `X_bytes` is the size of an element of `X`. -/
def quantilized_splits_batched (isqrt : Nat → Nat) (fl : ℚ → ℚ) (t : Dtype α) (X_bytes splits_bytes : Nat) (X : List (List α))
    (n max_bins : Nat) : Option (List (List α) × List Nat) := do
  let out_length : Int := (min max_bins n : Nat) - 1
  let out ← autobatch isqrt (quantilize fl t splits_bytes out_length) (2 ^ 29) (.all 0) (.all 0) [.ofRows .num X_bytes n X]
  match out.result with
  | [splits, max_split] => return (splits.toRows Elem.toNum, max_split.toVec Elem.toInt)
  | _ => none

/-- `bin_predictors` in `bin_predictors`, before batching (prepcovars.py:139-142) -/
def bin_predictors_rows (args : List (NDArray (Elem α))) : List (NDArray (Elem α)) :=
  match args with
  | [X, splits] =>
    let out := List.zipWith bin_row (X.toRows Elem.toNum) (splits.toRows Elem.toNum)
    [.ofRows .int (minimal_unsigned_dtype (splits.shape.getD 1 0) / 8) (X.shape.getD 1 0) out]
  | _ => []

/-- `bin_predictors` (prepcovars.py:113-143), with `autobatch`; `n` and `m` are the numbers of columns of `X` and `splits` -/
def bin_predictors_batched (isqrt : Nat → Nat) (X_bytes splits_bytes : Nat) (X splits : List (List α)) (n m : Nat) :
    Option (List (List Nat)) := do
  let out ← autobatch isqrt bin_predictors_rows (2 ^ 29) (.all 0) (.all 0)
    [.ofRows .num X_bytes n X, .ofRows .num splits_bytes m splits]
  match out.result with
  | [X_binned] => return X_binned.toRows Elem.toInt
  | _ => none

end

/-! ### `mcmcloop.py` -/

section
variable {F : Type} [Inhabited F] [Zero F] [Add F]

/-- `functools.partial(grove.evaluate_forest, sum_trees=False)` (mcmcloop.py:191, grove.py:150-184), on arrays -/
def evaluate_trees (args : List (NDArray (Elem F))) : List (NDArray (Elem F)) :=
  match args with
  | [X, leaf_trees, var_trees, split_trees] =>
    let n := X.shape.getD 1 0
    [.ofRows .num leaf_trees.itemsize n (evaluate_forest_trees n (X.toRows Elem.toInt) (leaf_trees.toRows Elem.toNum)
      (var_trees.toRows Elem.toInt) (split_trees.toRows Elem.toInt))]
  | _ => []

/-- sizes in bytes of the elements of the arrays used by `evaluate_trace` -/
structure TraceBytes where
  X : Nat
  leaf : Nat
  var : Nat
  split : Nat

/-- `loop` in `evaluate_trace` (mcmcloop.py:193-195), with `autobatch` (mcmcloop.py:192). The trees have `2 ** h` nodes, excluding
the bottom level. -/
def evaluate_trace_loop_batched (isqrt : Nat → Nat) (bytes : TraceBytes) (n h : Nat) (X : List (List Nat))
    (leaf_trees var_trees split_trees : Value F) : Option (List F) :=
  match leaf_trees, var_trees, split_trees with
  | .floatTrees leaf_trees, .intTrees var_trees, .intTrees split_trees => do
    let out ← autobatch isqrt evaluate_trees (2 ^ 29) (.each [none, some 0, some 0, some 0]) (.all 0)
      [.ofRows .int bytes.X n X, .ofRows .num bytes.leaf (2 ^ (h + 1)) leaf_trees, .ofRows .int bytes.var (2 ^ h) var_trees,
        .ofRows .int bytes.split (2 ^ h) split_trees]
    match out.result with
    | [values] => return vmap n fun j => Jax.sum ((values.toRows Elem.toNum).map fun row => gather row j)
    | _ => Option.none
  | _, _, _ => Option.none

/-- `evaluate_trace` (mcmcloop.py:174-197), with `autobatch` -/
def evaluate_trace_batched (isqrt : Nat → Nat) (bytes : TraceBytes) (n h : Nat) (trace : Trace F) (X : List (List Nat)) :
    Option (List (List F)) := do
  let leaf_trees ← trace.lookup "leaf_trees"
  let var_trees ← trace.lookup "var_trees"
  let split_trees ← trace.lookup "split_trees"
  guard (var_trees.length = leaf_trees.length ∧ split_trees.length = leaf_trees.length)
  (List.range leaf_trees.length).mapM fun k =>
    evaluate_trace_loop_batched isqrt bytes n h X (leaf_trees.getD k .none) (var_trees.getD k .none)
      (split_trees.getD k .none)

end
end Bartz
