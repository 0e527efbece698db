import Verif.Model.Binning32
import Mathlib.Order.WithBot
/-!
# Missing values in the predictors

The functions in `/repo/src/bartz/prepcovars.py` and `jaxext.unique` with single precision predictors that may be nan. It complements
`unique`, `quantilized_row`, `uniform_row32`, in which there are no nans. A number is represented by `WithTop Ordered`, where `⊤` is
nan: this is the order of `jnp.sort` and `jnp.searchsorted`, that put the nans after infinity and consider them equal, while the
operator `==` does not.
-/

set_option autoImplicit false

namespace Jax
namespace Binary32

/-- conversion from a number in the order of `jnp.sort` -/
def ofKey : WithTop Ordered → Binary32
  | none => nan
  | some z => ofOrdered z

/-- conversion to the order of `jnp.sort` -/
def toKey : Binary32 → WithTop Ordered
  | nan => ⊤
  | num s b => ((toOrdered (num s b) : Ordered) : WithTop Ordered)

end Binary32
end Jax

namespace Bartz
open Jax Jax.Binary32

/-- the operator `==`; a nan is not equal to itself -/
def nan_eq (a b : WithTop Ordered) : Bool := decide (a = b) && decide (a ≠ ⊤)

/-- `loop` in `jaxext.unique` (jaxext.py:180-184), see `unique_loop` -/
def unique_loop_nan (carry : Nat × WithTop Ordered × List (WithTop Ordered)) (x : WithTop Ordered) :
    Nat × WithTop Ordered × List (WithTop Ordered) :=
  let (i_out, last, out) := carry
  let i_out := if nan_eq x last then i_out else i_out + 1
  let out := out.set i_out x
  (i_out, x, out)

/-- `jaxext.unique` (jaxext.py:153-187) -/
def unique_nan (x : List (WithTop Ordered)) (size : Nat) (fill_value : WithTop Ordered) : List (WithTop Ordered) × Nat :=
  if x.length = 0 then
    (List.replicate size fill_value, 0)
  else if size = 0 then
    ([], 0)
  else
    let x := jnp_sort x
    let carry := (0, x.headD fill_value, List.replicate size fill_value)
    let (actual_length, _, out) := (x.take size).foldl unique_loop_nan carry
    (out, actual_length + 1)

/-- floating point numbers in single precision, or nan: `(u[1:] + u[:-1]) / 2` (prepcovars.py:74), and `huge_value`
(jaxext.py:98-115) is infinity -/
def nan_dtype : Dtype (WithTop Ordered) where
  integer := false
  huge := (binary32_dtype.huge : Ordered)
  midpoint a b := toKey ((ofKey b + ofKey a) / ((2 : Nat) : Binary32))

/-- `_quantilized_splits_from_matrix` (prepcovars.py:64-83), for one row -/
def quantilized_row_nan (fl : ℚ → ℚ) (x : List (WithTop Ordered)) (out_length : Int) : List (WithTop Ordered) × Nat :=
  let huge := nan_dtype.huge
  let (u, actual_length) := unique_nan x x.length huge
  let actual_length : Int := actual_length - 1
  let midpoints := quantilized_midpoints nan_dtype u actual_length
  let indices := quantilized_indices fl actual_length out_length midpoints.length
  let decimated_midpoints := indices.map fun i => midpoints.getD (min i (midpoints.length - 1)) huge
  let truncated_midpoints := sliceTo midpoints out_length
  let splits := if actual_length > out_length then decimated_midpoints else truncated_midpoints
  let max_split := min actual_length out_length
  let max_split := (wrap_int false (minimal_unsigned_dtype out_length) max_split).toNat
  (splits, max_split)

/-- `jnp.min(x)`: nan if any of the values is -/
def nan_min? (x : List (WithTop Ordered)) : Option (WithTop Ordered) := if ⊤ ∈ x then some ⊤ else x.min?

/-- `uniform_splits_from_matrix` (prepcovars.py:85-111), for one row. It fails if the row is empty, or if the
assertion on the shape fails. `jnp.max(x)` is nan if any of the values is; they are the greatest in the order. -/
def uniform_row_nan (fusion : Fusion) (x : List (WithTop Ordered)) (num_bins : Nat) : Option (List (WithTop Ordered) × Nat) := do
  let low ← nan_min? x
  let high ← x.max?
  let grid := (Binary32.linspace fusion (ofKey low) (ofKey high) num_bins).map toKey
  let splits := (grid.drop 1).dropLast
  guard ((splits.length : Int) = (num_bins : Int) - 1)
  return (splits, astype (minimal_unsigned_dtype (num_bins - 1)) (num_bins - 1))

end Bartz
