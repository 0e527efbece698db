import Verif.Model.Jaxext
import Verif.Model.BatchSize
import Mathlib.Order.WithBot
import Mathlib.Algebra.Field.Defs
/-!
# Model of `/repo/src/bartz/prepcovars.py`

Matrices are lists of rows. `jax.vmap` over the rows is `List.map`; `jaxext.autobatch` is left out
because it does not change the result (C10).

The type of a predictor is represented by a structure `Dtype` that provides the largest value and the
elementwise operation that computes midpoints. There are two cases: integers with wrap-around arithmetic
(`int_dtype`), and real numbers with an infinity (`float_dtype`), i.e., floating point numbers in exact
arithmetic.
-/

set_option autoImplicit false

namespace Jax

/-- `x[:k]` in python, `k` may be negative -/
def sliceTo {α : Type} (x : List α) (k : Int) : List α :=
  if k < 0 then x.take (x.length + k).toNat else x.take k.toNat

/-- `jnp.linspace(start, stop, num)`; `fl` is the rounding error -/
def linspace (fl : ℚ → ℚ) (start stop : ℚ) (num : Nat) : List ℚ :=
  (List.range num).map fun k : Nat => fl (start + (k : ℚ) * (stop - start) / ((num : ℚ) - 1))

end Jax

namespace Bartz
open Jax

/-- numerical type of a predictor -/
structure Dtype (α : Type) where
  /-- `jnp.issubdtype(x.dtype, jnp.integer)` -/
  integer : Bool
  /-- `jaxext.huge_value(x)` (jaxext.py:98-115) -/
  huge : α
  /-- `midpoint a b` for an element `a` of `u[:-1]` and `b` of `u[1:]` (prepcovars.py:70,74) -/
  midpoint : α → α → α

/-- conversion to a signed or unsigned integer type with `w` bits -/
def wrap_int (signed : Bool) (w : Nat) (v : Int) : Int :=
  if signed then Int.bmod v (2 ^ w) else v % 2 ^ w

/-- `jnp.iinfo(dtype).max` -/
def int_max (signed : Bool) (w : Nat) : Int := if signed then 2 ^ (w - 1) - 1 else 2 ^ w - 1

/-- `u[:-1] + jaxext.ensure_unsigned(u[1:] - u[:-1]) // 2` (prepcovars.py:70), with `ensure_unsigned`
(jaxext.py:147-151) and `signed_to_unsigned` (jaxext.py:130-145) inlined. The difference is computed in
the type of `u`; the sum is computed in the integer type with `wout` bits obtained by type promotion. -/
def int_midpoint (signed : Bool) (w wout : Nat) (a b : Int) : Int :=
  let diff := wrap_int signed w (b - a)
  let diff := wrap_int false w diff
  wrap_int signed wout (a + diff / 2)

/-- conversion of an integer to `float64`, that has 53 significant bits; ties to even -/
def to_float64 (v : Int) : Int :=
  let e := Nat.log2 v.natAbs - 52
  pyRound ((v : ℚ) / 2 ^ e) * 2 ^ e

/-- the same as `int_midpoint` (prepcovars.py:70) for 64 bit signed integers (available only if the option
`jax_enable_x64` is set): `int64 + uint64` is `float64` in JAX. -/
def int64_midpoint (a b : Int) : Int :=
  let diff := wrap_int true 64 (b - a)
  let diff := wrap_int false 64 diff
  to_float64 (to_float64 a + to_float64 (diff / 2))

/-- integers with `w` bits -/
def int_dtype (signed : Bool) (w wout : Nat) : Dtype Int :=
  { integer := true, huge := int_max signed w, midpoint := int_midpoint signed w wout }

/-- `(u[1:] + u[:-1]) / 2` (prepcovars.py:74) -/
def float_midpoint {K : Type} [Field K] : WithTop K → WithTop K → WithTop K
  | some a, some b => some ((b + a) / 2)
  | _, _ => ⊤

/-- floating point numbers, in exact arithmetic -/
def float_dtype (K : Type) [Field K] : Dtype (WithTop K) :=
  { integer := false, huge := ⊤, midpoint := float_midpoint }

section
variable {α : Type} [LinearOrder α]

/-- `midpoints` in `_quantilized_splits_from_matrix` (prepcovars.py:69-74) -/
def quantilized_midpoints (t : Dtype α) (u : List α) (actual_length : Int) : List α :=
  let midpoints := List.zipWith t.midpoint u.dropLast (u.drop 1)
  if t.integer then
    let indices := arange midpoints.length (minimal_unsigned_dtype (midpoints.length - 1))
    List.zipWith (fun (i : Nat) m => if (i : Int) < actual_length then m else t.huge) indices midpoints
  else midpoints

/-- `indices` in `_quantilized_splits_from_matrix` (prepcovars.py:75-76). Negative indices (that occur only
if they are then not used) are converted to 0. -/
def quantilized_indices (fl : ℚ → ℚ) (actual_length out_length : Int) (size : Nat) : List Nat :=
  let indices := ((linspace fl (-1) actual_length (out_length + 2).toNat).drop 1).dropLast
  indices.map fun i => astype (minimal_unsigned_dtype (size - 1)) (pyRound i).toNat

/-- `_quantilized_splits_from_matrix` (prepcovars.py:64-83), for one row -/
def quantilized_row (fl : ℚ → ℚ) (t : Dtype α) (x : List α) (out_length : Int) : List α × Nat :=
  let huge := t.huge
  let (u, actual_length) := unique x x.length huge
  let actual_length : Int := actual_length - 1
  let midpoints := quantilized_midpoints t u actual_length
  let indices := quantilized_indices fl actual_length out_length midpoints.length
  let decimated_midpoints := indices.map fun i => midpoints.getD (min i (midpoints.length - 1)) huge
  let truncated_midpoints := sliceTo midpoints out_length
  let splits := if actual_length > out_length then decimated_midpoints else truncated_midpoints
  let max_split := min actual_length out_length
  let max_split := (wrap_int false (minimal_unsigned_dtype out_length) max_split).toNat
  (splits, max_split)

/-- `quantilized_splits_from_matrix` (prepcovars.py:33-62). `n` is `X.shape[1]`. -/
def quantilized_splits_from_matrix (fl : ℚ → ℚ) (t : Dtype α) (X : List (List α)) (n max_bins : Nat) :
    List (List α) × List Nat :=
  let out_length : Int := (min max_bins n : Nat) - 1
  (X.map fun x => quantilized_row fl t x out_length).unzip

/-- `bin_predictors` (prepcovars.py:113-143), for one row. The side of the search is the default one. -/
def bin_row (x splits : List α) : List Nat :=
  let bits := minimal_unsigned_dtype splits.length
  x.map fun v => astype bits (searchsortedLeft (fun s => decide (s < v)) splits)

/-- `bin_predictors` (prepcovars.py:113-143) -/
def bin_predictors (X splits : List (List α)) : List (List Nat) := List.zipWith bin_row X splits

end

/-- `uniform_splits_from_matrix` (prepcovars.py:85-111), for one row, in exact arithmetic. It fails if the
row is empty, or if the assertion on the shape fails. -/
def uniform_row {K : Type} [Field K] [LinearOrder K] (x : List K) (num_bins : Nat) :
    Option (List K × Nat) := do
  let low ← x.min?
  let high ← x.max?
  let grid := (List.range (num_bins + 1)).map fun k : Nat => low + (k : K) * (high - low) / (num_bins : K)
  let splits := (grid.drop 1).dropLast
  guard ((splits.length : Int) = (num_bins : Int) - 1)
  return (splits, astype (minimal_unsigned_dtype (num_bins - 1)) (num_bins - 1))

/-- `uniform_splits_from_matrix` (prepcovars.py:85-111) -/
def uniform_splits_from_matrix {K : Type} [Field K] [LinearOrder K] (X : List (List K)) (num_bins : Nat) :
    Option (List (List K) × List Nat) :=
  (X.mapM fun x => uniform_row x num_bins).map List.unzip

end Bartz
