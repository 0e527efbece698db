import Verif.Model.Prepcovars
import Verif.Model.Binary32
/-!
# Predictors in single precision

The type `float32` of predictors in `/repo/src/bartz/prepcovars.py`, with the rounding of the arithmetic. It complements
`float_dtype` and `uniform_row`, in which the arithmetic is exact.
-/

set_option autoImplicit false

namespace Jax
namespace Binary32

/-- The numbers that are not nan, in order, with the two zeros identified: a number is represented by its bits, with sign.
This is the order used by `jnp.sort`, `==` and `jnp.searchsorted` in the absence of nans. -/
abbrev Ordered : Type := { z : Int // -(infBits : Int) ≤ z ∧ z ≤ infBits }

/-- conversion from an ordered number -/
def ofOrdered (z : Ordered) : Binary32 := num (decide (z.val < 0)) ⟨z.val.natAbs, by have := z.property; omega⟩

/-- conversion to an ordered number; nan (that is obtained only from infinite predictors) is converted to infinity -/
def toOrdered : Binary32 → Ordered
  | nan => ⟨infBits, by decide⟩
  | num s b => ⟨signedBits s b, by have := b.isLt; unfold signedBits; split <;> omega⟩

/-- fused multiply-add, i.e., `a * b + c` with a single rounding -/
def fma : Binary32 → Binary32 → Binary32 → Binary32
  | num s a, num s' b, num s'' c =>
    if a.val < infBits ∧ b.val < infBits then
      if c.val < infBits then
        let x : Int := value s a * value s' b + value s'' c * 2 ^ 149
        num (if x = 0 then xor s s' && s'' else decide (x < 0)) (roundRat x.natAbs (2 ^ 149))
      else num s'' c
    else num s a * num s' b + num s'' c
  | _, _, _ => nan

/-- how the compiler evaluates `a * b + c * d`: it may fuse the sum with one of the products -/
inductive Fusion where
  | none
  | first
  | second

/-- `a * b + c * d` -/
def mulAdd : Fusion → Binary32 → Binary32 → Binary32 → Binary32 → Binary32
  | .none, a, b, c, d => a * b + c * d
  | .first, a, b, c, d => fma a b (c * d)
  | .second, a, b, c, d => fma c d (a * b)

/-- `jnp.linspace(start, stop, div + 1)` for positive `div`, with `dtype=float32`:
`start * (1 - step) + stop * step`, where `step = iota(div) / div`, followed by `stop` -/
def linspace (fusion : Fusion) (start stop : Binary32) (div : Nat) : List Binary32 :=
  ((List.range div).map fun k : Nat =>
    let step := (k : Binary32) / (div : Binary32)
    mulAdd fusion start (1 - step) stop step) ++ [stop]

end Binary32
end Jax

namespace Bartz
open Jax

/-- floating point numbers in single precision: `(u[1:] + u[:-1]) / 2` (prepcovars.py:74), and `huge_value` (jaxext.py:98-115)
is infinity -/
def binary32_dtype : Dtype Binary32.Ordered where
  integer := false
  huge := ⟨infBits, by decide⟩
  midpoint a b := Binary32.toOrdered ((Binary32.ofOrdered b + Binary32.ofOrdered a) / ((2 : Nat) : Binary32))

/-- `uniform_splits_from_matrix` (prepcovars.py:85-111), for one row, in single precision. It fails if the row is empty, or if the
assertion on the shape fails. -/
def uniform_row32 (fusion : Binary32.Fusion) (x : List Binary32.Ordered) (num_bins : Nat) :
    Option (List Binary32.Ordered × Nat) := do
  let low ← x.min?
  let high ← x.max?
  let grid := (Binary32.linspace fusion (Binary32.ofOrdered low) (Binary32.ofOrdered high) num_bins).map Binary32.toOrdered
  let splits := (grid.drop 1).dropLast
  guard ((splits.length : Int) = (num_bins : Int) - 1)
  return (splits, astype (minimal_unsigned_dtype (num_bins - 1)) (num_bins - 1))

end Bartz
