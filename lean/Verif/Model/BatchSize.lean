import Mathlib.Algebra.Order.Floor.Ring
import Mathlib.Data.Rat.Floor
import Mathlib.Algebra.Field.Power
/-!
# Model of `_choose_suffstat_batch_size` in `/repo/src/bartz/mcmcstep.py`, lines 219-255

Simplification: `math.log2` is an arbitrary function `log2` (so nothing depends on its floating
point errors), the other floating point operations are exact.
-/

set_option autoImplicit false

namespace Jax

/-- python's `round` to integer: to nearest, ties to even. -/
def pyRound (x : ℚ) : Int :=
  let f := ⌊x⌋
  if x - f < 1 / 2 then f else if x - f > 1 / 2 then f + 1 else if f % 2 = 0 then f else f + 1

end Jax

namespace Bartz
open Jax

/-- `device.platform` -/
inductive Platform where
  | cpu | gpu | other

/-- a batch size argument of `init`: 'auto', or `None`, or an integer -/
inductive BatchArg where
  | auto
  | given (b : Option ℚ)

/-- `get_platform` (mcmcstep.py:221-230) -/
def get_platform : Platform → Except String Platform
  | .other => .error "KeyError"
  | p => .ok p

/-- the resid part (mcmcstep.py:232-239) -/
def choose_resid_batch_size (log2 : ℚ → ℚ) (platform : Platform) (arg : BatchArg) (size : Nat) :
    Except String (Option ℚ) :=
  match arg with
  | .given b => .ok b
  | .auto => do
    let platform ← get_platform platform
    let n : ℚ := max 1 (size : ℚ)
    let b : ℚ := match platform with
      | .cpu => 2 ^ pyRound (log2 (n / 6))
      | _ => 2 ^ pyRound ((1 + log2 n) / 3)
    .ok (some (max 1 b))

/-- the count part (mcmcstep.py:241-253) -/
def choose_count_batch_size (log2 : ℚ → ℚ) (platform : Platform) (arg : BatchArg)
    (size forest_size : Nat) : Except String (Option ℚ) :=
  match arg with
  | .given b => .ok b
  | .auto => do
    let platform ← get_platform platform
    match platform with
    | .cpu => .ok none
    | _ =>
      let n : ℚ := max 1 (size : ℚ)
      let b : ℚ := 2 ^ pyRound (log2 n / 2 - 2)
      let max_memory : ℚ := 2 ^ 29
      let itemsize : ℚ := 4
      let min_batch_size : ℚ := ⌈(forest_size : ℚ) * itemsize * n / max_memory⌉
      let b := max b min_batch_size
      .ok (some (max 1 b))

/-- `_choose_suffstat_batch_size` (mcmcstep.py:219-255) -/
def choose_suffstat_batch_size (log2 : ℚ → ℚ) (platform : Platform) (resid count : BatchArg)
    (size forest_size : Nat) : Except String (Option ℚ × Option ℚ) := do
  let resid_batch_size ← choose_resid_batch_size log2 platform resid size
  let count_batch_size ← choose_count_batch_size log2 platform count size forest_size
  .ok (resid_batch_size, count_batch_size)

end Bartz
