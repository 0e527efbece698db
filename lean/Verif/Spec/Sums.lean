import Verif.Spec.Drift
import Verif.Model.Binning32
import Mathlib.Data.List.Perm.Basic
/-!
# Sums in any order

The order in which `jnp.sum` adds the terms depends on the device, on the compiler and on the shape of the array. So the
theorems on the rounding errors of sums are stated for any order.
-/

set_option autoImplicit false

namespace Spec
open Jax

/-- `s` can be obtained by adding the numbers in a list two at a time, in single precision, in some order, grouped in some way, and
possibly starting from zero, also many times. -/
inductive Sums : List Binary32 → Binary32 → Prop
  | zero : Sums [] 0
  | one (x : Binary32) : Sums [x] x
  | add {xs ys : List Binary32} {s t : Binary32} : Sums xs s → Sums ys t → Sums (xs ++ ys) (s + t)
  | perm {xs ys : List Binary32} {s : Binary32} : xs.Perm ys → Sums xs s → Sums ys s

/-- `s` can be obtained by squaring the numbers in a list and adding the squares two at a time, in single precision, in some
order, grouped in some way, possibly squaring and adding with a single rounding. -/
inductive SumSquares : List Binary32 → Binary32 → Prop
  | zero : SumSquares [] 0
  | one (x : Binary32) : SumSquares [x] (x * x)
  | add {xs ys : List Binary32} {s t : Binary32} : SumSquares xs s → SumSquares ys t → SumSquares (xs ++ ys) (s + t)
  | fused {xs : List Binary32} {s : Binary32} (x : Binary32) : SumSquares xs s → SumSquares (x :: xs) (Binary32.fma x x s)
  | perm {xs ys : List Binary32} {s : Binary32} : xs.Perm ys → SumSquares xs s → SumSquares ys s

end Spec
