import Verif.Model.Jax
import Mathlib.Order.Defs.LinearOrder
/-!
# Model of `/repo/src/bartz/jaxext.py`: integer types and `unique`
-/

set_option autoImplicit false

namespace Bartz

/-- `jaxext.minimal_unsigned_dtype` (jaxext.py:117-128). The type is represented by its number of
bits. The argument is an `Int` because the code calls it with `size - 1` where `size` may be 0. -/
def minimal_unsigned_dtype (max_value : Int) : Nat :=
  if max_value < 2 ^ 8 then 8
  else if max_value < 2 ^ 16 then 16
  else if max_value < 2 ^ 32 then 32
  else 64

section
variable {α : Type} [LinearOrder α]

/-- `jnp.sort(x)`. The elements are in a linear order, i.e., there are no nans. -/
def jnp_sort (x : List α) : List α := x.mergeSort (fun a b => decide (a ≤ b))

/-- `loop` in `jaxext.unique` (jaxext.py:180-184); the unused counter `i_in` is omitted. The update of
`out` is dropped if out of bounds. -/
def unique_loop (carry : Nat × α × List α) (x : α) : Nat × α × List α :=
  let (i_out, last, out) := carry
  let i_out := if x = last then i_out else i_out + 1
  let out := out.set i_out x
  (i_out, x, out)

/-- `jaxext.unique` (jaxext.py:153-187) -/
def unique (x : List α) (size : Nat) (fill_value : α) : List α × Nat :=
  if x.length = 0 then
    (List.replicate size fill_value, 0)
  else if size = 0 then
    ([], 0)
  else
    let x := jnp_sort x
    let carry := (0, x.headD fill_value, List.replicate size fill_value)
    let (actual_length, _, out) := (x.take size).foldl unique_loop carry
    (out, actual_length + 1)

end

end Bartz
