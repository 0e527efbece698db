import Mathlib.Order.Defs.LinearOrder
/-!
# Sorted distinct values of an array
-/

set_option autoImplicit false

namespace Spec

variable {α : Type} [LinearOrder α]

/-- `u` is the list of the distinct values in `x`, in increasing order -/
def IsUnique (x u : List α) : Prop := u.Pairwise (· < ·) ∧ ∀ v, v ∈ u ↔ v ∈ x

/-- `u` truncated or filled on the right to the given length -/
def padTo (size : Nat) (fill : α) (u : List α) : List α :=
  u.take size ++ List.replicate (size - u.length) fill

end Spec
