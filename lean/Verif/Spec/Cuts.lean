import Verif.Model.Prepcovars
/-!
# Cutpoints and bins
-/

set_option autoImplicit false

namespace Spec
open Bartz

variable {α : Type} [LinearOrder α]

/-- `i` is the bin of `x`: `cuts[i - 1] < x <= cuts[i]`, where the boundaries before the first and
after the last cutpoint are infinite -/
def InBin (cuts : List α) (x : α) (i : Nat) : Prop :=
  i ≤ cuts.length ∧ (∀ c, 0 < i → cuts[i - 1]? = some c → c < x) ∧ (∀ c, cuts[i]? = some c → x ≤ c)

/-- What is required from the type of a predictor: `ok` are the values it can have (apart from
infinite), the largest value is really that, and the midpoint of two values is inbetween. If the
midpoints with the padding are not masked, they are equal to the padding. -/
structure LawfulDtype (t : Dtype α) (ok : α → Prop) : Prop where
  le_huge : ∀ a, ok a → a ≤ t.huge
  midpoint : ∀ a b, ok a → ok b → a < b → a ≤ t.midpoint a b ∧ t.midpoint a b < b
  pad : t.integer = false → ∀ a, ok a ∨ a = t.huge → t.midpoint a t.huge = t.huge

/-- `v` is representable in the signed or unsigned integer type with `w` bits -/
def Representable (signed : Bool) (w : Nat) (v : Int) : Prop :=
  if signed then -2 ^ (w - 1) ≤ v ∧ v < 2 ^ (w - 1) else 0 ≤ v ∧ v < 2 ^ w

instance (signed : Bool) (w : Nat) (v : Int) : Decidable (Representable signed w v) := by
  unfold Representable; infer_instance

end Spec

namespace Spec

variable {α : Type} [LinearOrder α]

/-- The cutpoint number `k` is between the values `U[i k]` and `U[i k + 1]`, and there is at most one
cutpoint between each pair of values. `U` is in increasing order. -/
structure CutsAt (U cuts : List α) (i : Nat → Nat) : Prop where
  bound : ∀ k, k < cuts.length → i k + 1 < U.length
  left : ∀ k (hk : k < cuts.length), U[i k]'(by have := bound k hk; omega) ≤ cuts[k]
  right : ∀ k (hk : k < cuts.length), cuts[k] < U[i k + 1]'(bound k hk)
  mono : ∀ k l, k < l → l < cuts.length → i k < i l

end Spec
