import Verif.Model.Binning32
import Mathlib.Analysis.Real.Sqrt
/-!
# The IEEE 754 standard

A reading of the standard IEEE 754-2019 for binary32 and rounding to nearest, ties to even, in terms of real numbers. It
is used to check the arithmetic of `Model/Binary32`, which is in terms of integers, so that the latter needs not be trusted.
-/

set_option autoImplicit false

namespace Spec
namespace Ieee
open Jax

/-- Section 3.4: the value of a finite positive number with given bits, of which the lowest 23 are the trailing significand
field, and the other 8 the biased exponent. -/
noncomputable def decode (bits : Nat) : ℝ :=
  let exponent : Nat := bits / 2 ^ 23
  let fraction : ℝ := (bits % 2 ^ 23 : Nat) / 2 ^ 23
  if exponent = 0 then 2 ^ (-126 : ℤ) * fraction else 2 ^ ((exponent : ℤ) - 127) * (1 + fraction)

/-- A finite number with given sign, bits and value. -/
structure IsFinite (x : Binary32) (neg : Bool) (value : ℝ) : Prop where
  repr : ∃ bits : Fin (infBits + 1), bits.val < infBits ∧ x = .num neg bits ∧
    value = (if neg then -1 else 1) * decode bits.val

/-- The infinity with given sign. -/
def inf (neg : Bool) : Binary32 := .num neg ⟨0x7f800000, by decide⟩

/-- The zero with given sign. -/
def zero (neg : Bool) : Binary32 := .num neg 0

/-- Section 4.3.1, roundTiesToEven: infinity if `abs(x)` is at least `2 ** 127 * (2 - 2 ** -24)`, otherwise the nearest finite
number, the one with even least significant bit if there are two of them. The sign of a result equal to zero is specified
separately. -/
structure Rounds (x : ℝ) (neg : Bool) (bits : Nat) : Prop where
  sign : x ≠ 0 → neg = decide (x < 0)
  overflow : 2 ^ 127 * (2 - 2 ^ (-24 : ℤ)) ≤ |x| → bits = infBits
  finite : |x| < 2 ^ 127 * (2 - 2 ^ (-24 : ℤ)) → bits < infBits
  nearest : |x| < 2 ^ 127 * (2 - 2 ^ (-24 : ℤ)) → ∀ c < infBits, |(decode bits - |x|)| ≤ |(decode c - |x|)|
  even : |x| < 2 ^ 127 * (2 - 2 ^ (-24 : ℤ)) → ∀ c < infBits, c ≠ bits → |(decode c - |x|)| = |(decode bits - |x|)| → bits % 2 = 0

/-- The result `r` of an operation whose exact result is `x`; `zeroNeg` is the sign in case that `x` is zero. -/
def Result (x : ℝ) (zeroNeg : Bool) (r : Binary32) : Prop :=
  ∃ neg bits, r = .num neg bits ∧ Rounds x neg bits.val ∧ (x = 0 → neg = zeroNeg)

/-- Sections 5.4.1, 6.1, 6.2, 6.3, 7.2: addition. -/
structure IsSum (x y r : Binary32) : Prop where
  nan : x = .nan ∨ y = .nan → r = .nan
  inf_inf : ∀ s s', x = inf s → y = inf s' → r = if s = s' then inf s else .nan
  inf_left : ∀ s s' v, x = inf s → IsFinite y s' v → r = inf s
  inf_right : ∀ s s' v, IsFinite x s v → y = inf s' → r = inf s'
  finite : ∀ s s' v w, IsFinite x s v → IsFinite y s' w → Result (v + w) (s && s') r

/-- Subtraction. -/
structure IsDifference (x y r : Binary32) : Prop where
  nan : x = .nan ∨ y = .nan → r = .nan
  inf_inf : ∀ s s', x = inf s → y = inf s' → r = if s = s' then .nan else inf s
  inf_left : ∀ s s' v, x = inf s → IsFinite y s' v → r = inf s
  inf_right : ∀ s s' v, IsFinite x s v → y = inf s' → r = inf (!s')
  finite : ∀ s s' v w, IsFinite x s v → IsFinite y s' w → Result (v - w) (s && !s') r

/-- Multiplication. -/
structure IsProduct (x y r : Binary32) : Prop where
  nan : x = .nan ∨ y = .nan → r = .nan
  inf_inf : ∀ s s', x = inf s → y = inf s' → r = inf (xor s s')
  inf_left : ∀ s s' v, x = inf s → IsFinite y s' v → r = if v = 0 then .nan else inf (xor s s')
  inf_right : ∀ s s' v, IsFinite x s v → y = inf s' → r = if v = 0 then .nan else inf (xor s s')
  finite : ∀ s s' v w, IsFinite x s v → IsFinite y s' w → Result (v * w) (xor s s') r

/-- Division. -/
structure IsQuotient (x y r : Binary32) : Prop where
  nan : x = .nan ∨ y = .nan → r = .nan
  inf_inf : ∀ s s', x = inf s → y = inf s' → r = .nan
  inf_left : ∀ s s' v, x = inf s → IsFinite y s' v → r = inf (xor s s')
  inf_right : ∀ s s' v, IsFinite x s v → y = inf s' → r = zero (xor s s')
  by_zero : ∀ s s' v, IsFinite x s v → IsFinite y s' 0 → r = if v = 0 then .nan else inf (xor s s')
  finite : ∀ s s' v w, IsFinite x s v → IsFinite y s' w → w ≠ 0 → Result (v / w) (xor s s') r

/-- Square root. -/
structure IsSqrt (x r : Binary32) : Prop where
  nan : x = .nan → r = .nan
  inf : ∀ s, x = inf s → r = if s then .nan else inf s
  negative : ∀ s v, IsFinite x s v → v < 0 → r = .nan
  finite : ∀ s v, IsFinite x s v → 0 ≤ v → Result (Real.sqrt v) s r

/-- Fused multiply-add: the product is infinitely precise. -/
structure IsFma (x y z r : Binary32) : Prop where
  nan : x = .nan ∨ y = .nan ∨ z = .nan → r = .nan
  finite : ∀ s s' s'' u v w, IsFinite x s u → IsFinite y s' v → IsFinite z s'' w → Result (u * v + w) (xor s s' && s'') r
  inf_right : ∀ s s' s'' u v, IsFinite x s u → IsFinite y s' v → z = inf s'' → r = inf s''
  inf_zero : ∀ s s', x = inf s ∧ IsFinite y s' 0 ∨ IsFinite x s 0 ∧ y = inf s' → r = .nan
  inf_left : ∀ s s', (x = inf s ∧ (y = inf s' ∨ ∃ v, v ≠ 0 ∧ IsFinite y s' v)) ∨ ((∃ v, v ≠ 0 ∧ IsFinite x s v) ∧ y = inf s') →
    (∀ s'', z = inf s'' → r = if s'' = xor s s' then inf s'' else .nan) ∧ ∀ s'' w, IsFinite z s'' w → r = inf (xor s s')

/-- Section 5.11: comparison. Nan is unordered; the two zeros are equal; infinities compare like real numbers larger than
the finite ones. -/
structure IsLess (less : Binary32 → Binary32 → Bool) : Prop where
  nan_left : ∀ x, less .nan x = false
  nan_right : ∀ x, less x .nan = false
  finite : ∀ x y s s' v w, IsFinite x s v → IsFinite y s' w → (less x y = true ↔ v < w)
  inf_right : ∀ x s v, IsFinite x s v → less x (inf false) = true ∧ less x (inf true) = false
  inf_left : ∀ x s v, IsFinite x s v → less (inf false) x = false ∧ less (inf true) x = true
  inf_inf : ∀ s s', less (inf s) (inf s') = (s && !s')

end Ieee
end Spec
