import Verif.Model.Jax
/-!
# IEEE 754 binary32 (single precision) numbers

The floating point type used by bartz, with the arithmetic mandated by IEEE 754 with rounding to nearest, ties to
even: every operation rounds the exact result. Nothing here comes from `/repo`; this is the arithmetic carried out by XLA
with `dtype=float32` (`jnp.float32` in mcmcstep.py:43, 165-182), apart from flushing subnormal numbers to zero, which XLA may
do depending on the platform and which is not modelled. The reading of the standard is in `Spec/Ieee`, and `Props/Ieee` proves
that these definitions follow it.

A number that is not a NaN is represented with the sign and the other 31 bits, read as an integer: so the numbers of
a given sign are sorted like these integers, and the one with all the exponent bits set is infinity. There is only
one NaN.
-/

set_option autoImplicit false

namespace Jax

/-- The bits of infinity, without the sign. -/
def infBits : Nat := 0x7f800000

/-- A single precision floating point number. -/
inductive Binary32 where
  /-- not a number -/
  | nan
  /-- a number with given sign and bits, or infinity -/
  | num (neg : Bool) (bits : Fin (infBits + 1))

namespace Binary32

/-- identity of two numbers (not the floating point comparison: the two zeros are different and nan is equal to itself) -/
def same : Binary32 → Binary32 → Bool
  | nan, nan => true
  | num s b, num s' b' => s == s' && b.val == b'.val
  | _, _ => false

theorem same_iff (x y : Binary32) : same x y = true ↔ x = y := by
  cases x <;> cases y <;> simp [same, Fin.ext_iff]

instance : DecidableEq Binary32 := fun x y => decidable_of_iff _ (same_iff x y)

/-- The absolute value, in units of `2 ** -149`, of the number with the given bits: the 23 low bits are the fractional
part of the mantissa, the others are the exponent; the numbers with zero exponent are the subnormal ones. The value
given by this formula to infinity is the one at which rounding overflows. -/
def mag (bits : Nat) : Nat :=
  if bits < 2 ^ 23 then bits else (2 ^ 23 + bits % 2 ^ 23) * 2 ^ (bits / 2 ^ 23 - 1)

/-- The integer `bits`, or infinity if it is too large. -/
def clip (bits : Nat) : Fin (infBits + 1) := ⟨min bits infBits, by omega⟩

/-- Round a nonnegative real number `x`, in units of `2 ** -149`, to nearest, ties to even. The arguments are the
integer part of `x`, and the comparison of `2 * x` with a given integer. -/
def roundBy (floor : Nat) (compareTwice : Nat → Ordering) : Fin (infBits + 1) :=
  let shift := floor.log2 - 23
  let mantissa := floor / 2 ^ shift
  let bits := shift * 2 ^ 23 + mantissa
  match compareTwice ((2 * mantissa + 1) * 2 ^ shift) with
  | .lt => clip bits
  | .eq => clip (bits + bits % 2)
  | .gt => clip (bits + 1)

/-- Round `num / den`, in units of `2 ** -149`. -/
def roundRat (num den : Nat) : Fin (infBits + 1) :=
  roundBy (num / den) fun m => compare (2 * num) (m * den)

/-- Determine from the highest to the lowest the last `k` bits of the square root of `x`, given the other ones. -/
def isqrtFrom (x : Nat) : (k : Nat) → Nat → Nat
  | 0, r => r
  | k + 1, r => isqrtFrom x k (if (r + 2 ^ k) * (r + 2 ^ k) ≤ x then r + 2 ^ k else r)

/-- The integer part of the square root. -/
def isqrt (x : Nat) : Nat := isqrtFrom x (x.log2 / 2 + 1) 0

/-- Round `sqrt(x)`, in units of `2 ** -149`. -/
def roundSqrt (x : Nat) : Fin (infBits + 1) :=
  roundBy (isqrt x) fun m => compare (4 * x) (m * m)

instance : Inhabited Binary32 := ⟨num false 0⟩
instance : Zero Binary32 := ⟨num false 0⟩
instance : One Binary32 := ⟨num false ⟨0x3f800000, by decide⟩⟩
instance : NatCast Binary32 := ⟨fun n => num false (roundRat (n * 2 ^ 149) 1)⟩

instance : Neg Binary32 where
  neg
    | nan => nan
    | num s b => num (!s) b

/-- the value of a finite number, with sign, in units of `2 ** -149` -/
def value (neg : Bool) (bits : Fin (infBits + 1)) : Int := if neg then -(mag bits : Int) else mag bits

/-- addition -/
def add : Binary32 → Binary32 → Binary32
  | num s b, num s' b' =>
    if b.val = infBits then
      if b'.val = infBits then (if s = s' then num s b else nan) else num s b
    else if b'.val = infBits then num s' b'
    else
      let sum := value s b + value s' b'
      -- an exact zero is negative only if both terms are negative zeros
      num (if sum = 0 then s && s' else decide (sum < 0)) (roundRat sum.natAbs 1)
  | _, _ => nan

instance : Add Binary32 := ⟨add⟩
instance : Sub Binary32 := ⟨fun x y => x + -y⟩

/-- multiplication -/
def mul : Binary32 → Binary32 → Binary32
  | num s b, num s' b' =>
    if b.val = infBits ∨ b'.val = infBits then
      if b.val = 0 ∨ b'.val = 0 then nan else num (xor s s') (clip infBits)
    else num (xor s s') (roundRat (mag b * mag b') (2 ^ 149))
  | _, _ => nan

instance : Mul Binary32 := ⟨mul⟩

/-- division -/
def div : Binary32 → Binary32 → Binary32
  | num s b, num s' b' =>
    if b.val = infBits then (if b'.val = infBits then nan else num (xor s s') (clip infBits))
    else if b'.val = infBits then num (xor s s') 0
    else if b'.val = 0 then (if b.val = 0 then nan else num (xor s s') (clip infBits))
    else num (xor s s') (roundRat (mag b * 2 ^ 149) (mag b'))
  | _, _ => nan

instance : Div Binary32 := ⟨div⟩

/-- square root -/
def sqrt : Binary32 → Binary32
  | num s b =>
    if b.val = 0 then num s b
    else if s then nan
    else if b.val = infBits then num s b
    else num false (roundSqrt (mag b * 2 ^ 149))
  | nan => nan

/-- the bits with the sign: an integer with the same order of the numbers -/
def signedBits (neg : Bool) (bits : Fin (infBits + 1)) : Int := if neg then -(bits : Int) else bits

/-- `a < b` -/
def lt : Binary32 → Binary32 → Bool
  | num s b, num s' b' => decide (signedBits s b < signedBits s' b')
  | _, _ => false

/-- `a <= b` -/
def le : Binary32 → Binary32 → Bool
  | num s b, num s' b' => decide (signedBits s b ≤ signedBits s' b')
  | _, _ => false

/-- The functions not determined by IEEE 754: the accuracy of the logarithms and the order of the additions in the
cumulative sums depend on the platform. -/
class Platform where
  log : Binary32 → Binary32
  log1p : Binary32 → Binary32
  cumsum : List Binary32 → List Binary32

instance [Platform] : FltFun Binary32 where
  log := Platform.log
  log1p := Platform.log1p
  sqrt := sqrt
  isFinite
    | num _ b => decide (b.val < infBits)
    | nan => false
  ltb := lt
  leb := le
  cumsum := Platform.cumsum
  tiny := num false ⟨0x00800000, by decide⟩

/-- `jax.random.uniform(key, (), float32, 0, hi)`, given the 23 high bits of the random 32 bit integer produced by the
key: they are used as the mantissa of a number in [1, 2), then 1 is subtracted. -/
def uniform (k : Fin (2 ^ 23)) (hi : Binary32) : Binary32 :=
  let floats := num false ⟨0x3f800000 + k.val, by have := k.isLt; unfold infBits; omega⟩ - 1
  -- `lax.max(minval, floats * (maxval - minval) + minval)`
  let x := floats * (hi - 0) + 0
  match x with
  | nan => nan
  | num true _ => 0
  | num false b => num false b

end Binary32
end Jax
