import Verif.Model.Jax
/-!
# Assumptions on floating point numbers and random number generators

`FloatLaws F` collects the few laws, all about non-negative numbers (so NaN is excluded, since
`0 <= NaN` is false), that the structural theorems need. The real numbers satisfy them. IEEE 754
arithmetic with round to nearest satisfies the laws that do not involve `cumsum`, including infinities
and signed zeros, and satisfies all of them if the cumulative sums are computed adding the terms from
the left (see `Verif/Lemmas/Binary32.lean`), but not with the algorithm used by JAX on CPU (see
`Verif/Props/Binary32.lean`).

`LawfulDraws` says that the variates are in the documented ranges.
-/

set_option autoImplicit false

namespace Spec
open Jax

class FloatLaws (F : Type) [Zero F] [One F] [FltFun F] : Prop where
  zero_le_zero : FltFun.leb (0 : F) 0 = true
  trans : ∀ a b c : F, FltFun.leb 0 a = true → FltFun.leb a b = true → FltFun.leb b c = true →
    FltFun.leb a c = true
  lt_iff : ∀ a b : F, FltFun.leb 0 a = true → FltFun.leb 0 b = true →
    FltFun.ltb a b = !FltFun.leb b a
  length_cumsum : ∀ w : List F, (FltFun.cumsum w).length = w.length
  cumsum_nonneg : ∀ w : List F, (∀ x ∈ w, FltFun.leb 0 x = true) →
    ∀ s ∈ FltFun.cumsum w, FltFun.leb 0 s = true
  /-- the cumulative sum does not increase when adding a zero term -/
  cumsum_zero : ∀ w : List F, (∀ x ∈ w, FltFun.leb 0 x = true) → ∀ i, i < w.length → w.getD i 0 = 0 →
    FltFun.leb ((FltFun.cumsum w).getD i 0) (if i = 0 then 0 else (FltFun.cumsum w).getD (i - 1) 0) = true
  /-- the sum is positive if any term is positive, and in addition not smaller than `tiny` if the term is not -/
  cumsum_pos : ∀ w : List F, (∀ x ∈ w, FltFun.leb 0 x = true) →
    (∃ x ∈ w, FltFun.leb FltFun.tiny x = true ∧ FltFun.leb x 0 = false) →
    FltFun.leb FltFun.tiny ((FltFun.cumsum w).getD (w.length - 1) 0) = true ∧
    FltFun.leb ((FltFun.cumsum w).getD (w.length - 1) 0) 0 = false
  /-- the sum of numbers in [0, 1] does not overflow -/
  cumsum_finite : ∀ w : List F, (∀ x ∈ w, FltFun.leb 0 x = true ∧ FltFun.leb x 1 = true) →
    FltFun.isFinite ((FltFun.cumsum w).getD (w.length - 1) 0) = true
  tiny_nonneg : FltFun.leb (0 : F) FltFun.tiny = true
  zero_le_one : FltFun.leb (0 : F) 1 = true

/-- Laws of addition sufficient for `FloatLaws` if `jnp.cumsum` adds the terms from the left, see
`floatLaws_of_left`. -/
structure AddLaws (F : Type) [Zero F] [One F] [Add F] [FltFun F] : Prop where
  zero_le_zero : FltFun.leb (0 : F) 0 = true
  add_nonneg : ∀ a b : F, FltFun.leb 0 a = true → FltFun.leb 0 b = true →
    FltFun.leb 0 (a + b) = true
  total : ∀ a b : F, FltFun.leb 0 a = true → FltFun.leb 0 b = true →
    FltFun.leb a b = true ∨ FltFun.leb b a = true
  trans : ∀ a b c : F, FltFun.leb 0 a = true → FltFun.leb a b = true → FltFun.leb b c = true →
    FltFun.leb a c = true
  lt_iff : ∀ a b : F, FltFun.leb 0 a = true → FltFun.leb 0 b = true →
    FltFun.ltb a b = !FltFun.leb b a
  le_add_right : ∀ a b : F, FltFun.leb 0 a = true → FltFun.leb 0 b = true →
    FltFun.leb a (a + b) = true
  le_add_left : ∀ a b : F, FltFun.leb 0 a = true → FltFun.leb 0 b = true →
    FltFun.leb b (a + b) = true
  add_zero_le : ∀ a : F, FltFun.leb 0 a = true → FltFun.leb (a + 0) a = true
  tiny_nonneg : FltFun.leb (0 : F) FltFun.tiny = true
  zero_le_one : FltFun.leb (0 : F) 1 = true
  /-- there is a finite number that does not increase by adding 1 or less, or there is no infinity -/
  finite : ∃ B : F → Prop, B 0 ∧ (∀ x, B x → FltFun.isFinite x = true) ∧
    (∀ x, FltFun.leb 0 x = true → FltFun.leb x 1 = true → B x) ∧
    ∀ a x, FltFun.leb 0 a = true → B a → FltFun.leb 0 x = true → FltFun.leb x 1 = true → B (a + x)

/-- The variates obtained from one key are in the documented ranges. -/
structure LawfulDraws {F : Type} [Zero F] [One F] [FltFun F] (d : Draws F) : Prop where
  uniform2_nonneg : ∀ r t, FltFun.leb 0 (d.uniform2 r t) = true
  uniform2_lt_one : ∀ r t, FltFun.ltb (d.uniform2 r t) 1 = true
  /-- `jax.random.uniform` does not satisfy this for subnormal or infinite `hi`, because it computes `u * hi` with `u`
  in `[0, 1)`, which may be rounded to `hi` -/
  uniformTo : ∀ hi, FltFun.leb FltFun.tiny hi = true → FltFun.leb hi 0 = false → FltFun.isFinite hi = true →
    FltFun.leb 0 (d.uniformTo hi) = true ∧ FltFun.leb hi (d.uniformTo hi) = false
  randint_mem : ∀ lo hi, lo < hi → lo ≤ d.randint lo hi ∧ d.randint lo hi < hi
  randint_empty : ∀ lo hi, hi ≤ lo → d.randint lo hi = lo

/-- All the variates are in the documented ranges. -/
def LawfulRng {K F : Type} [Zero F] [One F] [FltFun F] (rng : Rng K F) : Prop :=
  ∀ key, LawfulDraws (rng key)

end Spec
