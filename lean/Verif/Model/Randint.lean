import Verif.Model.Jax
/-!
# Model of `jax.random.randint`

The algorithm that JAX 0.4.30 uses to make an integer in a range out of random bits (`_randint` in `jax/_src/random.py`),
for a scalar and the default type, 32 bit signed integers. It is called in mcmcstep.py:679, mcmcstep.py:712 and
mcmcstep.py:865. It is modelled for ends of the range that are not negative and fit in the type.
-/

set_option autoImplicit false

namespace Jax

/-- `jax.random.randint(key, (), minval, maxval)`. The random bits are two 32 bit words. The product and the sum of unsigned
integers wrap around. -/
def randint32 (higher_bits lower_bits minval maxval : Nat) : Nat :=
  let span := if maxval ≤ minval then 1 else maxval - minval
  let multiplier := 2 ^ 16 % span
  let multiplier := astype 32 (multiplier * multiplier) % span
  let random_offset := astype 32 (astype 32 ((higher_bits % span) * multiplier) + lower_bits % span)
  minval + random_offset % span

end Jax
