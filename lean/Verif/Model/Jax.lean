/-!
# The fragment of JAX / numpy semantics used by bartz

Arrays are lists. Nothing here comes from `/repo`; these definitions are the trusted reading of the
JAX 0.4.30 primitives called by the code in `/repo/src/bartz` (version pinned in
`/repo/poetry.lock:559`).
-/

set_option autoImplicit false

namespace Jax

/-- `a[i]` with a traced (run time) nonnegative index: out of range indices are clamped to the last
element (JAX "sharp bits", default gather mode). -/
def gather {α : Type _} [Inhabited α] (a : List α) (i : Nat) : α :=
  a.getD (min i (a.length - 1)) default

/-- `a.at[i].get(mode='fill', fill_value=v)` with a nonnegative index. -/
def getFill {α : Type _} (a : List α) (i : Nat) (v : α) : α := a.getD i v

/-- `a.at[i].set(v)` with a nonnegative index: out of range updates are dropped. -/
def setDrop {α : Type _} (a : List α) (i : Nat) (v : α) : List α := a.set i v

/-- `.astype(uintN)` of a nonnegative integer, i.e., reduction modulo `2 ** bits`; also used for
the result of operations carried out in an unsigned type. -/
def astype (bits v : Nat) : Nat := v % 2 ^ bits

/-- `jnp.arange(n, dtype=uintN)`. -/
def arange (n bits : Nat) : List Nat := (List.range n).map (astype bits)

/-- `jax.vmap` over an axis of length `n`, the batched arguments being accessed by index. -/
def vmap {β : Type _} (n : Nat) (f : Nat → β) : List β := (List.range n).map f

/-- `lax.scan(f, init, xs)`: returns the final carry and the stacked outputs. -/
def scan {C X Y : Type _} (f : C → X → C × Y) (init : C) : List X → C × List Y
  | [] => (init, [])
  | x :: xs =>
    let (c, y) := f init x
    let (c', ys) := scan f c xs
    (c', y :: ys)

/-- `lax.scan(f, init, None, n)` ignoring the outputs. -/
def scanN {C : Type _} (f : C → C) (init : C) (n : Nat) : C := Nat.rec init (fun _ c => f c) n

/-- `acc + jnp.cumsum(...)`, accumulating from the left. -/
def cumsumFrom {α : Type _} [Add α] (acc : α) : List α → List α
  | [] => []
  | x :: xs => (acc + x) :: cumsumFrom (acc + x) xs

/-- `jnp.cumsum`, accumulating from the left (the first element is copied as is). This is used as is
for integers; for floating point numbers, where the order of the additions matters, see
`FltFun.cumsum`. -/
def cumsum {α : Type _} [Add α] : List α → List α
  | [] => []
  | x :: xs => x :: cumsumFrom x xs

/-- `a[-1]`, for a nonempty array. -/
def last {α : Type _} [Inhabited α] (a : List α) : α := a.getLastD default

/-- `ceil(log2(n))` for positive `n`: the smallest `k <= fuel` with `n <= 2 ** k`, found by going up
from `k` (the fuel is always enough, see `ceilLog2_le`). -/
def ceilLog2From (n : Nat) : (fuel k : Nat) → Nat
  | 0, k => k
  | fuel + 1, k => if n ≤ 2 ^ k then k else ceilLog2From n fuel (k + 1)

/-- `int(np.ceil(np.log2(n)))` for positive `n` -/
def ceilLog2 (n : Nat) : Nat := ceilLog2From n n 0

/-- The loop of `jnp.searchsorted(a, v, side)`, with the default method `'scan'`: bisection with a fixed number of
iterations. The argument `leV` is the predicate `(· <= v)` if the side is `'right'`, `(· < v)` if it is `'left'`. -/
def bisect {α : Type _} (leV : α → Bool) (a : List α) : (levels low high : Nat) → Nat
  | 0, _, high => high
  | levels + 1, low, high =>
    let mid := (low + high) / 2
    -- go left if `v < a[mid]` (`v <= a[mid]`)
    match a[mid]? with
    | some x => if leV x then bisect leV a levels mid high else bisect leV a levels low mid
    | none => bisect leV a levels low mid

/-- `jnp.searchsorted(a, v, 'right')`, with the default method `'scan'`; the argument is the predicate
`(· <= v)`. If `a` is sorted, this is the number of elements `x` with `x <= v`, see
`searchsortedRight_eq_takeWhile`; no assumption is made on `a`, because the cumulative sums searched
by the code may not be sorted due to rounding. -/
def searchsortedRight {α : Type _} (leV : α → Bool) (a : List α) : Nat :=
  bisect leV a (ceilLog2 (a.length + 1)) 0 a.length

/-- `jnp.searchsorted(a, v, 'left')` (the default side), with the default method `'scan'`; the argument is the predicate
`(· < v)`. -/
def searchsortedLeft {α : Type _} (ltV : α → Bool) (a : List α) : Nat :=
  bisect ltV a (ceilLog2 (a.length + 1)) 0 a.length

/-- the elements of even index -/
def evens {α : Type _} : List α → List α
  | [] => []
  | [x] => [x]
  | x :: _ :: l => x :: evens l

/-- the sums of the consecutive pairs of elements; an odd last element is dropped -/
def pairSums {α : Type _} [Add α] : List α → List α
  | x :: y :: l => (x + y) :: pairSums l
  | _ => []

/-- alternate the elements of two lists, the first one being as long as the second or longer by one -/
def interleave {α : Type _} : List α → List α → List α
  | x :: xs, y :: ys => x :: y :: interleave xs ys
  | xs, [] => xs
  | [], _ :: _ => []

/-- `lax.associative_scan(lax.add, a)`, which is how `jnp.cumsum` is implemented on CPU: the cumulative
sums of the pairs are computed recursively, giving the elements of odd index; each element of even
index, apart from the first, is the previous one plus a term. The fuel bounds the depth of the
recursion. -/
def associativeScanFuel {α : Type _} [Add α] : Nat → List α → List α
  | 0, a => a
  | fuel + 1, a =>
    if a.length < 2 then a
    else
      let odd := associativeScanFuel fuel (pairSums a)
      interleave ((evens a).take 1 ++ List.zipWith (· + ·) odd ((evens a).drop 1)) odd

/-- `lax.associative_scan(lax.add, a)` -/
def associativeScan {α : Type _} [Add α] (a : List α) : List α := associativeScanFuel a.length a

/-- `jnp.count_nonzero` of a boolean array. -/
def countNonzero (m : List Bool) : Nat := m.count true

/-- `jnp.sum` of a list, accumulating from the left starting from zero. -/
def sum {α : Type _} [Zero α] [Add α] (a : List α) : α := a.foldl (· + ·) 0

/-- `jnp.zeros(size).at[indices].add(values)`, applied one update at a time; out of range updates
are dropped. -/
def scatterAdd {α : Type _} [Add α] (a : List α) : List Nat → List α → List α
  | i :: is, v :: vs => scatterAdd (a.modify i (· + v)) is vs
  | _, _ => a

/-- `jnp.zeros((size, nb)).at[indices, batch].add(values)`, applied one update at a time; out of
range updates are dropped. -/
def scatterAdd2 {α : Type _} [Add α] (a : List (List α)) :
    List Nat → List Nat → List α → List (List α)
  | i :: is, b :: bs, v :: vs => scatterAdd2 (a.modify i (fun row => row.modify b (· + v))) is bs vs
  | _, _, _ => a

/-- insertion into a sorted list without repetitions -/
def insertUnique (x : Nat) : List Nat → List Nat
  | [] => [x]
  | y :: ys => if x < y then x :: y :: ys else if x = y then y :: ys else y :: insertUnique x ys

/-- the sorted distinct values of a list -/
def sortedUnique (l : List Nat) : List Nat := l.foldr insertUnique []

/-- `jnp.unique(a, size=size, fill_value=fill)` for an integer array: the sorted distinct values,
truncated or right-padded with `fill` to length `size`. -/
def unique (a : List Nat) (size fill : Nat) : List Nat :=
  let u := sortedUnique a
  u.take size ++ List.replicate (size - u.length) fill

/-- Floating point functions used by the code beyond `+ - * /`, sums, and casts. No laws. -/
class FltFun (F : Type) where
  log : F → F
  log1p : F → F
  sqrt : F → F
  isFinite : F → Bool
  /-- `a < b` -/
  ltb : F → F → Bool
  /-- `a <= b` -/
  leb : F → F → Bool
  /-- `jnp.cumsum`; the order in which the terms are added depends on the platform -/
  cumsum : List F → List F
  /-- `jnp.finfo(dtype).tiny`, the smallest positive number represented with full precision -/
  tiny : F

/-- `jax.random.split(key, n)[i]` -/
class KeyLike (K : Type) where
  split : K → (n i : Nat) → K

/-- What one obtains by using a given random key with the various samplers of `jax.random`. -/
structure Draws (F : Type) where
  /-- `random.uniform(key, (2, ntree))[r, t]`, in `[0, 1)` -/
  uniform2 : Nat → Nat → F
  /-- `random.uniform(key, (), dtype, 0, hi)`, in `[0, hi)` -/
  uniformTo : F → F
  /-- `random.randint(key, (), lo, hi)`, in `[lo, hi)`, equal to `lo` if `hi <= lo` -/
  randint : Nat → Nat → Nat
  /-- `random.normal(key, (ntree, size))[t, i]` -/
  normal : Nat → Nat → F
  /-- `random.gamma(key, alpha)` -/
  gamma : F → F

/-- A random number generator: a function from keys to draws. -/
abbrev Rng (K F : Type) := K → Draws F

end Jax
