import Verif.Model.Jax
/-!
# Programs that draw random numbers

A program asks for random numbers one at a time, specifying the key and the distribution. It can not do
anything else with the key, so the list of keys used in an execution is well defined.
-/

set_option autoImplicit false

namespace Spec
open Jax

/-- a program with random keys `K`, numbers `F` and result `A` -/
inductive Prog (K F A : Type) where
  | pure (a : A)
  | uniform2 (key : K) (cont : (Nat → Nat → F) → Prog K F A)
  | uniformTo (key : K) (hi : F) (cont : F → Prog K F A)
  | randint (key : K) (lo hi : Nat) (cont : Nat → Prog K F A)
  | normal (key : K) (cont : (Nat → Nat → F) → Prog K F A)
  | gamma (key : K) (alpha : F) (cont : F → Prog K F A)

namespace Prog
variable {K F A B : Type}

/-- execution where the random numbers are determined by the keys -/
def run (rng : Rng K F) : Prog K F A → A
  | pure a => a
  | uniform2 key cont => run rng (cont (rng key).uniform2)
  | uniformTo key hi cont => run rng (cont ((rng key).uniformTo hi))
  | randint key lo hi cont => run rng (cont ((rng key).randint lo hi))
  | normal key cont => run rng (cont (rng key).normal)
  | gamma key alpha cont => run rng (cont ((rng key).gamma alpha))

/-- sequential composition -/
def bind : Prog K F A → (A → Prog K F B) → Prog K F B
  | pure a, f => f a
  | uniform2 key cont, f => uniform2 key fun x => bind (cont x) f
  | uniformTo key hi cont, f => uniformTo key hi fun x => bind (cont x) f
  | randint key lo hi cont, f => randint key lo hi fun x => bind (cont x) f
  | normal key cont, f => normal key fun x => bind (cont x) f
  | gamma key alpha cont, f => gamma key alpha fun x => bind (cont x) f

/-- compose `n` programs and collect the results -/
def collect (f : Nat → Prog K F A) : Nat → Prog K F (List A)
  | 0 => pure []
  | n + 1 => bind (collect f n) fun l => bind (f n) fun a => pure (l ++ [a])

/-- a random number -/
inductive Answer (F : Type) where
  | uniform2 (x : Nat → Nat → F)
  | uniformTo (hi x : F)
  | randint (lo hi x : Nat)
  | normal (x : Nat → Nat → F)
  | gamma (alpha x : F)

/-- the random number is what the generator gives -/
def Agrees (d : Draws F) : Answer F → Prop
  | .uniform2 x => d.uniform2 = x
  | .uniformTo hi x => d.uniformTo hi = x
  | .randint lo hi x => d.randint lo hi = x
  | .normal x => d.normal = x
  | .gamma alpha x => d.gamma alpha = x

/-- A possible execution of a program, where the random numbers can have any value. The list contains
the keys and the random numbers in order of use. -/
inductive Exec : Prog K F A → List (K × Answer F) → A → Prop
  | pure (a : A) : Exec (pure a) [] a
  | uniform2 (key : K) (cont : (Nat → Nat → F) → Prog K F A) (x : Nat → Nat → F)
      (l : List (K × Answer F)) (a : A) : Exec (cont x) l a →
      Exec (.uniform2 key cont) ((key, .uniform2 x) :: l) a
  | uniformTo (key : K) (hi : F) (cont : F → Prog K F A) (x : F) (l : List (K × Answer F)) (a : A) :
      Exec (cont x) l a → Exec (.uniformTo key hi cont) ((key, .uniformTo hi x) :: l) a
  | randint (key : K) (lo hi : Nat) (cont : Nat → Prog K F A) (x : Nat) (l : List (K × Answer F))
      (a : A) : Exec (cont x) l a → Exec (.randint key lo hi cont) ((key, .randint lo hi x) :: l) a
  | normal (key : K) (cont : (Nat → Nat → F) → Prog K F A) (x : Nat → Nat → F)
      (l : List (K × Answer F)) (a : A) : Exec (cont x) l a →
      Exec (.normal key cont) ((key, .normal x) :: l) a
  | gamma (key : K) (alpha : F) (cont : F → Prog K F A) (x : F) (l : List (K × Answer F)) (a : A) :
      Exec (cont x) l a → Exec (.gamma key alpha cont) ((key, .gamma alpha x) :: l) a

end Prog

/-! ### Keys that remember how they have been made -/

/-- a key described by the list of splits from the initial one: `(n, i)` is the `i`-th out of `n` -/
abbrev Path := List (Nat × Nat)

/-- ideal keys, which can never be equal by accident -/
instance : KeyLike Path := ⟨fun p n i => p ++ [(n, i)]⟩

/-- the actual key -/
def derive {K : Type} [KeyLike K] (key : K) (p : Path) : K :=
  p.foldl (fun k ni => KeyLike.split k ni.1 ni.2) key

/-- Two keys come from different elements of the output of the same split. In particular they are
different, none of the two has been split to get the other, and no key has been split twice. -/
def Diverge (p q : Path) : Prop :=
  ∃ (r : Path) (n i j : Nat) (u v : Path), i ≠ j ∧ i < n ∧ j < n ∧ p = r ++ (n, i) :: u ∧
    q = r ++ (n, j) :: v

end Spec
