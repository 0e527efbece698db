import Verif.Model.Autobatch
/-!
# Functions that can be applied in batches
-/

set_option autoImplicit false

namespace Spec
open Jax Bartz

variable {α : Type} [Inhabited α]

/-- `x[:, ..., lo:lo + len, ..., :]` with the range at position `axis` -/
def slice (lo len : Nat) (x : NDArray α) (axis : Nat) : NDArray α :=
  NDArray.ofFn (x.shape.set axis len) x.itemsize fun idx =>
    x.data (idx.set axis (lo + idx.getD axis 0))

/-- slice all the arrays, along the given axes; `none` means that the array is left alone -/
def sliceAll (lo len : Nat) (axes : List (Option Nat)) (xs : List (NDArray α)) : List (NDArray α) :=
  List.zipWith (fun x (axis : Option Nat) => match axis with
    | none => x
    | some axis => slice lo len x axis) xs axes

/-- What `in_axes` or `out_axes` means: `axes` is a list with the batched axis of each array, from 0,
or `none` if not batched; a single number means that axis for all the arrays, negative axes are counted
from the end. -/
def AxesMean (spec : Axes) (xs : List (NDArray α)) (axes : List (Option Nat)) : Prop :=
  ∃ l : List (Option Int),
    (spec = .each l ∨ ∃ a, spec = .all a ∧ l = List.replicate xs.length (some a)) ∧
    l.length = xs.length ∧ axes.length = xs.length ∧
    ∀ k (_ : k < xs.length), (l[k]? = some none ∧ axes[k]? = some none) ∨
      ∃ (a : Int) (b : Nat), l[k]? = some (some a) ∧ axes[k]? = some (some b) ∧
        b < xs[k].shape.length ∧ ((a = b) ∨ (a = (b : Int) - xs[k].shape.length))

/-- All the arrays have the same size along the batched axis. -/
def SameSize (size : Nat) (axes : List (Option Nat)) (xs : List (NDArray α)) : Prop :=
  ∀ k (_ : k < xs.length), ∀ b, axes[k]? = some (some b) → xs[k].shape.getD b 0 = size

/-- total number of bytes in the batched arrays -/
def batchedBytes (axes : List (Option Nat)) (xs : List (NDArray α)) : Nat :=
  (List.zipWith (fun (x : NDArray α) (axis : Option Nat) => match axis with
    | none => 0
    | some _ => x.shape.prod * x.itemsize) xs axes).sum

/-- The function acts independently along the batched axes: applied to a range of the arguments, it
gives that range of the result. -/
def ActsIndependently (func : List (NDArray α) → List (NDArray α)) (size : Nat)
    (in_axes out_axes : List (Option Nat)) (args : List (NDArray α)) : Prop :=
  ∀ lo len, lo + len ≤ size →
    func (sliceAll lo len in_axes args) = sliceAll lo len out_axes (func args)

end Spec
