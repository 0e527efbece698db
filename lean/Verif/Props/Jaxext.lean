import Verif.Lemmas.Autobatch
import Verif.Lemmas.Unique
import Mathlib.Algebra.Order.Ring.Int
/-!
# Properties of `jaxext`: C09, C10, C11
-/

set_option autoImplicit false

namespace Bartz
open Jax Spec

/-! ### C09 -/

/-- C09, as documented: `unique` returns the distinct values in `x`, in increasing order, truncated or
filled to the length `size`, and the number of used values. This is false, see `C09_not_unique`. -/
def C09_statement : Prop :=
  ∀ (x : List Int) (size : Nat) (fill : Int) (u : List Int), IsUnique x u →
    unique x size fill = (padTo size fill u, min u.length size)

/-- C09 is false when `size` is less than the length of `x` and `x` contains repeated values: the
input is truncated instead of the output, so values are missing although there is space. -/
theorem C09_not_unique : ¬ C09_statement := by
  intro h
  have h1 := h [1, 1, 2] 2 7 [1, 2] ⟨by decide, by
    intro v; simp only [List.mem_cons, List.not_mem_nil, or_false]; tauto⟩
  obtain ⟨u, hu, e⟩ := unique_spec [1, 1, 2] 2 (7 : Int)
  have hs : jnp_sort [(1 : Int), 1, 2] = [1, 1, 2] := List.mergeSort_of_pairwise (by decide)
  have hu1 : IsUnique ((jnp_sort [(1 : Int), 1, 2]).take 2) [1] := by
    rw [hs]
    exact ⟨by decide, by intro v; simp⟩
  rw [hu.unique hu1] at e
  rw [h1] at e
  exact absurd e (by decide)

/-- C09, what holds in general: `unique` returns the sorted distinct values amongst the `size`
smallest elements of `x` (counted with repetitions). Missing: the other distinct values when there is
space for them. -/
theorem C09_truncated_partial {α : Type} [LinearOrder α] (x : List α) (size : Nat) (fill : α)
    (s u : List α) (hs : s.Perm x) (hsort : s.Pairwise (· ≤ ·)) (hu : IsUnique (s.take size) u) :
    unique x size fill = (padTo size fill u, u.length) := by
  have hs' : jnp_sort x = s := by
    refine ((sort_perm x).trans hs.symm).eq_of_pairwise (le := (· ≤ ·)) ?_ (sort_sorted x) hsort
    intro a b _ _ h1 h2
    exact le_antisymm h1 h2
  obtain ⟨u', h1, h2⟩ := unique_spec x size fill
  rw [hs'] at h1
  rw [h2, h1.unique hu]

/-- C09 holds if `size` is at least the length of `x`. -/
theorem C09_unique_partial {α : Type} [LinearOrder α] (x : List α) (size : Nat) (fill : α)
    (u : List α) (h : x.length ≤ size) (hu : IsUnique x u) :
    unique x size fill = (u ++ List.replicate (size - u.length) fill, u.length) := by
  have hul : u.length ≤ x.length :=
    (List.subperm_of_subset (hu.1.imp ne_of_lt) (fun v hv => (hu.2 v).1 hv)).length_le
  rw [← padTo_of_le (by omega)]
  refine C09_truncated_partial x size fill (jnp_sort x) u (sort_perm x) (sort_sorted x) ?_
  rw [List.take_of_length_le (by rw [sort_length]; exact h)]
  exact hu.congr fun v => (sort_perm x).mem_iff.symm

/-- C09 holds, with truncation, if `x` does not contain repeated values. -/
theorem C09_nodup_partial {α : Type} [LinearOrder α] (x : List α) (size : Nat) (fill : α)
    (u : List α) (h : x.Nodup) (hu : IsUnique x u) :
    unique x size fill = (padTo size fill u, min u.length size) := by
  have hp : u.Perm x := by
    rw [List.perm_ext_iff_of_nodup (hu.1.imp ne_of_lt) h]
    exact hu.2
  have e := C09_truncated_partial x size fill u (u.take size) hp (hu.1.imp le_of_lt)
    ⟨hu.1.take, fun v => Iff.rfl⟩
  rw [e, List.length_take, min_comm]
  congr 1
  simp only [padTo, List.length_take, List.take_take, min_self]
  congr 2
  omega

example : unique [3, 1, 3, 2, 1] 6 (0 : Int) = ([1, 2, 3, 0, 0, 0], 3) :=
  C09_unique_partial [3, 1, 3, 2, 1] 6 0 [1, 2, 3] (by decide)
    ⟨by decide, by intro v; simp only [List.mem_cons, List.not_mem_nil, or_false]; tauto⟩

example : unique [3, 1, 2] 2 (0 : Int) = ([1, 2], 2) :=
  C09_nodup_partial [3, 1, 2] 2 0 [1, 2, 3] (by decide)
    ⟨by decide, by intro v; simp only [List.mem_cons, List.not_mem_nil, or_false]; tauto⟩

example : unique [2, 1, 1] 2 (7 : Int) = ([1, 7], 1) :=
  C09_truncated_partial [2, 1, 1] 2 7 [1, 1, 2] [1] (by decide) (by decide)
    ⟨by decide, by intro v; simp⟩

/-! ### C10 -/

variable {α : Type} [Inhabited α]

/-- C10: `autobatch(func, ...)(*args)` is `func(*args)`, for any function that acts independently
along the batched axes, provided that all the outputs are batched, that at least one argument is batched,
and that all batched axes have the same size (otherwise it raises an exception). The integer square
root in the search for divisors is approximated with floating point numbers, so it is arbitrary. -/
theorem C10_autobatch (isqrt : Nat → Nat) (func : List (NDArray α) → List (NDArray α)) (max_io : Nat)
    (hmax : 0 < max_io) (in_axes out_axes : Axes) (args : List (NDArray α)) (ia oa : List (Option Nat))
    (size : Nat) (hin : AxesMean in_axes args ia) (hout : AxesMean out_axes (func args) oa)
    (hsome : ∀ x ∈ oa, x ≠ none) (hsi : SameSize size ia args) (hso : SameSize size oa (func args))
    (hone : ∃ b, some b ∈ ia) (hact : ActsIndependently func size ia oa args) :
    (autobatch isqrt func max_io in_axes out_axes args).map (·.result) = some (func args) := by
  obtain ⟨nb, w, h, -⟩ := autobatch_spec isqrt func max_io hmax in_axes out_axes args ia oa size hin
    hout hsome hsi hso hone hact
  rw [h]; rfl

/-- C10: if none of the arguments is batched, an exception is raised. -/
theorem C10_not_batched (isqrt : Nat → Nat) (func : List (NDArray α) → List (NDArray α)) (max_io : Nat)
    (in_axes out_axes : Axes) (args : List (NDArray α)) (ia : List (Option Nat)) (hin : AxesMean in_axes args ia)
    (hnone : ∀ x ∈ ia, x = none) : autobatch isqrt func max_io in_axes out_axes args = none := by
  obtain ⟨li, i1, i2, -⟩ := axesMean_resolve hin
  have h0 : ∀ x ∈ pull_nonbatched ia args, x = none := by
    intro x hx
    obtain ⟨k, hk, rfl⟩ := List.getElem_of_mem hx
    simp only [pull_nonbatched, List.getElem_zipWith]
    rw [hnone _ (List.getElem_mem _)]
    rfl
  have h1 : ∀ nb, ((move_axes_out ia (pull_nonbatched ia args)).map fun x => x.map fun x => batch x nb).any Option.isSome =
      false := by
    intro nb
    rw [List.any_eq_false]
    intro x hx
    rw [List.mem_map] at hx
    obtain ⟨y, hy, rfl⟩ := hx
    obtain ⟨k, hk, rfl⟩ := List.getElem_of_mem hy
    simp only [move_axes_out, List.getElem_zipWith]
    rw [h0 _ (List.getElem_mem _)]
    simp
  rw [Option.eq_none_iff_forall_ne_some]
  intro out h
  unfold autobatch at h
  simp only [i1, i2, guard, Option.bind_eq_bind, Option.bind_some, Option.bind_eq_some_iff, h1, Bool.false_eq_true,
    if_false] at h
  obtain ⟨_, _, _, _, _, _, _, _, _, _, _, h, _⟩ := h
  cases h

/-- C10: an exception is raised if the axes do not match the arrays in number or are out of range, some result is not batched, no argument is
batched, or the sizes along the batched axes differ; so the hypotheses of `C10_autobatch` on the axes are all needed. -/
theorem C10_accepts_only (isqrt : Nat → Nat) (func : List (NDArray α) → List (NDArray α)) (max_io : Nat)
    (in_axes out_axes : Axes) (args : List (NDArray α)) {out : Batched α}
    (h : autobatch isqrt func max_io in_axes out_axes args = some out) :
    ∃ ia oa size, AxesMean in_axes args ia ∧ AxesMean out_axes (func args) oa ∧ (∀ x ∈ oa, x ≠ none) ∧
      SameSize size ia args ∧ SameSize size oa (func args) ∧ ∃ b, some b ∈ ia := by
  have h' := h
  unfold autobatch at h
  simp only [guard, Option.bind_eq_bind, Option.bind_eq_some_iff] at h
  obtain ⟨li, i1, lo, o1, _, hall, ia, i2, oa, o2, size, hs, -⟩ := h
  obtain ⟨hi, -⟩ := resolve_axesMean i1 i2
  obtain ⟨ho, hso⟩ := resolve_axesMean o1 o2
  have hsz := extract_size_converse hs
  have hli := axesMean_length hi
  refine ⟨ia, oa, size, hi, ho, hso ?_, ?_, ?_, ?_⟩
  · by_contra hc
    rw [if_neg hc] at hall
    simp at hall
  · intro k hk b hb
    have := hsz k (by simp; omega) b (by rw [List.getElem?_append_left (by omega)]; exact hb)
    rwa [List.getElem_append_left hk] at this
  · intro k hk b hb
    have := hsz (args.length + k) (by simp; omega) b (by
      rw [List.getElem?_append_right (by omega), hli, Nat.add_sub_cancel_left]; exact hb)
    rw [List.getElem_append_right (by omega)] at this
    simpa using this
  · by_contra hc
    push Not at hc
    rw [C10_not_batched isqrt func max_io in_axes out_axes args ia hi] at h'
    · simp at h'
    · intro x hx
      cases x with
      | none => rfl
      | some b => exact absurd hx (hc b)

/-! ### C11 -/

/-- C11: the number of batches divides the batched size, is between 1 and `max(1, size)`, each batch
takes at most `max_io_nbytes` or consists of one element, and the warning is emitted only in the second
case. The assertions in the code hold (the result is not `none`). `per` is the number of bytes for each
element along the batched axis. -/
theorem C11_nbatches (isqrt : Nat → Nat) (size per max_io : Nat) (hmax : 0 < max_io) :
    ∃ nb warned, choose_nbatches isqrt size (size * per) max_io = some (nb, warned) ∧
      1 ≤ nb ∧ nb ≤ max 1 size ∧ nb ∣ size ∧
      (size * per / nb ≤ max_io ∧ warned = false ∨
        max_io < size * per / nb ∧ nb = size ∧ warned = true) := by
  obtain ⟨nb, w, h0, h1, h2, h3, h4, h5⟩ := choose_nbatches_spec isqrt size per max_io hmax
  refine ⟨nb, w, h0, h1, h2, h3, ?_⟩
  cases w with
  | true => exact Or.inr ⟨h4.1 rfl, h5 rfl, rfl⟩
  | false => exact Or.inl ⟨by by_contra hc; exact absurd (h4.2 (by omega)) (by decide), rfl⟩

/-- C11, in `autobatch`: the total size is the number of bytes in the batched arguments and in the
results -/
theorem C11_autobatch (isqrt : Nat → Nat) (func : List (NDArray α) → List (NDArray α)) (max_io : Nat)
    (hmax : 0 < max_io) (in_axes out_axes : Axes) (args : List (NDArray α)) (ia oa : List (Option Nat))
    (size : Nat) (hin : AxesMean in_axes args ia) (hout : AxesMean out_axes (func args) oa)
    (hsome : ∀ x ∈ oa, x ≠ none) (hsi : SameSize size ia args) (hso : SameSize size oa (func args))
    (hone : ∃ b, some b ∈ ia) (hact : ActsIndependently func size ia oa args) :
    ∃ out, autobatch isqrt func max_io in_axes out_axes args = some out ∧
      1 ≤ out.nbatches ∧ out.nbatches ≤ max 1 size ∧ out.nbatches ∣ size ∧
      (batchedBytes ia args + batchedBytes oa (func args)) % out.nbatches = 0 ∧
      ((batchedBytes ia args + batchedBytes oa (func args)) / out.nbatches ≤ max_io ∧
          out.warned = false ∨
        max_io < (batchedBytes ia args + batchedBytes oa (func args)) / out.nbatches ∧
          out.nbatches = size ∧ out.warned = true) := by
  obtain ⟨nb, w, h, h0, h1, h2, h3, h4, h5, h6⟩ := autobatch_spec isqrt func max_io hmax in_axes
    out_axes args ia oa size hin hout hsome hsi hso hone hact
  have e : sum_nbytes ((pull_nonbatched ia args).filterMap id ++ func args)
      = batchedBytes ia args + batchedBytes oa (func args) := by
    rw [sum_nbytes_append, ← batchedBytes_eq (axesMean_length hin),
      batchedBytes_eq (axesMean_length hout), pull_all (axesMean_length hout) hsome]
  rw [e] at h4 h6
  refine ⟨_, h, h1, h2, h3, h6, ?_⟩
  cases w with
  | true => exact Or.inr ⟨h4.1 rfl, h5 rfl, rfl⟩
  | false => exact Or.inl ⟨Nat.le_of_not_lt fun hc => absurd (h4.2 hc) (by decide), rfl⟩

/-! ### Example: weighted sum of the rows of a matrix, batched over the columns -/

namespace ExJ

/-- `x[0, :] + w[0] * x[1, :]` -/
def func (args : List (NDArray Int)) : List (NDArray Int) :=
  match args with
  | [x, w] => [NDArray.ofFn [x.shape.getD 1 0] x.itemsize fun idx =>
      x.data [0, idx.getD 0 0] + w.data [0] * x.data [1, idx.getD 0 0]]
  | _ => []

/-- a matrix with 2 rows and 6 columns -/
def x : NDArray Int := NDArray.ofFn [2, 6] 4 fun idx => 10 * idx.getD 0 0 + (idx.getD 1 0 : Nat) ^ 2

/-- the weight, an array that is not batched -/
def w : NDArray Int := NDArray.ofFn [1] 4 fun _ => 3

/-- the columns of `x` are the last axis -/
def in_axes : Axes := .each [some (-1), none]

theorem in_mean : AxesMean in_axes [x, w] [some 1, none] := by
  refine ⟨_, Or.inl rfl, rfl, rfl, ?_⟩
  intro k hk
  match k, hk with
  | 0, _ => exact Or.inr ⟨-1, 1, rfl, rfl, Nat.lt_succ_self 1, Or.inr rfl⟩
  | 1, _ => exact Or.inl ⟨rfl, rfl⟩

theorem out_mean : AxesMean (.all 0) (func [x, w]) [some 0] := by
  refine ⟨_, Or.inr ⟨0, rfl, rfl⟩, rfl, rfl, ?_⟩
  intro k hk
  match k, hk with
  | 0, _ => exact Or.inr ⟨0, 0, rfl, rfl, Nat.lt_succ_self 0, Or.inl rfl⟩

theorem in_size : SameSize 6 [some 1, none] [x, w] := by
  intro k hk b hb
  match k, hk with
  | 0, _ => cases hb; rfl
  | 1, _ => cases hb

theorem out_size : SameSize 6 [some 0] (func [x, w]) := by
  intro k hk b hb
  match k, hk with
  | 0, _ => cases hb; rfl

theorem independent : ActsIndependently func 6 [some 1, none] [some 0] [x, w] := by
  intro lo len hlo
  show [_] = [_]
  congr 1
  refine NDArray.ext' rfl rfl ?_
  intro idx hidx
  obtain ⟨j, rfl, hj⟩ : ∃ j, idx = [j] ∧ j < len := by
    match idx with
    | [] => cases hidx
    | [j] => exact ⟨j, rfl, by simpa [inRange, NDArray.ofFn, sliceAll, slice, x] using hidx⟩
    | j :: _ :: _ => exact absurd hidx (by simp [inRange, NDArray.ofFn])
  have h6 : lo + j < 6 := by omega
  simp [slice, NDArray.ofFn, inRange, x, hj, h6]

/-- the hypotheses of C10 and C11 are satisfied, for any limit on the size of the batches -/
example (isqrt : Nat → Nat) (max_io : Nat) (h : 0 < max_io) :
    (autobatch isqrt func max_io in_axes (.all 0) [x, w]).map (·.result) = some (func [x, w]) :=
  C10_autobatch isqrt func max_io h in_axes (.all 0) [x, w] _ _ 6 in_mean out_mean (by simp) in_size
    out_size ⟨1, by simp⟩ independent

/-- there are 72 bytes, so with at most 30 bytes there are 3 batches with 2 columns each -/
example : (autobatch Nat.sqrt func 30 in_axes (.all 0) [x, w]).map (fun o => (o.nbatches, o.warned)) =
    some (3, false) := by decide +kernel

/-- the limit is too small, so there is one column in each batch and a warning -/
example : (autobatch Nat.sqrt func 10 in_axes (.all 0) [x, w]).map (fun o => (o.nbatches, o.warned)) =
    some (6, true) := by decide +kernel

/-- with one axis more than the arguments, an exception is raised -/
example : autobatch Nat.sqrt func 30 (.each [some 1, none, some 0]) (.all 0) [x, w] = none := by
  rw [Option.eq_none_iff_forall_ne_some]
  intro out h
  obtain ⟨_, _, _, ⟨l, hl, h1, -⟩, -⟩ := C10_accepts_only _ _ _ _ _ _ h
  rcases hl with hl | ⟨_, hl, -⟩
  · cases hl
    simp at h1
  · cases hl

end ExJ

end Bartz
