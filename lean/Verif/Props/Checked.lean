import Verif.Props.Jaxext
import Verif.Props.Mcmcloop
/-!
# C10: the results have the shapes and types of those of the function; C44: values of the fields of the state
-/

set_option autoImplicit false
set_option linter.unusedSectionVars false

namespace Bartz
open Jax Spec

section
variable {α : Type} [Inhabited α]

theorem check_same_converse {xs ys : List (NDArray α)} (h : check_same xs ys = true) :
    List.Forall₂ (fun x y => y.shape = x.shape ∧ y.itemsize = x.itemsize) xs ys := by
  induction xs generalizing ys with
  | nil =>
    cases ys with
    | nil => exact .nil
    | cons y ys => simp [check_same] at h
  | cons x xs ih =>
    cases ys with
    | nil => simp [check_same] at h
    | cons y ys =>
      simp only [check_same, List.length_cons, List.zipWith_cons_cons, List.all_cons, id, Bool.and_eq_true, beq_iff_eq,
        Nat.add_right_cancel_iff] at h
      obtain ⟨hl, ⟨h1, h2⟩, h3⟩ := h
      refine .cons ⟨h1.symm, h2.symm⟩ (ih ?_)
      simp only [check_same, Bool.and_eq_true, beq_iff_eq]
      exact ⟨hl, h3⟩

/-- C10. If the function returned by `autobatch` does not raise an exception, then its results are as many as those of the original
function, with the same shapes and types, whatever the function, even if it does not act independently along the batched axes. -/
theorem C10_checked (isqrt : Nat → Nat) (func : List (NDArray α) → List (NDArray α)) (max_io : Nat) (in_axes out_axes : Axes)
    (args : List (NDArray α)) {out : Batched α} (h : autobatch isqrt func max_io in_axes out_axes args = some out) :
    List.Forall₂ (fun x y => y.shape = x.shape ∧ y.itemsize = x.itemsize) (func args) out.result := by
  unfold autobatch at h
  simp only [guard, Option.bind_eq_bind, Option.bind_eq_some_iff] at h
  obtain ⟨_, _, _, _, _, _, _, _, _, _, _, _, _, _, _, _, _, hc, h⟩ := h
  cases h
  apply check_same_converse
  by_contra hn
  rw [if_neg hn] at hc
  cases hc

end

namespace ExJ

/-- a function whose results have another type if there are less than six columns -/
def typed (args : List (NDArray Int)) : List (NDArray Int) :=
  (func args).map fun x => { x with itemsize := if x.shape = [6] then x.itemsize else x.itemsize + 1 }

/-- with more than one batch, an exception is raised -/
example : (autobatch Nat.sqrt typed 30 in_axes (.all 0) [x, w]).isNone = true := by decide +kernel

/-- with one batch, the condition is met -/
example : (autobatch Nat.sqrt typed 100 in_axes (.all 0) [x, w]).isSome = true := by decide +kernel

end ExJ

section
variable {F : Type}

/-- C44. The other fields of the state seen as a dictionary. Their values do not end up in the traces. -/
theorem dict_others (s : State F) :
    s.dict.lookup "resid" = some (.floats s.resid) ∧ s.dict.lookup "y" = some (.floats s.y) ∧
    s.dict.lookup "p_nonterminal" = some (.floats s.p_nonterminal) ∧ s.dict.lookup "p_propose_grow" = some (.floats s.p_propose_grow) ∧
    s.dict.lookup "sigma2_alpha" = some (.float s.sigma2_alpha) ∧ s.dict.lookup "sigma2_beta" = some (.float s.sigma2_beta) ∧
    s.dict.lookup "max_split" = some (.ints s.max_split) ∧ s.dict.lookup "X" = some (.intTrees s.X) ∧
    s.dict.lookup "leaf_indices" = some (.intTrees s.leaf_indices) := by
  unfold State.dict
  simp only [List.cons_append]
  exact ⟨rfl, rfl, rfl, rfl, rfl, rfl, rfl, rfl, rfl⟩

end

end Bartz
