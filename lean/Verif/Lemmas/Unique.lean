import Verif.Model.Jaxext
import Verif.Spec.Unique
import Mathlib.Data.List.Sort
/-!
# Lemmas on `jaxext.unique`
-/

set_option autoImplicit false

namespace Spec
variable {α : Type} [LinearOrder α]

theorem IsUnique.unique {x u v : List α} (hu : IsUnique x u) (hv : IsUnique x v) : u = v := by
  have hp : u.Perm v := by
    rw [List.perm_ext_iff_of_nodup (hu.1.imp ne_of_lt) (hv.1.imp ne_of_lt)]
    intro a
    rw [hu.2, hv.2]
  exact hp.eq_of_pairwise (le := (· < ·)) (fun a b _ _ h1 h2 => absurd h1 (lt_asymm h2)) hu.1 hv.1

theorem IsUnique.congr {x y u : List α} (hu : IsUnique x u) (h : ∀ v, v ∈ x ↔ v ∈ y) : IsUnique y u :=
  ⟨hu.1, fun v => (hu.2 v).trans (h v)⟩

theorem padTo_of_le {size : Nat} {fill : α} {u : List α} (h : u.length ≤ size) :
    padTo size fill u = u ++ List.replicate (size - u.length) fill := by
  rw [padTo, List.take_of_length_le h]

end Spec

namespace Bartz
open Spec
variable {α : Type} [LinearOrder α]

theorem sort_perm (x : List α) : (jnp_sort x).Perm x := List.mergeSort_perm _ _

theorem sort_sorted (x : List α) : (jnp_sort x).Pairwise (· ≤ ·) := by
  have := List.pairwise_mergeSort (le := fun a b : α => decide (a ≤ b))
    (fun a b c h1 h2 => by simp only [decide_eq_true_eq] at *; exact le_trans h1 h2)
    (fun a b => by simp only [Bool.or_eq_true, decide_eq_true_eq]; exact le_total a b) x
  exact this.imp (fun h => by simpa using h)

theorem sort_length (x : List α) : (jnp_sort x).length = x.length := (sort_perm x).length_eq

/-- loop invariant: `u` are the distinct values seen so far -/
theorem unique_loop_inv {size : Nat} {fill : α} (rest : List α) :
    ∀ (u : List α) (last : α), (u ++ [last]).Pairwise (· < ·) →
      (∀ v ∈ rest, last ≤ v) → rest.Pairwise (· ≤ ·) → u.length + 1 + rest.length ≤ size →
      ∃ w last', rest.foldl unique_loop
        (u.length, last, padTo size fill (u ++ [last])) = (w.length, last', padTo size fill (w ++ [last'])) ∧
        (w ++ [last']).Pairwise (· < ·) ∧ (∀ v, v ∈ w ++ [last'] ↔ v ∈ u ++ [last] ∨ v ∈ rest) ∧
        w.length + 1 ≤ size := by
  induction rest with
  | nil =>
    intro u last h1 h2 h3 h4
    exact ⟨u, last, rfl, h1, by simp, by simpa using h4⟩
  | cons x rest ih =>
    intro u last h1 h2 h3 h4
    rw [List.foldl_cons]
    have hx := h2 x (by simp)
    rw [List.pairwise_cons] at h3
    rw [List.length_cons] at h4
    by_cases he : x = last
    · have e : unique_loop (u.length, last, padTo size fill (u ++ [last])) x
          = (u.length, last, padTo size fill (u ++ [last])) := by
        simp only [unique_loop, he, if_true]
        rw [padTo_of_le (by simp; omega)]
        simp
      rw [e]
      obtain ⟨w, l, w1, w2, w3, w4⟩ := ih u last h1 (fun v hv => h2 v (by simp [hv])) h3.2 (by omega)
      refine ⟨w, l, w1, w2, ?_, w4⟩
      intro v
      rw [w3 v, he]
      simp only [List.mem_append, List.mem_cons, List.not_mem_nil, or_false]
      tauto
    · have e : unique_loop (u.length, last, padTo size fill (u ++ [last])) x
          = ((u ++ [last]).length, x, padTo size fill ((u ++ [last]) ++ [x])) := by
        simp only [unique_loop, he, if_false]
        rw [padTo_of_le (by simp; omega), padTo_of_le (by simp; omega)]
        have : size - (u ++ [last]).length = (size - (u ++ [last] ++ [x]).length) + 1 := by simp; omega
        rw [this, List.replicate_succ]
        simp
      rw [e]
      have hlt : last < x := lt_of_le_of_ne hx (Ne.symm he)
      have hp : ((u ++ [last]) ++ [x]).Pairwise (· < ·) := by
        rw [List.pairwise_append]
        refine ⟨h1, by simp, ?_⟩
        intro a ha b hb
        rw [List.mem_singleton] at hb
        subst hb
        rw [List.mem_append, List.mem_singleton] at ha
        rcases ha with ha | rfl
        · rw [List.pairwise_append] at h1
          exact lt_trans (h1.2.2 a ha last (by simp)) hlt
        · exact hlt
      obtain ⟨w, l, w1, w2, w3, w4⟩ := ih (u ++ [last]) x hp h3.1 h3.2 (by simp; omega)
      refine ⟨w, l, w1, w2, ?_, w4⟩
      intro v
      rw [w3 v]
      simp only [List.mem_append, List.mem_cons, List.not_mem_nil, or_false]
      tauto

/-- what `unique` computes, always: the distinct values in the first `size` sorted values -/
theorem unique_spec (x : List α) (size : Nat) (fill : α) :
    ∃ u, IsUnique ((jnp_sort x).take size) u ∧ unique x size fill = (padTo size fill u, u.length) := by
  unfold unique
  by_cases h0 : x.length = 0
  · have hx : x = [] := List.length_eq_zero_iff.1 h0
    subst hx
    exact ⟨[], ⟨by simp, by simp [jnp_sort]⟩, by simp [padTo]⟩
  rw [if_neg h0]
  by_cases hs : size = 0
  · subst hs
    exact ⟨[], ⟨by simp, by simp⟩, by simp [padTo]⟩
  rw [if_neg hs]
  have hsort := sort_sorted x
  have hlen := sort_length x
  dsimp only
  cases hx : jnp_sort x with
  | nil => rw [hx] at hlen; simp at hlen; omega
  | cons a rest =>
    rw [hx, List.pairwise_cons] at hsort
    obtain ⟨s, rfl⟩ : ∃ s, size = s + 1 := ⟨size - 1, by omega⟩
    rw [List.take_succ_cons, List.foldl_cons, List.headD_cons]
    have e : unique_loop (0, a, List.replicate (s + 1) fill) a
        = (([] : List α).length, a, padTo (s + 1) fill ([] ++ [a])) := by
      simp [unique_loop, padTo, List.replicate_succ]
    rw [e]
    obtain ⟨w, l, w1, w2, w3, w4⟩ := unique_loop_inv (size := s + 1) (fill := fill) (rest.take s) [] a
      (by simp) (fun v hv => hsort.1 v (List.mem_of_mem_take hv)) (hsort.2.take)
      (by simp; omega)
    rw [w1]
    exact ⟨w ++ [l], ⟨w2, fun v => by rw [w3 v]; simp⟩, by simp⟩

end Bartz
