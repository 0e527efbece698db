import Verif.Lemmas.Masks
import Mathlib.Algebra.BigOperators.Group.Finset.Basic
import Mathlib.Algebra.Order.BigOperators.Group.Finset
/-! # Evaluation of trees, and the partition of the points into leaves -/

set_option autoImplicit false

namespace Bartz
open Jax Spec

variable {x var split : List Nat} {h i : Nat}

theorem eval_readTree {F : Type} (dflt : F) (leaf : List F) (hsplit : split.length = 2 ^ h) :
    ∀ (k i : Nat), Reaches x var split i → 2 ^ h ≤ i * 2 ^ k →
      ∃ j, FallsInto x var split j ∧
        (readTree dflt leaf var split k i).eval x = leaf.getD j dflt := by
  intro k
  induction k with
  | zero =>
    intro i hr hi
    exact ⟨i, ⟨⟨hr.isNode, at0_of_le (by omega)⟩, hr⟩, rfl⟩
  | succ k ih =>
    intro i hr hi
    by_cases h0 : at0 split i = 0
    · exact ⟨i, ⟨⟨hr.isNode, h0⟩, hr⟩, by simp [readTree, h0, DTree.eval]⟩
    · rw [pow_succ] at hi
      by_cases hc : coord x (at0 var i) < at0 split i
      · obtain ⟨j, hj, e⟩ := ih (2 * i) (.left hr h0 hc) (by
          calc 2 ^ h ≤ _ := hi
            _ = _ := by ring)
        exact ⟨j, hj, by simp [readTree, h0, DTree.eval, hc, e]⟩
      · obtain ⟨j, hj, e⟩ := ih (2 * i + 1) (.right hr h0 (by omega)) (by
          calc 2 ^ h ≤ _ := hi
            _ = 2 * i * 2 ^ k := by ring
            _ ≤ _ := by nlinarith [Nat.two_pow_pos k])
        exact ⟨j, hj, by simp [readTree, h0, DTree.eval, hc, e]⟩

/-- the value of a tree is the content of the leaf found by the traversal -/
theorem eval_readTree_root {F : Type} (dflt : F) (leaf : List F) (h64 : h < 64)
    (hvar : var.length = 2 ^ h) (hsplit : split.length = 2 ^ h) :
    (readTree dflt leaf var split h 1).eval x = leaf.getD (traverse_tree x var split) dflt := by
  obtain ⟨j, hj, e⟩ := eval_readTree (x := x) (var := var) dflt leaf hsplit h 1 .root (by simp)
  rw [e, traverse_eq_of_fallsInto h64 hvar hsplit hj]

theorem traverse_lt (h64 : h < 64) (hvar : var.length = 2 ^ h) (hsplit : split.length = 2 ^ h) :
    traverse_tree x var split < 2 ^ (h + 1) :=
  (traverse_fallsInto h64 hvar hsplit).1.1.lt hsplit

end Bartz
