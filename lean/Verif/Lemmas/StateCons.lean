import Verif.Lemmas.Points
import Verif.Spec.Picks
/-! # Consequences of the invariant of the state -/

set_option autoImplicit false

namespace Bartz
open Jax Spec

section
variable {K F : Type} [KeyLike K] [Inhabited F] [Zero F] [One F] [Add F] [Sub F] [Mul F] [Div F]
  [Neg F] [NatCast F] [FltFun F] {a : InitArgs F} {s : State F}

theorem StateInv.leaf_indices_eq (ha : ValidArgs a) (h : StateInv a s) :
    s.leaf_indices = traverse_forest s.y.length s.X s.var_trees s.split_trees := by
  rw [h.cfg.y, h.cfg.X]
  apply List.ext_getElem
  · rw [h.idx_length]; unfold traverse_forest; rw [length_vmap, h.var_length]
  · intro t h1 h2
    have ht : t < a.num_trees := by rw [h.idx_length] at h1; exact h1
    have hT := h.tree t ht
    have e1 : s.leaf_indices[t] = s.leaf_indices.getD t [] := (List.getD_eq_getElem _ _ _).symm
    rw [e1, ← List.getD_eq_getElem _ [] h2]
    unfold traverse_forest
    rw [getD_vmap (by rw [h.var_length]; exact ht)]
    apply List.ext_getElem
    · rw [hT.idx_len, length_vmap]; rfl
    · intro j h3 h4
      have hj : j < (cfgOf a).n := by rw [hT.idx_len] at h3; exact h3
      have hf := hT.falls j hj
      have := traverse_eq_of_fallsInto (cfgOf_ok ha).h64 hT.var_len hT.valid.length hf
      rw [← List.getD_eq_getElem _ 0 h4, getD_vmap (show j < a.y.length from hj)]
      unfold at0 at this
      rw [← List.getD_eq_getElem _ 0 h3]
      exact this.symm

theorem StateInv.min_points (ha : ValidArgs a) (hs : StateInv a s) (m : Nat)
    (hm : a.min_points_per_leaf = some m) (t : Nat) (ht : t < a.num_trees) (i : Nat)
    (hi : IsLeaf (s.split_trees.getD t []) i) (hroot : ¬ IsLeaf (s.split_trees.getD t []) 1) :
    m ≤ pointsIn a.X a.y.length (s.var_trees.getD t []) (s.split_trees.getD t []) i ∧
    pointsIn a.X a.y.length (s.var_trees.getD t []) (s.split_trees.getD t []) i + m ≤
      a.y.length := by
  have h := hs.tree t ht
  have hr : at0 (s.split_trees.getD t []) 1 ≠ 0 := fun e => hroot ⟨.root, e⟩
  have := h.minpts_le (cfgOf_ok ha) hm hr hi
  rw [h.count_eq (cfgOf_ok ha)] at this
  exact this

theorem StateInv.growable_iff (ha : ValidArgs a) (hs : StateInv a s) (t : Nat) (ht : t < a.num_trees)
    (i : Nat) :
    (growable_leaves (s.split_trees.getD t [])
      (s.affluence_trees.map fun x => x.getD t [])).getD i false = true ↔
    IsLeaf (s.split_trees.getD t []) i ∧ i < 2 ^ a.p_nonterminal.length ∧
      ∀ m, a.min_points_per_leaf = some m → 2 * m ≤
        pointsIn a.X a.y.length (s.var_trees.getD t []) (s.split_trees.getD t []) i := by
  have h := hs.tree t ht
  rw [Bartz.growable_iff h.valid (cfgOf_ok ha).hh (cfgOf_ok ha).h64]
  unfold Growable
  refine and_congr_right fun hl => and_congr_right fun hlt => ?_
  have hcnt : pointsIn a.X a.y.length (s.var_trees.getD t []) (s.split_trees.getD t []) i =
      (s.leaf_indices.getD t []).count i := (h.count_eq (cfgOf_ok ha) i).symm
  have hsome := h.aff_some
  constructor
  · intro h1 m hm
    have hsm : (s.affluence_trees.map fun x => x.getD t []).isSome = true := by
      rw [hsome]; show a.min_points_per_leaf.isSome = true; rw [hm]; rfl
    obtain ⟨x, hx⟩ := Option.isSome_iff_exists.1 hsm
    have h2 := h1 x hx
    rw [h.aff_ok m x hm hx i hl hlt] at h2
    rw [hcnt]; simpa using h2
  · intro h1 x hx
    have hsm : a.min_points_per_leaf.isSome = true := by
      have : (cfgOf a).m.isSome = true := by rw [← hsome, hx]; rfl
      exact this
    obtain ⟨m, hm⟩ := Option.isSome_iff_exists.1 hsm
    rw [h.aff_ok m x hm hx i hl hlt, ← hcnt]
    simpa using h1 m hm

end
end Bartz
