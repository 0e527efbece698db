import Verif.Lemmas.Basic
/-! # Lemmas on the specification of trees, and traversal -/

set_option autoImplicit false

namespace Spec

variable {x var split : List Nat} {h i j : Nat}

theorem IsNode.pos (hn : IsNode split i) : 1 ≤ i := by
  induction hn with
  | root => omega
  | left _ _ ih => omega
  | right _ _ ih => omega

theorem at0_of_le (hi : split.length ≤ i) : at0 split i = 0 := by
  simp [at0, hi]

theorem lt_of_at0_ne (hi : at0 split i ≠ 0) : i < split.length := by
  by_contra hc
  exact hi (at0_of_le (by omega))

theorem IsNode.parent (hn : IsNode split i) (h2 : 2 ≤ i) :
    IsNode split (i / 2) ∧ at0 split (i / 2) ≠ 0 := by
  cases hn with
  | root => omega
  | @left k hk hs => have : 2 * k / 2 = k := by omega
                     rw [this]; exact ⟨hk, hs⟩
  | @right k hk hs => have : (2 * k + 1) / 2 = k := by omega
                      rw [this]; exact ⟨hk, hs⟩

theorem IsNode.of_parent (hn : IsNode split (i / 2)) (hs : at0 split (i / 2) ≠ 0) :
    IsNode split i := by
  rcases Nat.even_or_odd' i with ⟨k, rfl | rfl⟩
  · have : 2 * k / 2 = k := by omega
    rw [this] at hn hs; exact .left hn hs
  · have : (2 * k + 1) / 2 = k := by omega
    rw [this] at hn hs; exact .right hn hs

theorem IsNode.lt (hl : split.length = 2 ^ h) (hn : IsNode split i) : i < 2 ^ (h + 1) := by
  have hp : 0 < 2 ^ h := Nat.two_pow_pos h
  rw [pow_succ]
  cases hn with
  | root => omega
  | left hk hs => have := lt_of_at0_ne hs; omega
  | right hk hs => have := lt_of_at0_ne hs; omega

theorem IsDecision.lt (hl : split.length = 2 ^ h) (hn : IsDecision split i) : i < 2 ^ h := by
  have := lt_of_at0_ne hn.2; omega

theorem ValidSplit.isNode_of_ne (hv : ValidSplit h split) :
    ∀ {i : Nat}, at0 split i ≠ 0 → IsNode split i := by
  intro i
  induction i using Nat.strong_induction_on with
  | _ i ih =>
    intro hi
    rcases Nat.lt_or_ge i 2 with h2 | h2
    · have : i = 0 ∨ i = 1 := by omega
      rcases this with rfl | rfl
      · exact absurd hv.zero hi
      · exact .root
    · have hp := hv.closed i h2 hi
      exact .of_parent (ih (i / 2) (by omega) hp) hp

theorem ValidSplit.isNode_iff (hv : ValidSplit h split) :
    IsNode split i ↔ i = 1 ∨ (2 ≤ i ∧ at0 split (i / 2) ≠ 0) := by
  constructor
  · intro hn
    rcases Nat.lt_or_ge i 2 with h2 | h2
    · have := hn.pos; left; omega
    · exact .inr ⟨h2, (hn.parent h2).2⟩
  · rintro (rfl | ⟨_, hs⟩)
    · exact .root
    · exact .of_parent (hv.isNode_of_ne hs) hs

theorem ValidSplit.isDecision_iff (hv : ValidSplit h split) :
    IsDecision split i ↔ at0 split i ≠ 0 :=
  ⟨fun hd => hd.2, fun hs => ⟨hv.isNode_of_ne hs, hs⟩⟩

theorem Reaches.isNode (hr : Reaches x var split i) : IsNode split i := by
  induction hr with
  | root => exact .root
  | left _ hs _ ih => exact .left ih hs
  | right _ hs _ ih => exact .right ih hs

theorem Reaches.parent (hr : Reaches x var split i) (h2 : 2 ≤ i) :
    Reaches x var split (i / 2) ∧ at0 split (i / 2) ≠ 0 ∧
    (i % 2 = 0 → coord x (at0 var (i / 2)) < at0 split (i / 2)) ∧
    (i % 2 = 1 → at0 split (i / 2) ≤ coord x (at0 var (i / 2))) := by
  cases hr with
  | root => omega
  | @left k hk hs hc =>
    have : 2 * k / 2 = k := by omega
    rw [this]; exact ⟨hk, hs, fun _ => hc, by omega⟩
  | @right k hk hs hc =>
    have : (2 * k + 1) / 2 = k := by omega
    rw [this]; exact ⟨hk, hs, by omega, fun _ => hc⟩

theorem Reaches.of_parent (hr : Reaches x var split (i / 2)) (hs : at0 split (i / 2) ≠ 0)
    (h0 : i % 2 = 0 → coord x (at0 var (i / 2)) < at0 split (i / 2))
    (h1 : i % 2 = 1 → at0 split (i / 2) ≤ coord x (at0 var (i / 2))) :
    Reaches x var split i := by
  rcases Nat.even_or_odd' i with ⟨k, rfl | rfl⟩
  · have : 2 * k / 2 = k := by omega
    rw [this] at hr hs h0; exact .left hr hs (h0 (by omega))
  · have : (2 * k + 1) / 2 = k := by omega
    rw [this] at hr hs h1; exact .right hr hs (h1 (by omega))

end Spec

namespace Bartz
open Jax Spec

variable {x var split : List Nat} {h i : Nat}

theorem gather_coord (x : List Nat) (v : Nat) : gather x v = coord x v := rfl

theorem gather_at0 {a : List Nat} (hi : i < a.length) : gather a i = at0 a i :=
  gather_eq_getD hi 0

theorem index_fits {h i : Nat} (h64 : h < 64) (hi : i < 2 ^ (h + 1)) :
    i < 2 ^ minimal_unsigned_dtype (2 * (2 ^ h : Nat) - 1 : Int) := by
  apply minimal_fits
  · rw [pow_succ] at hi; push_cast; 
    have : (i : Int) < 2 ^ h * 2 := by exact_mod_cast hi
    omega
  · calc i < 2 ^ (h + 1) := hi
      _ ≤ 2 ^ 64 := Nat.pow_le_pow_right (by omega) (by omega)

/-- the loop body, away from overflow and clamping -/
theorem traverse_loop_eq {bits : Nat} (hvar : var.length = 2 ^ h) (hsplit : split.length = 2 ^ h)
    (hi : i < 2 ^ h) (hb : 2 ^ (h + 1) ≤ 2 ^ bits) :
    traverse_loop bits x var split (false, i) =
      if at0 split i = 0 then (true, i)
      else (false, 2 * i + if at0 split i ≤ coord x (at0 var i) then 1 else 0) := by
  have e1 : gather split i = at0 split i := gather_at0 (by omega)
  have e2 : gather var i = at0 var i := gather_at0 (by omega)
  have hb' : i * 2 + 1 < 2 ^ bits := by rw [pow_succ] at hb; omega
  have hs : i <<< 1 = i * 2 := by simp [Nat.shiftLeft_eq]
  have e3 : astype bits (i <<< 1) = i * 2 := by rw [hs]; exact astype_of_lt (by omega)
  simp only [traverse_loop, e1, e2, e3, gather_coord]
  by_cases h0 : at0 split i = 0
  · simp [h0]
  · have e4 : astype bits (i * 2 + if coord x (at0 var i) ≥ at0 split i then 1 else 0) =
        i * 2 + if coord x (at0 var i) ≥ at0 split i then 1 else 0 :=
      astype_of_lt (by split_ifs <;> omega)
    rw [e4]
    simp [h0, mul_comm]

theorem traverse_loop_true {bits : Nat} :
    traverse_loop bits x var split (true, i) = (true, i) := by
  simp [traverse_loop]

theorem scanN_traverse_true {bits k : Nat} :
    scanN (traverse_loop bits x var split) (true, i) k = (true, i) := by
  induction k with
  | zero => rfl
  | succ k ih => rw [scanN_succ, ih, traverse_loop_true]

/-- loop invariant of the traversal -/
theorem traverse_invariant {bits : Nat} (hvar : var.length = 2 ^ h) (hsplit : split.length = 2 ^ h)
    (hb : 2 ^ (h + 1) ≤ 2 ^ bits) (k : Nat) (hk : k ≤ h) :
    let s := scanN (traverse_loop bits x var split) (false, 1) k
    Reaches x var split s.2 ∧ (s.1 = true → at0 split s.2 = 0) ∧
    (s.1 = false → 2 ^ k ≤ s.2 ∧ s.2 < 2 ^ (k + 1)) := by
  induction k with
  | zero => exact ⟨.root, by simp, by simp⟩
  | succ k ih =>
    obtain ⟨hr, ht, hf⟩ := ih (by omega)
    rw [scanN_succ]
    generalize scanN (traverse_loop bits x var split) (false, 1) k = s at hr ht hf ⊢
    obtain ⟨found, idx⟩ := s
    cases found with
    | true => rw [traverse_loop_true]; exact ⟨hr, ht, by simp⟩
    | false =>
      obtain ⟨h1, h2⟩ := hf rfl
      simp only at h1 h2 hr
      have hidx : idx < 2 ^ h := lt_of_lt_of_le h2 (Nat.pow_le_pow_right (by omega) (by omega))
      rw [traverse_loop_eq hvar hsplit hidx hb]
      by_cases h0 : at0 split idx = 0
      · simp [h0, hr]
      · rw [pow_succ] at h2
        have e : (2 : Nat) ^ (k + 1) = 2 ^ k * 2 := pow_succ 2 k
        have e' : (2 : Nat) ^ (k + 1 + 1) = 2 ^ k * 2 * 2 := by rw [pow_succ, pow_succ]
        simp only [h0, if_false]
        by_cases hc : at0 split idx ≤ coord x (at0 var idx)
        · simp only [hc, if_true]
          exact ⟨.right hr h0 hc, by simp, fun _ => by omega⟩
        · simp only [hc, if_false]
          exact ⟨.left hr h0 (by omega), by simp, fun _ => by omega⟩

/-- the traversal visits every node compatible with the point -/
theorem traverse_visits {bits : Nat} (hvar : var.length = 2 ^ h) (hsplit : split.length = 2 ^ h)
    (hb : 2 ^ (h + 1) ≤ 2 ^ bits) (hr : Reaches x var split i) :
    ∃ k ≤ h, 2 ^ k ≤ i ∧ i < 2 ^ (k + 1) ∧
      scanN (traverse_loop bits x var split) (false, 1) k = (false, i) := by
  induction hr with
  | root => exact ⟨0, by omega, by simp, by simp, rfl⟩
  | @left i hr hs hc ih =>
    obtain ⟨k, hk, h1, h2, e⟩ := ih
    have hlt : i < 2 ^ h := by have := lt_of_at0_ne hs; omega
    have hkh : k < h := by
      by_contra hcon
      have : h = k := by omega
      subst this; omega
    refine ⟨k + 1, hkh, by rw [pow_succ]; omega, by rw [pow_succ]; omega, ?_⟩
    rw [scanN_succ, e, traverse_loop_eq hvar hsplit hlt hb, if_neg hs, if_neg (by omega)]; rfl
  | @right i hr hs hc ih =>
    obtain ⟨k, hk, h1, h2, e⟩ := ih
    have hlt : i < 2 ^ h := by have := lt_of_at0_ne hs; omega
    have hkh : k < h := by
      by_contra hcon
      have : h = k := by omega
      subst this; omega
    refine ⟨k + 1, hkh, by rw [pow_succ]; omega, by rw [pow_succ]; omega, ?_⟩
    rw [scanN_succ, e, traverse_loop_eq hvar hsplit hlt hb, if_neg hs, if_pos hc]

theorem scanN_add {C : Type _} (f : C → C) (c : C) (a b : Nat) :
    scanN f c (a + b) = scanN f (scanN f c a) b := by
  induction b with
  | zero => rfl
  | succ b ih => rw [← Nat.add_assoc, scanN_succ, ih, scanN_succ]

theorem traverse_bits_ok (h64 : h < 64) :
    2 ^ (h + 1) ≤ 2 ^ minimal_unsigned_dtype (2 * (2 ^ h : Nat) - 1 : Int) := by
  have hp : 0 < 2 ^ (h + 1) := Nat.two_pow_pos _
  have := @index_fits h (2 ^ (h + 1) - 1) h64 (by omega)
  omega

theorem traverse_fallsInto (h64 : h < 64) (hvar : var.length = 2 ^ h)
    (hsplit : split.length = 2 ^ h) : FallsInto x var split (traverse_tree x var split) := by
  unfold traverse_tree
  dsimp only
  rw [tree_depth_pow hvar, hvar]
  obtain ⟨hr, ht, hf⟩ :=
    traverse_invariant (x := x) hvar hsplit (traverse_bits_ok h64) h (Nat.le_refl h)
  refine ⟨⟨hr.isNode, ?_⟩, hr⟩
  cases hs : (scanN (traverse_loop (minimal_unsigned_dtype (2 * ((2 ^ h : Nat) : Int) - 1)) x var
    split) (false, 1) h).1 with
  | true => exact ht hs
  | false => exact at0_of_le (by have := hf hs; omega)

theorem traverse_eq_of_fallsInto (h64 : h < 64) (hvar : var.length = 2 ^ h)
    (hsplit : split.length = 2 ^ h) (hf : FallsInto x var split i) :
    traverse_tree x var split = i := by
  unfold traverse_tree
  dsimp only
  rw [tree_depth_pow hvar, hvar]
  obtain ⟨k, hk, h1, h2, e⟩ := traverse_visits hvar hsplit (traverse_bits_ok h64) hf.2
  obtain ⟨m, rfl⟩ : ∃ m, h = k + m := ⟨h - k, by omega⟩
  rw [scanN_add, e]
  cases m with
  | zero => rfl
  | succ m =>
    have hlt : i < 2 ^ (k + (m + 1)) :=
      lt_of_lt_of_le h2 (Nat.pow_le_pow_right (by omega) (by omega))
    rw [scanN_succ', traverse_loop_eq hvar hsplit hlt (traverse_bits_ok h64), if_pos hf.1.2,
      scanN_traverse_true]

theorem fallsInto_unique (h64 : h < 64) (hvar : var.length = 2 ^ h) (hsplit : split.length = 2 ^ h)
    {j : Nat} (hi : FallsInto x var split i) (hj : FallsInto x var split j) : i = j := by
  rw [← traverse_eq_of_fallsInto h64 hvar hsplit hi, traverse_eq_of_fallsInto h64 hvar hsplit hj]

theorem traverse_iff (h64 : h < 64) (hvar : var.length = 2 ^ h) (hsplit : split.length = 2 ^ h) :
    traverse_tree x var split = i ↔ FallsInto x var split i :=
  ⟨fun e => e ▸ traverse_fallsInto h64 hvar hsplit, traverse_eq_of_fallsInto h64 hvar hsplit⟩

end Bartz
