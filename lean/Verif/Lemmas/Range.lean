import Verif.Spec.Rules
import Verif.Lemmas.Sampling
/-! # Split ranges: the loop of `split_range`, and `ancestor_variables` -/

set_option autoImplicit false

namespace Bartz
open Jax Spec

variable {var split : List Nat} {h i v R b : Nat}

/-- The interval `[lo, hi)` of values of variable `v` at node `i`, starting from `[0, R)` at the
root, computed downward. -/
def interval (var split : List Nat) (v R : Nat) (i : Nat) : Nat × Nat :=
  if _h : i ≤ 1 then (0, R)
  else
    let c := interval var split v R (i / 2)
    if at0 var (i / 2) = v then
      if i % 2 = 1 then (max c.1 (at0 split (i / 2)), c.2) else (c.1, min c.2 (at0 split (i / 2)))
    else c
termination_by i
decreasing_by omega

theorem interval_le_one (hi : i ≤ 1) : interval var split v R i = (0, R) := by
  rw [interval]; simp [hi]

theorem interval_step (hi : 2 ≤ i) :
    interval var split v R i =
      if at0 var (i / 2) = v then
        if i % 2 = 1 then
          (max (interval var split v R (i / 2)).1 (at0 split (i / 2)),
            (interval var split v R (i / 2)).2)
        else ((interval var split v R (i / 2)).1,
          min (interval var split v R (i / 2)).2 (at0 split (i / 2)))
      else interval var split v R (i / 2) := by
  conv_lhs => rw [interval]
  rw [dif_neg (by omega)]

/-- the upward loop computes the same interval -/
theorem scanN_split_range (hvar : var.length = 2 ^ h) (hsplit : split.length = 2 ^ h) :
    ∀ (k l r i : Nat), i < 2 ^ (k + 1) → i < 2 ^ h →
      let out := scanN (split_range_loop var split v) (l, r, i) k
      out.1 = max l (interval var split v R i).1 ∧
      min out.2.1 R = min r (interval var split v R i).2 ∧
      (r ≤ R → out.2.1 ≤ R) := by
  have idle : ∀ (k l r i : Nat), i ≤ 1 →
      (scanN (split_range_loop var split v) (l, r, i) k).1 = l ∧
      (scanN (split_range_loop var split v) (l, r, i) k).2.1 = r := by
    intro k
    induction k with
    | zero => intro l r i _; exact ⟨rfl, rfl⟩
    | succ k ih =>
      intro l r i hi
      rw [scanN_succ']
      have h0 : i >>> 1 = 0 := by rw [Nat.shiftRight_eq_div_pow]; omega
      have : split_range_loop var split v (l, r, i) = (l, r, 0) := by
        simp [split_range_loop, h0]
      rw [this]
      exact ih l r 0 (by omega)
  intro k
  induction k with
  | zero =>
    intro l r i hi _
    have hi1 : i ≤ 1 := by simp at hi; omega
    simp only [scanN_zero, interval_le_one hi1]
    exact ⟨by simp, trivial, fun h => h⟩
  | succ k ih =>
    intro l r i hi hih
    rcases Nat.lt_or_ge i 2 with h2 | h2
    · obtain ⟨e1, e2⟩ := idle (k + 1) l r i (by omega)
      simp only [e1, e2, interval_le_one (by omega : i ≤ 1)]
      exact ⟨by simp, trivial, fun h => h⟩
    · rw [scanN_succ']
      have hsh : i >>> 1 = i / 2 := by rw [Nat.shiftRight_eq_div_pow]
      have hand : (i &&& 1) = i % 2 := Nat.and_one_is_mod i
      have hlt : i / 2 < 2 ^ h := by omega
      have g1 : gather split (i / 2) = at0 split (i / 2) := gather_at0 (by omega)
      have g2 : gather var (i / 2) = at0 var (i / 2) := gather_at0 (by omega)
      have hne : i / 2 ≠ 0 := by omega
      have hk : i / 2 < 2 ^ (k + 1) := by rw [pow_succ] at hi; omega
      rw [interval_step h2]
      by_cases hv : at0 var (i / 2) = v
      · by_cases hr : i % 2 = 1
        · have e : split_range_loop var split v (l, r, i) =
              (max l (at0 split (i / 2)), r, i / 2) := by
            simp [split_range_loop, hsh, hand, g1, g2, hv, hr, hne]
          rw [e]
          obtain ⟨i1, i2, i3⟩ := ih (max l (at0 split (i / 2))) r (i / 2) hk hlt
          simp only [hv, hr, if_true]
          refine ⟨by rw [i1]; omega, i2, i3⟩
        · have hr0 : i % 2 = 0 := by omega
          have e : split_range_loop var split v (l, r, i) =
              (l, min r (at0 split (i / 2)), i / 2) := by
            simp [split_range_loop, hsh, hand, g1, g2, hv, hr0, hne]
          rw [e]
          obtain ⟨i1, i2, i3⟩ := ih l (min r (at0 split (i / 2))) (i / 2) hk hlt
          simp only [hv, hr, if_true, if_false]
          refine ⟨i1, by rw [i2]; omega, fun hR => i3 (by omega)⟩
      · have e : split_range_loop var split v (l, r, i) = (l, r, i / 2) := by
          simp [split_range_loop, hsh, hand, g2, hv]
        rw [e]
        simp only [hv, if_false]
        exact ih l r (i / 2) hk hlt

theorem interval_snd_le : (interval var split v R i).2 ≤ R := by
  induction i using Nat.strong_induction_on with
  | _ i ih =>
    rcases Nat.lt_or_ge i 2 with h2 | h2
    · rw [interval_le_one (by omega)]
    · rw [interval_step h2]
      have := ih (i / 2) (by omega)
      split_ifs
      · exact this
      · simp only; omega
      · exact this

/-- `split_range` is the interval of compatible values, shifted at the left end, modulo overflow -/
theorem split_range_eq (hh : 1 ≤ h) (hvar : var.length = 2 ^ h) (hsplit : split.length = 2 ^ h)
    (max_split : List Nat) (hi : i < 2 ^ h) :
    split_range b var split max_split i v =
      (astype b ((interval var split v (1 + at0 max_split v) i).1 + 1),
       (interval var split v (1 + at0 max_split v) i).2) := by
  unfold split_range
  dsimp only
  rw [tree_depth_pow hvar]
  obtain ⟨h1, h2, h3⟩ := scanN_split_range (v := v) (R := 1 + at0 max_split v) hvar hsplit (h - 1) 0
    (1 + at0 max_split v) i (by have : h - 1 + 1 = h := by omega
                                rw [this]; exact hi) hi
  have h4 := interval_snd_le (var := var) (split := split) (v := v) (R := 1 + at0 max_split v)
    (i := i)
  have hM : getFill max_split v 0 = at0 max_split v := rfl
  rw [hM]
  ext
  · simp only [h1, Nat.zero_max]
  · have := h3 (le_refl _)
    simp only; omega

theorem valueReaches_iff_interval {a : Nat} (hi : 1 ≤ i) :
    (ValueReaches v a var split i ∧ a < R) ↔
      (interval var split v R i).1 ≤ a ∧ a < (interval var split v R i).2 := by
  induction i using Nat.strong_induction_on with
  | _ i ih =>
    rcases Nat.lt_or_ge i 2 with h2 | h2
    · have : i = 1 := by omega
      subst this
      rw [interval_le_one (by omega)]
      constructor
      · rintro ⟨_, h⟩; exact ⟨by simp, h⟩
      · rintro ⟨_, h⟩; exact ⟨.root, h⟩
    · have ih' := ih (i / 2) (by omega) (by omega)
      rw [interval_step h2]
      rcases Nat.even_or_odd' i with ⟨k, hk | hk⟩
      · have hk2 : i / 2 = k := by omega
        have hm : ¬ i % 2 = 1 := by omega
        rw [hk2] at ih' ⊢
        have step : ValueReaches v a var split i ↔
            ValueReaches v a var split k ∧ (at0 var k = v → a < at0 split k) := by
          constructor
          · intro hr
            cases hr with
            | root => omega
            | @left j hj hc => have : j = k := by omega
                               subst this; exact ⟨hj, hc⟩
            | @right j hj hc => omega
          · rintro ⟨h1, h3⟩; rw [hk]; exact .left h1 h3
        rw [step]
        by_cases hv : at0 var k = v
        · simp only [hv, hm, if_true, if_false]
          simp only [forall_const]
          rw [and_right_comm, ih']
          omega
        · simp only [hv, if_false]
          rw [← ih']; tauto
      · have hk2 : i / 2 = k := by omega
        have hm : i % 2 = 1 := by omega
        rw [hk2] at ih' ⊢
        have step : ValueReaches v a var split i ↔
            ValueReaches v a var split k ∧ (at0 var k = v → at0 split k ≤ a) := by
          constructor
          · intro hr
            cases hr with
            | root => omega
            | @left j hj hc => omega
            | @right j hj hc => have : j = k := by omega
                                subst this; exact ⟨hj, hc⟩
          · rintro ⟨h1, h3⟩; rw [hk]; exact .right h1 h3
        rw [step]
        by_cases hv : at0 var k = v
        · simp only [hv, hm, if_true]
          simp only [forall_const]
          rw [and_right_comm, ih']
          omega
        · simp only [hv, if_false]
          rw [← ih']; tauto

/-! ### `ancestor_variables` -/

/-- the value written for the ancestor `idx` -/
def ancestorEntry (b : Nat) (var max_split : List Nat) (idx : Nat) : Nat :=
  astype (minimal_unsigned_dtype (max_split.length : Int))
    (if idx ≠ 0 then gather var idx else astype b max_split.length)

theorem ancestor_variables_eq (hvar : var.length = 2 ^ h) (max_split : List Nat) (node : Nat) :
    ancestor_variables b var max_split node =
      (List.range (h - 1)).map fun j => ancestorEntry b var max_split (node / 2 ^ (h - 1 - j)) := by
  unfold ancestor_variables
  dsimp only
  rw [tree_depth_pow hvar]
  generalize hs : h - 1 = s
  generalize hf : (fun (carry : Nat × Nat × List Nat) => _) = f
  have hstep : ∀ c : Nat × Nat × List Nat, f c =
      (c.1 - 1, c.2.1 / 2, setDrop c.2.2 c.1 (ancestorEntry b var max_split (c.2.1 / 2))) := by
    intro c
    rw [← hf]
    obtain ⟨a, b, c⟩ := c
    have hsh : b >>> 1 = b / 2 := by rw [Nat.shiftRight_eq_div_pow]
    simp only [hsh, ancestorEntry]
  have inv : ∀ k ≤ s, let c := scanN f (s - 1, node, List.replicate s 0) k
      c.1 = s - 1 - k ∧ c.2.1 = node / 2 ^ k ∧ c.2.2.length = s ∧
      ∀ j, s - k ≤ j → j < s →
        c.2.2.getD j 0 = ancestorEntry b var max_split (node / 2 ^ (s - j)) := by
    intro k
    induction k with
    | zero => intro _; refine ⟨rfl, by simp, by simp, ?_⟩; intro j h1 h2; omega
    | succ k ih =>
      intro hk
      obtain ⟨h1, h2, h3, h4⟩ := ih (by omega)
      rw [scanN_succ, hstep]
      generalize scanN f (s - 1, node, List.replicate s 0) k = c at *
      refine ⟨by simp only [h1]; omega, ?_, by simpa using h3, ?_⟩
      · simp only [h2]; rw [Nat.div_div_eq_div_mul, pow_succ]
      · intro j hj1 hj2
        simp only [getD_setDrop, h1, h2, h3]
        rw [Nat.div_div_eq_div_mul, ← pow_succ]
        by_cases hj : s - 1 - k = j
        · rw [if_pos ⟨hj, hj2⟩]
          have : s - j = k + 1 := by omega
          rw [this]
        · rw [if_neg (by tauto)]
          exact h4 j (by omega) hj2
  obtain ⟨_, _, h3, h4⟩ := inv s (le_refl s)
  apply List.ext_getElem
  · simp [h3]
  · intro j hj1 hj2
    have hjs : j < s := by rw [← h3]; exact hj1
    have := h4 j (by omega) hjs
    rw [List.getD_eq_getElem _ _ hj1] at this
    rw [this]
    simp

end Bartz
