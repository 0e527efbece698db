import Verif.Spec.Sums
import Verif.Lemmas.Drift
import Verif.Lemmas.SumError
/-! # Rounding errors of sums in any order -/

set_option autoImplicit false

namespace Bartz
open Jax Spec Jax.Binary32

/-- adding zero is exact -/
theorem zero_add_exact {x y : Binary32} {v : ℝ} (hx : HasValue x 0) (hy : HasValue y v) : HasValue (x + y) v := by
  obtain ⟨s, b, rfl, hb, h0⟩ := hx
  obtain ⟨s', b', rfl, hb', rfl⟩ := hy
  have e : num s b + num s' b' = num (if value s b + value s' b' = 0 then s && s' else decide (value s b + value s' b' < 0))
      (roundRat (value s b + value s' b').natAbs 1) := by
    show Binary32.add _ _ = _
    unfold Binary32.add
    dsimp only
    rw [if_neg (by omega), if_neg (by omega)]
  have hz : value s b = 0 := by
    unfold Spec.toReal at h0
    have h1 : ((value s b : Int) : ℝ) = 0 := by
      have h2 : (0 : ℝ) < 2 ^ 149 := by positivity
      rcases div_eq_zero_iff.1 h0.symm with h | h
      · exact h
      · exact absurd h h2.ne'
    exact_mod_cast h1
  have hn : (value s' b').natAbs = mag b' := by
    unfold value
    cases s' <;> simp
  rw [hz, zero_add, hn, roundRat_mag_one] at e
  refine ⟨_, b', e, hb', ?_⟩
  unfold Spec.toReal
  congr 2
  by_cases h : value s' b' = 0
  · rw [h]
    have : mag b' = 0 := by rw [← hn, h]; rfl
    unfold value
    rw [this]
    split_ifs <;> rfl
  · rw [if_neg h]
    unfold value at h ⊢
    cases s' with
    | false => simp
    | true =>
      simp only [if_true] at h ⊢
      have : 0 < mag b' := by omega
      rw [decide_eq_true (by omega)]
      rfl

theorem add_comm32 (x y : Binary32) : x + y = y + x := by
  show Binary32.add x y = Binary32.add y x
  cases x with
  | nan => cases y <;> rfl
  | num s b =>
    cases y with
    | nan => rfl
    | num s' b' =>
      unfold Binary32.add
      dsimp only
      rw [add_comm (value s b), Bool.and_comm s s']
      by_cases h : b.val = infBits
      · by_cases h' : b'.val = infBits
        · rw [if_pos h, if_pos h', if_pos h', if_pos h]
          have : b = b' := Fin.ext (h.trans h'.symm)
          subst this
          by_cases hs : s = s'
          · subst hs; rfl
          · rw [if_neg hs, if_neg (Ne.symm hs)]
        · rw [if_pos h, if_neg h', if_neg h', if_pos h]
      · by_cases h' : b'.val = infBits
        · rw [if_neg h, if_pos h', if_pos h', if_neg h]
        · rw [if_neg h, if_neg h', if_neg h', if_neg h]

/-- the sum of two approximations -/
theorem add_approx {x y : Binary32} {v w V W ρ σ c : ℝ} (hx : HasValue x ρ) (hy : HasValue y σ) (_hc : 1 ≤ c)
    (hv : |v| ≤ V) (hw : |w| ≤ W) (ex : |ρ - v| ≤ V * (c - 1)) (ey : |σ - w| ≤ W * (c - 1))
    (hmax : (V + W) * c ≤ 2 ^ 127) :
    ∃ r, HasValue (x + y) r ∧ |r - (v + w)| ≤ (V + W) * (c * (1 + 1 / 2 ^ 24) - 1) := by
  rw [hasValue_iff] at hx hy
  obtain ⟨hx, rfl⟩ := hx
  obtain ⟨hy, rfl⟩ := hy
  have h1 : |Binary32.toReal x + Binary32.toReal y| ≤ (V + W) * c := by
    have e : Binary32.toReal x + Binary32.toReal y =
      (v + w) + ((Binary32.toReal x - v) + (Binary32.toReal y - w)) := by ring
    rw [e]
    refine (abs_add_le _ _).trans ?_
    have h2 := abs_add_le v w
    have h3 := abs_add_le (Binary32.toReal x - v) (Binary32.toReal y - w)
    linarith
  obtain ⟨f, e⟩ := add_rel_error hx hy (h1.trans hmax)
  refine ⟨_, hasValue_iff.2 ⟨f, rfl⟩, ?_⟩
  have e2 : Binary32.toReal (x + y) - (v + w) = (Binary32.toReal (x + y) - (Binary32.toReal x + Binary32.toReal y)) +
    ((Binary32.toReal x - v) + (Binary32.toReal y - w)) := by ring
  rw [e2]
  refine (abs_add_le _ _).trans ?_
  have h3 := abs_add_le (Binary32.toReal x - v) (Binary32.toReal y - w)
  have h4 : |Binary32.toReal x + Binary32.toReal y| / 2 ^ 24 ≤ (V + W) * c / 2 ^ 24 :=
    div_le_div_of_nonneg_right h1 (by positivity)
  have h5 : (V + W) * (c * (1 + 1 / 2 ^ 24) - 1) = V * (c - 1) + W * (c - 1) + (V + W) * c / 2 ^ 24 := by ring
  rw [h5]
  linarith

/-- Error of a sum in any order. -/
theorem sums_error {xs : List Binary32} {s : Binary32} (h : Sums xs s) :
    (xs = [] → HasValue s 0) ∧ ∀ f : Binary32 → ℝ, (∀ x ∈ xs, HasValue x (f x)) →
      (xs.map fun x => |f x|).sum * (1 + 1 / 2 ^ 24) ^ (xs.length - 1) ≤ 2 ^ 127 →
      ∃ r, HasValue s r ∧
        |r - (xs.map f).sum| ≤ (xs.map fun x => |f x|).sum * ((1 + 1 / 2 ^ 24) ^ (xs.length - 1) - 1) := by
  have habs : ∀ (f : Binary32 → ℝ) (l : List Binary32), |(l.map f).sum| ≤ (l.map fun x => |f x|).sum := by
    intro f l
    induction l with
    | nil => simp
    | cons x l ih => simp only [List.map_cons, List.sum_cons]; exact (abs_add_le _ _).trans (by linarith)
  have hnn : ∀ (f : Binary32 → ℝ) (l : List Binary32), 0 ≤ (l.map fun x => |f x|).sum :=
    fun f l => (abs_nonneg _).trans (habs f l)
  induction h with
  | zero => exact ⟨fun _ => hasValue_zero, fun f _ _ => ⟨0, hasValue_zero, by simp⟩⟩
  | one x => exact ⟨(fun e => nomatch e), fun f hf _ => ⟨f x, hf x (by simp), by simp⟩⟩
  | @add xs ys s t h1 h2 ih1 ih2 =>
    refine ⟨fun e => ?_, fun f hf hmax => ?_⟩
    · obtain ⟨e1, e2⟩ := List.append_eq_nil_iff.1 e
      exact zero_add_exact (ih1.1 e1) (ih2.1 e2)
    · rcases List.eq_nil_or_concat xs with e1 | ⟨xs', x', e1⟩
      · subst e1
        obtain ⟨r, hr, he⟩ := ih2.2 f (fun x hx => hf x (by simpa using hx)) (by simpa using hmax)
        exact ⟨r, zero_add_exact (ih1.1 rfl) hr, by simpa using he⟩
      · rcases List.eq_nil_or_concat ys with e2 | ⟨ys', y', e2⟩
        · subst e2
          obtain ⟨r, hr, he⟩ := ih1.2 f (fun x hx => hf x (by simpa using hx)) (by simpa using hmax)
          refine ⟨r, ?_, by simpa using he⟩
          rw [add_comm32]
          exact zero_add_exact (ih2.1 rfl) hr
        · have hx1 : 1 ≤ xs.length := by rw [e1]; simp
          have hy1 : 1 ≤ ys.length := by rw [e2]; simp
          clear e1 e2
          obtain ⟨q, hq⟩ : ∃ q : ℝ, q = 1 + 1 / 2 ^ 24 := ⟨_, rfl⟩
          have hq1 : 1 ≤ q := by rw [hq]; norm_num
          rw [← hq] at ih1 ih2 hmax ⊢
          have hl : (xs ++ ys).length - 1 = (xs.length - 1) + (ys.length - 1) + 1 := by
            rw [List.length_append]; omega
          rw [hl, List.map_append, List.sum_append] at hmax
          rw [hl, List.map_append, List.sum_append, List.map_append, List.sum_append]
          set V := (xs.map fun x => |f x|).sum
          set W := (ys.map fun x => |f x|).sum
          have hV : 0 ≤ V := hnn f xs
          have hW : 0 ≤ W := hnn f ys
          set c := q ^ ((xs.length - 1) + (ys.length - 1)) with hc
          have hc1 : 1 ≤ c := one_le_pow₀ hq1
          have hcx : q ^ (xs.length - 1) ≤ c := pow_le_pow_right₀ hq1 (by omega)
          have hcy : q ^ (ys.length - 1) ≤ c := pow_le_pow_right₀ hq1 (by omega)
          rw [pow_succ, ← hc] at hmax ⊢
          have hcq : c ≤ c * q := le_mul_of_one_le_right (by linarith) hq1
          have hm : (V + W) * c ≤ 2 ^ 127 :=
            (mul_le_mul_of_nonneg_left hcq (by linarith)).trans hmax
          obtain ⟨ρ, hρ, eρ⟩ := ih1.2 f (fun x hx => hf x (by simp [hx]))
            ((mul_le_mul (by linarith) hcx (by positivity) (by linarith)).trans hm)
          obtain ⟨σ, hσ, eσ⟩ := ih2.2 f (fun x hx => hf x (by simp [hx]))
            ((mul_le_mul (by linarith) hcy (by positivity) (by linarith)).trans hm)
          rw [hq]
          exact add_approx hρ hσ hc1 (habs f xs) (habs f ys)
            (eρ.trans (mul_le_mul_of_nonneg_left (by linarith) hV))
            (eσ.trans (mul_le_mul_of_nonneg_left (by linarith) hW)) hm
  | @perm xs ys s hp _ ih =>
    refine ⟨fun e => ih.1 (by subst e; exact hp.eq_nil), fun f hf hmax => ?_⟩
    have e1 : (xs.map f).sum = (ys.map f).sum := (hp.map f).sum_eq
    have e2 : (xs.map fun x => |f x|).sum = (ys.map fun x => |f x|).sum := (hp.map _).sum_eq
    rw [← e1, ← e2, ← hp.length_eq]
    rw [← e2, ← hp.length_eq] at hmax
    exact ih.2 f (fun x hx => hf x (hp.mem_iff.1 hx)) hmax

end Bartz
