import Verif.Model.Binary32
import Verif.Lemmas.FloatLeft
import Mathlib.Data.Real.Basic
import Mathlib.Data.Nat.Log
import Mathlib.Analysis.Real.Sqrt
import Mathlib.Tactic.Linarith
import Mathlib.Tactic.Ring
import Mathlib.Tactic.NormNum
import Mathlib.Tactic.Positivity
/-! # Rounding in single precision -/

set_option autoImplicit false

namespace Jax
namespace Binary32
open Spec

/-! ### The values of the numbers -/

theorem mag_eq {s m : Nat} (hm : m ≤ 2 ^ 24) (h : s = 0 ∨ 2 ^ 23 ≤ m) : mag (s * 2 ^ 23 + m) = m * 2 ^ s := by
  unfold mag
  rcases Nat.lt_or_ge m (2 ^ 23) with hlt | hge
  · have hs : s = 0 := by omega
    subst hs
    rw [if_pos (by omega)]
    omega
  · rw [if_neg (by omega)]
    rcases Nat.lt_or_ge m (2 ^ 24) with h1 | h1
    · have e1 : (s * 2 ^ 23 + m) % 2 ^ 23 = m - 2 ^ 23 := by omega
      have e2 : (s * 2 ^ 23 + m) / 2 ^ 23 - 1 = s := by omega
      rw [e1, e2, Nat.add_sub_cancel' hge]
    · have e1 : (s * 2 ^ 23 + m) % 2 ^ 23 = 0 := by omega
      have e2 : (s * 2 ^ 23 + m) / 2 ^ 23 - 1 = s + 1 := by omega
      rw [e1, e2, Nat.pow_succ, Nat.add_zero]
      have : m = 2 ^ 23 * 2 := by omega
      rw [this]
      ring

/-- mantissa and exponent -/
theorem exists_mantissa (b : Nat) : ∃ s m, b = s * 2 ^ 23 + m ∧ m < 2 ^ 24 ∧ (s = 0 ∨ 2 ^ 23 ≤ m) := by
  rcases Nat.lt_or_ge b (2 ^ 23) with h | h
  · exact ⟨0, b, by omega, by omega, .inl rfl⟩
  · exact ⟨b / 2 ^ 23 - 1, 2 ^ 23 + b % 2 ^ 23, by omega, by omega, .inr (by omega)⟩

theorem mag_lt_succ (b : Nat) : mag b < mag (b + 1) := by
  obtain ⟨s, m, rfl, hm, h⟩ := exists_mantissa b
  rw [mag_eq hm.le h, Nat.add_assoc, mag_eq (by omega) (by omega)]
  exact Nat.mul_lt_mul_of_pos_right (by omega) (Nat.two_pow_pos s)

theorem mag_strictMono : StrictMono mag := strictMono_nat_of_lt_succ mag_lt_succ

@[simp] theorem mag_zero : mag 0 = 0 := rfl

theorem mag_le_iff {b c : Nat} : mag b ≤ mag c ↔ b ≤ c := mag_strictMono.le_iff_le

/-- numbers that can be represented -/
theorem exists_mag {m : Nat} (hm : m ≤ 2 ^ 24) : ∀ s, ∃ b, mag b = m * 2 ^ s := by
  intro s
  induction s generalizing m with
  | zero => exact ⟨m, by have := mag_eq (s := 0) hm (.inl rfl); simpa using this⟩
  | succ s ih =>
    rcases Nat.lt_or_ge m (2 ^ 23) with h | h
    · obtain ⟨b, hb⟩ := ih (m := 2 * m) (by omega)
      exact ⟨b, by rw [hb, Nat.pow_succ]; ring⟩
    · exact ⟨(s + 1) * 2 ^ 23 + m, mag_eq hm (.inr h)⟩

/-! ### Rounding -/

/-- `r` are the bits of the number nearest to `x`, the even ones if there are two; not clipped to infinity. -/
def RoundsTo (x : ℝ) (r : Nat) : Prop :=
  ∃ b, (mag b : ℝ) ≤ x ∧ x < mag (b + 1) ∧
    ((2 * x < mag b + mag (b + 1) ∧ r = b) ∨ (2 * x = mag b + mag (b + 1) ∧ r = b + b % 2) ∨
      (mag b + mag (b + 1) < 2 * x ∧ r = b + 1))

theorem RoundsTo.mono {x y : ℝ} {r q : Nat} (hx : RoundsTo x r) (hy : RoundsTo y q) (h : x ≤ y) : r ≤ q := by
  obtain ⟨b, h1, h2, h3⟩ := hx
  obtain ⟨c, h4, h5, h6⟩ := hy
  have hbc : b ≤ c := by
    have : (mag b : ℝ) < mag (c + 1) := by linarith
    have := mag_strictMono.lt_iff_lt.1 (Nat.cast_lt.1 this)
    omega
  rcases Nat.lt_or_ge b c with hlt | hge
  · rcases h3 with ⟨_, e⟩ | ⟨_, e⟩ | ⟨_, e⟩ <;> rcases h6 with ⟨_, e'⟩ | ⟨_, e'⟩ | ⟨_, e'⟩ <;> omega
  · have e : c = b := by omega
    subst e
    rcases h3 with ⟨h3, e⟩ | ⟨h3, e⟩ | ⟨h3, e⟩ <;> rcases h6 with ⟨h6, e'⟩ | ⟨h6, e'⟩ | ⟨h6, e'⟩ <;>
      first
      | omega
      | (exfalso; linarith)

theorem RoundsTo.unique {x : ℝ} {r q : Nat} (hx : RoundsTo x r) (hy : RoundsTo x q) : r = q :=
  Nat.le_antisymm (hx.mono hy le_rfl) (hy.mono hx le_rfl)

theorem roundsTo_mag (b : Nat) : RoundsTo (mag b) b := by
  have h := mag_lt_succ b
  have h' : (mag b : ℝ) < mag (b + 1) := Nat.cast_lt.2 h
  exact ⟨b, le_rfl, h', .inl ⟨by linarith, rfl⟩⟩

theorem shift_spec (q : Nat) : q / 2 ^ (q.log2 - 23) < 2 ^ 24 ∧
    (q.log2 - 23 = 0 ∨ 2 ^ 23 ≤ q / 2 ^ (q.log2 - 23)) := by
  rcases Nat.eq_zero_or_pos q with rfl | hq
  · simp
  have h1 : q < 2 ^ (q.log2 + 1) := Nat.lt_log2_self
  have h2 : 2 ^ q.log2 ≤ q := Nat.log2_self_le (by omega)
  rcases Nat.lt_or_ge q.log2 24 with hlt | hge
  · have h3 : q.log2 - 23 = 0 := by omega
    rw [h3]
    refine ⟨?_, .inl rfl⟩
    have : 2 ^ (q.log2 + 1) ≤ 2 ^ 24 := Nat.pow_le_pow_right (by norm_num) (by omega)
    simp only [Nat.pow_zero, Nat.div_one]
    omega
  · refine ⟨?_, .inr ?_⟩
    · rw [Nat.div_lt_iff_lt_mul (Nat.two_pow_pos _), ← Nat.pow_add]
      have : 24 + (q.log2 - 23) = q.log2 + 1 := by omega
      rw [this]; exact h1
    · rw [Nat.le_div_iff_mul_le (Nat.two_pow_pos _), ← Nat.pow_add]
      have : 23 + (q.log2 - 23) = q.log2 := by omega
      rw [this]; exact h2

theorem roundBy_spec {x : ℝ} {floor : Nat} {cmp : Nat → Ordering} (h1 : (floor : ℝ) ≤ x) (h2 : x < floor + 1)
    (hlt : ∀ m : Nat, cmp m = .lt → 2 * x < m) (heq : ∀ m : Nat, cmp m = .eq → 2 * x = m)
    (hgt : ∀ m : Nat, cmp m = .gt → (m : ℝ) < 2 * x) : ∃ r, RoundsTo x r ∧ roundBy floor cmp = clip r := by
  obtain ⟨h3, h4⟩ := shift_spec floor
  unfold roundBy
  dsimp only
  generalize floor.log2 - 23 = s at *
  have h5 : floor / 2 ^ s * 2 ^ s ≤ floor := Nat.div_mul_le_self _ _
  have h6 : floor < (floor / 2 ^ s + 1) * 2 ^ s := by
    have := Nat.div_add_mod floor (2 ^ s)
    have := Nat.mod_lt floor (Nat.two_pow_pos s)
    rw [Nat.add_mul, Nat.one_mul, Nat.mul_comm]
    omega
  generalize floor / 2 ^ s = m at *
  have e1 : mag (s * 2 ^ 23 + m) = m * 2 ^ s := mag_eq h3.le h4
  have e2 : mag (s * 2 ^ 23 + m + 1) = (m + 1) * 2 ^ s := by
    rw [Nat.add_assoc]; exact mag_eq (by omega) (by omega)
  have h7 : ((m * 2 ^ s : Nat) : ℝ) ≤ x := le_trans (Nat.cast_le.2 h5) h1
  have h8 : x < (((m + 1) * 2 ^ s : Nat) : ℝ) := by
    have : ((floor + 1 : Nat) : ℝ) ≤ (((m + 1) * 2 ^ s : Nat) : ℝ) := Nat.cast_le.2 h6
    push_cast at this ⊢
    linarith
  have e3 : ((((2 * m + 1) * 2 ^ s : Nat) : ℝ)) = ((m * 2 ^ s : Nat) : ℝ) + (((m + 1) * 2 ^ s : Nat) : ℝ) := by
    push_cast; ring
  cases hc : cmp ((2 * m + 1) * 2 ^ s) with
  | lt =>
    refine ⟨_, ⟨s * 2 ^ 23 + m, by rw [e1]; exact h7, by rw [e2]; exact h8, .inl ⟨?_, rfl⟩⟩, rfl⟩
    rw [e1, e2, ← e3]; exact hlt _ hc
  | eq =>
    refine ⟨_, ⟨s * 2 ^ 23 + m, by rw [e1]; exact h7, by rw [e2]; exact h8, .inr (.inl ⟨?_, rfl⟩)⟩, rfl⟩
    rw [e1, e2, ← e3]; exact heq _ hc
  | gt =>
    refine ⟨_, ⟨s * 2 ^ 23 + m, by rw [e1]; exact h7, by rw [e2]; exact h8, .inr (.inr ⟨?_, rfl⟩)⟩, rfl⟩
    rw [e1, e2, ← e3]; exact hgt _ hc

/-- `roundRat` rounds correctly -/
theorem roundRat_spec (n : Nat) {d : Nat} (hd : 0 < d) : ∃ r, RoundsTo (n / d) r ∧ roundRat n d = clip r := by
  have hd' : (0 : ℝ) < d := Nat.cast_pos.2 hd
  refine roundBy_spec ?_ ?_ ?_ ?_ ?_
  · rw [le_div_iff₀ hd']
    exact_mod_cast Nat.div_mul_le_self n d
  · rw [div_lt_iff₀ hd']
    have := Nat.lt_mul_div_succ n hd
    rw [Nat.mul_comm] at this
    exact_mod_cast this
  · intro m h
    rw [Nat.compare_eq_lt] at h
    have : ((2 * n : Nat) : ℝ) < ((m * d : Nat) : ℝ) := Nat.cast_lt.2 h
    push_cast at this
    rw [← mul_div_assoc, div_lt_iff₀ hd']
    exact this
  · intro m h
    rw [Nat.compare_eq_eq] at h
    have : ((2 * n : Nat) : ℝ) = ((m * d : Nat) : ℝ) := by rw [h]
    push_cast at this
    rw [← mul_div_assoc, div_eq_iff hd'.ne']
    exact this
  · intro m h
    rw [Nat.compare_eq_gt] at h
    have : ((m * d : Nat) : ℝ) < ((2 * n : Nat) : ℝ) := Nat.cast_lt.2 h
    push_cast at this
    rw [← mul_div_assoc, lt_div_iff₀ hd']
    exact this

/-- `isqrt` is the integer part of the square root -/
theorem isqrtFrom_spec (x : Nat) : ∀ k r, r * r ≤ x → x < (r + 2 ^ k) * (r + 2 ^ k) →
    isqrtFrom x k r * isqrtFrom x k r ≤ x ∧ x < (isqrtFrom x k r + 1) * (isqrtFrom x k r + 1) := by
  intro k
  induction k with
  | zero => intro r h1 h2; exact ⟨h1, h2⟩
  | succ k ih =>
    intro r h1 h2
    unfold isqrtFrom
    split_ifs with h
    · refine ih _ h ?_
      have e : r + 2 ^ k + 2 ^ k = r + 2 ^ (k + 1) := by rw [Nat.pow_succ]; ring
      rw [e]; exact h2
    · exact ih _ h1 (Nat.lt_of_not_le h)

theorem isqrt_spec (x : Nat) : isqrt x * isqrt x ≤ x ∧ x < (isqrt x + 1) * (isqrt x + 1) := by
  refine isqrtFrom_spec x _ 0 (Nat.zero_le _) ?_
  have h1 : x < 2 ^ (x.log2 + 1) := Nat.lt_log2_self
  rw [Nat.zero_add, ← Nat.pow_add]
  exact Nat.lt_of_lt_of_le h1 (Nat.pow_le_pow_right (by norm_num) (by omega))

/-- `roundSqrt` rounds correctly -/
theorem roundSqrt_spec (n : Nat) : ∃ r, RoundsTo (Real.sqrt n) r ∧ roundSqrt n = clip r := by
  obtain ⟨h1, h2⟩ := isqrt_spec n
  have hs := Real.sq_sqrt (Nat.cast_nonneg (α := ℝ) n)
  have hp := Real.sqrt_nonneg (n : ℝ)
  refine roundBy_spec ?_ ?_ ?_ ?_ ?_
  · refine Real.le_sqrt_of_sq_le ?_
    rw [sq]
    exact_mod_cast h1
  · rw [Real.sqrt_lt' (by positivity), sq]
    exact_mod_cast h2
  · intro m h
    rw [Nat.compare_eq_lt] at h
    have : ((4 * n : Nat) : ℝ) < ((m * m : Nat) : ℝ) := Nat.cast_lt.2 h
    push_cast at this
    have hm : (0 : ℝ) ≤ m := Nat.cast_nonneg m
    nlinarith
  · intro m h
    rw [Nat.compare_eq_eq] at h
    have : ((4 * n : Nat) : ℝ) = ((m * m : Nat) : ℝ) := by rw [h]
    push_cast at this
    have hm : (0 : ℝ) ≤ m := Nat.cast_nonneg m
    have h3 : (2 * Real.sqrt n - m) * (2 * Real.sqrt n + m) = 0 := by nlinarith
    rcases mul_eq_zero.1 h3 with h4 | h4
    · linarith
    · linarith
  · intro m h
    rw [Nat.compare_eq_gt] at h
    have : ((m * m : Nat) : ℝ) < ((4 * n : Nat) : ℝ) := Nat.cast_lt.2 h
    push_cast at this
    have hm : (0 : ℝ) ≤ m := Nat.cast_nonneg m
    nlinarith

theorem clip_mono {a b : Nat} (h : a ≤ b) : (clip a).val ≤ (clip b).val := by
  simp only [clip]; omega

theorem clip_of_le {b : Nat} (h : b ≤ infBits) : (clip b).val = b := by simp only [clip]; omega

theorem roundRat_mono {n d n' d' : Nat} (hd : 0 < d) (hd' : 0 < d') (h : n * d' ≤ n' * d) :
    (roundRat n d).val ≤ (roundRat n' d').val := by
  obtain ⟨r, h1, e1⟩ := roundRat_spec n hd
  obtain ⟨r', h2, e2⟩ := roundRat_spec n' hd'
  rw [e1, e2]
  refine clip_mono (h1.mono h2 ?_)
  rw [div_le_div_iff₀ (Nat.cast_pos.2 hd) (Nat.cast_pos.2 hd')]
  exact_mod_cast h

theorem roundRat_mag (b : Nat) {d : Nat} (hd : 0 < d) : roundRat (mag b * d) d = clip b := by
  obtain ⟨r, h1, e1⟩ := roundRat_spec (mag b * d) hd
  have hd' : (0 : ℝ) < d := Nat.cast_pos.2 hd
  have e : (((mag b * d : Nat) : ℝ)) / d = mag b := by
    push_cast; rw [mul_div_assoc, div_self hd'.ne', mul_one]
  rw [e] at h1
  rw [e1, h1.unique (roundsTo_mag b)]

theorem roundRat_mag_one (b : Fin (infBits + 1)) : roundRat (mag b) 1 = b := by
  have := roundRat_mag b (d := 1) (by norm_num)
  rw [Nat.mul_one] at this
  rw [this]
  exact Fin.ext (clip_of_le (by have := b.isLt; omega))

/-! ### Nonnegative numbers -/

theorem nonneg_cases {x : Binary32} (h : le 0 x = true) : ∃ s b, x = num s b ∧ signedBits s b = (b.val : Int) := by
  cases x with
  | nan => cases h
  | num s b =>
    refine ⟨s, b, rfl, ?_⟩
    cases s with
    | false => rfl
    | true =>
      have h1 : signedBits false 0 ≤ signedBits true b := of_decide_eq_true h
      have h2 : (0 : Int) ≤ -(b.val : Int) := h1
      show -(b.val : Int) = b.val
      omega

theorem value_nonneg {s : Bool} {b : Fin (infBits + 1)} (h : signedBits s b = (b.val : Int)) :
    value s b = mag b := by
  cases s with
  | false => rfl
  | true =>
    have h1 : -(b.val : Int) = b.val := h
    have h2 : b.val = 0 := by omega
    show -(mag b : Int) = mag b
    rw [h2]; rfl

theorem le_nonneg {s s' : Bool} {b b' : Fin (infBits + 1)} (h : signedBits s b = (b.val : Int))
    (h' : signedBits s' b' = (b'.val : Int)) : le (num s b) (num s' b') = true ↔ b.val ≤ b'.val := by
  show decide _ = true ↔ _
  rw [decide_eq_true_iff, h, h']
  exact Int.ofNat_le

/-- the bits of the sum of nonnegative numbers -/
def addBits (b b' : Fin (infBits + 1)) : Fin (infBits + 1) :=
  if b.val = infBits ∨ b'.val = infBits then clip infBits else roundRat (mag b + mag b') 1

theorem eq_inf {b : Fin (infBits + 1)} (h : b.val = infBits) : b = clip infBits :=
  Fin.ext (by rw [h, clip_of_le le_rfl])

theorem add_nonneg_eq {s s' : Bool} {b b' : Fin (infBits + 1)} (h : signedBits s b = (b.val : Int))
    (h' : signedBits s' b' = (b'.val : Int)) :
    ∃ s'', num s b + num s' b' = num s'' (addBits b b') ∧ signedBits s'' (addBits b b') = ((addBits b b').val : Int) := by
  have hpos : ∀ {s : Bool} {b : Fin (infBits + 1)}, signedBits s b = (b.val : Int) → b.val = infBits → s = false := by
    intro s b h1 h2
    cases s with
    | false => rfl
    | true =>
      have h3 : -(b.val : Int) = b.val := h1
      rw [h2] at h3
      exact absurd h3 (by decide)
  have e : num s b + num s' b' = add (num s b) (num s' b') := rfl
  rw [e]
  unfold add addBits
  dsimp only
  by_cases h1 : b.val = infBits
  · rw [if_pos h1, if_pos (Or.inl h1)]
    have hs := hpos h h1
    subst hs
    refine ⟨false, ?_, rfl⟩
    by_cases h2 : b'.val = infBits
    · rw [if_pos h2, if_pos (hpos h' h2).symm, eq_inf h1]
    · rw [if_neg h2, eq_inf h1]
  · rw [if_neg h1]
    by_cases h2 : b'.val = infBits
    · rw [if_pos h2, if_pos (Or.inr h2)]
      have hs := hpos h' h2
      subst hs
      exact ⟨false, by rw [eq_inf h2], rfl⟩
    · rw [if_neg h2, if_neg (not_or.2 ⟨h1, h2⟩), value_nonneg h, value_nonneg h']
      have e2 : ((mag b : Int) + mag b').natAbs = mag b + mag b' := by omega
      rw [e2]
      refine ⟨_, rfl, ?_⟩
      by_cases h3 : (mag b : Int) + mag b' = 0
      · have h4 : mag b + mag b' = 0 := by omega
        have h5 : (roundRat 0 1).val = 0 := by decide
        rw [if_pos h3, h4]
        unfold signedBits
        rw [h5]
        split <;> rfl
      · rw [if_neg h3]
        have h5 : ¬ ((mag b : Int) + mag b' < 0) := by omega
        rw [decide_eq_false h5]
        rfl

theorem le_addBits (b b' : Fin (infBits + 1)) : b.val ≤ (addBits b b').val := by
  unfold addBits
  split_ifs with h
  · rw [clip_of_le le_rfl]; have := b.isLt; omega
  · have := roundRat_mono (n := mag b) (d := 1) (n' := mag b + mag b') (d' := 1) (by norm_num) (by norm_num) (by omega)
    rwa [roundRat_mag_one] at this

theorem addBits_comm (b b' : Fin (infBits + 1)) : addBits b b' = addBits b' b := by
  unfold addBits
  rw [Nat.add_comm (mag b)]
  exact if_congr or_comm rfl rfl

theorem addBits_zero (b : Fin (infBits + 1)) : addBits b 0 = b := by
  unfold addBits
  split_ifs with h
  · rcases h with h | h
    · exact (eq_inf h).symm
    · exact absurd h (by decide)
  · exact roundRat_mag_one b

theorem addBits_mono {a b a' b' : Fin (infBits + 1)} (h : a.val ≤ a'.val) (h' : b.val ≤ b'.val) :
    (addBits a b).val ≤ (addBits a' b').val := by
  unfold addBits
  have h1 := a'.isLt
  have h2 := b'.isLt
  split_ifs with h3 h4 h4
  · exact le_rfl
  · omega
  · rw [clip_of_le le_rfl]; have := (roundRat (mag a + mag b) 1).isLt; omega
  · refine roundRat_mono (by norm_num) (by norm_num) ?_
    have := mag_le_iff.2 h
    have := mag_le_iff.2 h'
    omega

/-- `2 ** 24` -/
def big : Fin (infBits + 1) := ⟨0x4b800000, by decide⟩

theorem addBits_big : addBits big ⟨0x3f800000, by decide⟩ = big := by decide

theorem addLaws [Platform] : AddLaws Binary32 where
  zero_le_zero := rfl
  add_nonneg a b ha hb := by
    obtain ⟨s, a, rfl, pa⟩ := nonneg_cases ha
    obtain ⟨s', b, rfl, pb⟩ := nonneg_cases hb
    obtain ⟨s'', e, h⟩ := add_nonneg_eq pa pb
    rw [e]
    exact (le_nonneg rfl h).2 (Nat.zero_le _)
  total a b ha hb := by
    obtain ⟨s, a, rfl, pa⟩ := nonneg_cases ha
    obtain ⟨s', b, rfl, pb⟩ := nonneg_cases hb
    rcases Nat.le_total a.val b.val with h | h
    · exact .inl ((le_nonneg pa pb).2 h)
    · exact .inr ((le_nonneg pb pa).2 h)
  trans a b c _ h1 h2 := by
    cases a with
    | nan => cases h1
    | num s a =>
      cases b with
      | nan => cases h1
      | num s' b =>
        cases c with
        | nan => cases h2
        | num s'' c =>
          exact decide_eq_true (le_trans (of_decide_eq_true h1) (of_decide_eq_true h2))
  lt_iff a b ha hb := by
    obtain ⟨s, a, rfl, pa⟩ := nonneg_cases ha
    obtain ⟨s', b, rfl, pb⟩ := nonneg_cases hb
    show decide _ = !decide _
    rw [← decide_not, decide_eq_decide, not_le]
  le_add_right a b ha hb := by
    obtain ⟨s, a, rfl, pa⟩ := nonneg_cases ha
    obtain ⟨s', b, rfl, pb⟩ := nonneg_cases hb
    obtain ⟨s'', e, h⟩ := add_nonneg_eq pa pb
    rw [e]
    exact (le_nonneg pa h).2 (le_addBits a b)
  le_add_left a b ha hb := by
    obtain ⟨s, a, rfl, pa⟩ := nonneg_cases ha
    obtain ⟨s', b, rfl, pb⟩ := nonneg_cases hb
    obtain ⟨s'', e, h⟩ := add_nonneg_eq pa pb
    rw [e]
    exact (le_nonneg pb h).2 (by rw [addBits_comm]; exact le_addBits b a)
  add_zero_le a ha := by
    obtain ⟨s, a, rfl, pa⟩ := nonneg_cases ha
    obtain ⟨s'', e, h⟩ := add_nonneg_eq (s' := false) (b' := 0) pa rfl
    have e' : num s a + (0 : Binary32) = num s a + num false 0 := rfl
    rw [e', e]
    exact (le_nonneg h pa).2 (by rw [addBits_zero])
  tiny_nonneg := rfl
  zero_le_one := rfl
  finite := by
    refine ⟨fun x => ∃ s b, x = num s b ∧ b.val ≤ big.val, ⟨false, 0, rfl, by decide⟩, ?_, ?_, ?_⟩
    · rintro x ⟨s, b, rfl, h⟩
      have h1 : big.val < infBits := by decide
      exact decide_eq_true (show b.val < infBits by omega)
    · intro x h1 h2
      obtain ⟨s, b, rfl, hb⟩ := nonneg_cases h1
      have h3 := (le_nonneg (s' := false) hb rfl).1 h2
      exact ⟨s, b, rfl, le_trans h3 (by decide)⟩
    · rintro a x h1 ⟨s, b, rfl, hb⟩ h2 h3
      obtain ⟨s1, b1, e, hb1⟩ := nonneg_cases h1
      cases e
      obtain ⟨s', c, rfl, hc⟩ := nonneg_cases h2
      have h4 := (le_nonneg (s' := false) hc rfl).1 h3
      obtain ⟨s'', e, h⟩ := add_nonneg_eq hb1 hc
      refine ⟨s'', _, e, ?_⟩
      have := addBits_mono hb h4
      rwa [addBits_big] at this

/-- The laws needed by the structural theorems hold in single precision if the cumulative sums are computed adding the
terms from the left. -/
theorem floatLaws [Platform] (hc : ∀ w, Platform.cumsum w = cumsum w) : FloatLaws Binary32 :=
  Bartz.floatLaws_of_left addLaws hc

/-! ### Uniform variates -/

/-- the bits of the sum of a nonnegative finite number and zero -/
theorem sub_zero_eq {b : Fin (infBits + 1)} : num false b - 0 = num false b := by
  show add (num false b) (num true 0) = _
  unfold add
  dsimp only
  by_cases h1 : b.val = infBits
  · rw [if_pos h1, if_neg (by decide)]
  · rw [if_neg h1, if_neg (by decide)]
    have e : value false b + value true 0 = (mag b : Int) := by
      show (mag b : Int) + -(0 : Int) = _
      omega
    rw [e]
    have e2 : ((mag b : Int)).natAbs = mag b := by omega
    rw [e2, roundRat_mag_one]
    congr 1
    split_ifs
    · rfl
    · exact decide_eq_false (by omega)

theorem num_add_zero {b : Fin (infBits + 1)} : num false b + 0 = num false b := by
  obtain ⟨s, e, h⟩ := add_nonneg_eq (s := false) (b := b) (s' := false) (b' := 0) rfl rfl
  have e' : num false b + (0 : Binary32) = num false b + num false 0 := rfl
  rw [e', e, addBits_zero]
  rw [addBits_zero] at h
  congr 1
  cases s with
  | false => rfl
  | true =>
    have h1 : -(b.val : Int) = b.val := h
    have h2 : b = 0 := Fin.ext (show b.val = 0 by omega)
    subst h2
    have : num false 0 + num false 0 = num false 0 := by decide +kernel
    rw [this] at e
    cases e

/-- the uniform number in [0, 1) with the given mantissa is exact -/
theorem unit_eq (k : Fin (2 ^ 23)) (h : 0x3f800000 + k.val < infBits + 1) :
    ∃ b : Fin (infBits + 1), num false ⟨0x3f800000 + k.val, h⟩ - 1 = num false b ∧ mag b = k.val * 2 ^ 126 ∧
      b.val < infBits := by
  obtain ⟨b, hb⟩ := exists_mag (m := k.val) (by have := k.isLt; omega) 126
  have hlt : b < infBits := by
    rw [← mag_strictMono.lt_iff_lt, hb]
    calc k.val * 2 ^ 126 < 2 ^ 23 * 2 ^ 126 := Nat.mul_lt_mul_of_pos_right k.isLt (by positivity)
      _ < mag infBits := by decide
  have e1 : mag (0x3f800000 + k.val) = (2 ^ 23 + k.val) * 2 ^ 126 := by
    have := mag_eq (s := 126) (m := 2 ^ 23 + k.val) (by have := k.isLt; omega) (.inr (by omega))
    rw [← this]; congr 1; omega
  refine ⟨⟨b, by omega⟩, ?_, hb, hlt⟩
  show add (num false _) (num true ⟨0x3f800000, _⟩) = _
  unfold add
  dsimp only
  have hk := k.isLt
  rw [if_neg (by unfold infBits; omega), if_neg (by decide)]
  have e : value false ⟨0x3f800000 + k.val, h⟩ + value true ⟨0x3f800000, by decide⟩ = (mag b : Int) := by
    show ((mag (0x3f800000 + k.val) : Nat) : Int) + -((mag 0x3f800000 : Nat) : Int) = _
    have e2 : mag 0x3f800000 = 2 ^ 23 * 2 ^ 126 := by decide
    rw [e1, e2, hb, Nat.add_mul]
    push_cast
    ring
  rw [e]
  have e2 : ((mag b : Int)).natAbs = mag b := by omega
  have e3 : roundRat (mag b) 1 = ⟨b, by omega⟩ := roundRat_mag_one ⟨b, by omega⟩
  rw [e2, e3]
  congr 1
  split_ifs
  · rfl
  · exact decide_eq_false (by omega)

/-- the result of `jax.random.uniform` -/
theorem uniform_eq (k : Fin (2 ^ 23)) {b : Fin (infBits + 1)} (hb : b.val < infBits) :
    uniform k (num false b) = num false (roundRat (k.val * mag b) (2 ^ 23)) := by
  unfold uniform
  dsimp only
  have hk := k.isLt
  obtain ⟨f, e, hf, hfin⟩ := unit_eq k (by unfold infBits; omega)
  rw [e, sub_zero_eq]
  have e1 : num false f * num false b = num false (roundRat (k.val * mag b) (2 ^ 23)) := by
    show mul _ _ = _
    unfold mul
    dsimp only
    rw [if_neg (by omega), hf]
    congr 1
    refine Fin.ext (le_antisymm ?_ ?_) <;>
    · refine roundRat_mono (by positivity) (by positivity) (le_of_eq ?_)
      have : (2 : Nat) ^ 149 = 2 ^ 126 * 2 ^ 23 := by decide
      rw [this]
      ring
  rw [e1, num_add_zero]

/-- `jax.random.uniform` returns numbers in the specified range if the upper bound is a normal number -/
theorem uniform_lawful [Platform] (k : Fin (2 ^ 23)) (hi : Binary32) (h1 : FltFun.leb FltFun.tiny hi = true)
    (h2 : FltFun.isFinite hi = true) :
    FltFun.leb 0 (uniform k hi) = true ∧ FltFun.leb hi (uniform k hi) = false := by
  cases hi with
  | nan => cases h1
  | num s b =>
    have h3 : signedBits false ⟨0x00800000, by decide⟩ ≤ signedBits s b := of_decide_eq_true h1
    have h4 : b.val < infBits := of_decide_eq_true h2
    cases s with
    | true =>
      have h5 : ((0x00800000 : Nat) : Int) ≤ -(b.val : Int) := h3
      omega
    | false =>
      have h5 : ((0x00800000 : Nat) : Int) ≤ (b.val : Int) := h3
      rw [uniform_eq k h4]
      refine ⟨(le_nonneg rfl rfl).2 (Nat.zero_le _), ?_⟩
      -- the result is rounded to at most the number before `hi`
      have hlt : (roundRat (k.val * mag b) (2 ^ 23)).val < b.val := by
        obtain ⟨c, hc⟩ : ∃ c, b.val = c + 1 := ⟨b.val - 1, by omega⟩
        have hc2 : clip c = ⟨c, by have := b.isLt; omega⟩ := Fin.ext (clip_of_le (by have := b.isLt; omega))
        have h6 : (roundRat (k.val * mag b) (2 ^ 23)).val ≤ (roundRat (mag c * 2 ^ 23) (2 ^ 23)).val := by
          refine roundRat_mono (by positivity) (by positivity) (Nat.mul_le_mul_right _ ?_)
          obtain ⟨s, m, e, hm, hs⟩ := exists_mantissa b.val
          have hm23 : 2 ^ 23 ≤ m := by omega
          have e1 : mag b = m * 2 ^ s := by rw [e]; exact mag_eq hm.le hs
          -- the number before `hi`
          have e2 : (m - 1) * 2 ^ s ≤ mag c := by
            rcases Nat.lt_or_ge (2 ^ 23) m with h7 | h7
            · have e3 : c = s * 2 ^ 23 + (m - 1) := by omega
              rw [e3, mag_eq (by omega) (.inr (by omega))]
            · have e4 : m = 2 ^ 23 := by omega
              cases s with
              | zero =>
                have e3 : c = 0 * 2 ^ 23 + (m - 1) := by omega
                rw [e3, mag_eq (by omega) (.inl rfl)]
              | succ s =>
                have e3 : c = s * 2 ^ 23 + (2 ^ 24 - 1) := by omega
                rw [e3, mag_eq (by omega) (.inr (by omega)), Nat.pow_succ, Nat.mul_comm (2 ^ s) 2, ← Nat.mul_assoc]
                exact Nat.mul_le_mul_right _ (by omega)
          rw [e1]
          calc k.val * (m * 2 ^ s) = (k.val * m) * 2 ^ s := by ring
            _ ≤ ((m - 1) * 2 ^ 23) * 2 ^ s := by
              refine Nat.mul_le_mul_right _ ?_
              have hk := k.isLt
              have : k.val * m ≤ (2 ^ 23 - 1) * m := Nat.mul_le_mul_right _ (by omega)
              omega
            _ = (m - 1) * 2 ^ s * 2 ^ 23 := by ring
            _ ≤ mag c * 2 ^ 23 := Nat.mul_le_mul_right _ e2
        rw [roundRat_mag c (by positivity), hc2] at h6
        have h7 : (roundRat (k.val * mag b) (2 ^ 23)).val ≤ c := h6
        omega
      rw [Bool.eq_false_iff]
      intro hcon
      have := (le_nonneg (s := false) (s' := false) rfl rfl).1 hcon
      omega

/-- `jax.random.uniform` may return the upper bound, if it is subnormal -/
theorem uniform_subnormal : uniform ⟨2 ^ 23 - 1, by decide⟩ (num false 1) = num false 1 := by decide +kernel

end Binary32
end Jax
