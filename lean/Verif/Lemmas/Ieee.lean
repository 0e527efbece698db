import Verif.Spec.Ieee
import Verif.Lemmas.RoundError
/-! # The arithmetic of the model follows IEEE 754 -/

set_option autoImplicit false

namespace Jax
namespace Binary32
open Spec

theorem decode_eq (b : Nat) : Ieee.decode b = mag b / 2 ^ 149 := by
  obtain ⟨s, m, rfl, hm, h⟩ := exists_mantissa b
  rw [mag_eq hm.le h]
  unfold Ieee.decode
  dsimp only
  rcases Nat.lt_or_ge m (2 ^ 23) with h1 | h1
  · have hs : s = 0 := by omega
    subst hs
    rw [if_pos (by omega), show (0 * 2 ^ 23 + m) % 2 ^ 23 = m by omega]
    rw [zpow_neg]
    push_cast
    norm_num
    ring
  · have e1 : (s * 2 ^ 23 + m) / 2 ^ 23 = s + 1 := by omega
    have e2 : (s * 2 ^ 23 + m) % 2 ^ 23 = m - 2 ^ 23 := by omega
    rw [e1, e2, if_neg (by omega), Nat.cast_sub h1]
    have e3 : (((s + 1 : Nat) : ℤ) - 127) = (s : ℤ) - 126 := by push_cast; ring
    rw [e3, zpow_sub₀ (by norm_num), zpow_natCast]
    push_cast
    have e4 : (2 : ℝ) ^ (126 : ℤ) = 2 ^ 126 := by norm_cast
    rw [e4, show (1 : ℝ) + (m - 8388608) / 2 ^ 23 = m / 2 ^ 23 by field_simp; ring,
      show (2 : ℝ) ^ 149 = 2 ^ 126 * 2 ^ 23 by rw [← pow_add], div_mul_div_comm, mul_comm]

theorem mag_inf : mag infBits = 2 ^ 277 := by decide +kernel
theorem mag_max : mag (infBits - 1) = 2 ^ 277 - 2 ^ 253 := by decide +kernel

set_option exponentiation.threshold 300 in
/-- the threshold of overflow -/
theorem threshold_eq : (2 : ℝ) ^ 127 * (2 - 2 ^ (-24 : ℤ)) * 2 ^ 149 * 2 = mag (infBits - 1) + mag (infBits - 1 + 1) := by
  have h : infBits - 1 + 1 = infBits := by decide
  rw [h, mag_inf, mag_max, Nat.cast_sub (by norm_num)]
  push_cast
  rw [zpow_neg]
  norm_num

theorem RoundsTo.overflow {x : ℝ} {r : Nat} (h : RoundsTo x r) :
    (mag (infBits - 1) + mag (infBits - 1 + 1) ≤ 2 * x → infBits ≤ r) ∧
    (2 * x < mag (infBits - 1) + mag (infBits - 1 + 1) → r < infBits) := by
  have hi : infBits - 1 + 1 = infBits := by decide
  obtain ⟨b, h1, h2, h3⟩ := h
  constructor
  · intro h
    have hb : infBits - 1 ≤ b := by
      by_contra hc
      have h4 : (mag (b + 1) : ℝ) ≤ mag (infBits - 1) := Nat.cast_le.2 (mag_le_iff.2 (by omega))
      have h5 : (mag (infBits - 1) : ℝ) < mag (infBits - 1 + 1) := Nat.cast_lt.2 (mag_lt_succ _)
      linarith
    rcases Nat.lt_or_ge b infBits with hlt | hge
    · have e : b = infBits - 1 := by omega
      subst e
      rcases h3 with ⟨h3, _⟩ | ⟨_, e⟩ | ⟨_, e⟩
      · linarith
      · have : (infBits - 1) % 2 = 1 := by decide
        omega
      · omega
    · rcases h3 with ⟨_, e⟩ | ⟨_, e⟩ | ⟨_, e⟩ <;> omega
  · intro h
    have hb : b ≤ infBits - 1 := by
      by_contra hc
      have h4 : (mag (infBits - 1 + 1) : ℝ) ≤ mag b := Nat.cast_le.2 (mag_le_iff.2 (by omega))
      have h5 : (mag (infBits - 1) : ℝ) < mag (infBits - 1 + 1) := Nat.cast_lt.2 (mag_lt_succ _)
      linarith
    rcases Nat.lt_or_ge b (infBits - 1) with hlt | hge
    · have : (infBits - 1) % 2 = 1 := by decide
      rcases h3 with ⟨_, e⟩ | ⟨_, e⟩ | ⟨_, e⟩ <;> omega
    · have e : b = infBits - 1 := by omega
      subst e
      rcases h3 with ⟨_, e⟩ | ⟨h3, _⟩ | ⟨h3, _⟩
      · omega
      · linarith
      · linarith

theorem RoundsTo.nearest {x : ℝ} {r : Nat} (h : RoundsTo x r) (c : Nat) :
    |(mag r : ℝ) - x| ≤ |(mag c : ℝ) - x| ∧ (c ≠ r → |(mag c : ℝ) - x| = |(mag r : ℝ) - x| → r % 2 = 0) := by
  obtain ⟨b, h1, h2, h3⟩ := h
  have hs : (c < b → (mag c : ℝ) < mag b) ∧ (b + 1 < c → (mag (b + 1) : ℝ) < mag c) :=
    ⟨fun h => Nat.cast_lt.2 (mag_strictMono h), fun h => Nat.cast_lt.2 (mag_strictMono h)⟩
  have hc : c < b ∨ c = b ∨ c = b + 1 ∨ b + 1 < c := by omega
  have a1 : |(mag b : ℝ) - x| = x - mag b := by rw [abs_sub_comm, abs_of_nonneg (by linarith)]
  have a2 : |(mag (b + 1) : ℝ) - x| = mag (b + 1) - x := abs_of_nonneg (by linarith)
  have a3 : c < b → |(mag c : ℝ) - x| = x - mag c := fun h => by
    have := hs.1 h
    rw [abs_sub_comm, abs_of_nonneg (by linarith)]
  have a4 : b + 1 < c → |(mag c : ℝ) - x| = mag c - x := fun h => by
    have := hs.2 h
    rw [abs_of_nonneg (by linarith)]
  rcases h3 with ⟨h3, rfl⟩ | ⟨h3, rfl⟩ | ⟨h3, rfl⟩
  · rw [a1]
    rcases hc with hc | rfl | rfl | hc
    · have := hs.1 hc
      rw [a3 hc]
      exact ⟨by linarith, fun _ e => by linarith⟩
    · rw [a1]
      exact ⟨le_rfl, fun h => absurd rfl h⟩
    · rw [a2]
      exact ⟨by linarith, fun _ e => by linarith⟩
    · have := hs.2 hc
      rw [a4 hc]
      exact ⟨by linarith, fun _ e => by linarith⟩
  · have ev : (b + b % 2) % 2 = 0 := by omega
    refine ⟨?_, fun _ _ => ev⟩
    have e : |(mag (b + b % 2) : ℝ) - x| = x - mag b := by
      rcases Nat.mod_two_eq_zero_or_one b with hb | hb <;> rw [hb]
      · exact a1
      · rw [a2]; linarith
    rw [e]
    rcases hc with hc | rfl | rfl | hc
    · have := hs.1 hc
      rw [a3 hc]
      linarith
    · rw [a1]
    · rw [a2]; linarith
    · have := hs.2 hc
      rw [a4 hc]
      linarith
  · rw [a2]
    rcases hc with hc | rfl | rfl | hc
    · have := hs.1 hc
      rw [a3 hc]
      exact ⟨by linarith, fun _ e => by linarith⟩
    · rw [a1]
      exact ⟨by linarith, fun _ e => by linarith⟩
    · rw [a2]
      exact ⟨le_rfl, fun h => absurd rfl h⟩
    · have := hs.2 hc
      rw [a4 hc]
      exact ⟨by linarith, fun _ e => by linarith⟩

/-- the rounding of the model is the one of the standard -/
theorem rounds_of_roundsTo {x : ℝ} {r : Nat} {s : Bool} (hs : x ≠ 0 → s = decide (x < 0)) (h : RoundsTo (|x| * 2 ^ 149) r) :
    Ieee.Rounds x s (clip r).val := by
  have hp : (0 : ℝ) < 2 ^ 149 := by positivity
  have ht := threshold_eq
  have key : ∀ T : ℝ, T * 2 ^ 149 * 2 = mag (infBits - 1) + mag (infBits - 1 + 1) →
      (T ≤ |x| → (clip r).val = infBits) ∧ (|x| < T → (clip r).val = r ∧ r < infBits) := by
    intro T hT
    constructor
    · intro hx
      have := h.overflow.1 (by nlinarith)
      simp only [clip]; omega
    · intro hx
      have := h.overflow.2 (by nlinarith)
      exact ⟨by simp only [clip]; omega, this⟩
  obtain ⟨k1, k2⟩ := key _ ht
  have hd : ∀ c : Nat, |(Ieee.decode c - |x|)| = |(mag c : ℝ) - |x| * 2 ^ 149| / 2 ^ 149 := by
    intro c
    rw [decode_eq, eq_div_iff hp.ne', ← abs_of_pos hp, ← abs_mul, abs_of_pos hp, sub_mul, div_mul_cancel₀ _ hp.ne']
  refine ⟨hs, k1, fun hx => ?_, fun hx c hc => ?_, fun hx c hc hne he => ?_⟩
  · rw [(k2 hx).1]; exact (k2 hx).2
  · rw [(k2 hx).1, hd, hd]
    exact div_le_div_of_nonneg_right (h.nearest c).1 hp.le
  · rw [(k2 hx).1] at hne he ⊢
    rw [hd, hd, div_left_inj' hp.ne'] at he
    exact (h.nearest c).2 hne he

/-- a number whose sign and rounded absolute value are those of `x / (d * 2 ** 149)` -/
theorem result_signed {x : Int} {d : Nat} (hd : 0 < d) {t z : Bool} (ht : x ≠ 0 → t = decide (x < 0)) (hz : x = 0 → t = z) {q : ℝ}
    (hq : q = (x : ℝ) / d / 2 ^ 149) : Ieee.Result q z (num t (roundRat x.natAbs d)) := by
  have hd' : (0 : ℝ) < d := Nat.cast_pos.2 hd
  have hp : (0 : ℝ) < 2 ^ 149 := by positivity
  obtain ⟨r, h1, e⟩ := roundRat_spec x.natAbs hd
  have h0 : q = 0 ↔ x = 0 := by
    rw [hq, div_eq_zero_iff, div_eq_zero_iff]
    simp [hd.ne']
  have hl : q < 0 ↔ x < 0 := by
    rw [hq, div_lt_iff₀ hp, div_lt_iff₀ hd', zero_mul, zero_mul, Int.cast_lt_zero]
  refine ⟨t, roundRat x.natAbs d, rfl, ?_, fun h => hz (h0.1 h)⟩
  rw [e]
  refine rounds_of_roundsTo (fun h => ?_) ?_
  · rw [ht (fun e => h (h0.2 e))]
    exact decide_eq_decide.2 hl.symm
  · have : |q| * 2 ^ 149 = (x.natAbs : ℝ) / d := by
      rw [hq, abs_div, abs_div, abs_of_pos hp, abs_of_pos hd', Nat.cast_natAbs, Int.cast_abs, div_mul_cancel₀ _ hp.ne']
    rw [this]
    exact h1

theorem isFinite_iff {x : Binary32} {s : Bool} {v : ℝ} (h : Ieee.IsFinite x s v) :
    ∃ b : Fin (infBits + 1), x = num s b ∧ b.val < infBits ∧ v = value s b / 2 ^ 149 ∧ (v = 0 ↔ b.val = 0) := by
  obtain ⟨b, h1, h2, h3⟩ := h.repr
  rw [decode_eq] at h3
  refine ⟨b, h2, h1, ?_, ?_⟩
  · rw [h3]
    unfold value
    cases s
    · simp
    · simp [neg_div]
  · rw [h3]
    have e : mag b.val = 0 ↔ b.val = 0 := by
      constructor
      · intro h
        by_contra hb
        have := mag_strictMono (Nat.pos_of_ne_zero hb)
        rw [mag_zero] at this
        omega
      · intro h; rw [h, mag_zero]
    rw [← e]
    cases s <;> simp

theorem isFinite_num (s : Bool) {b : Fin (infBits + 1)} (h : b.val < infBits) : Ieee.IsFinite (num s b) s (value s b / 2 ^ 149) := by
  refine ⟨⟨b, h, rfl, ?_⟩⟩
  rw [decode_eq]
  unfold value
  cases s
  · simp
  · simp [neg_div]

end Binary32
end Jax
