import Verif.Lemmas.Prepcovars
import Mathlib.Tactic.Linarith
/-!
# C15: midpoints of 64 bit signed integers
-/

set_option autoImplicit false

namespace Bartz
open Jax Spec

/-- the error of the conversion to floating point -/
theorem to_float64_near {v : Int} {k : Nat} (hv : v.natAbs < 2 ^ (53 + k)) : |to_float64 v - v| ≤ 2 ^ k / 2 := by
  have he : Nat.log2 v.natAbs - 52 ≤ k := by
    by_cases h0 : v.natAbs = 0
    · rw [h0]
      have : Nat.log2 0 = 0 := by decide
      omega
    · have := (Nat.log2_lt h0).2 hv
      omega
  unfold to_float64
  dsimp only
  revert he
  generalize Nat.log2 v.natAbs - 52 = e
  intro he
  have hn := pyRound_near ((v : ℚ) / 2 ^ e)
  have hp : (0 : ℚ) < 2 ^ e := by positivity
  have h1 : |((pyRound ((v : ℚ) / 2 ^ e) * 2 ^ e - v : Int) : ℚ)| ≤ 2 ^ e / 2 := by
    have : ((pyRound ((v : ℚ) / 2 ^ e) * 2 ^ e - v : Int) : ℚ) = (pyRound ((v : ℚ) / 2 ^ e) - (v : ℚ) / 2 ^ e) * 2 ^ e := by
      push_cast
      field_simp
    rw [this, abs_mul, abs_of_pos hp]
    nlinarith
  have h2 : (2 : ℚ) ^ e ≤ 2 ^ k := pow_le_pow_right₀ (by norm_num) he
  have h3 : |((pyRound ((v : ℚ) / 2 ^ e) * 2 ^ e - v : Int) : ℚ)| ≤ 2 ^ k / 2 := by linarith
  have h4 : (2 * |pyRound ((v : ℚ) / 2 ^ e) * 2 ^ e - v| : Int) ≤ 2 ^ k := by
    have : ((2 * |pyRound ((v : ℚ) / 2 ^ e) * 2 ^ e - v| : Int) : ℚ) ≤ ((2 ^ k : Int) : ℚ) := by
      push_cast
      push_cast at h3
      linarith
    exact_mod_cast this
  omega

/-- the integers with up to 53 bits are converted exactly -/
theorem to_float64_exact {v : Int} (hv : v.natAbs < 2 ^ 53) : to_float64 v = v := by
  have := to_float64_near (k := 0) hv
  have h : |to_float64 v - v| ≤ 0 := this
  have := abs_nonpos_iff.1 h
  omega

theorem int64_diff {a b : Int} (ha : Representable true 64 a) (hb : Representable true 64 b) (hab : a ≤ b) :
    wrap_int false 64 (wrap_int true 64 (b - a)) = b - a := by
  rw [wrap_unsigned_diff]
  unfold Representable at ha hb
  simp only [if_true] at ha hb
  apply Int.emod_eq_of_lt
  · omega
  · norm_num at ha hb ⊢
    omega

/-- C15 for signed integers with 64 bits, if their absolute value is less than 2 ** 53: the midpoint is correct. Missing: larger values, see
`C15_not_int64`. -/
theorem C15_int64_partial {a b : Int} (ha : |a| < 2 ^ 53) (hb : |b| < 2 ^ 53) (hab : a < b) :
    int64_midpoint a b = (a + b) / 2 ∧ a ≤ int64_midpoint a b ∧ int64_midpoint a b < b := by
  rw [abs_lt] at ha hb
  norm_num at ha hb
  have hd : wrap_int false 64 (wrap_int true 64 (b - a)) = b - a := by
    apply int64_diff _ _ hab.le <;>
    · unfold Representable
      norm_num
      omega
  have h : int64_midpoint a b = (a + b) / 2 := by
    unfold int64_midpoint
    dsimp only
    rw [hd, to_float64_exact (v := a) (by norm_num; omega), to_float64_exact (v := (b - a) / 2) (by norm_num; omega),
      to_float64_exact (by norm_num; omega)]
    omega
  rw [h]
  omega

/-- C15 for signed integers with 64 bits, without limits: the error of the midpoint is at most 3072. -/
theorem C15_int64_near {a b : Int} (ha : Representable true 64 a) (hb : Representable true 64 b) (hab : a < b) :
    |int64_midpoint a b - (a + b) / 2| ≤ 3072 := by
  have hd := int64_diff ha hb hab.le
  unfold Representable at ha hb
  norm_num at ha hb
  unfold int64_midpoint
  dsimp only
  rw [hd]
  have h1 := to_float64_near (v := a) (k := 11) (by norm_num; omega)
  have h2 := to_float64_near (v := (b - a) / 2) (k := 11) (by norm_num; omega)
  norm_num at h1 h2
  rw [abs_le] at h1 h2
  have h3 := to_float64_near (v := to_float64 a + to_float64 ((b - a) / 2)) (k := 11) (by norm_num; omega)
  norm_num at h3
  rw [abs_le] at h3 ⊢
  omega

example : int64_midpoint (-2 ^ 52) (2 ^ 52 + 1) = 0 := (C15_int64_partial (by decide) (by decide) (by decide)).1

end Bartz
