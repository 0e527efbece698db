import Verif.Lemmas.SumError
import Verif.Lemmas.Drift
/-! # Relative errors of expressions in single precision -/

set_option autoImplicit false

namespace Bartz
open Jax Spec Jax.Binary32

/-- `w` and `v` are nonnegative and differ by `k` relative errors of a rounding; symmetric in `w` and `v` -/
structure Close (k : Nat) (w v : ℝ) : Prop where
  nonneg : 0 ≤ v
  nonneg' : 0 ≤ w
  lower : v * (1 - 1 / 2 ^ 24) ^ k ≤ w
  upper : w * (1 - 1 / 2 ^ 24) ^ k ≤ v

theorem base_pos : (0 : ℝ) < 1 - 1 / 2 ^ 24 := by norm_num
theorem base_le : (1 : ℝ) - 1 / 2 ^ 24 ≤ 1 := by norm_num

theorem Close.refl {v : ℝ} (h : 0 ≤ v) : Close 0 v v := ⟨h, h, by simp, by simp⟩

theorem Close.symm {k : Nat} {w v : ℝ} (h : Close k w v) : Close k v w := ⟨h.nonneg', h.nonneg, h.upper, h.lower⟩

theorem Close.mono {k m : Nat} {w v : ℝ} (h : Close k w v) (hm : k ≤ m) : Close m w v := by
  have hp : (1 - 1 / 2 ^ 24 : ℝ) ^ m ≤ (1 - 1 / 2 ^ 24) ^ k := pow_le_pow_of_le_one base_pos.le base_le hm
  exact ⟨h.nonneg, h.nonneg', (mul_le_mul_of_nonneg_left hp h.nonneg).trans h.lower,
    (mul_le_mul_of_nonneg_left hp h.nonneg').trans h.upper⟩

theorem Close.trans {k m : Nat} {x w v : ℝ} (h : Close k x w) (h' : Close m w v) : Close (k + m) x v := by
  have p1 := pow_pos base_pos k
  have p2 := pow_pos base_pos m
  refine ⟨h'.nonneg, h.nonneg', ?_, ?_⟩
  · rw [pow_add, mul_comm ((1 - 1 / 2 ^ 24 : ℝ) ^ k), ← mul_assoc]
    exact (mul_le_mul_of_nonneg_right h'.lower p1.le).trans h.lower
  · rw [pow_add, ← mul_assoc]
    exact (mul_le_mul_of_nonneg_right h.upper p2.le).trans h'.upper

theorem Close.mul {k m : Nat} {w v w' v' : ℝ} (h : Close k w v) (h' : Close m w' v') : Close (k + m) (w * w') (v * v') := by
  have p1 := pow_pos base_pos k
  have p2 := pow_pos base_pos m
  refine ⟨mul_nonneg h.nonneg h'.nonneg, mul_nonneg h.nonneg' h'.nonneg', ?_, ?_⟩
  · have := mul_le_mul h.lower h'.lower (mul_nonneg h'.nonneg p2.le) h.nonneg'
    rw [pow_add]
    calc _ = v * (1 - 1 / 2 ^ 24 : ℝ) ^ k * (v' * (1 - 1 / 2 ^ 24) ^ m) := by ring
      _ ≤ _ := this
  · have := mul_le_mul h.upper h'.upper (mul_nonneg h'.nonneg' p2.le) h.nonneg
    rw [pow_add]
    calc _ = w * (1 - 1 / 2 ^ 24 : ℝ) ^ k * (w' * (1 - 1 / 2 ^ 24) ^ m) := by ring
      _ ≤ _ := this

theorem Close.inv {k : Nat} {w v : ℝ} (h : Close k w v) (hv : 0 < v) : 0 < w ∧ Close k w⁻¹ v⁻¹ := by
  have p1 := pow_pos base_pos k
  have hw : 0 < w := lt_of_lt_of_le (mul_pos hv p1) h.lower
  refine ⟨hw, (inv_pos.2 hv).le, (inv_pos.2 hw).le, ?_, ?_⟩
  · rw [inv_mul_eq_div, div_le_iff₀ hv, inv_mul_eq_div, le_div_iff₀ hw, mul_comm]
    exact h.upper
  · rw [inv_mul_eq_div, div_le_iff₀ hw, inv_mul_eq_div, le_div_iff₀ hv, mul_comm]
    exact h.lower

theorem Close.div {k m : Nat} {w v w' v' : ℝ} (h : Close k w v) (h' : Close m w' v') (hv : 0 < v') :
    Close (k + m) (w / w') (v / v') := by
  rw [div_eq_mul_inv, div_eq_mul_inv]
  exact h.mul (h'.inv hv).2

theorem Close.add {k : Nat} {w v w' v' : ℝ} (h : Close k w v) (h' : Close k w' v') : Close k (w + w') (v + v') := by
  refine ⟨add_nonneg h.nonneg h'.nonneg, add_nonneg h.nonneg' h'.nonneg', ?_, ?_⟩
  · rw [add_mul]; exact add_le_add h.lower h'.lower
  · rw [add_mul]; exact add_le_add h.upper h'.upper

theorem Close.sqrt {k : Nat} {w v : ℝ} (h : Close (2 * k) w v) : Close k (Real.sqrt w) (Real.sqrt v) := by
  have p1 := pow_pos base_pos k
  have e : ∀ x : ℝ, 0 ≤ x → Real.sqrt (x * (1 - 1 / 2 ^ 24) ^ (2 * k)) = Real.sqrt x * (1 - 1 / 2 ^ 24) ^ k := by
    intro x hx
    rw [Real.sqrt_mul hx, mul_comm 2 k, pow_mul, Real.sqrt_sq p1.le]
  refine ⟨Real.sqrt_nonneg _, Real.sqrt_nonneg _, ?_, ?_⟩
  · rw [← e v h.nonneg]; exact Real.sqrt_le_sqrt h.lower
  · rw [← e w h.nonneg']; exact Real.sqrt_le_sqrt h.upper

/-- a rounding without underflow -/
theorem close_of_error {w v : ℝ} (hv : 0 ≤ v) (h : |w - v| ≤ v / 2 ^ 24) : Close 1 w v := by
  obtain ⟨h1, h2⟩ := abs_le.1 h
  have : v / 2 ^ 24 ≤ v := div_le_self hv (by norm_num)
  refine ⟨hv, by linarith, ?_, ?_⟩
  · rw [pow_one, mul_sub, mul_one, mul_one_div]; linarith
  · have : w ≤ v * (1 + 1 / 2 ^ 24) := by rw [mul_add, mul_one, mul_one_div]; linarith
    rw [pow_one]
    refine (mul_le_mul_of_nonneg_right this base_pos.le).trans ?_
    rw [mul_assoc]
    exact mul_le_of_le_one_right hv (by norm_num)

theorem base_pow_ge (k : Nat) : 1 - k / 2 ^ 24 ≤ (1 - 1 / 2 ^ 24 : ℝ) ^ k := by
  have h := one_add_mul_le_pow (a := (-(1 / 2 ^ 24) : ℝ)) (by norm_num) k
  rw [← sub_eq_add_neg] at h
  calc (1 : ℝ) - k / 2 ^ 24 = 1 + k * (-(1 / 2 ^ 24)) := by ring
    _ ≤ _ := h

theorem Close.error_of {k : Nat} {w v c : ℝ} (h : Close k w v) (hc : k / 2 ^ 24 ≤ c * (1 - k / 2 ^ 24)) (hk : (k : ℝ) / 2 ^ 24 < 1) :
    |w - v| ≤ v * c := by
  obtain ⟨x, hx⟩ : ∃ x : ℝ, x = k / 2 ^ 24 := ⟨_, rfl⟩
  have hb := base_pow_ge k
  rw [← hx] at hc hk hb
  have hx0 : 0 ≤ x := by rw [hx]; positivity
  have h1 : v * (1 - x) ≤ w := (mul_le_mul_of_nonneg_left hb h.nonneg).trans h.lower
  have h2 : w * (1 - x) ≤ v := (mul_le_mul_of_nonneg_left hb h.nonneg').trans h.upper
  have hxc : x ≤ c := by nlinarith
  rw [abs_le]
  constructor
  · have := mul_le_mul_of_nonneg_left hxc h.nonneg
    linarith
  · have h3 : 0 < 1 - x := by linarith
    by_contra hcon
    rw [not_le] at hcon
    have h4 : v * (1 + c) < w := by linarith
    have h5 : v * (1 + c) * (1 - x) < v := lt_of_lt_of_le (mul_lt_mul_of_pos_right h4 h3) h2
    have h6 : v * (1 + c) * (1 - x) = v + v * (c * (1 - x) - x) := by ring
    have h7 : 0 ≤ v * (c * (1 - x) - x) := mul_nonneg h.nonneg (by linarith)
    linarith

/-- the absolute error, if there are few operations -/
theorem Close.error {k : Nat} {w v : ℝ} (h : Close k w v) (hk : k ≤ 4095) : |w - v| ≤ v * ((k + 1) / 2 ^ 24) := by
  have hk' : (k : ℝ) ≤ 4095 := by exact_mod_cast hk
  have hk0 : (0 : ℝ) ≤ k := Nat.cast_nonneg k
  refine h.error_of ?_ (by rw [div_lt_one (by norm_num)]; linarith)
  have : (k : ℝ) * (k + 1) ≤ 2 ^ 24 := by nlinarith
  have e : ((k : ℝ) + 1) / 2 ^ 24 * (1 - k / 2 ^ 24) - k / 2 ^ 24 = (2 ^ 24 - k * (k + 1)) / 2 ^ 48 := by ring
  have : 0 ≤ ((2 : ℝ) ^ 24 - k * (k + 1)) / 2 ^ 48 := div_nonneg (by linarith) (by norm_num)
  linarith

theorem Close.error_two {k : Nat} {w v : ℝ} (h : Close k w v) (hk : k ≤ 2 ^ 23) : |w - v| ≤ v * (2 * k / 2 ^ 24) := by
  have hk' : (k : ℝ) ≤ 2 ^ 23 := by exact_mod_cast hk
  have hk0 : (0 : ℝ) ≤ k := Nat.cast_nonneg k
  refine h.error_of ?_ (by rw [div_lt_one (by norm_num)]; linarith)
  have h1 : (k : ℝ) / 2 ^ 24 ≤ 1 / 2 := by
    rw [div_le_iff₀ (by norm_num)]
    linarith
  have e : 2 * (k : ℝ) / 2 ^ 24 = 2 * (k / 2 ^ 24) := by ring
  rw [e]
  have : 0 ≤ (k : ℝ) / 2 ^ 24 := by positivity
  nlinarith

theorem Close.le_two {k : Nat} {w v : ℝ} (h : Close k w v) (hk : k ≤ 2 ^ 23) : w ≤ 2 * v ∧ v ≤ 2 * w := by
  have hk' : (k : ℝ) ≤ 2 ^ 23 := by exact_mod_cast hk
  have h1 : (1 : ℝ) / 2 ≤ 1 - k / 2 ^ 24 := by
    have : (k : ℝ) / 2 ^ 24 ≤ 1 / 2 := by
      rw [div_le_iff₀ (by norm_num)]
      linarith
    linarith
  have hb := h1.trans (base_pow_ge k)
  have h2 := (mul_le_mul_of_nonneg_left hb h.nonneg').trans h.upper
  have h3 := (mul_le_mul_of_nonneg_left hb h.nonneg).trans h.lower
  constructor <;> linarith

/-- the number is finite and its value is the given nonnegative one, apart from `k` relative errors -/
def Approx (k : Nat) (x : Binary32) (v : ℝ) : Prop := ∃ w, HasValue x w ∧ Close k w v

theorem approx_exact {x : Binary32} {v : ℝ} (h : HasValue x v) (hv : 0 ≤ v) : Approx 0 x v := ⟨v, h, .refl hv⟩

theorem hasValue_natCast {n : Nat} (h : n ≤ 2 ^ 24) : HasValue ((n : Nat) : Binary32) n := hasValue_iff.2 (natCast_exact h)

theorem hasValue_one : HasValue 1 1 := by
  have h := hasValue_natCast (n := 1) (by norm_num)
  have e : ((1 : Nat) : Binary32) = 1 := by decide +kernel
  rw [e, Nat.cast_one] at h
  exact h

theorem approx_natCast {n : Nat} (h : n ≤ 2 ^ 24) : Approx 0 ((n : Nat) : Binary32) n :=
  approx_exact (hasValue_natCast h) (Nat.cast_nonneg n)

theorem Approx.nonneg {k : Nat} {x : Binary32} {v : ℝ} (h : Approx k x v) : 0 ≤ v := by
  obtain ⟨w, _, h⟩ := h; exact h.nonneg

theorem Approx.mono {k m : Nat} {x : Binary32} {v : ℝ} (h : Approx k x v) (hm : k ≤ m) : Approx m x v := by
  obtain ⟨w, h1, h2⟩ := h
  exact ⟨w, h1, h2.mono hm⟩

theorem Approx.add {k : Nat} {x y : Binary32} {v w : ℝ} (hx : Approx k x v) (hy : Approx k y w) (hk : k ≤ 2 ^ 23)
    (h : v + w ≤ 2 ^ 126) : Approx (k + 1) (x + y) (v + w) := by
  obtain ⟨v', h1, h2⟩ := hx
  obtain ⟨w', h3, h4⟩ := hy
  rw [hasValue_iff] at h1 h3
  obtain ⟨h1, rfl⟩ := h1
  obtain ⟨h3, rfl⟩ := h3
  have hs := h2.add h4
  have hm := (hs.le_two hk).1
  obtain ⟨h5, h6⟩ := add_rel_error h1 h3 (by
    rw [abs_of_nonneg hs.nonneg']
    exact hm.trans (by rw [show (2 : ℝ) ^ 127 = 2 * 2 ^ 126 by norm_num]; linarith))
  rw [abs_of_nonneg hs.nonneg'] at h6
  refine ⟨_, hasValue_iff.2 ⟨h5, rfl⟩, ?_⟩
  rw [add_comm k 1]
  exact (close_of_error hs.nonneg' h6).trans hs

theorem close_of_ulp {w v : ℝ} (hv : 1 / 2 ^ 126 ≤ v) (h : |w - v| ≤ ulp v) : Close 1 w v := by
  have hv0 : 0 ≤ v := le_trans (by positivity) hv
  refine close_of_error hv0 (h.trans (le_of_eq ?_))
  unfold ulp
  rw [abs_of_nonneg hv0, max_eq_left hv]

theorem two_pow_le {v' v : ℝ} (h : v' ≤ 2 * v) (hv : v ≤ 2 ^ 126) : v' ≤ 2 ^ 127 := by
  rw [show (2 : ℝ) ^ 127 = 2 * 2 ^ 126 by norm_num]; linarith

theorem le_two_pow {v' v : ℝ} (h : v ≤ 2 * v') (hv : 1 / 2 ^ 125 ≤ v) : 1 / 2 ^ 126 ≤ v' := by
  rw [show (1 : ℝ) / 2 ^ 125 = 2 * (1 / 2 ^ 126) by norm_num] at hv; linarith

theorem Approx.mul {k m : Nat} {x y : Binary32} {v w : ℝ} (hx : Approx k x v) (hy : Approx m y w) (hk : k + m ≤ 2 ^ 23)
    (h : v * w ≤ 2 ^ 126) (h' : 1 / 2 ^ 125 ≤ v * w) : Approx (k + m + 1) (x * y) (v * w) := by
  obtain ⟨v', h1, h2⟩ := hx
  obtain ⟨w', h3, h4⟩ := hy
  rw [hasValue_iff] at h1 h3
  obtain ⟨h1, rfl⟩ := h1
  obtain ⟨h3, rfl⟩ := h3
  have hs := h2.mul h4
  obtain ⟨hm, hm'⟩ := hs.le_two hk
  obtain ⟨h5, h6⟩ := mul_error h1 h3 (by rw [abs_of_nonneg hs.nonneg']; exact two_pow_le hm h)
  refine ⟨_, hasValue_iff.2 ⟨h5, rfl⟩, ?_⟩
  rw [add_comm _ 1]
  exact (close_of_ulp (le_two_pow hm' h') h6).trans hs

theorem Approx.div {k m : Nat} {x y : Binary32} {v w : ℝ} (hx : Approx k x v) (hy : Approx m y w) (hk : k + m ≤ 2 ^ 23) (hw : 0 < w)
    (h : v / w ≤ 2 ^ 126) (h' : 1 / 2 ^ 125 ≤ v / w) : Approx (k + m + 1) (x / y) (v / w) := by
  obtain ⟨v', h1, h2⟩ := hx
  obtain ⟨w', h3, h4⟩ := hy
  rw [hasValue_iff] at h1 h3
  obtain ⟨h1, rfl⟩ := h1
  obtain ⟨h3, rfl⟩ := h3
  have hs := h2.div h4 hw
  obtain ⟨hm, hm'⟩ := hs.le_two hk
  obtain ⟨h5, h6⟩ := div_error h1 h3 (h4.inv hw).1.ne' (by rw [abs_of_nonneg hs.nonneg']; exact two_pow_le hm h)
  refine ⟨_, hasValue_iff.2 ⟨h5, rfl⟩, ?_⟩
  rw [add_comm _ 1]
  exact (close_of_ulp (le_two_pow hm' h') h6).trans hs

/-- zero divided by a number -/
theorem hasValue_zero_div {x y : Binary32} {w : ℝ} (hx : HasValue x 0) (hy : HasValue y w) (hw : w ≠ 0) : HasValue (x / y) 0 := by
  rw [hasValue_iff] at hx hy
  obtain ⟨h1, h2⟩ := hx
  obtain ⟨h3, rfl⟩ := hy
  obtain ⟨h5, h6⟩ := div_error h1 h3 hw (by rw [h2, zero_div, abs_zero]; positivity)
  rw [h2, zero_div, sub_zero] at h6
  rw [hasValue_iff]
  refine ⟨h5, ?_⟩
  cases hz : x / y with
  | nan => rw [hz] at h5; exact h5.elim
  | num s b =>
    rw [hz] at h6
    rw [toReal_num]
    have h7 : |Binary32.toReal (num s b)| = (mag b : ℝ) / 2 ^ 149 := by
      unfold Binary32.toReal
      rw [abs_div, abs_of_pos (by positivity : (0 : ℝ) < 2 ^ 149), value_abs]
    rw [h7] at h6
    have h8 : ulp 0 = 1 / 2 ^ 150 := by
      unfold ulp
      rw [abs_zero, max_eq_right (by positivity)]
      norm_num
    rw [h8, div_le_iff₀ (by positivity)] at h6
    have h9 : (mag b : ℝ) < 1 := lt_of_le_of_lt h6 (by norm_num)
    have h10 : mag b = 0 := by
      have : mag b < 1 := by exact_mod_cast h9
      omega
    rw [h10]
    simp

theorem Approx.zero_div {k : Nat} {x y : Binary32} {w : ℝ} (hx : HasValue x 0) (hy : Approx k y w) (hw : 0 < w) :
    HasValue (x / y) 0 := by
  obtain ⟨w', h1, h2⟩ := hy
  exact hasValue_zero_div hx h1 (h2.inv hw).1.ne'

theorem sqrt_error {x : Binary32} (hx : Finite x) (h : 1 / 2 ^ 126 ≤ toReal x) (h' : toReal x ≤ 2 ^ 127) :
    Finite (Binary32.sqrt x) ∧ |toReal (Binary32.sqrt x) - Real.sqrt (toReal x)| ≤ Real.sqrt (toReal x) / 2 ^ 24 := by
  cases x with
  | nan => exact hx.elim
  | num s b =>
    have hx' : b.val < infBits := hx
    have hpos : 0 < toReal (num s b) := lt_of_lt_of_le (by positivity) h
    have hs : s = false := by
      by_contra hs
      rw [Bool.not_eq_false] at hs
      subst hs
      rw [toReal_num] at hpos
      simp only [if_true] at hpos
      have : -(mag b : ℝ) / 2 ^ 149 ≤ 0 := div_nonpos_of_nonpos_of_nonneg (by simp) (by positivity)
      linarith
    subst hs
    have hv : Binary32.toReal (num false b) = mag b / 2 ^ 149 := by rw [toReal_num]; simp
    have hb : b.val ≠ 0 := by
      intro h0
      rw [hv, h0, mag_zero] at hpos
      simp at hpos
    have e1 : Binary32.sqrt (num false b) = num false (roundSqrt (mag b * 2 ^ 149)) := by
      unfold Binary32.sqrt
      dsimp only
      rw [if_neg hb, if_neg (by decide), if_neg (by omega)]
    obtain ⟨r, h2, h3⟩ := roundSqrt_spec (mag b * 2 ^ 149)
    have hp : (0 : ℝ) < 2 ^ 149 := by positivity
    have e2 : Real.sqrt ((mag b * 2 ^ 149 : Nat) : ℝ) = Real.sqrt (toReal (num false b)) * 2 ^ 149 := by
      rw [hv, Nat.cast_mul, Nat.cast_pow, Nat.cast_ofNat]
      generalize (2 : ℝ) ^ 149 = p at hp
      rw [show (mag b : ℝ) * p = mag b / p * p ^ 2 by field_simp, Real.sqrt_mul' _ (by positivity), Real.sqrt_sq hp.le]
    rw [e2] at h2
    generalize toReal (num false b) = v at h h' hpos h2 e2
    have hs1 : Real.sqrt v ≤ 2 ^ 64 := by
      rw [show (2 : ℝ) ^ 64 = Real.sqrt (2 ^ 128) by rw [show (2 : ℝ) ^ 128 = (2 ^ 64) ^ 2 by norm_num, Real.sqrt_sq (by positivity)]]
      exact Real.sqrt_le_sqrt (h'.trans (by norm_num))
    have hs2 : 1 / 2 ^ 63 ≤ Real.sqrt v := by
      rw [show (1 : ℝ) / 2 ^ 63 = Real.sqrt (1 / 2 ^ 126) by
        rw [show (1 : ℝ) / 2 ^ 126 = (1 / 2 ^ 63) ^ 2 by norm_num, Real.sqrt_sq (by positivity)]]
      exact Real.sqrt_le_sqrt h
    have h4 := roundsTo_mag 0x7f000000
    rw [mag_127] at h4
    have hr : r ≤ 0x7f000000 := h2.mono h4 (by
      push_cast
      refine (mul_le_mul_of_nonneg_right hs1 hp.le).trans ?_
      rw [← pow_add]
      exact pow_le_pow_right₀ (by norm_num) (by norm_num))
    have hc : (clip r).val = r := clip_of_le (hr.trans (by decide))
    have he := h2.error
    rw [max_eq_left] at he
    swap
    · refine le_trans ?_ (mul_le_mul_of_nonneg_right hs2 hp.le)
      norm_num
    rw [e1, h3]
    constructor
    · show (clip r).val < infBits
      rw [hc]
      exact lt_of_le_of_lt hr (by decide)
    · rw [toReal_num, hc]
      simp only [Bool.false_eq_true, if_false]
      have e3 : (mag r : ℝ) / 2 ^ 149 - Real.sqrt v = (mag r - Real.sqrt v * 2 ^ 149) / 2 ^ 149 := by
        rw [sub_div, mul_div_cancel_right₀ _ hp.ne']
      rw [e3, abs_div, abs_of_pos hp, div_le_iff₀ hp]
      refine he.trans (le_of_eq ?_)
      ring

theorem Approx.sqrt {k : Nat} {x : Binary32} {v : ℝ} (hx : Approx (2 * k) x v) (hk : 2 * k ≤ 2 ^ 23) (h : v ≤ 2 ^ 126)
    (h' : 1 / 2 ^ 125 ≤ v) : Approx (k + 1) (Binary32.sqrt x) (Real.sqrt v) := by
  obtain ⟨v', h1, h2⟩ := hx
  rw [hasValue_iff] at h1
  obtain ⟨h1, rfl⟩ := h1
  obtain ⟨hm, hm'⟩ := h2.le_two hk
  obtain ⟨h5, h6⟩ := sqrt_error h1 (le_two_pow hm' h') (two_pow_le hm h)
  refine ⟨_, hasValue_iff.2 ⟨h5, rfl⟩, ?_⟩
  rw [add_comm _ 1]
  exact (close_of_error (Real.sqrt_nonneg _) h6).trans h2.sqrt

end Bartz
