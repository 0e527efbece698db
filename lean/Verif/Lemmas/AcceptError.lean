import Verif.Lemmas.LeafError
import Verif.Spec.LogError
/-! # Rounding errors of the acceptance ratio in single precision -/

set_option autoImplicit false

namespace Bartz
open Jax Spec Jax.Binary32

theorem hasValue_of_ulp {z : Binary32} (hz : Finite z) (h : |Binary32.toReal z| ≤ ulp 0) : HasValue z 0 := by
  rw [hasValue_iff]
  refine ⟨hz, ?_⟩
  cases z with
  | nan => exact hz.elim
  | num s b =>
    rw [toReal_num]
    have h7 : |Binary32.toReal (num s b)| = (mag b : ℝ) / 2 ^ 149 := by
      unfold Binary32.toReal
      rw [abs_div, abs_of_pos (by positivity : (0 : ℝ) < 2 ^ 149), value_abs]
    rw [h7] at h
    have h8 : ulp 0 = 1 / 2 ^ 150 := by
      unfold ulp
      rw [abs_zero, max_eq_right (by positivity)]
      norm_num
    rw [h8, div_le_iff₀ (by positivity)] at h
    have h9 : (mag b : ℝ) < 1 := lt_of_le_of_lt h (by norm_num)
    have h10 : mag b = 0 := by
      have : mag b < 1 := by exact_mod_cast h9
      omega
    rw [h10]
    simp

theorem hasValue_zero_mul {x y : Binary32} {w : ℝ} (hx : HasValue x 0) (hy : HasValue y w) : HasValue (x * y) 0 := by
  rw [hasValue_iff] at hx hy
  obtain ⟨h1, h2⟩ := hx
  obtain ⟨h3, rfl⟩ := hy
  obtain ⟨h5, h6⟩ := mul_error h1 h3 (by rw [h2, zero_mul, abs_zero]; positivity)
  rw [h2, zero_mul, sub_zero] at h6
  exact hasValue_of_ulp h5 h6

theorem Close.log {k : Nat} {w v : ℝ} (h : Close k w v) (hv : 0 < v) : |Real.log w - Real.log v| ≤ k / 2 ^ 23 := by
  have hw := (h.inv hv).1
  have p1 := pow_pos base_pos k
  have hl : -(1 / 2 ^ 23 : ℝ) ≤ Real.log (1 - 1 / 2 ^ 24) := by
    refine le_trans ?_ (Real.one_sub_inv_le_log_of_pos base_pos)
    norm_num
  have hk : -(k / 2 ^ 23 : ℝ) ≤ k * Real.log (1 - 1 / 2 ^ 24) := by
    have := mul_le_mul_of_nonneg_left hl (Nat.cast_nonneg (α := ℝ) k)
    calc -(k / 2 ^ 23 : ℝ) = k * -(1 / 2 ^ 23) := by ring
      _ ≤ _ := this
  have h1 := Real.log_le_log (mul_pos hv p1) h.lower
  have h2 := Real.log_le_log (mul_pos hw p1) h.upper
  rw [Real.log_mul hv.ne' p1.ne', Real.log_pow] at h1
  rw [Real.log_mul hw.ne' p1.ne', Real.log_pow] at h2
  rw [abs_le]
  constructor <;> linarith

/-- sums with absolute errors -/
theorem add_near {X Y : Binary32} {x x' y y' e f A B : ℝ} (hX : HasValue X x') (hY : HasValue Y y') (hx : |x' - x| ≤ e)
    (hy : |y' - y| ≤ f) (hA : |x| ≤ A) (hB : |y| ≤ B) (hmax : A + B + e + f ≤ 2 ^ 127) :
    ∃ z, HasValue (X + Y) z ∧ |z - (x + y)| ≤ e + f + (A + B + e + f) / 2 ^ 24 := by
  rw [hasValue_iff] at hX hY
  obtain ⟨h1, rfl⟩ := hX
  obtain ⟨h2, rfl⟩ := hY
  have hd : |Binary32.toReal X + Binary32.toReal Y - (x + y)| ≤ e + f := by
    rw [show Binary32.toReal X + Binary32.toReal Y - (x + y) = (Binary32.toReal X - x) + (Binary32.toReal Y - y) by ring]
    exact (abs_add_le _ _).trans (add_le_add hx hy)
  have hs : |Binary32.toReal X + Binary32.toReal Y| ≤ A + B + e + f := by
    rw [show Binary32.toReal X + Binary32.toReal Y = (x + y) + (Binary32.toReal X + Binary32.toReal Y - (x + y)) by ring]
    refine (abs_add_le _ _).trans ?_
    have := (abs_add_le x y).trans (add_le_add hA hB)
    linarith
  obtain ⟨h3, h4⟩ := add_rel_error h1 h2 (hs.trans hmax)
  refine ⟨_, hasValue_iff.2 ⟨h3, rfl⟩, ?_⟩
  rw [show Binary32.toReal (X + Y) - (x + y) = (Binary32.toReal (X + Y) - (Binary32.toReal X + Binary32.toReal Y)) +
    (Binary32.toReal X + Binary32.toReal Y - (x + y)) by ring]
  refine (abs_add_le _ _).trans ?_
  have : |Binary32.toReal X + Binary32.toReal Y| / 2 ^ 24 ≤ (A + B + e + f) / 2 ^ 24 := by gcongr
  linarith

theorem hasValue_neg {X : Binary32} {x : ℝ} (h : HasValue X x) : HasValue (-X) (-x) := by
  rw [hasValue_iff] at h ⊢
  obtain ⟨h1, rfl⟩ := h
  exact neg_finite h1

theorem sub_near {X Y : Binary32} {x x' y y' e f A B : ℝ} (hX : HasValue X x') (hY : HasValue Y y') (hx : |x' - x| ≤ e)
    (hy : |y' - y| ≤ f) (hA : |x| ≤ A) (hB : |y| ≤ B) (hmax : A + B + e + f ≤ 2 ^ 127) :
    ∃ z, HasValue (X - Y) z ∧ |z - (x - y)| ≤ e + f + (A + B + e + f) / 2 ^ 24 := by
  have h := add_near hX (hasValue_neg hY) hx (y := -y) (f := f) (by rw [neg_sub_neg, abs_sub_comm]; exact hy) hA
    (by rw [abs_neg]; exact hB) hmax
  rw [← sub_eq_add_neg] at h
  exact h

/-- division of a number with absolute error by a number with relative error -/
theorem div_near {k : Nat} {X Y : Binary32} {x x' v e A : ℝ} (hX : HasValue X x') (hx : |x' - x| ≤ e * A) (he : e ≤ 1) (he0 : 0 ≤ e)
    (hA : |x| ≤ A) (hY : Approx k Y v) (hv : 0 < v) (hk : k ≤ 4095) (hmin : 1 / 2 ^ 126 ≤ A / v) (hmax : A / v ≤ 2 ^ 125) :
    ∃ z, HasValue (X / Y) z ∧ |z - x / v| ≤ A / v * (e + (2 * k + 5) / 2 ^ 24) := by
  obtain ⟨w, hY, hc⟩ := hY
  rw [hasValue_iff] at hX hY
  obtain ⟨h1, rfl⟩ := hX
  obtain ⟨h2, rfl⟩ := hY
  obtain ⟨hw, hc'⟩ := hc.inv hv
  have hce := hc'.error hk
  obtain ⟨x', hx'⟩ : ∃ x', x' = Binary32.toReal X := ⟨_, rfl⟩
  obtain ⟨w, hw'⟩ : ∃ w, w = Binary32.toReal Y := ⟨_, rfl⟩
  have hd := div_error h1 h2 hw.ne'
  rw [← hx'] at hx hd
  rw [← hw'] at hw hce hd
  have hA0 : 0 ≤ A := (abs_nonneg _).trans hA
  have hk' : (k : ℝ) ≤ 4095 := by exact_mod_cast hk
  have hk0 : (0 : ℝ) ≤ k := Nat.cast_nonneg k
  obtain ⟨θ, hθ⟩ : ∃ θ : ℝ, θ = ((k : ℝ) + 1) / 2 ^ 24 := ⟨_, rfl⟩
  have hθ0 : 0 ≤ θ := by rw [hθ]; positivity
  have hθ1 : θ ≤ 1 / 4 := by rw [hθ, div_le_iff₀ (by norm_num)]; norm_num; linarith
  rw [← hθ] at hce
  have hx2 : |x'| ≤ 2 * A := by
    rw [show x' = x + (x' - x) by ring]
    refine (abs_add_le _ _).trans ?_
    have : e * A ≤ 1 * A := mul_le_mul_of_nonneg_right he hA0
    linarith
  have hv0 : 0 < v⁻¹ := inv_pos.2 hv
  have h3 : |x' / w - x / v| ≤ A / v * (e + 2 * θ) := by
    rw [show x' / w - x / v = x' * (w⁻¹ - v⁻¹) + (x' - x) * v⁻¹ by rw [div_eq_mul_inv, div_eq_mul_inv]; ring]
    refine (abs_add_le _ _).trans ?_
    rw [abs_mul, abs_mul, abs_of_pos hv0]
    have a1 := mul_le_mul hx2 hce (abs_nonneg _) (by linarith : (0 : ℝ) ≤ 2 * A)
    have a2 := mul_le_mul_of_nonneg_right hx hv0.le
    refine (add_le_add a1 a2).trans (le_of_eq ?_)
    rw [div_eq_mul_inv]
    ring
  have hAv0 : 0 ≤ A / v := by positivity
  have h4 : |x' / w| ≤ 3 * (A / v) := by
    rw [div_eq_mul_inv, abs_mul]
    have : |w⁻¹| ≤ v⁻¹ * (5 / 4) := by
      rw [show w⁻¹ = v⁻¹ + (w⁻¹ - v⁻¹) by ring]
      refine (abs_add_le _ _).trans ?_
      rw [abs_of_pos hv0]
      have := mul_le_mul_of_nonneg_left hθ1 hv0.le
      linarith
    refine (mul_le_mul hx2 this (abs_nonneg _) (by linarith)).trans ?_
    rw [div_eq_mul_inv A v]
    have : 0 ≤ A * v⁻¹ := by positivity
    rw [show 2 * A * (v⁻¹ * (5 / 4)) = 5 / 2 * (A * v⁻¹) by ring]
    linarith
  obtain ⟨h5, h6⟩ := hd (h4.trans (by
    rw [show (2 : ℝ) ^ 127 = 4 * 2 ^ 125 by norm_num]
    linarith))
  refine ⟨_, hasValue_iff.2 ⟨h5, rfl⟩, ?_⟩
  have h7 := ulp_le h4 (by linarith)
  rw [show Binary32.toReal (X / Y) - x / v = (Binary32.toReal (X / Y) - x' / w) + (x' / w - x / v) by ring]
  refine (abs_add_le _ _).trans ((add_le_add (h6.trans h7) h3).trans (le_of_eq ?_))
  rw [hθ]
  ring

/-- the square of a number -/
theorem sq_near {X : Binary32} {x x' e A : ℝ} (hX : HasValue X x') (hx : |x' - x| ≤ e * A) (he : e ≤ 1 / 4) (he0 : 0 ≤ e)
    (hA : |x| ≤ A) (hmin : 1 / 2 ^ 63 ≤ A) (hmax : A ≤ 2 ^ 62) :
    ∃ z, HasValue (X * X) z ∧ |z - x ^ 2| ≤ (9 / 4 * e + 2 / 2 ^ 24) * A ^ 2 := by
  rw [hasValue_iff] at hX
  obtain ⟨h1, rfl⟩ := hX
  obtain ⟨x', hx'⟩ : ∃ x', x' = Binary32.toReal X := ⟨_, rfl⟩
  have hd := mul_error h1 h1
  rw [← hx'] at hx hd
  have hA0 : 0 ≤ A := (abs_nonneg _).trans hA
  have hx2 : |x'| ≤ (1 + e) * A := by
    rw [show x' = x + (x' - x) by ring]
    refine (abs_add_le _ _).trans ?_
    linarith
  have hx3 : |x'| ≤ 5 / 4 * A := hx2.trans (mul_le_mul_of_nonneg_right (by linarith) hA0)
  have h2 : |x' * x'| ≤ 2 * A ^ 2 := by
    rw [abs_mul]
    refine (mul_le_mul hx3 hx3 (abs_nonneg _) (by positivity)).trans ?_
    nlinarith [sq_nonneg A]
  have h3 : |x' * x' - x ^ 2| ≤ 9 / 4 * e * A ^ 2 := by
    rw [show x' * x' - x ^ 2 = (x' - x) * (x' + x) by ring, abs_mul]
    have : |x' + x| ≤ 9 / 4 * A := (abs_add_le _ _).trans (by linarith)
    refine (mul_le_mul hx this (abs_nonneg _) (by positivity)).trans (le_of_eq ?_)
    ring
  have hA1 : (1 : ℝ) / 2 ^ 126 ≤ A ^ 2 := by
    rw [show (1 : ℝ) / 2 ^ 126 = (1 / 2 ^ 63) ^ 2 by norm_num]
    exact pow_le_pow_left₀ (by positivity) hmin 2
  have hA2 : A ^ 2 ≤ 2 ^ 124 := by
    rw [show (2 : ℝ) ^ 124 = (2 ^ 62) ^ 2 by norm_num]
    exact pow_le_pow_left₀ hA0 hmax 2
  obtain ⟨h4, h5⟩ := hd (h2.trans (by
    rw [show (2 : ℝ) ^ 127 = 8 * 2 ^ 124 by norm_num]
    have : (0 : ℝ) ≤ 2 ^ 124 := by positivity
    linarith))
  refine ⟨_, hasValue_iff.2 ⟨h4, rfl⟩, ?_⟩
  have h6 := ulp_le h2 (by linarith [sq_nonneg A])
  rw [show Binary32.toReal (X * X) - x ^ 2 = (Binary32.toReal (X * X) - x' * x') + (x' * x' - x ^ 2) by ring]
  refine (abs_add_le _ _).trans ((add_le_add (h5.trans h6) h3).trans (le_of_eq ?_))
  ring

/-- multiplication by a number with relative error -/
theorem mul_near {k : Nat} {X Y : Binary32} {x x' v e A : ℝ} (hX : HasValue X x') (hx : |x' - x| ≤ e * A) (he : e ≤ 1) (he0 : 0 ≤ e)
    (hA : |x| ≤ A) (hY : Approx k Y v) (hk : k ≤ 4095) (hmax : v * A ≤ 2 ^ 125) :
    ∃ z, HasValue (Y * X) z ∧ |z - v * x| ≤ v * A * (e + (2 * k + 5) / 2 ^ 24) + 1 / 2 ^ 150 := by
  obtain ⟨w, hY, hc⟩ := hY
  rw [hasValue_iff] at hX hY
  obtain ⟨h1, rfl⟩ := hX
  obtain ⟨h2, rfl⟩ := hY
  have hce := hc.error hk
  have hv0 := hc.nonneg
  obtain ⟨x', hx'⟩ : ∃ x', x' = Binary32.toReal X := ⟨_, rfl⟩
  obtain ⟨w, hw'⟩ : ∃ w, w = Binary32.toReal Y := ⟨_, rfl⟩
  have hd := mul_error h2 h1
  rw [← hx'] at hx hd
  rw [← hw'] at hce hd
  have hA0 : 0 ≤ A := (abs_nonneg _).trans hA
  have hk' : (k : ℝ) ≤ 4095 := by exact_mod_cast hk
  have hk0 : (0 : ℝ) ≤ k := Nat.cast_nonneg k
  obtain ⟨θ, hθ⟩ : ∃ θ : ℝ, θ = ((k : ℝ) + 1) / 2 ^ 24 := ⟨_, rfl⟩
  have hθ0 : 0 ≤ θ := by rw [hθ]; positivity
  have hθ1 : θ ≤ 1 / 4 := by rw [hθ, div_le_iff₀ (by norm_num)]; norm_num; linarith
  rw [← hθ] at hce
  have hx2 : |x'| ≤ 2 * A := by
    rw [show x' = x + (x' - x) by ring]
    refine (abs_add_le _ _).trans ?_
    have : e * A ≤ 1 * A := mul_le_mul_of_nonneg_right he hA0
    linarith
  have h3 : |w * x' - v * x| ≤ v * A * (e + 2 * θ) := by
    rw [show w * x' - v * x = x' * (w - v) + (x' - x) * v by ring]
    refine (abs_add_le _ _).trans ?_
    rw [abs_mul, abs_mul, abs_of_nonneg hv0]
    have a1 := mul_le_mul hx2 hce (abs_nonneg _) (by linarith : (0 : ℝ) ≤ 2 * A)
    have a2 := mul_le_mul_of_nonneg_right hx hv0
    refine (add_le_add a1 a2).trans (le_of_eq ?_)
    ring
  have hAv0 : 0 ≤ v * A := by positivity
  have h4 : |w * x'| ≤ 3 * (v * A) := by
    rw [abs_mul]
    have : |w| ≤ v * (5 / 4) := by
      rw [show w = v + (w - v) by ring]
      refine (abs_add_le _ _).trans ?_
      rw [abs_of_nonneg hv0]
      have := mul_le_mul_of_nonneg_left hθ1 hv0
      linarith
    refine (mul_le_mul this hx2 (abs_nonneg _) (by positivity)).trans ?_
    rw [show v * (5 / 4) * (2 * A) = 5 / 2 * (v * A) by ring]
    linarith
  obtain ⟨h5, h6⟩ := hd (h4.trans (by
    rw [show (2 : ℝ) ^ 127 = 4 * 2 ^ 125 by norm_num]
    linarith))
  refine ⟨_, hasValue_iff.2 ⟨h5, rfl⟩, ?_⟩
  have h7 := ulp_le (M := 3 * (v * A) + 1 / 2 ^ 126) (h4.trans (by
    have : (0 : ℝ) ≤ 1 / 2 ^ 126 := by positivity
    linarith)) (by linarith)
  rw [show Binary32.toReal (Y * X) - v * x = (Binary32.toReal (Y * X) - w * x') + (w * x' - v * x) by ring]
  refine (abs_add_le _ _).trans ((add_le_add (h6.trans h7) h3).trans (le_of_eq ?_))
  rw [hθ]
  ring

/-- the variance of the sum of the datapoints in a leaf, divided by their number -/
theorem sigma_leaf_approx {sigma2 : Binary32} {σ : ℝ} (hs : HasValue sigma2 σ) (hσ : 1 / 2 ^ 40 ≤ σ) (hσ' : σ ≤ 2 ^ 40)
    {c n : Nat} (hc : c ≤ 2 ^ 24) (hn : 1 ≤ n) (hn' : n ≤ 2 ^ 24) :
    Approx 3 (sigma2 + (c : Binary32) * (1 / (n : Binary32))) (σ + c / n) ∧ 1 / 2 ^ 40 ≤ σ + c / n ∧ σ + c / n ≤ 2 ^ 41 := by
  have hσ0 : 0 < σ := lt_of_lt_of_le (by positivity) hσ
  have hn0 : (1 : ℝ) ≤ n := by exact_mod_cast hn
  have hn1 : (n : ℝ) ≤ 2 ^ 24 := by exact_mod_cast hn'
  have hc1 : (c : ℝ) ≤ 2 ^ 24 := by exact_mod_cast hc
  have hc0 : (0 : ℝ) ≤ c := Nat.cast_nonneg c
  have hinv : 1 / 2 ^ 24 ≤ 1 / (n : ℝ) := one_div_le_one_div_of_le (by linarith) hn1
  have hinv' : 1 / (n : ℝ) ≤ 1 := by rw [div_le_one (by linarith)]; exact hn0
  have h1 : Approx 1 (1 / (n : Binary32)) (1 / (n : ℝ)) :=
    (approx_exact hasValue_one zero_le_one).div (approx_natCast hn') (by norm_num) (by linarith)
      (hinv'.trans (by norm_num)) (le_trans (by norm_num) hinv)
  have hcn : (c : ℝ) / n ≤ 2 ^ 24 := (div_le_self hc0 hn0).trans hc1
  have hcn0 : 0 ≤ (c : ℝ) / n := by positivity
  have h2 : Approx 2 ((c : Binary32) * (1 / (n : Binary32))) (c / n) := by
    rcases Nat.eq_zero_or_pos c with rfl | hcp
    · obtain ⟨w, hw, _⟩ := h1
      have h0 := hasValue_natCast (n := 0) (by norm_num)
      rw [Nat.cast_zero (R := ℝ)] at h0 ⊢
      rw [zero_div]
      exact (approx_exact (hasValue_zero_mul h0 hw) le_rfl).mono (by norm_num)
    · have hcp' : (1 : ℝ) ≤ c := by exact_mod_cast hcp
      have e : (c : ℝ) / n = c * (1 / n) := by ring
      have hge : 1 / 2 ^ 24 ≤ (c : ℝ) / n := by
        rw [e]
        exact hinv.trans (le_mul_of_one_le_left (by positivity) hcp')
      rw [e]
      rw [e] at hcn hge
      exact (approx_natCast hc).mul h1 (by norm_num) (hcn.trans (by norm_num)) (le_trans (by norm_num) hge)
  have h40 : (2 : ℝ) ^ 24 ≤ 2 ^ 40 := by norm_num
  have h41 : (2 : ℝ) ^ 41 = 2 ^ 40 + 2 ^ 40 := by norm_num
  have hle : σ + c / n ≤ 2 ^ 41 := by rw [h41]; linarith
  exact ⟨((approx_exact hs hσ0.le).mono (by norm_num : 0 ≤ 2)).add h2 (by norm_num) (hle.trans (by norm_num)), by linarith, hle⟩

/-- the logarithm of the ratio of determinants -/
theorem sqrt_term_error {P : Binary32.Platform} {δ : ℝ} (hP : LogError P δ) (hδ : 0 ≤ δ) (hδ' : δ ≤ 1 / 8)
    {sigma2 : Binary32} {σ : ℝ} (hs : HasValue sigma2 σ) (hσ : 1 / 2 ^ 40 ≤ σ) (hσ' : σ ≤ 2 ^ 40)
    {l r n : Nat} (hc : l + r ≤ 2 ^ 20) (hn : 1 ≤ n) (hn' : n ≤ 2 ^ 24) :
    ∃ z, HasValue (P.log (sigma2 * (sigma2 + ((l + r : Nat) : Binary32) * (1 / (n : Binary32))) /
        ((sigma2 + (l : Binary32) * (1 / (n : Binary32))) * (sigma2 + (r : Binary32) * (1 / (n : Binary32))))) / ((2 : Nat) : Binary32)) z ∧
      |z - Real.log (σ * (σ + (l + r : Nat) / n) / ((σ + l / n) * (σ + r / n))) / 2| ≤
        δ * (1 + |Real.log (σ * (σ + (l + r : Nat) / n) / ((σ + l / n) * (σ + r / n))) / 2|) +
        (14 + 2 * |Real.log (σ * (σ + (l + r : Nat) / n) / ((σ + l / n) * (σ + r / n))) / 2|) / 2 ^ 24 := by
  have hσ0 : 0 < σ := lt_of_lt_of_le (by positivity) hσ
  have hn0 : (1 : ℝ) ≤ n := by exact_mod_cast hn
  have h20 : (2 : Nat) ^ 20 ≤ 2 ^ 24 := by norm_num
  obtain ⟨t1, t2, t3⟩ := sigma_leaf_approx hs hσ hσ' (hc.trans h20) hn hn'
  obtain ⟨l1, l2, l3⟩ := sigma_leaf_approx hs hσ hσ' (c := l) (by omega) hn hn'
  obtain ⟨r1, r2, r3⟩ := sigma_leaf_approx hs hσ hσ' (c := r) (by omega) hn hn'
  have hl0 : (0 : ℝ) ≤ l / n := by positivity
  have hr0 : (0 : ℝ) ≤ r / n := by positivity
  have hlr : (σ + (l : ℝ) / n) * (σ + r / n) = σ * (σ + (l + r : Nat) / n) + l / n * (r / n) := by
    push_cast; ring
  have hcl : (l : ℝ) / n ≤ 2 ^ 20 := (div_le_self (Nat.cast_nonneg l) hn0).trans (by exact_mod_cast (by omega : l ≤ 2 ^ 20))
  have hcr : (r : ℝ) / n ≤ 2 ^ 20 := (div_le_self (Nat.cast_nonneg r) hn0).trans (by exact_mod_cast (by omega : r ≤ 2 ^ 20))
  obtain ⟨T, hT⟩ : ∃ T : ℝ, T = σ + (l + r : Nat) / n := ⟨_, rfl⟩
  obtain ⟨L, hL⟩ : ∃ L : ℝ, L = σ + l / n := ⟨_, rfl⟩
  obtain ⟨R, hR⟩ : ∃ R : ℝ, R = σ + r / n := ⟨_, rfl⟩
  rw [← hT] at t1 t2 t3 hlr ⊢
  rw [← hL] at l1 l2 l3 hlr ⊢
  rw [← hR] at r1 r2 r3 hlr ⊢
  have hT0 : 0 < T := lt_of_lt_of_le (by positivity) t2
  have hL0 : 0 < L := lt_of_lt_of_le (by positivity) l2
  have hR0 : 0 < R := lt_of_lt_of_le (by positivity) r2
  have b1 : 1 / 2 ^ 80 ≤ σ * T := by
    refine le_trans (le_of_eq ?_) (mul_le_mul hσ t2 (by positivity) hσ0.le); norm_num
  have b2 : σ * T ≤ 2 ^ 81 := by
    refine (mul_le_mul hσ' t3 hT0.le (by positivity)).trans (le_of_eq ?_); norm_num
  have b3 : 1 / 2 ^ 80 ≤ L * R := by
    refine le_trans (le_of_eq ?_) (mul_le_mul l2 r2 (by positivity) hL0.le); norm_num
  have b4 : L * R ≤ 2 ^ 82 := by
    refine (mul_le_mul l3 r3 hR0.le (by positivity)).trans (le_of_eq ?_); norm_num
  have b5 : L * R ≤ σ * T * 2 ^ 121 := by
    have h1 : (l : ℝ) / n * (r / n) ≤ 2 ^ 20 * 2 ^ 20 := mul_le_mul hcl hcr hr0 (by positivity)
    have h2 : (2 : ℝ) ^ 20 * 2 ^ 20 ≤ σ * T * 2 ^ 120 :=
      le_trans (le_of_eq (by norm_num)) (mul_le_mul_of_nonneg_right b1 (by positivity : (0 : ℝ) ≤ 2 ^ 120))
    have h3 : σ * T ≤ σ * T * 2 ^ 120 := le_mul_of_one_le_right (by positivity) (by norm_num)
    have h4 : σ * T * 2 ^ 121 = σ * T * 2 ^ 120 + σ * T * 2 ^ 120 := by ring
    rw [hlr, h4]
    linarith
  have b6 : σ * T ≤ L * R := by rw [hlr]; exact le_add_of_nonneg_right (by positivity)
  have hLR0 : 0 < L * R := by positivity
  have b7 : 1 / 2 ^ 121 ≤ σ * T / (L * R) := by
    rw [div_le_div_iff₀ (by positivity) hLR0, one_mul]
    exact b5
  have b8 : σ * T / (L * R) ≤ 1 := by rw [div_le_one hLR0]; exact b6
  have a1 : Approx 4 _ (σ * T) := (approx_exact hs hσ0.le).mul t1 (by norm_num) (b2.trans (by norm_num)) (le_trans (by norm_num) b1)
  have a2 : Approx 7 _ (L * R) := l1.mul r1 (by norm_num) (b4.trans (by norm_num)) (le_trans (by norm_num) b3)
  obtain ⟨w, hw, hcl⟩ := a1.div a2 (by norm_num) hLR0 (b8.trans (by norm_num)) (le_trans (by norm_num) b7)
  obtain ⟨A, hA⟩ : ∃ A : ℝ, A = σ * T / (L * R) := ⟨_, rfl⟩
  rw [← hA] at hcl b7 b8 ⊢
  have hA0 : 0 < A := lt_of_lt_of_le (by positivity) b7
  have hlog := hcl.log hA0
  have hw1 : 1 / 2 ^ 126 ≤ w := le_two_pow ((hcl.le_two (by norm_num)).2) (le_trans (by norm_num) b7)
  obtain ⟨x, hx1, hx2⟩ := hP.log _ w hw hw1
  have e2 : (((4 + 7 + 1 : Nat)) : ℝ) / 2 ^ 23 = 24 / 2 ^ 24 := by norm_num
  rw [e2] at hlog
  obtain ⟨S, hS⟩ : ∃ S : ℝ, S = |Real.log A / 2| := ⟨_, rfl⟩
  have hS0 : 0 ≤ S := by rw [hS]; positivity
  have hlA : |Real.log A| = 2 * S := by rw [hS, abs_div, abs_of_pos (by norm_num : (0 : ℝ) < 2)]; ring
  have hlw : |Real.log w| ≤ 2 * S + 24 / 2 ^ 24 := by
    rw [show Real.log w = Real.log A + (Real.log w - Real.log A) by ring]
    refine (abs_add_le _ _).trans ?_
    rw [hlA]; linarith
  have hx3 : |x - Real.log A| ≤ 24 / 2 ^ 24 + δ * (2 + 2 * S) := by
    rw [show x - Real.log A = (x - Real.log w) + (Real.log w - Real.log A) by ring]
    refine (abs_add_le _ _).trans ?_
    have : δ * (1 + |Real.log w|) ≤ δ * (2 + 2 * S) := by
      refine mul_le_mul_of_nonneg_left ?_ hδ
      have : (24 : ℝ) / 2 ^ 24 ≤ 1 := by norm_num
      linarith
    linarith
  have hδS : δ * (2 + 2 * S) ≤ 1 / 8 * (2 + 2 * S) := mul_le_mul_of_nonneg_right hδ' (by linarith)
  have hx4 : |x| ≤ 1 + 4 * S := by
    rw [show x = Real.log A + (x - Real.log A) by ring]
    refine (abs_add_le _ _).trans ?_
    rw [hlA]
    have : (24 : ℝ) / 2 ^ 24 ≤ 1 / 8 := by norm_num
    linarith
  have hSle : S ≤ 2 ^ 121 := by
    have h1 : Real.log (1 / 2 ^ 121) ≤ Real.log A := Real.log_le_log (by positivity) b7
    have h2 : Real.log A ≤ 0 := Real.log_nonpos hA0.le b8
    have h3 : -(2 : ℝ) ^ 121 ≤ Real.log (1 / 2 ^ 121) := by
      rw [one_div, Real.log_inv]
      have := Real.log_le_sub_one_of_pos (x := (2 : ℝ) ^ 121) (by positivity)
      linarith
    rw [hS, abs_div, abs_of_nonpos h2, abs_of_pos (by norm_num : (0 : ℝ) < 2)]
    linarith
  have h2v := hasValue_natCast (n := 2) (by norm_num)
  rw [show ((2 : Nat) : ℝ) = 2 from Nat.cast_ofNat] at h2v
  rw [hasValue_iff] at hx1 h2v
  obtain ⟨g1, rfl⟩ := hx1
  obtain ⟨g2, g3⟩ := h2v
  obtain ⟨y, hy⟩ : ∃ y, y = Binary32.toReal (P.log (sigma2 * (sigma2 + ((l + r : Nat) : Binary32) * (1 / (n : Binary32))) /
        ((sigma2 + (l : Binary32) * (1 / (n : Binary32))) * (sigma2 + (r : Binary32) * (1 / (n : Binary32)))))) := ⟨_, rfl⟩
  have hd := div_error g1 g2 (by rw [g3]; norm_num)
  rw [g3] at hd
  rw [← hy] at hd hx3 hx4
  have hy2 : |y / 2| ≤ 1 / 2 + 2 * S := by
    rw [abs_div, abs_of_pos (by norm_num : (0 : ℝ) < 2)]; linarith
  obtain ⟨g4, g5⟩ := hd (hy2.trans (by
    have : (2 : ℝ) ^ 127 = 64 * 2 ^ 121 := by norm_num
    have : (1 : ℝ) ≤ 2 ^ 121 := by norm_num
    linarith))
  have h126 : (1 : ℝ) / 2 ^ 126 ≤ 1 / 2 := by norm_num
  have g6 := ulp_le hy2 (by linarith)
  refine ⟨_, hasValue_iff.2 ⟨g4, rfl⟩, ?_⟩
  rw [← hS]
  have g7 : |y / 2 - Real.log A / 2| ≤ 12 / 2 ^ 24 + δ * (1 + S) := by
    rw [← sub_div, abs_div, abs_of_pos (by norm_num : (0 : ℝ) < 2), div_le_iff₀ (by norm_num)]
    refine hx3.trans (le_of_eq ?_)
    ring
  obtain ⟨z, hz⟩ : ∃ z, z = Binary32.toReal (P.log (sigma2 * (sigma2 + ((l + r : Nat) : Binary32) * (1 / (n : Binary32))) /
        ((sigma2 + (l : Binary32) * (1 / (n : Binary32))) * (sigma2 + (r : Binary32) * (1 / (n : Binary32))))) / ((2 : Nat) : Binary32)) := ⟨_, rfl⟩
  rw [← hz] at g5 ⊢
  rw [show z - Real.log A / 2 = (z - y / 2) + (y / 2 - Real.log A / 2) by ring]
  refine (abs_add_le _ _).trans ?_
  have := g5.trans g6
  linarith

/-- one of the terms in the exponent -/
theorem quad_near {X Y : Binary32} {x x' v e A : ℝ} (hX : HasValue X x') (hx : |x' - x| ≤ e * A) (he : e ≤ 1 / 4) (he0 : 0 ≤ e)
    (hA : |x| ≤ A) (hmin : 1 / 2 ^ 40 ≤ A) (hmax : A ≤ 2 ^ 40) (hY : Approx 3 Y v) (hv : 1 / 2 ^ 40 ≤ v) (hv' : v ≤ 2 ^ 41) :
    ∃ z, HasValue (X * X / Y) z ∧ |z - x ^ 2 / v| ≤ (9 / 4 * e + 13 / 2 ^ 24) * (A ^ 2 / v) ∧ |x ^ 2 / v| ≤ A ^ 2 / v ∧
      A ^ 2 / v ≤ 2 ^ 120 := by
  have hv0 : 0 < v := lt_of_lt_of_le (by positivity) hv
  have hA0 : 0 ≤ A := (abs_nonneg _).trans hA
  obtain ⟨z, h1, h2⟩ := sq_near hX hx he he0 hA (le_trans (by norm_num) hmin) (hmax.trans (by norm_num))
  have hx2 : |x ^ 2| ≤ A ^ 2 := by rw [abs_pow]; exact pow_le_pow_left₀ (abs_nonneg _) hA 2
  have hA1 : (1 : ℝ) / 2 ^ 80 ≤ A ^ 2 := by
    rw [show (1 : ℝ) / 2 ^ 80 = (1 / 2 ^ 40) ^ 2 by norm_num]
    exact pow_le_pow_left₀ (by positivity) hmin 2
  have hA2 : A ^ 2 ≤ 2 ^ 80 := by
    rw [show (2 : ℝ) ^ 80 = (2 ^ 40) ^ 2 by norm_num]
    exact pow_le_pow_left₀ hA0 hmax 2
  have b1 : 1 / 2 ^ 126 ≤ A ^ 2 / v := by
    rw [div_le_div_iff₀ (by positivity) hv0, one_mul]
    calc v ≤ 2 ^ 41 := hv'
      _ ≤ 1 / 2 ^ 80 * 2 ^ 126 := by norm_num
      _ ≤ _ := mul_le_mul_of_nonneg_right hA1 (by positivity)
  have b2 : A ^ 2 / v ≤ 2 ^ 120 := by
    rw [div_le_iff₀ hv0]
    calc A ^ 2 ≤ 2 ^ 80 := hA2
      _ = 2 ^ 120 * (1 / 2 ^ 40) := by norm_num
      _ ≤ _ := mul_le_mul_of_nonneg_left hv (by positivity)
  obtain ⟨y, h3, h4⟩ := div_near h1 h2 (by
    have : (2 : ℝ) / 2 ^ 24 ≤ 1 / 8 := by norm_num
    linarith) (by positivity) hx2 hY hv0 (by norm_num) b1 (b2.trans (by norm_num))
  refine ⟨y, h3, h4.trans (le_of_eq ?_), ?_, b2⟩
  · push_cast; ring
  · rw [abs_div, abs_of_pos hv0]; exact div_le_div_of_nonneg_right hx2 hv0.le

theorem exp_factor_approx {sigma2 : Binary32} {σ : ℝ} (hs : HasValue sigma2 σ) (hσ : 1 / 2 ^ 40 ≤ σ) (hσ' : σ ≤ 2 ^ 40)
    {n : Nat} (hn : 1 ≤ n) (hn' : n ≤ 2 ^ 24) :
    Approx 3 ((1 / (n : Binary32)) / (((2 : Nat) : Binary32) * sigma2)) (1 / n / (2 * σ)) := by
  have hσ0 : 0 < σ := lt_of_lt_of_le (by positivity) hσ
  have hn0 : (1 : ℝ) ≤ n := by exact_mod_cast hn
  have hn1 : (n : ℝ) ≤ 2 ^ 24 := by exact_mod_cast hn'
  have hinv : 1 / 2 ^ 24 ≤ 1 / (n : ℝ) := one_div_le_one_div_of_le (by linarith) hn1
  have hinv' : 1 / (n : ℝ) ≤ 1 := by rw [div_le_one (by linarith)]; exact hn0
  have a1 : Approx 1 (1 / (n : Binary32)) (1 / (n : ℝ)) :=
    (approx_exact hasValue_one zero_le_one).div (approx_natCast hn') (by norm_num) (by linarith)
      (hinv'.trans (by norm_num)) (le_trans (by norm_num) hinv)
  have h2v := approx_natCast (n := 2) (by norm_num)
  rw [show ((2 : Nat) : ℝ) = 2 from Nat.cast_ofNat] at h2v
  have h81 : (2 : ℝ) * 2 ^ 40 ≤ 2 ^ 126 := by norm_num
  have h81' : (1 : ℝ) / 2 ^ 125 ≤ 2 * (1 / 2 ^ 40) := by norm_num
  have a2 : Approx 1 (((2 : Nat) : Binary32) * sigma2) (2 * σ) :=
    h2v.mul (approx_exact hs hσ0.le) (by norm_num) (by linarith) (by linarith)
  have h2σ : 0 < 2 * σ := by linarith
  refine a1.div a2 (by norm_num) h2σ ?_ ?_
  · rw [div_le_iff₀ h2σ]
    calc 1 / (n : ℝ) ≤ 1 := hinv'
      _ ≤ 2 ^ 126 * (2 * (1 / 2 ^ 40)) := by norm_num
      _ ≤ _ := mul_le_mul_of_nonneg_left (by linarith) (by positivity)
  · rw [le_div_iff₀ h2σ]
    calc 1 / 2 ^ 125 * (2 * σ) ≤ 1 / 2 ^ 125 * (2 * 2 ^ 40) := mul_le_mul_of_nonneg_left (by linarith) (by positivity)
      _ ≤ 1 / 2 ^ 24 := by norm_num
      _ ≤ _ := hinv

theorem quad_sum {X Y Z : Binary32} {q1 q2 q3 f1 f2 f3 Q1 Q2 Q3 e : ℝ} (p1 : HasValue X q1) (p5 : HasValue Y q2) (p9 : HasValue Z q3)
    (p2 : |q1 - f1| ≤ (9 / 4 * e + 13 / 2 ^ 24) * Q1) (p6 : |q2 - f2| ≤ (9 / 4 * e + 13 / 2 ^ 24) * Q2)
    (p10 : |q3 - f3| ≤ (9 / 4 * (e + 2 / 2 ^ 24) + 13 / 2 ^ 24) * Q3) (p3 : |f1| ≤ Q1) (p7 : |f2| ≤ Q2) (p11 : |f3| ≤ Q3)
    (p4 : Q1 ≤ 2 ^ 120) (p8 : Q2 ≤ 2 ^ 120) (p12 : Q3 ≤ 2 ^ 120) (he0 : 0 ≤ e) (he : e ≤ 1 / 8) :
    ∃ z, HasValue (X + Y - Z) z ∧ |z - (f1 + f2 - f3)| ≤ (9 / 4 * e + 22 / 2 ^ 24) * (Q1 + Q2 + Q3) ∧ |f1 + f2 - f3| ≤ Q1 + Q2 + Q3 := by
  have P1 := (abs_nonneg _).trans p3
  have P2 := (abs_nonneg _).trans p7
  have P3 := (abs_nonneg _).trans p11
  obtain ⟨κ, hκ⟩ : ∃ κ : ℝ, κ = 9 / 4 * e + 18 / 2 ^ 24 := ⟨_, rfl⟩
  have hκ0 : 0 ≤ κ := by rw [hκ]; positivity
  have hκ1 : κ ≤ 1 / 2 := by
    rw [hκ]
    have : (18 : ℝ) / 2 ^ 24 ≤ 1 / 8 := by norm_num
    linarith
  have u1 : |q1 - f1| ≤ κ * Q1 := p2.trans (mul_le_mul_of_nonneg_right (by rw [hκ]; linarith) P1)
  have u2 : |q2 - f2| ≤ κ * Q2 := p6.trans (mul_le_mul_of_nonneg_right (by rw [hκ]; linarith) P2)
  have u3 : |q3 - f3| ≤ κ * Q3 := p10.trans (mul_le_mul_of_nonneg_right (by rw [hκ]; linarith) P3)
  have k1 : κ * Q1 ≤ 1 / 2 * Q1 := mul_le_mul_of_nonneg_right hκ1 P1
  have k2 : κ * Q2 ≤ 1 / 2 * Q2 := mul_le_mul_of_nonneg_right hκ1 P2
  have k3 : κ * Q3 ≤ 1 / 2 * Q3 := mul_le_mul_of_nonneg_right hκ1 P3
  have h127 : (2 : ℝ) ^ 127 = 128 * 2 ^ 120 := by norm_num
  have h120 : (0 : ℝ) < 2 ^ 120 := by positivity
  obtain ⟨s1, v1, v2⟩ := add_near p1 p5 u1 u2 p3 p7 (by rw [h127]; linarith)
  have v3 : |s1 - (f1 + f2)| ≤ κ * (Q1 + Q2) + 3 / 2 * (Q1 + Q2) / 2 ^ 24 := by
    refine v2.trans ?_
    have : (Q1 + Q2 + κ * Q1 + κ * Q2) / 2 ^ 24 ≤ 3 / 2 * (Q1 + Q2) / 2 ^ 24 := div_le_div_of_nonneg_right (by linarith) (by norm_num)
    linarith
  have hsmall : 3 / 2 * (Q1 + Q2) / 2 ^ 24 ≤ 1 / 8 * (Q1 + Q2) := by
    rw [show 3 / 2 * (Q1 + Q2) / 2 ^ 24 = 3 / 2 / 2 ^ 24 * (Q1 + Q2) by ring]
    exact mul_le_mul_of_nonneg_right (by norm_num) (by linarith)
  obtain ⟨s2, v4, v5⟩ := sub_near v1 p9 v3 u3 ((abs_add_le _ _).trans (add_le_add p3 p7)) p11 (by rw [h127]; linarith)
  obtain ⟨Q, hQ⟩ : ∃ Q : ℝ, Q = Q1 + Q2 + Q3 := ⟨_, rfl⟩
  have hQ0 : 0 ≤ Q := by rw [hQ]; linarith
  have v6 : |s2 - (f1 + f2 - f3)| ≤ (κ + 4 / 2 ^ 24) * Q := by
    refine v5.trans ?_
    have h1 : (Q1 + Q2 + Q3 + (κ * (Q1 + Q2) + 3 / 2 * (Q1 + Q2) / 2 ^ 24) + κ * Q3) / 2 ^ 24 ≤ (2 * Q) / 2 ^ 24 := by
      refine div_le_div_of_nonneg_right ?_ (by norm_num)
      rw [hQ]; linarith
    have h2 : 3 / 2 * (Q1 + Q2) / 2 ^ 24 ≤ 2 * Q / 2 ^ 24 := by
      refine div_le_div_of_nonneg_right ?_ (by norm_num)
      rw [hQ]; linarith
    have e1 : (κ + 4 / 2 ^ 24) * Q = κ * (Q1 + Q2) + κ * Q3 + 2 * Q / 2 ^ 24 + 2 * Q / 2 ^ 24 := by rw [hQ]; ring
    rw [e1]
    linarith
  have v7 : |f1 + f2 - f3| ≤ Q := by
    rw [hQ]
    refine (abs_sub _ _).trans ?_
    have := abs_add_le f1 f2
    linarith
  refine ⟨s2, v4, ?_, by rw [← hQ]; exact v7⟩
  rw [← hQ]
  refine v6.trans (le_of_eq ?_)
  rw [hκ]
  ring

/-- the exponent -/
theorem exp_error {sigma2 : Binary32} {σ : ℝ} (hs : HasValue sigma2 σ) (hσ : 1 / 2 ^ 40 ≤ σ) (hσ' : σ ≤ 2 ^ 40)
    {l r n : Nat} (hc : l + r ≤ 2 ^ 20) (hn : 1 ≤ n) (hn' : n ≤ 2 ^ 24) {U V : Binary32} {x x' y y' e A B T : ℝ}
    (hU : HasValue U x') (hV : HasValue V y') (hx : |x' - x| ≤ e * A) (hy : |y' - y| ≤ e * B) (he : e ≤ 1 / 8) (he0 : 0 ≤ e)
    (hA : |x| ≤ A) (hB : |y| ≤ B) (hA1 : 1 / 2 ^ 40 ≤ A) (hB1 : 1 / 2 ^ 40 ≤ B) (hmax : A + B ≤ 2 ^ 40)
    (hT : T = 1 / n / (2 * σ) * (A ^ 2 / (σ + l / n) + B ^ 2 / (σ + r / n) + (A + B) ^ 2 / (σ + (l + r : Nat) / n)))
    (hmax' : T ≤ 2 ^ 100) :
    (∃ z, HasValue ((1 / (n : Binary32)) / (((2 : Nat) : Binary32) * sigma2) *
      (U * U / (sigma2 + (l : Binary32) * (1 / (n : Binary32))) + V * V / (sigma2 + (r : Binary32) * (1 / (n : Binary32))) -
        (U + V) * (U + V) / (sigma2 + ((l + r : Nat) : Binary32) * (1 / (n : Binary32))))) z ∧
      |z - 1 / n / (2 * σ) * (x ^ 2 / (σ + l / n) + y ^ 2 / (σ + r / n) - (x + y) ^ 2 / (σ + (l + r : Nat) / n))| ≤
        T * (9 / 4 * e + 36 / 2 ^ 24) + 1 / 2 ^ 150) ∧
    |1 / n / (2 * σ) * (x ^ 2 / (σ + l / n) + y ^ 2 / (σ + r / n) - (x + y) ^ 2 / (σ + (l + r : Nat) / n))| ≤ T := by
  have hσ0 : 0 < σ := lt_of_lt_of_le (by positivity) hσ
  have hn0 : (1 : ℝ) ≤ n := by exact_mod_cast hn
  have hn1 : (n : ℝ) ≤ 2 ^ 24 := by exact_mod_cast hn'
  have h20 : (2 : Nat) ^ 20 ≤ 2 ^ 24 := by norm_num
  obtain ⟨t1, t2, t3⟩ := sigma_leaf_approx hs hσ hσ' (hc.trans h20) hn hn'
  obtain ⟨l1, l2, l3⟩ := sigma_leaf_approx hs hσ hσ' (c := l) (by omega) hn hn'
  obtain ⟨r1, r2, r3⟩ := sigma_leaf_approx hs hσ hσ' (c := r) (by omega) hn hn'
  have hA0 : 0 < A := lt_of_lt_of_le (by positivity) hA1
  have hB0 : 0 < B := lt_of_lt_of_le (by positivity) hB1
  -- total
  have hm : A + B + e * A + e * B ≤ 2 ^ 127 := by
    have h1 : e * A ≤ 1 * A := mul_le_mul_of_nonneg_right (by linarith) hA0.le
    have h2 : e * B ≤ 1 * B := mul_le_mul_of_nonneg_right (by linarith) hB0.le
    have : (2 : ℝ) ^ 127 = 2 ^ 87 * 2 ^ 40 := by norm_num
    have : (2 : ℝ) * 2 ^ 40 ≤ 2 ^ 87 * 2 ^ 40 := by norm_num
    linarith
  obtain ⟨w, hW, hw⟩ := add_near hU hV hx hy hA hB hm
  have hw2 : |w - (x + y)| ≤ (e + 2 / 2 ^ 24) * (A + B) := by
    refine hw.trans ?_
    have h1 : e * (A + B) ≤ 1 * (A + B) := mul_le_mul_of_nonneg_right (by linarith) (by linarith)
    have e1 : (e + 2 / 2 ^ 24) * (A + B) = e * A + e * B + (2 * (A + B)) / 2 ^ 24 := by ring
    rw [e1]
    have : (A + B + e * A + e * B) / 2 ^ 24 ≤ (2 * (A + B)) / 2 ^ 24 := by
      refine div_le_div_of_nonneg_right ?_ (by norm_num)
      linarith
    linarith
  have h24 : (2 : ℝ) / 2 ^ 24 ≤ 1 / 8 := by norm_num
  have h24' : (0 : ℝ) ≤ 2 / 2 ^ 24 := by norm_num
  have h40 : (1 : ℝ) / 2 ^ 40 ≤ A + B := by linarith
  obtain ⟨q1, p1, p2, p3, p4⟩ := quad_near hU hx (by linarith) he0 hA hA1 (by linarith) l1 l2 l3
  obtain ⟨q2, p5, p6, p7, p8⟩ := quad_near hV hy (by linarith) he0 hB hB1 (by linarith) r1 r2 r3
  obtain ⟨q3, p9, p10, p11, p12⟩ := quad_near hW hw2 (by linarith) (by linarith) ((abs_add_le _ _).trans (add_le_add hA hB)) h40 hmax t1 t2 t3
  obtain ⟨L, hL⟩ : ∃ L : ℝ, L = σ + l / n := ⟨_, rfl⟩
  obtain ⟨R, hR⟩ : ∃ R : ℝ, R = σ + r / n := ⟨_, rfl⟩
  obtain ⟨M, hM⟩ : ∃ M : ℝ, M = σ + (l + r : Nat) / n := ⟨_, rfl⟩
  rw [← hL] at p2 p3 p4 l2 hT ⊢
  rw [← hR] at p6 p7 p8 r2 hT ⊢
  rw [← hM] at p10 p11 p12 t2 hT ⊢
  have hL0 : 0 < L := lt_of_lt_of_le (by positivity) l2
  have hR0 : 0 < R := lt_of_lt_of_le (by positivity) r2
  have hM0 : 0 < M := lt_of_lt_of_le (by positivity) t2
  have P1 : 0 ≤ A ^ 2 / L := by positivity
  have P2 : 0 ≤ B ^ 2 / R := by positivity
  have P3 : 0 ≤ (A + B) ^ 2 / M := by positivity
  obtain ⟨s2, v4, v6, v7⟩ := quad_sum p1 p5 p9 p2 p6 p10 p3 p7 p11 p4 p8 p12 he0 he
  have hQ0 : 0 ≤ A ^ 2 / L + B ^ 2 / R + (A + B) ^ 2 / M := by positivity
  clear p1 p2 p3 p4 p5 p6 p7 p8 p9 p10 p11 p12 t1 t3 l1 l3 r1 r3 hw hw2 hm hW
  obtain ⟨Q, hQ⟩ : ∃ Q : ℝ, Q = A ^ 2 / L + B ^ 2 / R + (A + B) ^ 2 / M := ⟨_, rfl⟩
  obtain ⟨f, hf⟩ : ∃ f : ℝ, f = x ^ 2 / L + y ^ 2 / R - (x + y) ^ 2 / M := ⟨_, rfl⟩
  rw [← hQ] at v6 v7 hQ0
  rw [← hf] at v6 v7 ⊢
  have a3 := exp_factor_approx hs hσ hσ' hn hn'
  have hf0 := a3.nonneg
  obtain ⟨F, hF⟩ : ∃ F : ℝ, F = 1 / n / (2 * σ) := ⟨_, rfl⟩
  rw [← hF] at a3 hf0 hT ⊢
  rw [← hQ] at hT
  rw [hT] at hmax' ⊢
  have h4 : (22 : ℝ) / 2 ^ 24 ≤ 1 / 8 := by norm_num
  have h4' : (0 : ℝ) ≤ 22 / 2 ^ 24 := by norm_num
  constructor
  · obtain ⟨z, z1, z2⟩ := mul_near v4 v6 (by linarith) (by linarith) v7 a3 (by norm_num) (hmax'.trans (by norm_num))
    refine ⟨z, z1, z2.trans ?_⟩
    have h0 : 0 ≤ F * Q := by positivity
    have : F * Q * (9 / 4 * e + 22 / 2 ^ 24 + (2 * (3 : Nat) + 5) / 2 ^ 24) ≤ F * Q * (9 / 4 * e + 36 / 2 ^ 24) := by
      refine mul_le_mul_of_nonneg_left ?_ h0
      push_cast
      linarith
    linarith
  · rw [abs_mul, abs_of_nonneg hf0]
    exact mul_le_mul_of_nonneg_left v7 hf0

theorem compute_likelihood_ratio_eq {F : Type} [Zero F] [One F] [Add F] [Sub F] [Mul F] [Div F] [Neg F] [NatCast F] [FltFun F]
    (n : Nat) (sigma2 U V : F) (l r : Nat) :
    compute_likelihood_ratio (U + V) U V (precompute_likelihood_terms n sigma2 { left := l, right := r, total := l + r }) (exp_factor n sigma2) =
    FltFun.log (sigma2 * (sigma2 + ((l + r : Nat) : F) * (1 / (n : F))) /
        ((sigma2 + (l : F) * (1 / (n : F))) * (sigma2 + (r : F) * (1 / (n : F))))) / ((2 : Nat) : F) +
    (1 / (n : F)) / (((2 : Nat) : F) * sigma2) *
      (U * U / (sigma2 + (l : F) * (1 / (n : F))) + V * V / (sigma2 + (r : F) * (1 / (n : F))) -
        (U + V) * (U + V) / (sigma2 + ((l + r : Nat) : F) * (1 / (n : F)))) := rfl

/-- the logarithm of the likelihood ratio -/
theorem lik_error [P : Binary32.Platform] {δ : ℝ} (hP : LogError P δ) (hδ : 0 ≤ δ) (hδ' : δ ≤ 1 / 8)
    {sigma2 : Binary32} {σ : ℝ} (hs : HasValue sigma2 σ) (hσ : 1 / 2 ^ 40 ≤ σ) (hσ' : σ ≤ 2 ^ 40)
    {l r n : Nat} (hc : l + r ≤ 2 ^ 20) (hn : 1 ≤ n) (hn' : n ≤ 2 ^ 24) {U V : Binary32} {x x' y y' e A B T S : ℝ}
    (hU : HasValue U x') (hV : HasValue V y') (hx : |x' - x| ≤ e * A) (hy : |y' - y| ≤ e * B) (he : e ≤ 1 / 8) (he0 : 0 ≤ e)
    (hA : |x| ≤ A) (hB : |y| ≤ B) (hA1 : 1 / 2 ^ 40 ≤ A) (hB1 : 1 / 2 ^ 40 ≤ B) (hmax : A + B ≤ 2 ^ 40)
    (hT : T = 1 / n / (2 * σ) * (A ^ 2 / (σ + l / n) + B ^ 2 / (σ + r / n) + (A + B) ^ 2 / (σ + (l + r : Nat) / n)))
    (hmax' : T ≤ 2 ^ 100) (hS : S = |Real.log (σ * (σ + (l + r : Nat) / n) / ((σ + l / n) * (σ + r / n))) / 2|) (hS' : S ≤ 2 ^ 100) :
    ∃ z, HasValue (compute_likelihood_ratio (U + V) U V
        (precompute_likelihood_terms n sigma2 { left := l, right := r, total := l + r }) (exp_factor n sigma2)) z ∧
      |z - (Real.log (σ * (σ + (l + r : Nat) / n) / ((σ + l / n) * (σ + r / n))) / 2 +
        1 / n / (2 * σ) * (x ^ 2 / (σ + l / n) + y ^ 2 / (σ + r / n) - (x + y) ^ 2 / (σ + (l + r : Nat) / n)))| ≤
        2 * δ * (1 + S) + 9 / 4 * e * T + (18 + 4 * S + 40 * T) / 2 ^ 24 := by
  obtain ⟨z1, a1, a2⟩ := sqrt_term_error hP hδ hδ' hs hσ hσ' hc hn hn'
  obtain ⟨⟨z2, b1, b2⟩, b3⟩ := exp_error hs hσ hσ' hc hn hn' hU hV hx hy he he0 hA hB hA1 hB1 hmax hT hmax'
  rw [← hS] at a2
  have hS0 : 0 ≤ S := by rw [hS]; positivity
  have hT0 : 0 ≤ T := (abs_nonneg _).trans b3
  have g1 : δ * (1 + S) ≤ 1 / 8 * (1 + S) := mul_le_mul_of_nonneg_right hδ' (by linarith)
  have g1' : 0 ≤ δ * (1 + S) := mul_nonneg hδ (by linarith)
  have g2 : (14 + 2 * S) / 2 ^ 24 ≤ 1 / 8 * (1 + S) := by
    rw [div_le_iff₀ (by norm_num)]
    have : 1 / 8 * (1 + S) * 2 ^ 24 = 2 ^ 21 + 2 ^ 21 * S := by ring
    rw [this]
    have h1 : (14 : ℝ) ≤ 2 ^ 21 := by norm_num
    have h2 : 2 * S ≤ 2 ^ 21 * S := mul_le_mul_of_nonneg_right (by norm_num) hS0
    linarith
  have g3 : T * (9 / 4 * e + 36 / 2 ^ 24) ≤ T * (1 / 2) := by
    refine mul_le_mul_of_nonneg_left ?_ hT0
    have : (36 : ℝ) / 2 ^ 24 ≤ 1 / 8 := by norm_num
    linarith
  have g4 : (1 : ℝ) / 2 ^ 150 ≤ 1 / 2 ^ 24 := by norm_num
  have g5 : (1 : ℝ) / 2 ^ 24 ≤ 1 / 8 := by norm_num
  have g6 : (2 : ℝ) ^ 127 = 2 ^ 27 * 2 ^ 100 := by norm_num
  have g7 : (8 : ℝ) * 2 ^ 100 ≤ 2 ^ 27 * 2 ^ 100 := by norm_num
  have g8 : (1 : ℝ) ≤ 2 ^ 100 := by norm_num
  obtain ⟨z, c1, c2⟩ := add_near a1 b1 a2 b2 hS.ge b3 (by rw [g6]; linarith)
  rw [compute_likelihood_ratio_eq]
  refine ⟨z, c1, c2.trans ?_⟩
  have g9 : (S + T + (δ * (1 + S) + (14 + 2 * S) / 2 ^ 24) + (T * (9 / 4 * e + 36 / 2 ^ 24) + 1 / 2 ^ 150)) / 2 ^ 24 ≤
      (1 + 2 * S + 2 * T) / 2 ^ 24 := by
    refine div_le_div_of_nonneg_right ?_ (by norm_num)
    linarith
  have e1 : (18 + 4 * S + 40 * T) / 2 ^ 24 = (14 + 2 * S) / 2 ^ 24 + T * (36 / 2 ^ 24) + (1 + 2 * S + 2 * T) / 2 ^ 24 + 1 / 2 ^ 24 +
    2 / 2 ^ 24 + T * (2 / 2 ^ 24) := by ring
  have e2 : 0 ≤ T * (2 / 2 ^ 24 : ℝ) := by positivity
  have e3 : (0 : ℝ) ≤ 2 / 2 ^ 24 := by norm_num
  have e4 : T * (9 / 4 * e + 36 / 2 ^ 24) = 9 / 4 * e * T + T * (36 / 2 ^ 24) := by ring
  rw [e1]
  linarith

end Bartz
