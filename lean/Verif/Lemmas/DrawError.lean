import Verif.Lemmas.SumResid
/-! # Rounding errors in drawing a leaf -/

set_option autoImplicit false

namespace Bartz
open Jax Spec Jax.Binary32

theorem pow_bounds {σ : ℝ} (hσ : 1 / 2 ^ 80 ≤ σ) (hσ' : σ ≤ 2 ^ 80) {c n : Nat} (hc : c ≤ 2 ^ 24) (hn : 1 ≤ n) (hn' : n ≤ 2 ^ 24) :
    0 < σ ∧ (c : ℝ) / σ + n ≤ 2 ^ 110 ∧ 1 ≤ (c : ℝ) / σ + n ∧ (c : ℝ) + n * σ ≤ 2 ^ 110 ∧ 1 / 2 ^ 80 ≤ (c : ℝ) + n * σ := by
  have h0 : 0 < σ := lt_of_lt_of_le (by positivity) hσ
  have hc' : (c : ℝ) ≤ 2 ^ 24 := by exact_mod_cast hc
  have hn1 : (1 : ℝ) ≤ n := by exact_mod_cast hn
  have hn2 : (n : ℝ) ≤ 2 ^ 24 := by exact_mod_cast hn'
  have hc0 : (0 : ℝ) ≤ c := Nat.cast_nonneg c
  have h1 : (c : ℝ) / σ ≤ 2 ^ 104 := by
    rw [div_le_iff₀ h0]
    calc (c : ℝ) ≤ 2 ^ 24 := hc'
      _ = 2 ^ 104 * (1 / 2 ^ 80) := by norm_num
      _ ≤ 2 ^ 104 * σ := mul_le_mul_of_nonneg_left hσ (by positivity)
  have h2 : (n : ℝ) * σ ≤ 2 ^ 24 * 2 ^ 80 := mul_le_mul hn2 hσ' h0.le (by positivity)
  have h3 : σ ≤ n * σ := le_mul_of_one_le_left h0.le hn1
  have h4 : 0 ≤ (c : ℝ) / σ := div_nonneg hc0 h0.le
  refine ⟨h0, ?_, by linarith, ?_, by linarith⟩
  · calc (c : ℝ) / σ + n ≤ 2 ^ 104 + 2 ^ 24 := add_le_add h1 hn2
      _ ≤ 2 ^ 110 := by norm_num
  · calc (c : ℝ) + n * σ ≤ 2 ^ 24 + 2 ^ 24 * 2 ^ 80 := add_le_add hc' h2
      _ ≤ 2 ^ 110 := by norm_num

/-- The factors used to draw a leaf with `c` datapoints, in a regression with `n` trees and error variance `σ`. -/
theorem leaf_terms_approx {sigma2 : Binary32} {σ : ℝ} (hs : HasValue sigma2 σ) (hσ : 1 / 2 ^ 80 ≤ σ) (hσ' : σ ≤ 2 ^ 80)
    {c n : Nat} (hc : c ≤ 2 ^ 24) (hn : 1 ≤ n) (hn' : n ≤ 2 ^ 24) :
    Approx 4 ((1 / ((c : Binary32) / sigma2 + (n : Binary32))) / sigma2) (1 / (c + n * σ)) ∧
    Approx 3 (Binary32.sqrt (1 / ((c : Binary32) / sigma2 + (n : Binary32)))) (Real.sqrt (1 / (c / σ + n))) := by
  obtain ⟨h0, b1, b2, b3, b4⟩ := pow_bounds hσ hσ' hc hn hn'
  have hcσ : (c : ℝ) / σ ≤ 2 ^ 110 := by have := Nat.cast_nonneg (α := ℝ) n; linarith
  have a1 : Approx 1 ((c : Binary32) / sigma2) (c / σ) := by
    rcases Nat.eq_zero_or_pos c with rfl | hc0
    · have h := Approx.zero_div (hasValue_natCast (n := 0) (by norm_num) |> fun h => by simpa using h)
        (approx_exact hs h0.le) h0
      rw [Nat.cast_zero, zero_div]
      exact (approx_exact h le_rfl).mono (by norm_num)
    · refine (approx_natCast hc).div (approx_exact hs h0.le) (by norm_num) h0 (hcσ.trans (by norm_num)) ?_
      rw [le_div_iff₀ h0]
      have : (1 : ℝ) ≤ c := by exact_mod_cast hc0
      calc 1 / 2 ^ 125 * σ ≤ 1 / 2 ^ 125 * 2 ^ 80 := mul_le_mul_of_nonneg_left hσ' (by positivity)
        _ ≤ 1 := by norm_num
        _ ≤ c := this
  have a2 : Approx 2 ((c : Binary32) / sigma2 + (n : Binary32)) (c / σ + n) :=
    a1.add ((approx_natCast hn').mono (by norm_num)) (by norm_num) (b1.trans (by norm_num))
  have hp : 0 < (c : ℝ) / σ + n := by linarith
  have l1 : 1 / 2 ^ 125 ≤ 1 / ((c : ℝ) / σ + n) := one_div_le_one_div_of_le hp (b1.trans (by norm_num))
  have l2 : 1 / ((c : ℝ) / σ + n) ≤ 1 := by rw [div_le_one hp]; exact b2
  have a3 : Approx 3 (1 / ((c : Binary32) / sigma2 + (n : Binary32))) (1 / (c / σ + n)) :=
    (approx_exact hasValue_one zero_le_one).div a2 (by norm_num) hp (l2.trans (by norm_num)) l1
  have e : 1 / ((c : ℝ) / σ + n) / σ = 1 / (c + n * σ) := by
    rw [div_div, add_mul, div_mul_cancel₀ _ h0.ne']
  constructor
  · have hp' : 0 < (c : ℝ) + n * σ := lt_of_lt_of_le (by positivity) b4
    have a4 := a3.div (approx_exact hs h0.le) (by norm_num) h0 (by
        rw [e, div_le_iff₀ hp']
        calc (1 : ℝ) ≤ 2 ^ 126 * (1 / 2 ^ 80) := by norm_num
          _ ≤ 2 ^ 126 * (c + n * σ) := mul_le_mul_of_nonneg_left b4 (by positivity)) (by
        rw [e]
        exact one_div_le_one_div_of_le hp' (b3.trans (by norm_num)))
    rw [e] at a4
    exact a4
  · exact (a3.mono (show 3 ≤ 2 * 2 by norm_num)).sqrt (by norm_num) (l2.trans (by norm_num)) l1

/-- error of the product with an approximate factor -/
theorem mul_approx_error {x y : Binary32} {v w : ℝ} {k : Nat} (hx : HasValue x v) (hy : Approx k y w) (hk : k ≤ 6)
    (hmax : |v * w| ≤ 2 ^ 120) :
    (∃ w', HasValue y w' ∧ |v * w' - v * w| ≤ |v * w| * ((k + 1) / 2 ^ 24)) ∧
    ∃ r, HasValue (x * y) r ∧ |r - v * w| ≤ |v * w| * ((k + 2) / 2 ^ 24 + 7 / 2 ^ 48) + 1 / 2 ^ 150 := by
  obtain ⟨w', h1, h2⟩ := hy
  have he := h2.error (by omega)
  have hk' : (k : ℝ) ≤ 6 := by exact_mod_cast hk
  have hk0 : (0 : ℝ) ≤ k := Nat.cast_nonneg k
  have e1 : |v * w' - v * w| ≤ |v * w| * ((k + 1) / 2 ^ 24) := by
    rw [← mul_sub, abs_mul, abs_mul, abs_of_nonneg h2.nonneg, mul_assoc]
    exact mul_le_mul_of_nonneg_left he (abs_nonneg _)
  have e1' : |v * w' - v * w| ≤ |v * w| * (7 / 2 ^ 24) := by
    refine e1.trans (mul_le_mul_of_nonneg_left ?_ (abs_nonneg _))
    exact div_le_div_of_nonneg_right (by linarith) (by norm_num)
  refine ⟨⟨w', h1, e1⟩, ?_⟩
  have hA : 0 ≤ |v * w| := abs_nonneg _
  have e2 : |v * w'| ≤ |v * w| * (1 + 7 / 2 ^ 24) := by
    have : v * w' = v * w + (v * w' - v * w) := by ring
    rw [this]
    exact (abs_add_le _ _).trans (by linarith)
  have hm : |v * w'| ≤ 2 ^ 127 := by
    refine e2.trans ((mul_le_mul_of_nonneg_right hmax (by norm_num)).trans ?_)
    norm_num
  rw [hasValue_iff] at hx h1
  obtain ⟨hx, rfl⟩ := hx
  obtain ⟨h1, rfl⟩ := h1
  obtain ⟨f, e3⟩ := mul_error hx h1 hm
  refine ⟨_, hasValue_iff.2 ⟨f, rfl⟩, ?_⟩
  have e4 : ulp (Binary32.toReal x * Binary32.toReal y) ≤ |Binary32.toReal x * w| * (1 + 7 / 2 ^ 24) / 2 ^ 24 + 1 / 2 ^ 150 := by
    unfold ulp
    rw [show (1 : ℝ) / 2 ^ 150 = 1 / 2 ^ 126 / 2 ^ 24 by norm_num, ← add_div]
    refine div_le_div_of_nonneg_right (max_le ?_ ?_) (by norm_num)
    · have : (0 : ℝ) ≤ 1 / 2 ^ 126 := by positivity
      linarith
    · have : 0 ≤ |Binary32.toReal x * w| * (1 + 7 / 2 ^ 24) := by positivity
      linarith
  have e5 : Binary32.toReal (x * y) - Binary32.toReal x * w =
      (Binary32.toReal (x * y) - Binary32.toReal x * Binary32.toReal y) +
        (Binary32.toReal x * Binary32.toReal y - Binary32.toReal x * w) := by ring
  rw [e5]
  refine (abs_add_le _ _).trans ?_
  have e6 : |Binary32.toReal x * w| * ((k + 2) / 2 ^ 24 + 7 / 2 ^ 48) =
      |Binary32.toReal x * w| * (1 + 7 / 2 ^ 24) / 2 ^ 24 + |Binary32.toReal x * w| * ((k + 1) / 2 ^ 24) := by ring
  rw [e6]
  linarith

theorem sum_final {M E p q r : ℝ} (hp : |p - M| ≤ |M| * (6.5 / 2 ^ 24) + 1 / 2 ^ 150)
    (hq : |q - E| ≤ |E| * (6.5 / 2 ^ 24) + 1 / 2 ^ 150) (hr : |r - (p + q)| ≤ ulp (p + q)) :
    |r - (M + E)| ≤ (|M| + |E|) / 2 ^ 21 + 1 / 2 ^ 148 := by
  have hM0 : 0 ≤ |M| := abs_nonneg _
  have hE0 : 0 ≤ |E| := abs_nonneg _
  have h1 : |p| ≤ |M| + |p - M| := by
    have : p = M + (p - M) := by ring
    calc |p| = |M + (p - M)| := by rw [← this]
      _ ≤ _ := abs_add_le _ _
  have h2 : |q| ≤ |E| + |q - E| := by
    have : q = E + (q - E) := by ring
    calc |q| = |E + (q - E)| := by rw [← this]
      _ ≤ _ := abs_add_le _ _
  have h3 : ulp (p + q) ≤ (|p| + |q|) / 2 ^ 24 + 1 / 2 ^ 150 := by
    unfold ulp
    rw [show (1 : ℝ) / 2 ^ 150 = 1 / 2 ^ 126 / 2 ^ 24 by norm_num, ← add_div]
    have h0 : (0 : ℝ) ≤ 1 / 2 ^ 126 := by positivity
    have h5 := abs_add_le p q
    refine div_le_div_of_nonneg_right (max_le (by linarith) ?_) (by norm_num)
    have := abs_nonneg p
    have := abs_nonneg q
    linarith
  have h4 : r - (M + E) = (r - (p + q)) + ((p - M) + (q - E)) := by ring
  rw [h4]
  refine (abs_add_le _ _).trans ?_
  have h5 := abs_add_le (p - M) (q - E)
  obtain ⟨a, ha⟩ : ∃ a : ℝ, a = |M| := ⟨_, rfl⟩
  obtain ⟨b, hb⟩ : ∃ b : ℝ, b = |E| := ⟨_, rfl⟩
  obtain ⟨τ, hτ⟩ : ∃ τ : ℝ, τ = 1 / 2 ^ 150 := ⟨_, rfl⟩
  have hτ0 : 0 ≤ τ := by rw [hτ]; positivity
  have e48 : (1 : ℝ) / 2 ^ 148 = 4 * τ := by rw [hτ]; norm_num
  rw [e48, ← ha, ← hb]
  rw [← ha, ← hτ] at hp
  rw [← hb, ← hτ] at hq
  rw [← ha] at h1 hM0
  rw [← hb] at h2 hE0
  rw [← hτ] at h3
  have hP : |p| + |q| ≤ (a + b) * (1 + 6.5 / 2 ^ 24) + 2 * τ := by linarith
  have hQ : (|p| + |q|) / 2 ^ 24 ≤ (a + b) * (1.25 / 2 ^ 24) + τ / 2 := by
    rw [div_le_iff₀ (by norm_num)]
    have e1 : ((a + b) * (1.25 / 2 ^ 24) + τ / 2) * 2 ^ 24 = (a + b) * 1.25 + τ * 2 ^ 23 := by ring
    rw [e1]
    have e2 : (a + b) * (1 + 6.5 / 2 ^ 24) ≤ (a + b) * 1.25 := mul_le_mul_of_nonneg_left (by norm_num) (by linarith)
    have e3 : 2 * τ ≤ τ * 2 ^ 23 := by rw [mul_comm]; exact mul_le_mul_of_nonneg_left (by norm_num) hτ0
    linarith
  have e : (a + b) / 2 ^ 21 = (a + b) * (8 / 2 ^ 24) := by rw [div_eq_mul_one_div]; norm_num
  rw [e]
  have e7 : (a + b) * (8 / 2 ^ 24) = (a + b) * (1.25 / 2 ^ 24) + (a * (6.5 / 2 ^ 24) + b * (6.5 / 2 ^ 24)) + (a + b) * (0.25 / 2 ^ 24) := by ring
  have e8 : 0 ≤ (a + b) * (0.25 / 2 ^ 24) := mul_nonneg (by linarith) (by norm_num)
  linarith

/-- The value drawn for a leaf with `c` datapoints, sum of residuals `R` (without the contribution of the tree
itself) and standard normal variate `z`, in a regression with `n` trees and error variance `σ`: exactly, it would be
`ρ / (c + n * σ) + ζ / sqrt(c / σ + n)`. The sum may be fused with any of the two products. -/
theorem leaf_error {sigma2 : Binary32} {σ : ℝ} (hs : HasValue sigma2 σ) (hσ : 1 / 2 ^ 80 ≤ σ) (hσ' : σ ≤ 2 ^ 80)
    {c n : Nat} (hc : c ≤ 2 ^ 24) (hn : 1 ≤ n) (hn' : n ≤ 2 ^ 24) {R z : Binary32} {ρ ζ : ℝ} (hR : HasValue R ρ) (hz : HasValue z ζ)
    (hmax : |ρ / (c + n * σ)| ≤ 2 ^ 120) (hmax' : |ζ / Real.sqrt (c / σ + n)| ≤ 2 ^ 120) {factor scale : Binary32}
    (hf : factor = (1 / ((c : Binary32) / sigma2 + (n : Binary32))) / sigma2)
    (hsc : scale = Binary32.sqrt (1 / ((c : Binary32) / sigma2 + (n : Binary32)))) :
    ∀ y, y = R * factor + z * scale ∨ y = fma R factor (z * scale) ∨ y = fma z scale (R * factor) →
    ∃ r, HasValue y r ∧ |r - (ρ / (c + n * σ) + ζ / Real.sqrt (c / σ + n))| ≤
      (|ρ / (c + n * σ)| + |ζ / Real.sqrt (c / σ + n)|) / 2 ^ 21 + 1 / 2 ^ 148 := by
  obtain ⟨t1, t2⟩ := leaf_terms_approx hs hσ hσ' hc hn hn'
  rw [← hf] at t1
  rw [← hsc] at t2
  have es : ζ / Real.sqrt (c / σ + n) = ζ * Real.sqrt (1 / (c / σ + n)) := by
    rw [one_div, Real.sqrt_inv, div_eq_mul_inv]
  rw [es] at hmax' ⊢
  rw [div_eq_mul_one_div ρ] at hmax ⊢
  obtain ⟨⟨f', hf1, hf2⟩, m, hm1, hm2⟩ := mul_approx_error hR t1 (by norm_num) hmax
  obtain ⟨⟨s', hs1, hs2⟩, e, he1, he2⟩ := mul_approx_error hz t2 (by norm_num) hmax'
  obtain ⟨M, hM⟩ : ∃ M : ℝ, M = ρ * (1 / (c + n * σ)) := ⟨_, rfl⟩
  obtain ⟨E, hE⟩ : ∃ E : ℝ, E = ζ * Real.sqrt (1 / (c / σ + n)) := ⟨_, rfl⟩
  rw [← hM] at hmax hm2 hf2
  rw [← hE] at hmax' he2 hs2
  rw [← hM, ← hE]
  have hM0 : 0 ≤ |M| := abs_nonneg _
  have hE0 : 0 ≤ |E| := abs_nonneg _
  have hτ : (0 : ℝ) ≤ 1 / 2 ^ 150 := by positivity
  have A : ∀ {B x : ℝ}, 0 ≤ B → x ≤ 6.5 / 2 ^ 24 → B * x ≤ B * (6.5 / 2 ^ 24) := fun h1 h2 =>
    mul_le_mul_of_nonneg_left h2 h1
  have p1 : |m - M| ≤ |M| * (6.5 / 2 ^ 24) + 1 / 2 ^ 150 := by
    have := A hM0 (x := (((4 : Nat) : ℝ) + 2) / 2 ^ 24 + 7 / 2 ^ 48) (by norm_num)
    linarith
  have p2 : |ρ * f' - M| ≤ |M| * (6.5 / 2 ^ 24) + 1 / 2 ^ 150 := by
    have := A hM0 (x := (((4 : Nat) : ℝ) + 1) / 2 ^ 24) (by norm_num)
    linarith
  have q1 : |e - E| ≤ |E| * (6.5 / 2 ^ 24) + 1 / 2 ^ 150 := by
    have := A hE0 (x := (((3 : Nat) : ℝ) + 2) / 2 ^ 24 + 7 / 2 ^ 48) (by norm_num)
    linarith
  have q2 : |ζ * s' - E| ≤ |E| * (6.5 / 2 ^ 24) + 1 / 2 ^ 150 := by
    have := A hE0 (x := (((3 : Nat) : ℝ) + 1) / 2 ^ 24) (by norm_num)
    linarith
  have bound : ∀ {p q : ℝ}, |p - M| ≤ |M| * (6.5 / 2 ^ 24) + 1 / 2 ^ 150 → |q - E| ≤ |E| * (6.5 / 2 ^ 24) + 1 / 2 ^ 150 →
      |p + q| ≤ 2 ^ 127 := by
    intro p q hp hq
    have e : p + q = (M + E) + ((p - M) + (q - E)) := by ring
    have h6 : |p + q| ≤ (|M| + |E|) + (|p - M| + |q - E|) := by
      rw [e]
      exact (abs_add_le _ _).trans (add_le_add (abs_add_le _ _) (abs_add_le _ _))
    have h7 : |M| * (6.5 / 2 ^ 24) ≤ |M| := mul_le_of_le_one_right hM0 (by norm_num)
    have h8 : |E| * (6.5 / 2 ^ 24) ≤ |E| := mul_le_of_le_one_right hE0 (by norm_num)
    calc |p + q| ≤ 2 ^ 120 + 2 ^ 120 + (2 ^ 120 + 1 / 2 ^ 150 + (2 ^ 120 + 1 / 2 ^ 150)) := by linarith
      _ ≤ 2 ^ 127 := by norm_num
  rw [hasValue_iff] at hR hz hf1 hs1 hm1 he1
  obtain ⟨F1, rfl⟩ := hR
  obtain ⟨F2, rfl⟩ := hz
  obtain ⟨F3, rfl⟩ := hf1
  obtain ⟨F4, rfl⟩ := hs1
  obtain ⟨F5, rfl⟩ := hm1
  obtain ⟨F6, rfl⟩ := he1
  rintro y (rfl | rfl | rfl)
  · obtain ⟨f, er⟩ := add_error F5 F6 (bound p1 q1)
    exact ⟨_, hasValue_iff.2 ⟨f, rfl⟩, sum_final p1 q1 er⟩
  · obtain ⟨f, er⟩ := fma_error F1 F3 F6 (bound p2 q1)
    exact ⟨_, hasValue_iff.2 ⟨f, rfl⟩, sum_final p2 q1 er⟩
  · obtain ⟨f, er⟩ := fma_error F2 F4 F5 (by rw [add_comm]; exact bound p1 q2)
    exact ⟨_, hasValue_iff.2 ⟨f, rfl⟩, sum_final p1 q2 (by rw [add_comm]; exact er)⟩

/-- `(1 + u) ** k - 1` is about `k * u` -/
theorem pow_sub_one_le {k : Nat} (hk : k ≤ 2 ^ 23) : (1 + 1 / 2 ^ 24 : ℝ) ^ k - 1 ≤ k / 2 ^ 23 := by
  have key : ∀ k : Nat, k ≤ 2 ^ 23 → (1 + 1 / 2 ^ 24 : ℝ) ^ k ≤ 1 + k / 2 ^ 23 := by
    intro k
    induction k with
    | zero => intro _; norm_num
    | succ k ih =>
      intro h
      have h1 := ih (by omega)
      have h2 : ((k + 1 : Nat) : ℝ) ≤ 2 ^ 23 := by exact_mod_cast h
      have h3 : (0 : ℝ) ≤ k := Nat.cast_nonneg k
      push_cast at h2 ⊢
      rw [pow_succ]
      have h4 : (1 + 1 / 2 ^ 24 : ℝ) ^ k * (1 + 1 / 2 ^ 24) ≤ (1 + k / 2 ^ 23) * (1 + 1 / 2 ^ 24) :=
        mul_le_mul_of_nonneg_right (by linarith) (by norm_num)
      have h5 : (1 + (k : ℝ) / 2 ^ 23) * (1 + 1 / 2 ^ 24) ≤ 1 + (k + 1) / 2 ^ 23 := by
        have e1 : (1 + (k : ℝ) / 2 ^ 23) * (1 + 1 / 2 ^ 24) = 1 + k / 2 ^ 23 + 1 / 2 ^ 24 + k / 2 ^ 23 / 2 ^ 24 := by ring
        have e2 : (k : ℝ) / 2 ^ 23 ≤ 1 := by rw [div_le_one (by norm_num)]; linarith
        have e3 : (k : ℝ) / 2 ^ 23 / 2 ^ 24 ≤ 1 / 2 ^ 24 := div_le_div_of_nonneg_right e2 (by norm_num)
        have e4 : (1 : ℝ) + (k + 1) / 2 ^ 23 = 1 + k / 2 ^ 23 + 1 / 2 ^ 24 + 1 / 2 ^ 24 := by ring
        linarith
      linarith
  have := key k hk
  linarith

/-- `s` is the sum of the residuals of the datapoints in the leaf, in any order; the
contribution of the tree itself is then removed by adding back the current value of the leaf `m` times. -/
theorem resid_error {xs : List Binary32} {s : Binary32} (h : Sums xs s) {f : Binary32 → ℝ} (hf : ∀ x ∈ xs, HasValue x (f x))
    {old : Binary32} {o : ℝ} (ho : HasValue old o) (hm : xs.length ≤ 2 ^ 22)
    (hmax : (xs.map fun x => |f x|).sum + xs.length * |o| ≤ 2 ^ 120) :
    ∀ R, R = s + (xs.length : Binary32) * old ∨ R = fma (xs.length : Binary32) old s →
    ∃ r, HasValue R r ∧ |r - ((xs.map f).sum + xs.length * o)| ≤
      ((xs.map fun x => |f x|).sum + xs.length * |o| + 1 / 2 ^ 126) * ((xs.length + 2 : ℝ) / 2 ^ 23) := by
  have hS : 0 ≤ (xs.map fun x => |f x|).sum := List.sum_nonneg (by simp)
  have hST : |(xs.map f).sum| ≤ (xs.map fun x => |f x|).sum := by
    clear hmax hS hm h hf
    induction xs with
    | nil => simp
    | cons x xs ih => simpa using (abs_add_le _ _).trans (by linarith)
  obtain ⟨S, eS⟩ : ∃ S, S = (xs.map fun x => |f x|).sum := ⟨_, rfl⟩
  obtain ⟨T, eT⟩ : ∃ T, T = (xs.map f).sum := ⟨_, rfl⟩
  have hco : 0 ≤ (xs.length : ℝ) * |o| := mul_nonneg (Nat.cast_nonneg _) (abs_nonneg _)
  have hp1 := pow_sub_one_le (k := xs.length - 1) (by omega)
  have hp2 := pow_sub_one_le (k := xs.length + 2) (by omega)
  have hse := (sums_error h).2 f hf
  rw [← eS] at hS hST hmax hse ⊢
  rw [← eT] at hST hse ⊢
  obtain ⟨u, hu⟩ : ∃ u : ℝ, u = 1 / 2 ^ 24 := ⟨_, rfl⟩
  obtain ⟨τ, hτ⟩ : ∃ τ : ℝ, τ = 1 / 2 ^ 126 := ⟨_, rfl⟩
  have hu0 : 0 < u := by rw [hu]; positivity
  have hτ0 : 0 < τ := by rw [hτ]; positivity
  have hm' : (xs.length : ℝ) ≤ 2 ^ 22 := by exact_mod_cast hm
  have hsmall : (1 + 1 / 2 ^ 24 : ℝ) ^ (xs.length - 1) ≤ 2 := by
    have : ((xs.length - 1 : Nat) : ℝ) ≤ 2 ^ 23 := by exact_mod_cast (show xs.length - 1 ≤ 2 ^ 23 by omega)
    have : ((xs.length - 1 : Nat) : ℝ) / 2 ^ 23 ≤ 1 := by rw [div_le_one (by norm_num)]; exact this
    linarith
  have hsmall2 : (1 + 1 / 2 ^ 24 : ℝ) ^ (xs.length + 2) ≤ 2 := by
    have : ((xs.length + 2 : Nat) : ℝ) ≤ 2 ^ 23 := by exact_mod_cast (show xs.length + 2 ≤ 2 ^ 23 by omega)
    have : ((xs.length + 2 : Nat) : ℝ) / 2 ^ 23 ≤ 1 := by rw [div_le_one (by norm_num)]; exact this
    linarith
  obtain ⟨σ, hσ, eσ⟩ := hse (by
    calc S * (1 + 1 / 2 ^ 24) ^ (xs.length - 1) ≤ S * 2 := mul_le_mul_of_nonneg_left hsmall hS
      _ ≤ 2 ^ 120 * 2 := by linarith
      _ ≤ 2 ^ 127 := by norm_num)
  push_cast at hp2
  refine fun R hR => ?_
  suffices hh : ∃ r, HasValue R r ∧ |r - (T + xs.length * o)| ≤ (S + xs.length * |o| + τ) * ((1 + u) ^ (xs.length + 2) - 1) by
    obtain ⟨r, h1, h2⟩ := hh
    refine ⟨r, h1, h2.trans ?_⟩
    rw [hτ, hu]
    exact mul_le_mul_of_nonneg_left hp2 (by positivity)
  have hq1 : 1 ≤ 1 + u := by linarith
  have hQ1 : 1 ≤ (1 + u) ^ (xs.length + 1) := one_le_pow₀ hq1
  have hQm : (1 + u) ^ (xs.length - 1) ≤ (1 + u) ^ (xs.length + 1) := pow_le_pow_right₀ hq1 (by omega)
  have hQu : 1 + u ≤ (1 + u) ^ (xs.length + 1) := by
    calc 1 + u = (1 + u) ^ 1 := (pow_one _).symm
      _ ≤ _ := pow_le_pow_right₀ hq1 (by omega)
  have hQs : (1 + u) ^ (xs.length + 2) = (1 + u) ^ (xs.length + 1) * (1 + u) := pow_succ _ _
  rw [← hu] at hsmall2 eσ
  rw [hQs] at hsmall2 ⊢
  obtain ⟨Q, hQ⟩ : ∃ Q : ℝ, Q = (1 + u) ^ (xs.length + 1) := ⟨_, rfl⟩
  rw [← hQ] at hQ1 hQm hQu hsmall2 ⊢
  have hQ2 : Q ≤ 2 := by
    have : Q ≤ Q * (1 + u) := le_mul_of_one_le_right (by linarith) hq1
    linarith
  have eσ' : |σ - T| ≤ S * (Q - 1) := eσ.trans (mul_le_mul_of_nonneg_left (by linarith) hS)
  have eco : |(xs.length : ℝ) * o| = xs.length * |o| := by rw [abs_mul, abs_of_nonneg (Nat.cast_nonneg _)]
  have hulp : ∀ z : ℝ, ulp z ≤ (|z| + τ) * u := by
    intro z
    unfold ulp
    rw [div_eq_mul_one_div, ← hu, ← hτ]
    exact mul_le_mul_of_nonneg_right (max_le (by linarith) (by linarith [abs_nonneg z])) hu0.le
  have hn := hasValue_natCast (n := xs.length) (by omega)
  have hτ1 : τ ≤ 1 := by rw [hτ]; norm_num
  rcases hR with rfl | rfl
  · obtain ⟨p, hp, ep⟩ : ∃ p, HasValue ((xs.length : Binary32) * old) p ∧ |p - xs.length * o| ≤ (xs.length * |o| + τ) * (Q - 1) := by
      have hn' := hasValue_iff.1 hn
      have ho' := hasValue_iff.1 ho
      obtain ⟨f1, e1⟩ := mul_error hn'.1 ho'.1 (by
        rw [hn'.2, ho'.2, eco]
        calc (xs.length : ℝ) * |o| ≤ 2 ^ 120 := by linarith
          _ ≤ 2 ^ 127 := by norm_num)
      rw [hn'.2, ho'.2] at e1
      refine ⟨_, hasValue_iff.2 ⟨f1, rfl⟩, e1.trans ((hulp _).trans ?_)⟩
      rw [eco]
      exact mul_le_mul_of_nonneg_left (by linarith) (by linarith)
    obtain ⟨r, h1, h2⟩ := add_approx hσ hp hQ1 hST (by rw [eco]; linarith) eσ' ep (by
      calc (S + (xs.length * |o| + τ)) * Q ≤ (2 ^ 120 + 1) * 2 := mul_le_mul (by linarith) hQ2 (by linarith) (by norm_num)
        _ ≤ 2 ^ 127 := by norm_num)
    refine ⟨r, h1, ?_⟩
    rw [← hu, ← add_assoc] at h2
    exact h2
  · have hn' := hasValue_iff.1 hn
    have ho' := hasValue_iff.1 ho
    have hσ' := hasValue_iff.1 hσ
    have hσa : |σ| ≤ S * Q := by
      have : σ = T + (σ - T) := by ring
      rw [this]
      exact (abs_add_le _ _).trans (by linarith)
    have hsum : |xs.length * o + σ| ≤ (S + xs.length * |o|) * Q := by
      have h1 := abs_add_le ((xs.length : ℝ) * o) σ
      rw [eco] at h1
      have h2 : (xs.length : ℝ) * |o| ≤ xs.length * |o| * Q := le_mul_of_one_le_right hco hQ1
      rw [add_mul]
      linarith
    obtain ⟨f1, e1⟩ := fma_error hn'.1 ho'.1 hσ'.1 (by
      rw [hn'.2, ho'.2, hσ'.2]
      refine hsum.trans ?_
      calc (S + xs.length * |o|) * Q ≤ 2 ^ 120 * 2 := mul_le_mul hmax hQ2 (by linarith) (by norm_num)
        _ ≤ 2 ^ 127 := by norm_num)
    rw [hn'.2, ho'.2, hσ'.2] at e1
    refine ⟨_, hasValue_iff.2 ⟨f1, rfl⟩, ?_⟩
    have e2 : Binary32.toReal (fma (xs.length : Binary32) old s) - (T + xs.length * o) =
      (Binary32.toReal (fma (xs.length : Binary32) old s) - (xs.length * o + σ)) + (σ - T) := by ring
    rw [e2]
    refine (abs_add_le _ _).trans ?_
    have e3 := e1.trans (hulp _)
    have e4 : (|(xs.length : ℝ) * o + σ| + τ) * u ≤ ((S + xs.length * |o|) * Q + τ * Q) * u :=
      mul_le_mul_of_nonneg_right (add_le_add hsum (le_mul_of_one_le_right hτ0.le hQ1)) hu0.le
    have e5 : (S + xs.length * |o| + τ) * (Q * (1 + u) - 1) = ((S + xs.length * |o|) * Q + τ * Q) * u + S * (Q - 1) +
      (xs.length * |o| + τ) * (Q - 1) := by ring
    have e6 : 0 ≤ (xs.length * |o| + τ) * (Q - 1) := mul_nonneg (by linarith) (by linarith)
    linarith

/-- Sum of the residuals in two leaves with the same parent -/
theorem resid_total_error {a b : Binary32} {α β v w V W : ℝ} {m k : Nat} (ha : HasValue a α) (hb : HasValue b β) (hv : |v| ≤ V) (hw : |w| ≤ W)
    (ea : |α - v| ≤ (V + 1 / 2 ^ 126) * ((m + 2 : ℝ) / 2 ^ 23)) (eb : |β - w| ≤ (W + 1 / 2 ^ 126) * ((k + 2 : ℝ) / 2 ^ 23))
    (hmk : m + k ≤ 2 ^ 22) (hmax : V + W ≤ 2 ^ 120) :
    ∃ r, HasValue (a + b) r ∧ |r - (v + w)| ≤ (V + W + 1 / 2 ^ 125) * ((m + k + 3 : ℝ) / 2 ^ 23) := by
  have hmk' : (m : ℝ) + k ≤ 2 ^ 22 := by exact_mod_cast hmk
  have hm0 : (0 : ℝ) ≤ m := Nat.cast_nonneg m
  have hk0 : (0 : ℝ) ≤ k := Nat.cast_nonneg k
  have hV : 0 ≤ V := (abs_nonneg _).trans hv
  have hW : 0 ≤ W := (abs_nonneg _).trans hw
  obtain ⟨τ, hτ⟩ : ∃ τ : ℝ, τ = 1 / 2 ^ 126 := ⟨_, rfl⟩
  have hτ0 : 0 < τ := by rw [hτ]; positivity
  have hτ1 : τ ≤ 1 := by rw [hτ]; norm_num
  have e25 : (1 : ℝ) / 2 ^ 125 = τ + τ := by rw [hτ]; norm_num
  rw [← hτ] at ea eb
  rw [e25]
  obtain ⟨x, hx⟩ : ∃ x : ℝ, x = (m + k + 2) / 2 ^ 23 := ⟨_, rfl⟩
  have hx0 : 0 ≤ x := by rw [hx]; positivity
  have hx1 : x ≤ 1 := by rw [hx, div_le_one (by norm_num)]; norm_num at hmk' ⊢; linarith
  have l1 : ((m : ℝ) + 2) / 2 ^ 23 ≤ x := by rw [hx]; exact div_le_div_of_nonneg_right (by linarith) (by norm_num)
  have l2 : ((k : ℝ) + 2) / 2 ^ 23 ≤ x := by rw [hx]; exact div_le_div_of_nonneg_right (by linarith) (by norm_num)
  obtain ⟨r, h1, h2⟩ := add_approx (v := v) (w := w) (V := V + τ) (W := W + τ) (c := 1 + x) ha hb (by linarith) (by linarith) (by linarith)
    (ea.trans (by rw [add_sub_cancel_left]; exact mul_le_mul_of_nonneg_left l1 (by linarith)))
    (eb.trans (by rw [add_sub_cancel_left]; exact mul_le_mul_of_nonneg_left l2 (by linarith)))
    (by
      calc (V + τ + (W + τ)) * (1 + x) ≤ (2 ^ 120 + 2) * 2 := mul_le_mul (by linarith) (by linarith) (by linarith) (by norm_num)
        _ ≤ 2 ^ 127 := by norm_num)
  refine ⟨r, h1, h2.trans ?_⟩
  rw [show V + τ + (W + τ) = V + W + (τ + τ) by ring]
  refine mul_le_mul_of_nonneg_left ?_ (by linarith)
  have e : ((m : ℝ) + k + 3) / 2 ^ 23 = x + 1 / 2 ^ 24 + 1 / 2 ^ 24 := by rw [hx]; ring
  rw [e]
  have : x * (1 / 2 ^ 24) ≤ 1 / 2 ^ 24 := mul_le_of_le_one_left (by norm_num) hx1
  linarith

end Bartz
