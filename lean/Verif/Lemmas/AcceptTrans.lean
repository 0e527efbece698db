import Verif.Lemmas.AcceptRun
/-! # Rounding errors of the ratio of priors and transition probabilities, and probability of a different decision -/

set_option autoImplicit false

namespace Bartz
open Jax Spec Jax.Binary32

theorem half_value : HasValue (half : Binary32) (1 / 2) := by
  have e : (half : Binary32) = num false ⟨0x3f000000, by decide⟩ := by decide +kernel
  rw [e]
  refine ⟨false, _, rfl, by decide, ?_⟩
  have h : Binary32.value false ⟨0x3f000000, by decide⟩ = 2 ^ 148 := by decide +kernel
  unfold Spec.toReal
  rw [h, Int.cast_pow, Int.cast_ofNat, show (149 : Nat) = 148 + 1 from rfl, pow_add (2 : ℝ) 148 1, ← div_div, div_self (by positivity), pow_one]

theorem approx_one_sub {x : Binary32} {v : ℝ} (h : HasValue x v) (h0 : 0 ≤ v) (h1 : v ≤ 1 - 1 / 2 ^ 24) :
    Approx 1 (1 - x) (1 - v) := by
  have ho := hasValue_iff.1 hasValue_one
  rw [hasValue_iff] at h
  obtain ⟨h, rfl⟩ := h
  have hp : (0 : ℝ) < 1 / 2 ^ 24 := by positivity
  have hb : |Binary32.toReal (1 : Binary32) - Binary32.toReal x| ≤ 2 ^ 127 := by
    rw [ho.2, abs_of_nonneg (by linarith)]
    refine le_trans (by linarith) (by norm_num : (1 : ℝ) ≤ 2 ^ 127)
  obtain ⟨h2, h3⟩ := sub_error ho.1 h hb
  rw [ho.2] at h3
  refine ⟨_, hasValue_iff.2 ⟨h2, rfl⟩, close_of_ulp ?_ h3⟩
  have : (1 : ℝ) / 2 ^ 126 ≤ 1 / 2 ^ 24 := by norm_num
  linarith

/-- the ratio in terms of the arguments -/
theorem compute_partial_ratio_eq {F : Type} [Inhabited F] [Zero F] [One F] [Add F] [Sub F] [Mul F] [Div F] [NatCast F]
    (prob_choose : F) (num_prunable : Nat) (p_nonterminal : List F) (node : Nat) :
    compute_partial_ratio prob_choose num_prunable p_nonterminal node =
      (1 - gather p_nonterminal (gather (tree_depths (2 ^ (p_nonterminal.length - 1))) node + 1)) *
        (1 - gather p_nonterminal (gather (tree_depths (2 ^ (p_nonterminal.length - 1))) node + 1)) *
        gather p_nonterminal (gather (tree_depths (2 ^ (p_nonterminal.length - 1))) node) /
        (1 - gather p_nonterminal (gather (tree_depths (2 ^ (p_nonterminal.length - 1))) node)) /
      ((if decide (node ≠ 1) = true then half else 1) * prob_choose * (num_prunable : F)) := rfl

theorem inv_trans_approx {c : Binary32} {π : ℝ} {e : Nat} (hπ : Approx e c π) (he : e ≤ 2 ^ 20) (h1 : 1 / 2 ^ 30 ≤ π) (h2 : π ≤ 1)
    {m : Nat} (hm : 1 ≤ m) (hm' : m ≤ 2 ^ 20) (b : Bool) :
    Approx (e + 2) ((if b = true then half else 1) * c * (m : Binary32)) ((if b = true then 1 / 2 else 1) * π * m) ∧
      1 / 2 ^ 31 ≤ (if b = true then 1 / 2 else 1) * π * m ∧ (if b = true then 1 / 2 else 1) * π * m ≤ 2 ^ 20 := by
  have hπ0 : 0 < π := lt_of_lt_of_le (by positivity) h1
  obtain ⟨g, hg⟩ : ∃ g : ℝ, g = if b = true then 1 / 2 else 1 := ⟨_, rfl⟩
  have hg0 : 1 / 2 ≤ g := by rw [hg]; split_ifs <;> norm_num
  have hg1 : g ≤ 1 := by rw [hg]; split_ifs <;> norm_num
  have hgv : Approx 0 (if b = true then half else (1 : Binary32)) g := by
    refine approx_exact ?_ (by linarith)
    rw [hg]
    split_ifs
    · exact half_value
    · exact hasValue_one
  rw [← hg]
  have hM : (1 : ℝ) ≤ m := by exact_mod_cast hm
  have hM' : (m : ℝ) ≤ 2 ^ 20 := by exact_mod_cast hm'
  have e1 : 1 / 2 ^ 31 ≤ g * π := by
    calc (1 : ℝ) / 2 ^ 31 = 1 / 2 * (1 / 2 ^ 30) := by norm_num
      _ ≤ g * π := mul_le_mul hg0 h1 (by positivity) (by linarith)
  have e2 : g * π ≤ 1 := by
    calc g * π ≤ 1 * 1 := mul_le_mul hg1 h2 hπ0.le (by norm_num)
      _ = 1 := by norm_num
  have e0 : 0 < g * π := lt_of_lt_of_le (by positivity) e1
  have a1 := hgv.mul hπ (by omega) (e2.trans (by norm_num)) ((by norm_num : (1 : ℝ) / 2 ^ 125 ≤ 1 / 2 ^ 31).trans e1)
  have e3 : 1 / 2 ^ 31 ≤ g * π * m := e1.trans (le_mul_of_one_le_right e0.le hM)
  have e4 : g * π * m ≤ 2 ^ 20 := by
    calc g * π * m ≤ 1 * 2 ^ 20 := mul_le_mul e2 hM' (by linarith) (by norm_num)
      _ = 2 ^ 20 := by norm_num
  exact ⟨(a1.mul (approx_natCast (hm'.trans (by norm_num))) (by omega) (e4.trans (by norm_num))
    ((by norm_num : (1 : ℝ) / 2 ^ 125 ≤ 1 / 2 ^ 31).trans e3)).mono (by omega), e3, e4⟩

theorem tree_ratio_approx {x x' : Binary32} {p p' : ℝ} (hx : HasValue x p) (hx' : HasValue x' p') (h1 : 1 / 2 ^ 30 ≤ p)
    (h2 : p ≤ 1 - 1 / 2 ^ 24) (h3 : 0 ≤ p') (h4 : p' ≤ 1 - 1 / 2 ^ 24) :
    Approx 6 ((1 - x') * (1 - x') * x / (1 - x)) ((1 - p') * (1 - p') * p / (1 - p)) ∧
      1 / 2 ^ 78 ≤ (1 - p') * (1 - p') * p / (1 - p) ∧ (1 - p') * (1 - p') * p / (1 - p) ≤ 2 ^ 24 := by
  have hp0 : 0 < p := lt_of_lt_of_le (by positivity) h1
  have hpos : (0 : ℝ) < 1 / 2 ^ 24 := by positivity
  have a1 := approx_one_sub hx' h3 h4
  have a2 := approx_one_sub hx hp0.le h2
  obtain ⟨w, hw⟩ : ∃ w, w = 1 - p' := ⟨_, rfl⟩
  obtain ⟨r, hr⟩ : ∃ r, r = 1 - p := ⟨_, rfl⟩
  rw [← hw] at a1 ⊢
  rw [← hr] at a2 ⊢
  have w1 : 1 / 2 ^ 24 ≤ w := by linarith
  have w2 : w ≤ 1 := by linarith
  have r1 : 1 / 2 ^ 24 ≤ r := by linarith
  have r2 : r ≤ 1 := by linarith
  have r0 : 0 < r := by linarith
  have w0 : 0 < w := by linarith
  have e1 : 1 / 2 ^ 48 ≤ w * w := by
    calc (1 : ℝ) / 2 ^ 48 = 1 / 2 ^ 24 * (1 / 2 ^ 24) := by norm_num
      _ ≤ w * w := mul_le_mul w1 w1 (by positivity) w0.le
  have e2 : w * w ≤ 1 := by
    calc w * w ≤ 1 * 1 := mul_le_mul w2 w2 w0.le (by norm_num)
      _ = 1 := by norm_num
  have b1 := a1.mul a1 (by norm_num) (e2.trans (by norm_num)) ((by norm_num : (1 : ℝ) / 2 ^ 125 ≤ 1 / 2 ^ 48).trans e1)
  have e3 : 1 / 2 ^ 78 ≤ w * w * p := by
    calc (1 : ℝ) / 2 ^ 78 = 1 / 2 ^ 48 * (1 / 2 ^ 30) := by norm_num
      _ ≤ w * w * p := mul_le_mul e1 h1 (by positivity) (by positivity)
  have e4 : w * w * p ≤ 1 := by
    calc w * w * p ≤ 1 * 1 := mul_le_mul e2 (by linarith) hp0.le (by norm_num)
      _ = 1 := by norm_num
  have b2 := b1.mul (approx_exact hx hp0.le) (by norm_num) (e4.trans (by norm_num)) ((by norm_num : (1 : ℝ) / 2 ^ 125 ≤ 1 / 2 ^ 78).trans e3)
  have e5 : 1 / 2 ^ 78 ≤ w * w * p / r := by
    rw [le_div_iff₀ r0]
    exact le_trans (mul_le_of_le_one_right (by positivity) r2) e3
  have e6 : w * w * p / r ≤ 2 ^ 24 := by
    rw [div_le_iff₀ r0]
    calc w * w * p ≤ 1 := e4
      _ = 2 ^ 24 * (1 / 2 ^ 24) := by norm_num
      _ ≤ _ := mul_le_mul_of_nonneg_left r1 (by positivity)
  exact ⟨b2.div a2 (by norm_num) r0 (e6.trans (by norm_num)) ((by norm_num : (1 : ℝ) / 2 ^ 125 ≤ 1 / 2 ^ 78).trans e5), e5, e6⟩

theorem partial_ratio_approx {x x' c : Binary32} {p p' π : ℝ} {e : Nat} (hx : HasValue x p) (hx' : HasValue x' p') (h1 : 1 / 2 ^ 30 ≤ p)
    (h2 : p ≤ 1 - 1 / 2 ^ 24) (h3 : 0 ≤ p') (h4 : p' ≤ 1 - 1 / 2 ^ 24) (hπ : Approx e c π) (he : e ≤ 2 ^ 20)
    (h5 : 1 / 2 ^ 30 ≤ π) (h6 : π ≤ 1) {m : Nat} (hm : 1 ≤ m) (hm' : m ≤ 2 ^ 20) (b : Bool) :
    Approx (e + 9) ((1 - x') * (1 - x') * x / (1 - x) / ((if b = true then half else 1) * c * (m : Binary32)))
      ((1 - p') * (1 - p') * p / (1 - p) / ((if b = true then 1 / 2 else 1) * π * m)) ∧
    1 / 2 ^ 98 ≤ (1 - p') * (1 - p') * p / (1 - p) / ((if b = true then 1 / 2 else 1) * π * m) ∧
    (1 - p') * (1 - p') * p / (1 - p) / ((if b = true then 1 / 2 else 1) * π * m) ≤ 2 ^ 55 := by
  obtain ⟨a1, a2, a3⟩ := tree_ratio_approx hx hx' h1 h2 h3 h4
  obtain ⟨b1, b2, b3⟩ := inv_trans_approx hπ he h5 h6 hm hm' b
  generalize (1 - p') * (1 - p') * p / (1 - p) = A at *
  generalize (if b = true then (1 : ℝ) / 2 else 1) * π * m = B at *
  have hB : 0 < B := lt_of_lt_of_le (by positivity) b2
  have hA : 0 < A := lt_of_lt_of_le (by positivity) a2
  have e1 : 1 / 2 ^ 98 ≤ A / B := by
    rw [le_div_iff₀ hB]
    calc 1 / 2 ^ 98 * B ≤ 1 / 2 ^ 98 * 2 ^ 20 := mul_le_mul_of_nonneg_left b3 (by positivity)
      _ = 1 / 2 ^ 78 := by norm_num
      _ ≤ A := a2
  have e2 : A / B ≤ 2 ^ 55 := by
    rw [div_le_iff₀ hB]
    calc A ≤ 2 ^ 24 := a3
      _ = 2 ^ 55 * (1 / 2 ^ 31) := by norm_num
      _ ≤ 2 ^ 55 * B := mul_le_mul_of_nonneg_left b2 (by positivity)
  exact ⟨(a1.div b1 (by omega) hB (e2.trans (by norm_num)) ((by norm_num : (1 : ℝ) / 2 ^ 125 ≤ 1 / 2 ^ 98).trans e1)).mono (by omega),
    e1, e2⟩

/-- the logarithm of the product with the probability of pruning -/
theorem log_ratio_error [P : Binary32.Platform] {δ : ℝ} (hP : LogError P δ) (hδ : 0 ≤ δ) {r w : Binary32} {A g : ℝ} {e : Nat} (hr : Approx (e + 9) r A)
    (he : e ≤ 2 ^ 20) (h1 : 1 / 2 ^ 98 ≤ A) (h2 : A ≤ 2 ^ 55) (hw : HasValue w g) (hg : g = 1 / 2 ∨ g = 1) :
    ∃ x, HasValue (FltFun.log (r * w)) x ∧ |x - Real.log (A * g)| ≤ (e + 10) / 2 ^ 23 + δ * (2 + |Real.log (A * g)|) := by
  have hA : 0 < A := lt_of_lt_of_le (by positivity) h1
  have g0 : 1 / 2 ≤ g := by rcases hg with rfl | rfl <;> norm_num
  have g1 : g ≤ 1 := by rcases hg with rfl | rfl <;> norm_num
  have e1 : 1 / 2 ^ 99 ≤ A * g := by
    calc (1 : ℝ) / 2 ^ 99 = 1 / 2 ^ 98 * (1 / 2) := by norm_num
      _ ≤ A * g := mul_le_mul h1 g0 (by norm_num) hA.le
  have e2 : A * g ≤ 2 ^ 55 := (mul_le_of_le_one_right hA.le g1).trans h2
  obtain ⟨v, v1, v2⟩ := hr.mul (approx_exact hw (by linarith)) (by omega) (e2.trans (by norm_num))
    ((by norm_num : (1 : ℝ) / 2 ^ 125 ≤ 1 / 2 ^ 99).trans e1)
  have hAg : 0 < A * g := lt_of_lt_of_le (by positivity) e1
  have e3 := v2.log hAg
  have hv : 1 / 2 ^ 126 ≤ v := by
    have := (v2.le_two (by omega)).2
    refine le_two_pow this ((by norm_num : (1 : ℝ) / 2 ^ 125 ≤ 1 / 2 ^ 99).trans e1)
  obtain ⟨x, x1, x2⟩ := hP.log _ _ v1 hv
  refine ⟨x, x1, ?_⟩
  have e4 : (((e + 9 + 0 + 1 : Nat) : ℝ)) / 2 ^ 23 = (e + 10) / 2 ^ 23 := by push_cast; ring
  rw [e4] at e3
  have e5 : |Real.log v| ≤ 1 + |Real.log (A * g)| := by
    have : |Real.log v| ≤ |Real.log v - Real.log (A * g)| + |Real.log (A * g)| := by
      have := abs_add_le (Real.log v - Real.log (A * g)) (Real.log (A * g))
      rwa [sub_add_cancel] at this
    have h20 : ((e : ℝ) + 10) / 2 ^ 23 ≤ 1 := by
      have : (e : ℝ) ≤ 2 ^ 20 := by exact_mod_cast he
      rw [div_le_one (by norm_num)]
      linarith
    linarith
  rw [show x - Real.log (A * g) = (x - Real.log v) + (Real.log v - Real.log (A * g)) by ring]
  refine (abs_add_le _ _).trans ?_
  have : δ * (1 + |Real.log v|) ≤ δ * (2 + |Real.log (A * g)|) := mul_le_mul_of_nonneg_left (by linarith) hδ
  linarith

theorem compute_p_prune_value (mv : Move Binary32) (l r : Nat) (m : Option Nat) :
    HasValue (compute_p_prune mv l r m) (1 / 2) ∨ HasValue (compute_p_prune mv l r m) 1 := by
  have h : compute_p_prune mv l r m = half ∨ compute_p_prune mv l r m = 1 := by
    unfold compute_p_prune
    dsimp only
    generalize (half : Binary32) = h
    generalize (1 : Binary32) = o
    cases mv.grow <;> simp only [Bool.false_eq_true, if_false, if_true] <;> split_ifs <;> simp
  rcases h with h | h
  · exact Or.inl (h ▸ half_value)
  · exact Or.inr (h ▸ hasValue_one)

/-- the number of values of the variate for which a decision depends on an error -/
theorem bits_near {ℓ β : ℝ} (hβ : 0 ≤ β) {p : Fin (2 ^ 23) → Prop}
    (hp : ∀ k, p k → |Real.log (1 - k.val / 2 ^ 23) - ℓ| ≤ β) : bitsProb p ≤ 2 * β + 1 / 2 ^ 23 := by
  classical
  rw [bitsProb_eq, div_le_iff₀ (by norm_num)]
  have hpos : ∀ k : Fin (2 ^ 23), 0 < 1 - (k.val : ℝ) / 2 ^ 23 := by
    intro k
    have : (k.val : ℝ) < 2 ^ 23 := by exact_mod_cast k.isLt
    rw [sub_pos, div_lt_one (by norm_num)]
    exact this
  obtain ⟨hi, ehi⟩ : ∃ hi, hi = min 1 (Real.exp (ℓ + β)) := ⟨_, rfl⟩
  obtain ⟨lo, elo⟩ : ∃ lo, lo = Real.exp (ℓ - β) := ⟨_, rfl⟩
  have hlen : hi - lo ≤ 2 * β := by
    have h1 : hi ≤ 1 := by rw [ehi]; exact min_le_left _ _
    have h2 : hi ≤ Real.exp (ℓ + β) := by rw [ehi]; exact min_le_right _ _
    have h0 : 0 ≤ hi := by rw [ehi]; exact le_min (by norm_num) (Real.exp_pos _).le
    have h3 : lo = Real.exp (ℓ + β) * Real.exp (-(2 * β)) := by rw [elo, ← Real.exp_add]; congr 1; ring
    have h4 : 1 - 2 * β ≤ Real.exp (-(2 * β)) := by
      have := Real.add_one_le_exp (-(2 * β)); linarith
    have h5 : hi * Real.exp (-(2 * β)) ≤ lo := by
      rw [h3]; exact mul_le_mul_of_nonneg_right h2 (Real.exp_pos _).le
    have h6 : hi * (1 - 2 * β) ≤ hi * Real.exp (-(2 * β)) := mul_le_mul_of_nonneg_left h4 h0
    have h7 : hi * β ≤ 1 * β := mul_le_mul_of_nonneg_right h1 hβ
    nlinarith
  have hcard := card_between (Finset.univ.filter p) (A := 2 ^ 23 * (1 - hi)) (B := 2 ^ 23 * (1 - lo)) (by
    intro k hk
    rw [Finset.mem_filter] at hk
    have h1 := abs_le.1 (hp k hk.2)
    have h2 := hpos k
    have h3 : lo ≤ 1 - (k.val : ℝ) / 2 ^ 23 := by
      rw [elo, ← Real.le_log_iff_exp_le h2]; linarith
    have h4 : 1 - (k.val : ℝ) / 2 ^ 23 ≤ hi := by
      rw [ehi]
      refine le_min ?_ ?_
      · have : (0 : ℝ) ≤ (k.val : ℝ) / 2 ^ 23 := by positivity
        linarith
      · rw [← Real.log_le_iff_le_exp h2]; linarith
    have h5 : (k.val : ℝ) = 2 ^ 23 * ((k.val : ℝ) / 2 ^ 23) := by field_simp
    rw [h5]
    exact ⟨mul_le_mul_of_nonneg_left (by linarith) (by norm_num), mul_le_mul_of_nonneg_left (by linarith) (by norm_num)⟩)
  refine hcard.trans (max_le (by positivity) ?_)
  have e1 : (2 : ℝ) ^ 23 * (1 - lo) - 2 ^ 23 * (1 - hi) + 1 = 2 ^ 23 * (hi - lo) + 1 := by ring
  have e2 : (2 * β + 1 / 2 ^ 23) * 2 ^ 23 = 2 ^ 23 * (2 * β) + 1 := by ring
  rw [e1, e2]
  have := mul_le_mul_of_nonneg_left hlen (by norm_num : (0 : ℝ) ≤ 2 ^ 23)
  linarith

end Bartz
