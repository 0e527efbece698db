import Verif.Lemmas.Binary32Order
import Verif.Spec.Binary32
import Mathlib.Analysis.Complex.ExponentialBounds
/-! # Accurate logarithms satisfy the rough bounds -/

set_option autoImplicit false

namespace Bartz
open Jax Spec Jax.Binary32

theorem signedBits_le_of_value {s s' : Bool} {b b' : Fin (infBits + 1)} (h : value s b ≤ value s' b') :
    signedBits s b ≤ signedBits s' b' := by
  by_contra hc
  have h1 := value_mono (show signedBits s' b' ≤ signedBits s b by omega)
  have he : value s b = value s' b' := by omega
  apply hc
  have key : ∀ x y : Nat, mag x = mag y → x = y := fun x y h => mag_strictMono.injective h
  have hz : ∀ x : Nat, mag x = 0 → x = 0 := fun x h => key x 0 (by rw [h]; rfl)
  cases s <;> cases s'
  · have := key b b' (by change (mag b : Int) = mag b' at he; omega)
    rw [signedBits_false, signedBits_false, this]
  · change (mag b : Int) = -(mag b' : Int) at he
    have e1 := hz b (by omega)
    have e2 := hz b' (by omega)
    rw [signedBits_false, signedBits_true, e1, e2]; rfl
  · change -(mag b : Int) = (mag b' : Int) at he
    have e1 := hz b (by omega)
    have e2 := hz b' (by omega)
    rw [signedBits_false, signedBits_true, e1, e2]; rfl
  · have := key b b' (by change -(mag b : Int) = -(mag b' : Int) at he; omega)
    rw [signedBits_true, signedBits_true, this]

theorem le_of_toReal {s s' : Bool} {b b' : Fin (infBits + 1)} (h : toReal s b ≤ toReal s' b') :
    Binary32.le (.num s b) (.num s' b') = true := by
  unfold toReal at h
  rw [div_le_div_iff_of_pos_right (by positivity)] at h
  exact decide_eq_true (signedBits_le_of_value (by exact_mod_cast h))

theorem neg7 : -((7 : Nat) : Binary32) = .num true ⟨1088421888, by decide⟩ := by decide +kernel
theorem neg15 : -((15 : Nat) : Binary32) = .num true ⟨1097859072, by decide⟩ := by decide +kernel
theorem milli : 1 / ((2 ^ 10 : Nat) : Binary32) = .num false ⟨981467136, by decide⟩ := by decide +kernel
theorem almost : -(1 - 1 / ((2 ^ 23 : Nat) : Binary32)) = .num true ⟨1065353214, by decide⟩ := by decide +kernel

theorem toReal_neg7 : toReal true ⟨1088421888, by decide⟩ = -7 := by
  have : value true ⟨1088421888, by decide⟩ = -7 * 2 ^ 149 := by decide +kernel
  unfold toReal; rw [this]; push_cast; norm_num

theorem toReal_neg15 : toReal true ⟨1097859072, by decide⟩ = -15 := by
  have : value true ⟨1097859072, by decide⟩ = -15 * 2 ^ 149 := by decide +kernel
  unfold toReal; rw [this]; push_cast; norm_num

theorem toReal_milli : toReal false ⟨981467136, by decide⟩ = 2⁻¹ ^ 10 := by
  have : value false ⟨981467136, by decide⟩ = 2 ^ 139 := by decide +kernel
  unfold toReal; rw [this]; push_cast; norm_num

theorem toReal_almost : toReal true ⟨1065353214, by decide⟩ = 2⁻¹ ^ 23 - 1 := by
  have : value true ⟨1065353214, by decide⟩ = 2 ^ 126 - 2 ^ 149 := by decide +kernel
  unfold toReal; rw [this]; push_cast; norm_num

theorem roughLog_of_accurate {P : Binary32.Platform} (h : AccurateLog P) : RoughLog P where
  log x hx := by
    rw [milli] at hx
    rw [neg7]
    cases x with
    | nan => cases hx
    | num s b =>
      have hx' := of_decide_eq_true hx
      rw [signedBits_false] at hx'
      cases s with
      | true => rw [signedBits_true] at hx'; dsimp only at hx'; omega
      | false =>
        rw [signedBits_false] at hx'
        dsimp only at hx'
        by_cases hb : b.val = infBits
        · rw [eq_inf hb, h.log_inf]
          decide +kernel
        · obtain ⟨s, c, e, hc, hd⟩ := h.log b (by omega) (by have := b.isLt; omega)
          rw [e]
          apply le_of_toReal
          rw [toReal_neg7]
          have hm : (2⁻¹ ^ 10 : ℝ) ≤ toReal false b := by
            rw [← toReal_milli]
            unfold toReal
            rw [div_le_div_iff_of_pos_right (by positivity)]
            have := value_mono (s := false) (s' := false) (b := ⟨981467136, by decide⟩) (b' := b)
              (by rw [signedBits_false, signedBits_false]; exact hx')
            exact_mod_cast this
          have hl := Real.log_le_log (by positivity) hm
          rw [Real.log_pow, Real.log_inv] at hl
          have := Real.log_two_lt_d9
          have := (abs_le.1 hd).1
          norm_num at *
          linarith
  log1p := by
    rw [almost, neg15]
    obtain ⟨s, c, e, hc, hd⟩ := h.log1p true ⟨1065353214, by decide⟩ (by decide) (by rw [toReal_almost]; norm_num)
    rw [e]
    apply le_of_toReal
    rw [toReal_neg15]
    rw [toReal_almost, add_sub_cancel, Real.log_pow, Real.log_inv] at hd
    have := Real.log_two_gt_d9
    have := (abs_le.1 hd).2
    norm_num at *
    linarith

/-! ### There are accurate logarithms -/

theorem exists_near {y : ℝ} (hy : |y| ≤ 200) : ∃ s c, (c : Fin (infBits + 1)).val < infBits ∧ |toReal s c - y| ≤ 1 / 32 := by
  have h0 : 0 ≤ 32 * |y| := by positivity
  have h1 := Nat.floor_le h0
  have h2 := Nat.lt_floor_add_one (32 * |y|)
  set k := ⌊32 * |y|⌋₊
  have hk : k ≤ 6400 := by
    have : (k : ℝ) ≤ 6400 := by linarith
    exact_mod_cast this
  obtain ⟨b, hb⟩ := exists_mag (m := k) (by omega) 144
  have hlt : b < infBits := by
    by_contra hc
    have h3 := mag_le_iff.2 (show infBits ≤ b by omega)
    rw [hb] at h3
    have h4 : 6400 * 2 ^ 144 < mag infBits := by decide +kernel
    have h5 := Nat.mul_le_mul_right (2 ^ 144) hk
    omega
  refine ⟨decide (y < 0), ⟨b, by omega⟩, hlt, ?_⟩
  by_cases hneg : y < 0
  · have e : value (decide (y < 0)) ⟨b, by omega⟩ = -((k * 2 ^ 144 : Nat) : Int) := by
      rw [decide_eq_true hneg, ← hb]; rfl
    unfold toReal
    rw [e, abs_le]
    rw [abs_of_neg hneg] at h1 h2
    push_cast
    have : (-((k : ℝ) * 2 ^ 144)) / 2 ^ 149 = -(k / 32) := by
      rw [neg_div, show (2 : ℝ) ^ 149 = 2 ^ 144 * 32 by norm_num]
      field_simp
    norm_num at this ⊢
    rw [this]
    constructor <;> linarith
  · have e : value (decide (y < 0)) ⟨b, by omega⟩ = ((k * 2 ^ 144 : Nat) : Int) := by
      rw [decide_eq_false hneg, ← hb]; rfl
    unfold toReal
    rw [e, abs_le]
    rw [abs_of_nonneg (by linarith)] at h1 h2
    push_cast
    have : ((k : ℝ) * 2 ^ 144) / 2 ^ 149 = k / 32 := by
      rw [show (2 : ℝ) ^ 149 = 2 ^ 144 * 32 by norm_num]
      field_simp
    norm_num at this ⊢
    rw [this]
    constructor <;> linarith

theorem abs_log_le {x : ℝ} (h1 : 2⁻¹ ^ 149 ≤ x) (h2 : x ≤ 2 ^ 130) : |Real.log x| ≤ 200 := by
  have l1 := Real.log_le_log (by positivity) h1
  have l2 := Real.log_le_log (lt_of_lt_of_le (by positivity) h1) h2
  rw [Real.log_pow, Real.log_inv] at l1
  rw [Real.log_pow] at l2
  have := Real.log_two_lt_d9
  rw [abs_le]
  norm_num at *
  constructor <;> linarith

theorem toReal_lt {s : Bool} {b : Fin (infBits + 1)} : toReal s b ≤ 2 ^ 128 := by
  have h := mag_le_iff.2 (show b.val ≤ infBits by have := b.isLt; omega)
  have h1 : mag infBits = 2 ^ 277 := by decide +kernel
  have h2 : value s b ≤ 2 ^ 277 := by
    cases s
    · show (mag b : Int) ≤ _
      rw [h1] at h; exact_mod_cast h
    · show -(mag b : Int) ≤ _
      have : (0 : Int) ≤ mag b := Int.natCast_nonneg _
      have : (0 : Int) ≤ 2 ^ 277 := by positivity
      omega
  unfold toReal
  rw [div_le_iff₀ (by positivity)]
  have : ((value s b : Int) : ℝ) ≤ 2 ^ 277 := by exact_mod_cast h2
  rw [← pow_add]
  exact this

/-- the requirement on the logarithms can be satisfied -/
theorem exists_accurateLog : ∃ P : Binary32.Platform, AccurateLog P ∧ ∀ w, P.cumsum w = associativeScan w := by
  have hl : ∀ b : Fin (infBits + 1), 0 < b.val → |Real.log (toReal false b)| ≤ 200 := by
    intro b hb
    refine abs_log_le ?_ (le_trans toReal_lt (by norm_num))
    have h : 1 ≤ mag b := by
      have := mag_strictMono hb
      rw [mag_zero] at this; omega
    unfold toReal
    rw [inv_pow, ← one_div, div_le_div_iff_of_pos_right (by positivity)]
    have : (1 : Int) ≤ value false b := by show (1 : Int) ≤ (mag b : Int); omega
    exact_mod_cast this
  have hl1 : ∀ (s : Bool) (b : Fin (infBits + 1)), -1 < toReal s b → |Real.log (1 + toReal s b)| ≤ 200 := by
    intro s b hb
    refine abs_log_le ?_ ?_
    · unfold toReal at *
      rw [lt_div_iff₀ (by positivity)] at hb
      have h : (-(2 ^ 149) + 1 : Int) ≤ value s b := by
        have h' : (-(2 ^ 149) : Int) < value s b := by
          have : (-(2 ^ 149) : ℝ) < value s b := by linarith
          exact_mod_cast this
        omega
      have h' : (-(2 ^ 149) + 1 : ℝ) ≤ value s b := by exact_mod_cast h
      have e : (1 : ℝ) + value s b / 2 ^ 149 = (2 ^ 149 + value s b) / 2 ^ 149 := by
        rw [add_div, div_self (by positivity)]
      rw [inv_pow, ← one_div, e, div_le_div_iff_of_pos_right (by positivity)]
      linarith
    · have := toReal_lt (s := s) (b := b)
      calc 1 + toReal s b ≤ 1 + 2 ^ 128 := by linarith
        _ ≤ 2 ^ 130 := by norm_num
  have p1 : ∀ x : Binary32, ∃ y : Binary32, (x = .num false (clip infBits) → y = .num false (clip infBits)) ∧
      ∀ b : Fin (infBits + 1), x = .num false b → 0 < b.val → b.val < infBits → ∃ s c, y = .num s c ∧ c.val < infBits ∧
        |toReal s c - Real.log (toReal false b)| ≤ 1 / 32 := by
    intro x
    by_cases hx : ∃ b : Fin (infBits + 1), x = .num false b ∧ 0 < b.val ∧ b.val < infBits
    · obtain ⟨b, rfl, h1, h2⟩ := hx
      obtain ⟨s, c, hc, hd⟩ := exists_near (hl b h1)
      refine ⟨.num s c, ?_, ?_⟩
      · intro e
        rw [Binary32.num.injEq] at e
        rw [e.2, clip_of_le le_rfl] at h2
        omega
      · intro b' e _ _
        rw [Binary32.num.injEq] at e
        exact ⟨s, c, rfl, hc, by rw [← e.2]; exact hd⟩
    · exact ⟨.num false (clip infBits), fun _ => rfl, fun b e h1 h2 => absurd ⟨b, e, h1, h2⟩ hx⟩
  have p2 : ∀ x : Binary32, ∃ y : Binary32, ∀ (s : Bool) (b : Fin (infBits + 1)), x = .num s b → b.val < infBits →
      -1 < toReal s b → ∃ s' c, y = .num s' c ∧ c.val < infBits ∧ |toReal s' c - Real.log (1 + toReal s b)| ≤ 1 / 32 := by
    intro x
    by_cases hx : ∃ (s : Bool) (b : Fin (infBits + 1)), x = .num s b ∧ -1 < toReal s b
    · obtain ⟨s, b, rfl, h1⟩ := hx
      obtain ⟨s', c, hc, hd⟩ := exists_near (hl1 s b h1)
      refine ⟨.num s' c, ?_⟩
      intro t b' e _ _
      rw [Binary32.num.injEq] at e
      exact ⟨s', c, rfl, hc, by rw [← e.2, ← e.1]; exact hd⟩
    · exact ⟨.nan, fun s b e _ h2 => absurd ⟨s, b, e, h2⟩ hx⟩
  choose f hf1 hf2 using p1
  choose g hg using p2
  exact ⟨⟨f, g, associativeScan⟩, ⟨hf1 _ rfl, fun b h1 h2 => hf2 _ b rfl h1 h2, fun s b h1 h2 => hg _ s b rfl h1 h2⟩,
    fun _ => rfl⟩

end Bartz
