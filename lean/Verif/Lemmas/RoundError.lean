import Verif.Lemmas.Midpoint32
import Mathlib.Tactic.Positivity
/-! # Errors of the arithmetic in single precision -/

set_option autoImplicit false

namespace Jax
namespace Binary32

/-- the distance between consecutive numbers -/
theorem mag_gap (b : Nat) : (mag (b + 1) : ℝ) - mag b ≤ max (mag b : ℝ) (2 ^ 23) / 2 ^ 23 := by
  obtain ⟨s, m, rfl, hm, h⟩ := exists_mantissa b
  rw [Nat.add_assoc, mag_eq hm.le h, mag_eq (by omega) (by omega)]
  push_cast
  have e : ((m : ℝ) + 1) * 2 ^ s - m * 2 ^ s = 2 ^ s := by ring
  rw [e, le_div_iff₀ (by positivity)]
  rcases h with rfl | h
  · exact le_max_of_le_right (by norm_num)
  · refine le_max_of_le_left ?_
    have h1 : (2 : ℝ) ^ 23 ≤ m := by exact_mod_cast h
    rw [mul_comm]
    exact mul_le_mul_of_nonneg_right h1 (by positivity)

theorem RoundsTo.error {x : ℝ} {r : Nat} (h : RoundsTo x r) : |(mag r : ℝ) - x| ≤ max x (2 ^ 23) / 2 ^ 24 := by
  obtain ⟨b, h1, h2, h3⟩ := h
  have hg := mag_gap b
  have hm : max (mag b : ℝ) (2 ^ 23) ≤ max x (2 ^ 23) := max_le_max h1 le_rfl
  have hg' : (mag (b + 1) : ℝ) - mag b ≤ 2 * (max x (2 ^ 23) / 2 ^ 24) := by
    refine hg.trans ?_
    rw [show 2 * (max x (2 ^ 23) / 2 ^ 24) = max x (2 ^ 23) / 2 ^ 23 by ring]
    exact div_le_div_of_nonneg_right hm (by positivity)
  generalize max x (2 ^ 23) / 2 ^ 24 = e at hg'
  rw [abs_le]
  rcases h3 with ⟨h4, rfl⟩ | ⟨h4, rfl⟩ | ⟨h4, rfl⟩
  · constructor <;> linarith
  · rcases Nat.mod_two_eq_zero_or_one b with hb | hb <;> rw [hb] <;> (try rw [Nat.add_zero]) <;> constructor <;> linarith
  · constructor <;> linarith

theorem mag_127 : mag 0x7f000000 = 2 ^ 276 := by decide +kernel

theorem roundRat_error {n d : Nat} (hd : 0 < d) (h : (n : ℝ) / d ≤ 2 ^ 276) :
    (roundRat n d).val < infBits ∧ |(mag (roundRat n d) : ℝ) - n / d| ≤ max ((n : ℝ) / d) (2 ^ 23) / 2 ^ 24 := by
  obtain ⟨r, h1, e⟩ := roundRat_spec n hd
  have h2 := roundsTo_mag 0x7f000000
  rw [mag_127] at h2
  have hr : r ≤ 0x7f000000 := h1.mono h2 (by push_cast; exact h)
  have hc : (clip r).val = r := clip_of_le (hr.trans (by decide))
  rw [e, hc]
  exact ⟨lt_of_le_of_lt hr (by decide), h1.error⟩

/-- the value of a number -/
noncomputable def toReal : Binary32 → ℝ
  | nan => 0
  | num s b => (value s b : ℝ) / 2 ^ 149

theorem toReal_num (s : Bool) (b : Fin (infBits + 1)) :
    toReal (num s b) = (if s then -(mag b : ℝ) else mag b) / 2 ^ 149 := by
  unfold toReal value
  cases s <;> simp

/-- neither infinite nor nan -/
def Finite : Binary32 → Prop
  | nan => False
  | num _ b => b.val < infBits

/-- maximum error in rounding a number to nearest -/
noncomputable def ulp (x : ℝ) : ℝ := max |x| (1 / 2 ^ 126) / 2 ^ 24

theorem ulp_le {x M : ℝ} (h : |x| ≤ M) (hM : 1 / 2 ^ 126 ≤ M) : ulp x ≤ M / 2 ^ 24 := by
  unfold ulp
  exact div_le_div_of_nonneg_right (max_le h hM) (by positivity)

theorem value_abs (s : Bool) (b : Fin (infBits + 1)) : |(value s b : ℝ)| = mag b := by
  unfold value
  cases s
  · simp
  · simp

/-- a number whose sign and rounded absolute value are those of `x / (d * 2 ** 149)` -/
theorem round_signed {x : Int} {d : Nat} (hd : 0 < d) {t : Bool} (ht : x ≠ 0 → t = decide (x < 0)) {q : ℝ}
    (hq : q = (x : ℝ) / d / 2 ^ 149) (h : |q| ≤ 2 ^ 127) :
    Finite (num t (roundRat x.natAbs d)) ∧ |toReal (num t (roundRat x.natAbs d)) - q| ≤ ulp q := by
  have hd' : (0 : ℝ) < d := Nat.cast_pos.2 hd
  have hp : (0 : ℝ) < 2 ^ 149 := by positivity
  have ha : |q| = (x.natAbs : ℝ) / d / 2 ^ 149 := by
    rw [hq, abs_div, abs_div, abs_of_pos hp, abs_of_pos hd', Nat.cast_natAbs, Int.cast_abs]
  have hle : (x.natAbs : ℝ) / d ≤ 2 ^ 276 := by
    rw [ha, div_le_iff₀ hp, ← pow_add] at h
    exact h
  obtain ⟨h1, h2⟩ := roundRat_error hd hle
  refine ⟨h1, ?_⟩
  have e : ulp q = max ((x.natAbs : ℝ) / d) (2 ^ 23) / 2 ^ 24 / 2 ^ 149 := by
    unfold ulp
    rw [ha, show (1 : ℝ) / 2 ^ 126 = 2 ^ 23 / 2 ^ 149 by rw [div_eq_div_iff (by positivity) (by positivity), one_mul, ← pow_add],
      max_div_div_right (by positivity : (0 : ℝ) ≤ 2 ^ 149), div_right_comm]
  have ea : ∀ z : ℝ, |z| * 2 ^ 149 = |z * 2 ^ 149| := fun z => by rw [abs_mul, abs_of_pos hp]
  rw [e, le_div_iff₀ hp, ea]
  generalize roundRat x.natAbs d = c at h2
  have key : (toReal (num t c) - q) * 2 ^ 149 = if x < 0 then -((mag c : ℝ) - (x.natAbs : ℝ) / d) else
      (if x = 0 then (value t c : ℝ) else (mag c : ℝ) - (x.natAbs : ℝ) / d) := by
    have e1 : (toReal (num t c) - q) * 2 ^ 149 = (value t c : ℝ) - x / d := by
      rw [hq]
      unfold toReal
      rw [← sub_div, div_mul_cancel₀ _ hp.ne']
    rw [e1]
    split_ifs with h3 h4
    · rw [ht h3.ne, decide_eq_true h3]
      have : (x : ℝ) = -(x.natAbs : ℝ) := by
        rw [Nat.cast_natAbs, abs_of_neg h3]; push_cast; ring
      rw [this]
      unfold value
      simp only [if_true]
      push_cast
      ring
    · subst h4; simp
    · rw [ht h4, decide_eq_false h3]
      have : (x : ℝ) = (x.natAbs : ℝ) := by
        rw [Nat.cast_natAbs, abs_of_nonneg (not_lt.1 h3)]
      rw [this]
      unfold value
      simp
  rw [key]
  split_ifs with h3 h4
  · rw [abs_neg]; exact h2
  · rw [value_abs]
    subst h4
    simp only [Int.natAbs_zero, Nat.cast_zero, zero_div, sub_zero] at h2 ⊢
    rwa [abs_of_nonneg (Nat.cast_nonneg _)] at h2
  · exact h2

theorem add_error {x y : Binary32} (hx : Finite x) (hy : Finite y) (h : |toReal x + toReal y| ≤ 2 ^ 127) :
    Finite (x + y) ∧ |toReal (x + y) - (toReal x + toReal y)| ≤ ulp (toReal x + toReal y) := by
  cases x with
  | nan => exact hx.elim
  | num s b =>
    cases y with
    | nan => exact hy.elim
    | num s' b' =>
      have hx' : b.val < infBits := hx
      have hy' : b'.val < infBits := hy
      have e : num s b + num s' b' = num (if value s b + value s' b' = 0 then s && s' else decide (value s b + value s' b' < 0))
          (roundRat (value s b + value s' b').natAbs 1) := by
        show add _ _ = _
        unfold add
        dsimp only
        rw [if_neg (by omega), if_neg (by omega)]
      rw [e]
      refine round_signed (by norm_num) (fun h0 => if_neg h0) ?_ h
      unfold toReal
      push_cast
      ring

theorem neg_finite {x : Binary32} (hx : Finite x) : Finite (-x) ∧ toReal (-x) = -toReal x := by
  cases x with
  | nan => exact hx.elim
  | num s b =>
    refine ⟨hx, ?_⟩
    show toReal (num (!s) b) = _
    unfold toReal value
    cases s <;> simp [neg_div]

theorem sub_error {x y : Binary32} (hx : Finite x) (hy : Finite y) (h : |toReal x - toReal y| ≤ 2 ^ 127) :
    Finite (x - y) ∧ |toReal (x - y) - (toReal x - toReal y)| ≤ ulp (toReal x - toReal y) := by
  obtain ⟨h1, h2⟩ := neg_finite hy
  have := add_error hx h1 (by rw [h2, ← sub_eq_add_neg]; exact h)
  rw [h2, ← sub_eq_add_neg] at this
  exact this

theorem value_mul (s s' : Bool) (b b' : Fin (infBits + 1)) :
    (value s b * value s' b').natAbs = mag b * mag b' ∧
    (value s b * value s' b' ≠ 0 → xor s s' = decide (value s b * value s' b' < 0)) := by
  unfold value
  constructor
  · cases s <;> cases s' <;> simp [Int.natAbs_mul]
  · intro h
    have h1 : 0 ≤ (mag b : Int) * mag b' := by positivity
    cases s <;> cases s'
    · simp only [Bool.false_eq_true, if_false] at h ⊢
      exact (decide_eq_false (not_lt.2 h1)).symm
    · simp only [Bool.false_eq_true, if_false, if_true, mul_neg, ne_eq, neg_eq_zero] at h ⊢
      exact (decide_eq_true (by omega)).symm
    · simp only [Bool.false_eq_true, if_false, if_true, neg_mul, ne_eq, neg_eq_zero] at h ⊢
      exact (decide_eq_true (by omega)).symm
    · simp only [if_true, neg_mul_neg] at h ⊢
      exact (decide_eq_false (not_lt.2 h1)).symm

theorem mul_error {x y : Binary32} (hx : Finite x) (hy : Finite y) (h : |toReal x * toReal y| ≤ 2 ^ 127) :
    Finite (x * y) ∧ |toReal (x * y) - toReal x * toReal y| ≤ ulp (toReal x * toReal y) := by
  cases x with
  | nan => exact hx.elim
  | num s b =>
    cases y with
    | nan => exact hy.elim
    | num s' b' =>
      have hx' : b.val < infBits := hx
      have hy' : b'.val < infBits := hy
      obtain ⟨v1, v2⟩ := value_mul s s' b b'
      have e : num s b * num s' b' = num (xor s s') (roundRat (value s b * value s' b').natAbs (2 ^ 149)) := by
        show mul _ _ = _
        unfold mul
        dsimp only
        rw [if_neg (by omega), v1]
      rw [e]
      refine round_signed (by positivity) v2 ?_ h
      unfold toReal
      rw [Int.cast_mul, Nat.cast_pow, Nat.cast_ofNat]
      generalize (2 : ℝ) ^ 149 = p
      ring

theorem fma_error {x y z : Binary32} (hx : Finite x) (hy : Finite y) (hz : Finite z)
    (h : |toReal x * toReal y + toReal z| ≤ 2 ^ 127) :
    Finite (fma x y z) ∧ |toReal (fma x y z) - (toReal x * toReal y + toReal z)| ≤ ulp (toReal x * toReal y + toReal z) := by
  cases x with
  | nan => exact hx.elim
  | num s a =>
    cases y with
    | nan => exact hy.elim
    | num s' b =>
      cases z with
      | nan => exact hz.elim
      | num s'' c =>
        have hx' : a.val < infBits := hx
        have hy' : b.val < infBits := hy
        have hz' : c.val < infBits := hz
        have e : fma (num s a) (num s' b) (num s'' c) =
            num (if value s a * value s' b + value s'' c * 2 ^ 149 = 0 then xor s s' && s'' else
              decide (value s a * value s' b + value s'' c * 2 ^ 149 < 0))
              (roundRat (value s a * value s' b + value s'' c * 2 ^ 149).natAbs (2 ^ 149)) := by
          unfold fma
          dsimp only
          rw [if_pos (show a.val < infBits ∧ b.val < infBits from ⟨hx', hy'⟩), if_pos hz']
        rw [e]
        refine round_signed (by positivity) (fun h0 => if_neg h0) ?_ h
        unfold toReal
        rw [Int.cast_add, Int.cast_mul, Int.cast_mul, Int.cast_pow, Nat.cast_pow, Nat.cast_ofNat, Int.cast_ofNat]
        have hp : (2 : ℝ) ^ 149 ≠ 0 := by positivity
        generalize (2 : ℝ) ^ 149 = p at hp
        field_simp

theorem div_error {x y : Binary32} (hx : Finite x) (hy : Finite y) (h0 : toReal y ≠ 0) (h : |toReal x / toReal y| ≤ 2 ^ 127) :
    Finite (x / y) ∧ |toReal (x / y) - toReal x / toReal y| ≤ ulp (toReal x / toReal y) := by
  cases x with
  | nan => exact hx.elim
  | num s b =>
    cases y with
    | nan => exact hy.elim
    | num s' b' =>
      have hx' : b.val < infBits := hx
      have hy' : b'.val < infBits := hy
      have hb' : b'.val ≠ 0 := by
        intro h1
        apply h0
        rw [toReal_num, h1, mag_zero]
        simp
      have hm : 0 < mag b' := by
        have := mag_strictMono (show 0 < b'.val by omega)
        rwa [mag_zero] at this
      have e : num s b / num s' b' = num (xor s s') (roundRat (mag b * 2 ^ 149) (mag b')) := by
        show div _ _ = _
        unfold div
        dsimp only
        rw [if_neg (by omega), if_neg (by omega), if_neg hb']
      have e2 : mag b * 2 ^ 149 = ((if xor s s' then -1 else 1) * ((mag b : Int) * 2 ^ 149)).natAbs := by
        rw [Int.natAbs_mul, Int.natAbs_mul, Int.natAbs_pow, Int.natAbs_natCast]
        cases s <;> cases s' <;> simp
      rw [e, e2]
      refine round_signed hm ?_ ?_ h
      · intro h1
        have h2 : 0 < (mag b : Int) * 2 ^ 149 := by
          have h3 : 0 ≤ (mag b : Int) * 2 ^ 149 := by positivity
          rcases h3.lt_or_eq with h3 | h3
          · exact h3
          · rw [← h3, mul_zero] at h1; exact absurd rfl h1
        cases s <;> cases s' <;> simp <;> omega
      · rw [toReal_num, toReal_num, Int.cast_mul, Int.cast_mul, Int.cast_pow, Int.cast_ofNat, Int.cast_natCast]
        have hm' : (mag b' : ℝ) ≠ 0 := Nat.cast_ne_zero.2 hm.ne'
        have hp : (2 : ℝ) ^ 149 ≠ 0 := by positivity
        generalize (2 : ℝ) ^ 149 = p at hp
        cases s <;> cases s' <;> simp <;> field_simp

theorem natCast_exact {n : Nat} (h : n ≤ 2 ^ 24) : Finite (n : Binary32) ∧ toReal (n : Binary32) = n := by
  obtain ⟨b, hb⟩ := exists_mag h 149
  have hlt : b < infBits := by
    have h1 : mag b < mag infBits := by
      rw [hb]
      have h2 : mag infBits = 2 ^ 277 := by decide +kernel
      rw [h2]
      calc n * 2 ^ 149 ≤ 2 ^ 24 * 2 ^ 149 := Nat.mul_le_mul_right _ h
        _ < 2 ^ 277 := by rw [← pow_add]; exact Nat.pow_lt_pow_right (by norm_num) (by norm_num)
    exact mag_strictMono.lt_iff_lt.1 h1
  have e : (n : Binary32) = num false (roundRat (n * 2 ^ 149) 1) := rfl
  have e2 : roundRat (n * 2 ^ 149) 1 = clip b := by
    rw [← hb, ← roundRat_mag b (d := 1) (by norm_num), Nat.mul_one]
  have e3 : (clip b).val = b := clip_of_le hlt.le
  rw [e, e2]
  refine ⟨by show (clip b).val < infBits; omega, ?_⟩
  rw [toReal_num, e3, hb, Nat.cast_mul, Nat.cast_pow, Nat.cast_ofNat]
  exact mul_div_cancel_right₀ _ (by positivity)

theorem one_exact : Finite (1 : Binary32) ∧ toReal (1 : Binary32) = 1 := by
  have e : (1 : Binary32) = ((1 : Nat) : Binary32) := by decide +kernel
  rw [e]
  have := natCast_exact (n := 1) (by norm_num)
  push_cast at this
  exact this

end Binary32
end Jax
