import Verif.Spec.PowerScale
import Verif.Lemmas.Close32
import Verif.Lemmas.Binary32Order
import Verif.Lemmas.Ieee
/-! # Arithmetic in single precision and powers of two -/

set_option autoImplicit false

namespace Jax.Binary32
open Spec (TimesPow)

theorem mag_add_shift {b : Nat} (hb : 2 ^ 23 ≤ b) (j : Nat) : mag (b + j * 2 ^ 23) = 2 ^ j * mag b := by
  unfold mag
  rw [if_neg (by omega), if_neg (by omega)]
  have h1 : (b + j * 2 ^ 23) % 2 ^ 23 = b % 2 ^ 23 := by omega
  have h2 : (b + j * 2 ^ 23) / 2 ^ 23 - 1 = (b / 2 ^ 23 - 1) + j := by omega
  rw [h1, h2, pow_add]
  ring

theorem mag_small {n : Nat} (h : n ≤ 2 ^ 24) : mag n = n := by
  have := mag_eq (s := 0) h (.inl rfl)
  simpa using this

/-- Rounding commutes with the multiplication by a power of two, but for the subnormal numbers. -/
theorem RoundsTo.scale {x : ℝ} {r : Nat} (h : RoundsTo x r) (hx : 2 ^ 23 ≤ x ∨ ∃ n : Nat, x = n) (j : Nat) :
    ∃ r', RoundsTo (2 ^ j * x) r' ∧ mag r' = 2 ^ j * mag r := by
  by_cases hbig : 2 ^ 23 ≤ x
  · obtain ⟨b, h1, h2, h3⟩ := h
    have hb : 2 ^ 23 ≤ b := by
      have : (2 : ℝ) ^ 23 < mag (b + 1) := lt_of_le_of_lt hbig h2
      have h4 : 2 ^ 23 < mag (b + 1) := by exact_mod_cast this
      rw [← mag_small (n := 2 ^ 23) (by norm_num)] at h4
      have := mag_strictMono.lt_iff_lt.1 h4
      omega
    have e1 : (mag (b + j * 2 ^ 23) : ℝ) = 2 ^ j * mag b := by rw [mag_add_shift hb]; push_cast; ring
    have e2 : (mag (b + j * 2 ^ 23 + 1) : ℝ) = 2 ^ j * mag (b + 1) := by
      rw [show b + j * 2 ^ 23 + 1 = (b + 1) + j * 2 ^ 23 by omega, mag_add_shift (by omega)]; push_cast; ring
    have hp : (0 : ℝ) < 2 ^ j := by positivity
    have hr : 2 ^ 23 ≤ r := by rcases h3 with h | h | h <;> omega
    refine ⟨r + j * 2 ^ 23, ⟨b + j * 2 ^ 23, ?_, ?_, ?_⟩, mag_add_shift hr j⟩
    · rw [e1]; exact mul_le_mul_of_nonneg_left h1 hp.le
    · rw [e2]; exact mul_lt_mul_of_pos_left h2 hp
    · rw [e1, e2]
      rcases h3 with ⟨h, e⟩ | ⟨h, e⟩ | ⟨h, e⟩
      · exact .inl ⟨by nlinarith, by omega⟩
      · exact .inr (.inl ⟨by linear_combination (2 ^ j) * h, by omega⟩)
      · exact .inr (.inr ⟨by nlinarith, by omega⟩)
  · obtain ⟨n, rfl⟩ : ∃ n : Nat, x = n := by tauto
    have hn : n < 2 ^ 23 := by
      have := not_le.1 hbig
      exact_mod_cast this
    have e := roundsTo_mag n
    rw [mag_small (by omega)] at e
    have hr := h.unique e
    subst hr
    obtain ⟨b, hb⟩ := exists_mag (m := r) (by omega) j
    refine ⟨b, ?_, by rw [hb, mag_small (by omega), mul_comm]⟩
    have := roundsTo_mag b
    rw [hb] at this
    push_cast at this
    rwa [mul_comm]

theorem lt_inf_of_scale {r r' j : Nat} (h : mag r' = 2 ^ j * mag r) (hr : r' < infBits) : r < infBits := by
  have : mag r ≤ mag r' := by rw [h]; exact Nat.le_mul_of_pos_left _ (by positivity)
  have := mag_le_iff.1 this
  omega

theorem clip_lt {r : Nat} (h : (clip r).val < infBits) : r < infBits ∧ (clip r).val = r := by
  unfold clip at h ⊢
  dsimp only at h ⊢
  omega

theorem roundRat_scale {n d n' d' j : Nat} (hd : 0 < d) (hd' : 0 < d') (h : (n' : ℝ) / d' = 2 ^ j * (n / d))
    (hx : (2 : ℝ) ^ 23 ≤ n / d ∨ ∃ m : Nat, (n : ℝ) / d = m) (hf : (roundRat n' d').val < infBits) :
    (roundRat n d).val < infBits ∧ mag (roundRat n' d') = 2 ^ j * mag (roundRat n d) := by
  obtain ⟨r, h1, e1⟩ := roundRat_spec n hd
  obtain ⟨r', h2, e2⟩ := roundRat_spec n' hd'
  obtain ⟨q, h3, h4⟩ := h1.scale hx j
  rw [h] at h2
  have := h2.unique h3
  subst this
  rw [e2] at hf ⊢
  obtain ⟨h5, h6⟩ := clip_lt hf
  have h7 := lt_inf_of_scale h4 h5
  rw [e1, h6, clip_of_le h7.le]
  exact ⟨h7, h4⟩

/-- the operation does not underflow if the result is large enough -/
theorem le_of_roundRat {n d : Nat} (hd : 0 < d) (h : 2 ^ 23 < (roundRat n d).val) : (2 : ℝ) ^ 23 ≤ n / d := by
  by_contra hlt
  obtain ⟨r, h1, e1⟩ := roundRat_spec n hd
  have h2 := roundsTo_mag (2 ^ 23)
  rw [mag_small (by norm_num)] at h2
  have := h1.mono h2 (by push_cast; linarith)
  rw [e1] at h
  have : (clip r).val ≤ r := by unfold clip; dsimp only; omega
  omega

theorem timesPow_iff {j : Nat} {x x' : Binary32} : TimesPow j x x' ↔ ∃ s b b', x = num s b ∧ x' = num s b' ∧ b.val < infBits ∧
    b'.val < infBits ∧ mag b' = 2 ^ j * mag b := by
  unfold TimesPow
  refine exists_congr fun s => exists_congr fun b => exists_congr fun b' => and_congr_right fun _ => and_congr_right fun _ =>
    and_congr_right fun _ => and_congr_right fun _ => ?_
  unfold Spec.toReal value
  have hp : (0 : ℝ) < 2 ^ 149 := by positivity
  rw [← mul_div_assoc, div_left_inj' hp.ne']
  cases s
  · simp only [Bool.false_eq_true, if_false]
    push_cast
    exact_mod_cast Iff.rfl
  · simp only [if_true]
    push_cast
    rw [mul_neg, neg_inj]
    exact_mod_cast Iff.rfl

theorem TimesPow.mk {j : Nat} {s : Bool} {b b' : Fin (infBits + 1)} (h : b.val < infBits) (h' : b'.val < infBits)
    (e : mag b' = 2 ^ j * mag b) : TimesPow j (num s b) (num s b') := timesPow_iff.2 ⟨s, b, b', rfl, rfl, h, h', e⟩

theorem timesPow_zero (j : Nat) (s : Bool) : TimesPow j (num s 0) (num s 0) :=
  TimesPow.mk (by decide) (by decide) (by
    have : mag ((0 : Fin (infBits + 1)).val) = 0 := by decide
    rw [this, mul_zero])

/-- `x'` is `2 ** j` times `x` unless it overflows -/
def Scales (j : Nat) (x x' : Binary32) : Prop := Finite x' → TimesPow j x x'

theorem finite_of_add {x y : Binary32} (h : Finite (x + y)) : Finite x ∧ Finite y := by
  have e : x + y = add x y := rfl
  rw [e] at h
  cases x with
  | nan => exact h.elim
  | num s b =>
    cases y with
    | nan => exact h.elim
    | num s' b' =>
      unfold add at h
      dsimp only at h
      have hb := b.isLt
      have hb' := b'.isLt
      by_cases h1 : b.val = infBits
      · rw [if_pos h1] at h
        by_cases h2 : b'.val = infBits
        · rw [if_pos h2] at h
          by_cases h3 : s = s'
          · rw [if_pos h3] at h
            have : b.val < infBits := h
            omega
          · rw [if_neg h3] at h
            exact h.elim
        · rw [if_neg h2] at h
          have : b.val < infBits := h
          omega
      · rw [if_neg h1] at h
        by_cases h2 : b'.val = infBits
        · rw [if_pos h2] at h
          have : b'.val < infBits := h
          omega
        · exact ⟨show b.val < infBits by omega, show b'.val < infBits by omega⟩

theorem value_scale {j : Nat} {s : Bool} {b b' : Fin (infBits + 1)} (e : mag b' = 2 ^ j * mag b) :
    value s b' = 2 ^ j * value s b := by
  unfold value
  rw [e]
  cases s <;> simp

theorem add_num {s s' : Bool} {b b' : Fin (infBits + 1)} (h : b.val < infBits) (h' : b'.val < infBits) :
    num s b + num s' b' = num (if value s b + value s' b' = 0 then s && s' else decide (value s b + value s' b' < 0))
      (roundRat (value s b + value s' b').natAbs 1) := by
  show add (num s b) (num s' b') = _
  unfold add
  dsimp only
  rw [if_neg (by omega), if_neg (by omega)]

theorem Scales.add {j : Nat} {x x' y y' : Binary32} (hx : Scales j x x') (hy : Scales j y y') : Scales j (x + y) (x' + y') := by
  intro hf
  obtain ⟨f1, f2⟩ := finite_of_add hf
  obtain ⟨s, b, b', rfl, rfl, hb, hb', eb⟩ := timesPow_iff.1 (hx f1)
  obtain ⟨t, c, c', rfl, rfl, hc, hc', ec⟩ := timesPow_iff.1 (hy f2)
  rw [add_num hb' hc'] at hf ⊢
  rw [add_num hb hc]
  have ev : value s b' + value t c' = 2 ^ j * (value s b + value t c) := by rw [value_scale eb, value_scale ec]; ring
  have hp : (0 : Int) < 2 ^ j := by positivity
  rw [ev] at hf ⊢
  generalize value s b + value t c = z at hf ⊢
  have e1 : (2 ^ j * z = 0) ↔ z = 0 := by simp
  have e2 : (2 ^ j * z < 0) ↔ z < 0 := by rw [← not_le, ← not_le, mul_nonneg_iff_of_pos_left hp]
  have e3 : (2 ^ j * z).natAbs = 2 ^ j * z.natAbs := by rw [Int.natAbs_mul, Int.natAbs_pow]; rfl
  have hf' : (roundRat (2 ^ j * z).natAbs 1).val < infBits := hf
  obtain ⟨h1, h2⟩ := roundRat_scale (n := z.natAbs) (n' := (2 ^ j * z).natAbs) (j := j) one_pos one_pos
    (by rw [e3]; push_cast; ring) (.inr ⟨z.natAbs, by simp⟩) hf'
  have es : (if 2 ^ j * z = 0 then s && t else decide (2 ^ j * z < 0)) = (if z = 0 then s && t else decide (z < 0)) := by
    by_cases hz : z = 0
    · rw [if_pos hz, if_pos (e1.2 hz)]
    · rw [if_neg hz, if_neg (fun h => hz (e1.1 h))]
      exact decide_eq_decide.2 e2
  rw [es]
  exact TimesPow.mk h1 hf' h2

theorem Scales.neg {j : Nat} {x x' : Binary32} (hx : Scales j x x') : Scales j (-x) (-x') := by
  intro hf
  have f1 : Finite x' := by
    cases x' with
    | nan => exact hf
    | num s b => exact hf
  obtain ⟨s, b, b', rfl, rfl, hb, hb', eb⟩ := timesPow_iff.1 (hx f1)
  exact TimesPow.mk hb hb' eb

theorem Scales.sub {j : Nat} {x x' y y' : Binary32} (hx : Scales j x x') (hy : Scales j y y') : Scales j (x - y) (x' - y') :=
  hx.add hy.neg

theorem sub_finite {x y : Binary32} (h : Finite (x - y)) : Finite x ∧ Finite y := by
  obtain ⟨h1, h2⟩ := finite_of_add h
  refine ⟨h1, ?_⟩
  cases y with
  | nan => exact h2
  | num s b => exact h2

theorem Scales.sum {j : Nat} {ys ys' : List Binary32} (h : List.Forall₂ (TimesPow j) ys ys') : Scales j (Jax.sum ys) (Jax.sum ys') := by
  unfold Jax.sum
  have : ∀ (x x' : Binary32), Scales j x x' → Scales j (ys.foldl (· + ·) x) (ys'.foldl (· + ·) x') := by
    induction h with
    | nil => exact fun _ _ h => h
    | cons h _ ih => exact fun x x' hx => ih _ _ (hx.add fun _ => h)
  exact this 0 0 fun _ => timesPow_zero j false

/-! ### Multiples of a power of two -/

/-- the absolute value, in units of the smallest number, is a multiple of `2 ** m` -/
def Multiple (m : Nat) (x : Binary32) : Prop := ∀ s b, x = num s b → 2 ^ m ∣ mag b

theorem roundRat_multiple {m n : Nat} (hm : m ≤ 253) (h : 2 ^ m ∣ n) : 2 ^ m ∣ mag (roundRat n 1) := by
  obtain ⟨k, rfl⟩ := h
  obtain ⟨r, h1, -⟩ := roundRat_spec k one_pos
  obtain ⟨r', h2, e2⟩ := roundRat_spec (2 ^ m * k) one_pos
  obtain ⟨q, h3, h4⟩ := h1.scale (.inr ⟨k, by simp⟩) m
  have : r' = q := h2.unique (by
    have e : ((2 ^ m * k : Nat) : ℝ) / (1 : Nat) = 2 ^ m * (k / (1 : Nat)) := by push_cast; ring
    rw [e]; exact h3)
  subst this
  rw [e2]
  rcases Nat.lt_or_ge infBits r' with hr | hr
  · have : (clip r').val = infBits := by unfold clip; dsimp only; omega
    rw [this, mag_inf]
    exact pow_dvd_pow 2 (by omega)
  · rw [clip_of_le hr, h4]
    exact dvd_mul_right _ _

theorem Multiple.add {m : Nat} (hm : m ≤ 253) {x y : Binary32} (hx : Multiple m x) (hy : Multiple m y) (hf : Finite (x + y)) :
    Multiple m (x + y) := by
  obtain ⟨f1, f2⟩ := finite_of_add hf
  cases x with
  | nan => exact f1.elim
  | num s b =>
    cases y with
    | nan => exact f2.elim
    | num t c =>
      rw [add_num f1 f2]
      intro s' b' h
      injection h with _ h
      subst h
      refine roundRat_multiple hm ?_
      have h1 : ((2 ^ m : Nat) : Int) ∣ value s b := by
        unfold value
        split_ifs
        · exact (Int.natCast_dvd_natCast.2 (hx s b rfl)).neg_right
        · exact Int.natCast_dvd_natCast.2 (hx s b rfl)
      have h2 : ((2 ^ m : Nat) : Int) ∣ value t c := by
        unfold value
        split_ifs
        · exact (Int.natCast_dvd_natCast.2 (hy t c rfl)).neg_right
        · exact Int.natCast_dvd_natCast.2 (hy t c rfl)
      exact Int.natCast_dvd.1 (dvd_add h1 h2)

theorem Multiple.neg {m : Nat} {x : Binary32} (hx : Multiple m x) : Multiple m (-x) := by
  cases x with
  | nan => exact fun s b h => hx s b h
  | num t c =>
    intro s b h
    have h : num (!t) c = num s b := h
    injection h with _ h
    subst h
    exact hx t c rfl

theorem Multiple.sum {m : Nat} (hm : m ≤ 253) {ys : List Binary32} (h : ∀ y ∈ ys, Multiple m y) (hf : Finite (Jax.sum ys)) :
    Multiple m (Jax.sum ys) := by
  unfold Jax.sum at hf ⊢
  have hfin : ∀ (ys : List Binary32) (x : Binary32), Finite (ys.foldl (· + ·) x) → Finite x := by
    intro ys
    induction ys with
    | nil => exact fun _ h => h
    | cons y ys ih => exact fun x h => (finite_of_add (ih _ h)).1
  have : ∀ (x : Binary32), Multiple m x → Finite (ys.foldl (· + ·) x) → Multiple m (ys.foldl (· + ·) x) := by
    clear hf
    induction ys with
    | nil => exact fun _ h _ => h
    | cons y ys ih =>
      intro x hx hf
      exact ih (fun y hy => h y (List.mem_cons_of_mem _ hy)) _ (hx.add hm (h y List.mem_cons_self) (hfin _ _ hf)) hf
  refine this 0 ?_ hf
  intro s b h
  have h : num false 0 = num s b := h
  injection h with _ h
  subst h
  exact dvd_zero _

theorem multiple_of_large {b m : Nat} (h : mag b = 0 ∨ 2 ^ (m + 23) ≤ mag b) : 2 ^ m ∣ mag b := by
  rcases h with h | h
  · rw [h]; exact dvd_zero _
  · obtain ⟨s, k, rfl, hk, hs⟩ := exists_mantissa b
    rw [mag_eq hk.le hs] at h ⊢
    have : m + 23 < 24 + s := by
      have h1 : k * 2 ^ s < 2 ^ (24 + s) := by
        rw [pow_add]
        exact Nat.mul_lt_mul_of_pos_right hk (by positivity)
      exact (Nat.pow_lt_pow_iff_right (by norm_num)).1 (lt_of_le_of_lt h h1)
    exact Dvd.dvd.mul_left (pow_dvd_pow 2 (by omega)) _

/-! ### Order -/

theorem bits_scale {j b c b' c' : Nat} (hb : mag b' = 2 ^ j * mag b) (hc : mag c' = 2 ^ j * mag c) : b' ≤ c' ↔ b ≤ c := by
  rw [← mag_le_iff (b := b'), ← mag_le_iff (b := b), hb, hc]
  exact Nat.mul_le_mul_left_iff (Nat.two_pow_pos j)

theorem zero_scale {j b b' : Nat} (hb : mag b' = 2 ^ j * mag b) : b' = 0 ↔ b = 0 := by
  have h := bits_scale hb (c := 0) (c' := 0) (by rw [show mag 0 = 0 by decide, mul_zero])
  omega

theorem le_scale {j : Nat} {x x' y y' : Binary32} (hx : TimesPow j x x') (hy : TimesPow j y y') : le x' y' = le x y := by
  obtain ⟨s, b, b', rfl, rfl, hb, hb', eb⟩ := timesPow_iff.1 hx
  obtain ⟨t, c, c', rfl, rfl, hc, hc', ec⟩ := timesPow_iff.1 hy
  unfold le signedBits
  dsimp only
  rw [decide_eq_decide]
  have h1 := bits_scale eb ec
  have h2 := bits_scale ec eb
  have h3 := zero_scale eb
  have h4 := zero_scale ec
  cases s <;> cases t <;> simp only [Bool.false_eq_true, if_false, if_true] <;> omega

section
variable [Platform]

theorem maxF_scale {j : Nat} {ys ys' : List Binary32} (h : List.Forall₂ (TimesPow j) ys ys') :
    TimesPow j (Jax.maxF ys) (Jax.maxF ys') := by
  cases h with
  | nil => exact timesPow_zero j false
  | cons h hs =>
    rename_i x x' xs xs'
    show TimesPow j (xs.foldl _ x) (xs'.foldl _ x')
    induction hs generalizing x x' with
    | nil => exact h
    | cons h2 _ ih =>
      refine ih ?_
      show TimesPow j (if le _ _ = true then _ else _) (if le _ _ = true then _ else _)
      rw [le_scale h h2]
      split_ifs
      · exact h2
      · exact h

theorem minF_scale {j : Nat} {ys ys' : List Binary32} (h : List.Forall₂ (TimesPow j) ys ys') :
    TimesPow j (Jax.minF ys) (Jax.minF ys') := by
  cases h with
  | nil => exact timesPow_zero j false
  | cons h hs =>
    rename_i x x' xs xs'
    show TimesPow j (xs.foldl _ x) (xs'.foldl _ x')
    induction hs generalizing x x' with
    | nil => exact h
    | cons h2 _ ih =>
      refine ih ?_
      show TimesPow j (if le _ _ = true then _ else _) (if le _ _ = true then _ else _)
      rw [le_scale h h2]
      split_ifs
      · exact h
      · exact h2

theorem maxF_mem {x : Binary32} {xs : List Binary32} : Jax.maxF (x :: xs) ∈ x :: xs := by
  show xs.foldl _ x ∈ x :: xs
  induction xs generalizing x with
  | nil => exact List.mem_singleton_self _
  | cons y ys ih =>
    rw [List.foldl_cons]
    have := ih (x := if FltFun.leb x y = true then y else x)
    rcases List.mem_cons.1 this with h | h
    · rw [h]
      split_ifs
      · exact List.mem_cons_of_mem _ List.mem_cons_self
      · exact List.mem_cons_self
    · exact List.mem_cons_of_mem _ (List.mem_cons_of_mem _ h)

theorem minF_mem {x : Binary32} {xs : List Binary32} : Jax.minF (x :: xs) ∈ x :: xs := by
  show xs.foldl _ x ∈ x :: xs
  induction xs generalizing x with
  | nil => exact List.mem_singleton_self _
  | cons y ys ih =>
    rw [List.foldl_cons]
    have := ih (x := if FltFun.leb x y = true then x else y)
    rcases List.mem_cons.1 this with h | h
    · rw [h]
      split_ifs
      · exact List.mem_cons_self
      · exact List.mem_cons_of_mem _ List.mem_cons_self
    · exact List.mem_cons_of_mem _ (List.mem_cons_of_mem _ h)

end

/-! ### Multiplication, division, square root -/

/-- the exact result of an operation is zero, or it is not so small that it underflows -/
def NoUnderflow (v : ℝ) : Prop := v = 0 ∨ 1 / 2 ^ 126 ≤ |v|

theorem finite_of_mul {x y : Binary32} (h : Finite (x * y)) : Finite x ∧ Finite y := by
  have e : x * y = mul x y := rfl
  rw [e] at h
  cases x with
  | nan => exact h.elim
  | num s b =>
    cases y with
    | nan => exact h.elim
    | num t c =>
      unfold mul at h
      dsimp only at h
      have hb := b.isLt
      have hc := c.isLt
      by_cases h1 : b.val = infBits ∨ c.val = infBits
      · rw [if_pos h1] at h
        split_ifs at h
        · exact h.elim
        · have h : (clip infBits).val < infBits := h
          rw [clip_of_le le_rfl] at h
          omega
      · exact ⟨show b.val < infBits by omega, show c.val < infBits by omega⟩

theorem toReal_abs (s : Bool) (b : Fin (infBits + 1)) : |toReal (num s b)| = mag b / 2 ^ 149 := by
  unfold toReal
  rw [abs_div, value_abs, abs_of_pos (by positivity : (0 : ℝ) < 2 ^ 149)]

theorem cond_of {v w : ℝ} (h : NoUnderflow v) (e : w = |v| * 2 ^ 149) : 2 ^ 23 ≤ w ∨ ∃ m : Nat, w = m := by
  rcases h with h | h
  · exact .inr ⟨0, by rw [e, h]; simp⟩
  · refine .inl ?_
    rw [e]
    calc (2 : ℝ) ^ 23 = 1 / 2 ^ 126 * 2 ^ 149 := by norm_num
      _ ≤ _ := mul_le_mul_of_nonneg_right h (by positivity)

theorem Scales.mul {i j : Nat} {x x' y y' : Binary32} (hx : Scales i x x') (hy : Scales j y y')
    (hu : Finite x → Finite y → NoUnderflow (toReal x * toReal y)) : Scales (i + j) (x * y) (x' * y') := by
  intro hf
  obtain ⟨f1, f2⟩ := finite_of_mul hf
  obtain ⟨s, b, b', rfl, rfl, hb, hb', eb⟩ := timesPow_iff.1 (hx f1)
  obtain ⟨t, c, c', rfl, rfl, hc, hc', ec⟩ := timesPow_iff.1 (hy f2)
  have em : ∀ {b c : Fin (infBits + 1)}, b.val < infBits → c.val < infBits →
      num s b * num t c = num (xor s t) (roundRat (mag b * mag c) (2 ^ 149)) := by
    intro b c hb hc
    show Binary32.mul _ _ = _
    unfold Binary32.mul
    dsimp only
    rw [if_neg (by omega)]
  rw [em hb' hc'] at hf ⊢
  rw [em hb hc]
  have hf' : (roundRat (mag b' * mag c') (2 ^ 149)).val < infBits := hf
  have hp : (0 : ℝ) < 2 ^ 149 := by positivity
  obtain ⟨h1, h2⟩ := roundRat_scale (n := mag b * mag c) (j := i + j) (Nat.two_pow_pos 149) (Nat.two_pow_pos 149)
    (by rw [eb, ec, pow_add]; push_cast; ring) (by
      refine cond_of (hu hb hc) ?_
      rw [abs_mul, toReal_abs, toReal_abs, Nat.cast_mul, Nat.cast_pow, Nat.cast_ofNat]
      generalize (2 : ℝ) ^ 149 = p at hp
      field_simp) hf'
  exact TimesPow.mk h1 hf' h2

theorem div_num {s t : Bool} {b c : Fin (infBits + 1)} (hb : b.val < infBits) (hc : c.val < infBits) (h0 : c.val ≠ 0) :
    num s b / num t c = num (xor s t) (roundRat (mag b * 2 ^ 149) (mag c)) := by
  show div _ _ = _
  unfold div
  dsimp only
  rw [if_neg (by omega), if_neg (by omega), if_neg h0]

theorem mag_pos' {c : Nat} (h : c ≠ 0) : 0 < mag c := by
  have := mag_strictMono (Nat.pos_of_ne_zero h)
  omega

/-- The unit cancels in the ratio of two quantities. -/
theorem div_scale {j : Nat} {x x' y y' : Binary32} (hx : TimesPow j x x') (hy : TimesPow j y y') : x' / y' = x / y := by
  obtain ⟨s, b, b', rfl, rfl, hb, hb', eb⟩ := timesPow_iff.1 hx
  obtain ⟨t, c, c', rfl, rfl, hc, hc', ec⟩ := timesPow_iff.1 hy
  have z1 := zero_scale eb
  have z2 := zero_scale ec
  by_cases h0 : c.val = 0
  · have e : ∀ {b c : Fin (infBits + 1)}, b.val < infBits → c.val < infBits → c.val = 0 →
        num s b / num t c = if b.val = 0 then nan else num (xor s t) (clip infBits) := by
      intro b c hb hc h0
      show div _ _ = _
      unfold div
      dsimp only
      rw [if_neg (by omega), if_neg (by omega), if_pos h0]
    rw [e hb' hc' (z2.2 h0), e hb hc h0]
    by_cases h1 : b.val = 0
    · rw [if_pos h1, if_pos (z1.2 h1)]
    · rw [if_neg h1, if_neg (fun h => h1 (z1.1 h))]
  · rw [div_num hb' hc' (fun h => h0 (z2.1 h)), div_num hb hc h0, eb, ec]
    refine congrArg (num (xor s t)) ?_
    have hpc := mag_pos' h0
    have hpc' : 0 < 2 ^ j * mag c := by positivity
    obtain ⟨r, h1, e1⟩ := roundRat_spec (mag b * 2 ^ 149) hpc
    obtain ⟨r', h2, e2⟩ := roundRat_spec (2 ^ j * mag b * 2 ^ 149) hpc'
    have e : ((2 ^ j * mag b * 2 ^ 149 : Nat) : ℝ) / (2 ^ j * mag c : Nat) = (mag b * 2 ^ 149 : Nat) / (mag c : Nat) := by
      push_cast
      have : (mag c : ℝ) ≠ 0 := by exact_mod_cast hpc.ne'
      field_simp
    rw [e] at h2
    rw [e1, e2, h2.unique h1]

theorem finite_of_div {x y : Binary32} (h : Finite (x / y)) : Finite x := by
  have e : x / y = div x y := rfl
  rw [e] at h
  cases x with
  | nan => exact h.elim
  | num s b =>
    cases y with
    | nan => exact h.elim
    | num t c =>
      unfold div at h
      dsimp only at h
      have hb := b.isLt
      by_cases h1 : b.val = infBits
      · rw [if_pos h1] at h
        split_ifs at h
        · exact h.elim
        · have h : (clip infBits).val < infBits := h
          rw [clip_of_le le_rfl] at h
          omega
      · show b.val < infBits
        omega

/-- division by a number without unit -/
theorem Scales.div {j : Nat} {x x' y : Binary32} (hx : Scales j x x') (hu : Finite x → Finite y → toReal y ≠ 0 →
    NoUnderflow (toReal x / toReal y)) : Scales j (x / y) (x' / y) := by
  intro hf
  have f1 := finite_of_div hf
  obtain ⟨s, b, b', rfl, rfl, hb, hb', eb⟩ := timesPow_iff.1 (hx f1)
  cases y with
  | nan => exact hf.elim
  | num t c =>
    have hc := c.isLt
    by_cases hi : c.val = infBits
    · have e : ∀ {b : Fin (infBits + 1)}, b.val < infBits → num s b / num t c = num (xor s t) 0 := by
        intro b hb
        show Binary32.div _ _ = _
        unfold Binary32.div
        dsimp only
        rw [if_neg (by omega), if_pos hi]
      rw [e hb, e hb']
      exact timesPow_zero _ _
    · have hc' : c.val < infBits := by omega
      by_cases h0 : c.val = 0
      · have e : num s b' / num t c = Binary32.div (num s b') (num t c) := rfl
        rw [e] at hf
        unfold Binary32.div at hf
        dsimp only at hf
        rw [if_neg (by omega), if_neg hi, if_pos h0] at hf
        split_ifs at hf
        · exact hf.elim
        · have h : (clip infBits).val < infBits := hf
          rw [clip_of_le le_rfl] at h
          omega
      · rw [div_num hb' hc' h0] at hf ⊢
        rw [div_num hb hc' h0]
        have hf' : (roundRat (mag b' * 2 ^ 149) (mag c)).val < infBits := hf
        have hpc := mag_pos' h0
        have hpr : (0 : ℝ) < mag c := by exact_mod_cast hpc
        have hne : toReal (num t c) ≠ 0 := by
          rw [← abs_pos, toReal_abs]
          positivity
        obtain ⟨h1, h2⟩ := roundRat_scale (n := mag b * 2 ^ 149) (j := j) hpc hpc
          (by rw [eb]; push_cast; ring) (by
            refine cond_of (hu hb hc' hne) ?_
            rw [abs_div, toReal_abs, toReal_abs, Nat.cast_mul, Nat.cast_pow, Nat.cast_ofNat]
            have hp : (0 : ℝ) < 2 ^ 149 := by positivity
            generalize (2 : ℝ) ^ 149 = p at hp
            field_simp) hf'
        exact TimesPow.mk h1 hf' h2

theorem sqrt_scale {j : Nat} {x x' : Binary32} (hx : TimesPow (2 * j) x x') (h0 : Finite (sqrt x)) :
    TimesPow j (sqrt x) (sqrt x') := by
  obtain ⟨s, b, b', rfl, rfl, hb, hb', eb⟩ := timesPow_iff.1 hx
  have z1 := zero_scale eb
  by_cases h : b.val = 0
  · have e : ∀ {b : Fin (infBits + 1)}, b.val = 0 → sqrt (num s b) = num s b := by
      intro b h
      unfold sqrt
      dsimp only
      rw [if_pos h]
    rw [e h, e (z1.2 h), show b = 0 from Fin.ext h, show b' = 0 from Fin.ext (z1.2 h)]
    exact timesPow_zero _ _
  · have hs : s = false := by
      by_contra hs
      rw [Bool.not_eq_false] at hs
      subst hs
      unfold sqrt at h0
      dsimp only at h0
      rw [if_neg h, if_pos rfl] at h0
      exact h0
    subst hs
    have e : ∀ {b : Fin (infBits + 1)}, b.val < infBits → b.val ≠ 0 → sqrt (num false b) = num false (roundSqrt (mag b * 2 ^ 149)) := by
      intro b hb h
      unfold sqrt
      dsimp only
      rw [if_neg h, if_neg (by decide), if_neg (by omega)]
    rw [e hb h, e hb' (fun h' => h (z1.1 h'))]
    obtain ⟨r, h1, e1⟩ := roundSqrt_spec (mag b * 2 ^ 149)
    obtain ⟨r', h2, e2⟩ := roundSqrt_spec (mag b' * 2 ^ 149)
    have hm : 1 ≤ mag b := mag_pos' h
    have es : Real.sqrt ((mag b' * 2 ^ 149 : Nat) : ℝ) = 2 ^ j * Real.sqrt ((mag b * 2 ^ 149 : Nat) : ℝ) := by
      rw [eb, show ((2 ^ (2 * j) * mag b * 2 ^ 149 : Nat) : ℝ) = (2 ^ j) ^ 2 * ((mag b * 2 ^ 149 : Nat) : ℝ) by push_cast; rw [pow_mul']; ring,
        Real.sqrt_mul (by positivity), Real.sqrt_sq (by positivity)]
    have hbig : (2 : ℝ) ^ 23 ≤ Real.sqrt ((mag b * 2 ^ 149 : Nat) : ℝ) := by
      refine Real.le_sqrt_of_sq_le ?_
      have : ((2 ^ 149 : Nat) : ℝ) ≤ ((mag b * 2 ^ 149 : Nat) : ℝ) := Nat.cast_le.2 (Nat.le_mul_of_pos_left _ hm)
      refine _root_.le_trans ?_ this
      norm_num
    obtain ⟨q, h3, h4⟩ := h1.scale (.inl hbig) j
    rw [es] at h2
    have := h2.unique h3
    subst this
    have hr : r' ≤ 0x7f000000 := by
      have h5 := roundsTo_mag 0x7f000000
      rw [mag_127] at h5
      refine h3.mono h5 ?_
      rw [← es]
      refine Real.sqrt_le_iff.2 ⟨by positivity, ?_⟩
      have : mag b' ≤ 2 ^ 277 := by rw [← mag_inf]; exact mag_le_iff.2 hb'.le
      have h6 : mag b' * 2 ^ 149 ≤ (2 ^ 276) ^ 2 := (Nat.mul_le_mul_right _ this).trans (by
        rw [← pow_add, ← pow_mul]
        exact Nat.pow_le_pow_right (Nat.succ_pos 1) (by norm_num))
      calc ((mag b' * 2 ^ 149 : Nat) : ℝ) ≤ (((2 ^ 276) ^ 2 : Nat) : ℝ) := Nat.cast_le.2 h6
        _ = ((2 ^ 276 : Nat) : ℝ) ^ 2 := Nat.cast_pow _ _
    have hr' : r' < infBits := lt_of_le_of_lt hr (by decide)
    have hr1 := lt_inf_of_scale h4 hr'
    refine TimesPow.mk ?_ ?_ ?_
    · rw [e1, clip_of_le hr1.le]; exact hr1
    · rw [e2, clip_of_le hr'.le]; exact hr'
    · rw [e1, e2, clip_of_le hr1.le, clip_of_le hr'.le]; exact h4

/-! ### Underflow -/

theorem large_bits {s : Bool} {b : Fin (infBits + 1)} (h : 1 / 2 ^ 126 < |toReal (num s b)|) : 2 ^ 23 < b.val := by
  rw [toReal_abs, lt_div_iff₀ (by positivity)] at h
  have h1 : ((2 ^ 23 : Nat) : ℝ) < mag b := by
    refine lt_of_le_of_lt ?_ h
    norm_num
  have h2 : mag (2 ^ 23) < mag b := by rw [mag_small (by norm_num)]; exact Nat.cast_lt.1 h1
  exact mag_strictMono.lt_iff_lt.1 h2

theorem noUnderflow_of {v w : ℝ} (h : 2 ^ 23 ≤ w) (e : w = |v| * 2 ^ 149) : NoUnderflow v := by
  right
  rw [e] at h
  rw [div_le_iff₀ (by positivity)]
  have hp : (0 : ℝ) < 2 ^ 23 := by positivity
  have : (2 : ℝ) ^ 149 = 2 ^ 126 * 2 ^ 23 := by rw [← pow_add]
  rw [this, ← mul_assoc] at h
  nlinarith

theorem mul_noUnderflow {x y : Binary32} (hx : Finite x) (hy : Finite y) (h : ∀ s b, x * y = num s b → 2 ^ 23 < b.val) :
    NoUnderflow (toReal x * toReal y) := by
  cases x with
  | nan => exact hx.elim
  | num s b =>
    cases y with
    | nan => exact hy.elim
    | num t c =>
      have hb : b.val < infBits := hx
      have hc : c.val < infBits := hy
      have e : num s b * num t c = num (xor s t) (roundRat (mag b * mag c) (2 ^ 149)) := by
        show mul _ _ = _
        unfold mul
        dsimp only
        rw [if_neg (by omega)]
      refine noUnderflow_of (le_of_roundRat (Nat.two_pow_pos 149) (h _ _ e)) ?_
      rw [abs_mul, toReal_abs, toReal_abs, Nat.cast_mul, Nat.cast_pow, Nat.cast_ofNat]
      have hp : (0 : ℝ) < 2 ^ 149 := by positivity
      generalize (2 : ℝ) ^ 149 = p at hp
      field_simp

theorem div_noUnderflow {x y : Binary32} (hx : Finite x) (hy : Finite y) (h0 : toReal y ≠ 0)
    (h : ∀ s b, x / y = num s b → 2 ^ 23 < b.val) : NoUnderflow (toReal x / toReal y) := by
  cases x with
  | nan => exact hx.elim
  | num s b =>
    cases y with
    | nan => exact hy.elim
    | num t c =>
      have hb : b.val < infBits := hx
      have hc : c.val < infBits := hy
      rw [← abs_pos, toReal_abs] at h0
      have hpc : 0 < mag c := by
        rcases Nat.eq_zero_or_pos (mag c) with h | h
        · rw [h] at h0; simp at h0
        · exact h
      have hc0 : c.val ≠ 0 := by
        intro h
        rw [h] at hpc
        exact absurd hpc (by decide)
      refine noUnderflow_of (le_of_roundRat hpc (h _ _ (div_num hb hc hc0))) ?_
      rw [abs_div, toReal_abs, toReal_abs, Nat.cast_mul, Nat.cast_pow, Nat.cast_ofNat]
      have hp : (0 : ℝ) < 2 ^ 149 := by positivity
      have hpr : (0 : ℝ) < mag c := by exact_mod_cast hpc
      generalize (2 : ℝ) ^ 149 = p at hp
      field_simp

theorem sqrt_large {x : Binary32} (hf : Finite (sqrt x)) (h : 1 / 2 ^ 62 ≤ |toReal (sqrt x)|) : ∀ s b, x = num s b → 2 ^ 23 < b.val := by
  rintro s b rfl
  by_contra hb
  have hb := not_lt.1 hb
  have hlt : b.val < infBits := lt_of_le_of_lt hb (by decide)
  by_cases h0 : b.val = 0
  · have e : sqrt (num s b) = num s b := by
      unfold sqrt
      dsimp only
      rw [if_pos h0]
    rw [e, toReal_abs, h0, show mag 0 = 0 by decide] at h
    norm_num at h
  · cases s with
    | true =>
      unfold sqrt at hf
      dsimp only at hf
      rw [if_neg h0, if_pos rfl] at hf
      exact hf
    | false =>
      have e : sqrt (num false b) = num false (roundSqrt (mag b * 2 ^ 149)) := by
        unfold sqrt
        dsimp only
        rw [if_neg h0, if_neg (by decide), if_neg (by omega)]
      obtain ⟨r, h1, e1⟩ := roundSqrt_spec (mag b * 2 ^ 149)
      obtain ⟨q, hq⟩ := exists_mag (m := 1) (by norm_num) 86
      have h2 := roundsTo_mag q
      rw [hq] at h2
      have hr : r ≤ q := h1.mono h2 (by
        refine Real.sqrt_le_iff.2 ⟨by positivity, ?_⟩
        have h3 : mag b ≤ 2 ^ 23 := by rw [← mag_small (n := 2 ^ 23) (by norm_num)]; exact mag_le_iff.2 hb
        have h4 : mag b * 2 ^ 149 ≤ (1 * 2 ^ 86) ^ 2 := (Nat.mul_le_mul_right _ h3).trans (by norm_num)
        calc ((mag b * 2 ^ 149 : Nat) : ℝ) ≤ (((1 * 2 ^ 86) ^ 2 : Nat) : ℝ) := Nat.cast_le.2 h4
          _ = ((1 * 2 ^ 86 : Nat) : ℝ) ^ 2 := Nat.cast_pow _ _)
      have hc : (clip r).val ≤ q := by unfold clip; dsimp only; omega
      rw [e, e1, toReal_abs, le_div_iff₀ (by positivity)] at h
      have h5 : mag (clip r).val ≤ 1 * 2 ^ 86 := by rw [← hq]; exact mag_le_iff.2 hc
      have h6 : (mag (clip r).val : ℝ) ≤ ((1 * 2 ^ 86 : Nat) : ℝ) := Nat.cast_le.2 h5
      have := h.trans h6
      norm_num at this

theorem Multiple.noUnderflow {x : Binary32} (hm : Multiple 47 x) (hf : Finite x) {w : ℝ} (h0 : w ≠ 0) (hw : |w| ≤ 2 ^ 24) :
    NoUnderflow (toReal x / w) := by
  cases x with
  | nan => exact hf.elim
  | num s b =>
    rcases Nat.eq_zero_or_pos (mag b) with h | h
    · left
      rw [← abs_eq_zero, abs_div, toReal_abs, h]
      simp
    · right
      have h1 : ((2 ^ 47 : Nat) : ℝ) ≤ mag b := Nat.cast_le.2 (Nat.le_of_dvd h (hm s b rfl))
      rw [abs_div, toReal_abs, le_div_iff₀ (abs_pos.2 h0), le_div_iff₀ (by positivity)]
      refine _root_.le_trans ?_ h1
      calc 1 / 2 ^ 126 * |w| * 2 ^ 149 ≤ 1 / 2 ^ 126 * 2 ^ 24 * 2 ^ 149 := by gcongr
        _ ≤ _ := by norm_num

end Jax.Binary32
