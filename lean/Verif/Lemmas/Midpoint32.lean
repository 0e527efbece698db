import Verif.Model.Binning32
import Verif.Lemmas.Binary32Order
import Verif.Lemmas.Prepcovars
/-! # The midpoint of two numbers in single precision -/

set_option autoImplicit false

namespace Jax
namespace Binary32

/-- the double of a number is representable, apart from overflow -/
theorem exists_double (k : Nat) : ∃ d, mag d = 2 * mag k := by
  obtain ⟨s, m, rfl, hm, h⟩ := exists_mantissa k
  obtain ⟨d, hd⟩ := exists_mag (m := m) hm.le (s + 1)
  exact ⟨d, by rw [hd, mag_eq hm.le h, Nat.pow_succ]; ring⟩

/-- the doubles of two consecutive numbers are consecutive, apart from subnormal numbers -/
theorem double_succ {k : Nat} (h : 2 ^ 23 ≤ k) : mag (k + 2 ^ 23) = 2 * mag k := by
  obtain ⟨s, m, rfl, hm, h'⟩ := exists_mantissa k
  have hm2 : 2 ^ 23 ≤ m := by
    rcases h' with rfl | h'
    · omega
    · exact h'
  rw [mag_eq hm.le h', show s * 2 ^ 23 + m + 2 ^ 23 = (s + 1) * 2 ^ 23 + m by ring, mag_eq hm.le (.inr hm2), Nat.pow_succ]
  ring

theorem mag_subnormal {k : Nat} (h : k ≤ 2 ^ 23) : mag k = k := by
  have := mag_eq (s := 0) (m := k) (by omega) (.inl rfl)
  simpa using this

theorem roundRat_one_le {n k : Nat} (h : n ≤ 2 * mag k) : mag (roundRat n 1) ≤ 2 * mag k := by
  obtain ⟨d, hd⟩ := exists_double k
  have h1 := roundRat_mono (n := n) (d := 1) (n' := mag d * 1) (d' := 1) (by norm_num) (by norm_num) (by omega)
  rw [roundRat_mag d (by norm_num)] at h1
  have h2 : (clip d).val ≤ d := by simp only [clip]; omega
  rw [← hd]
  exact mag_le_iff.2 (by omega)

theorem le_roundRat_one {n k : Nat} (h : 2 * mag k ≤ n) (hn : (roundRat n 1).val < infBits) :
    2 * mag k ≤ mag (roundRat n 1) := by
  obtain ⟨d, hd⟩ := exists_double k
  have h1 := roundRat_mono (n := mag d * 1) (d := 1) (n' := n) (d' := 1) (by norm_num) (by norm_num) (by omega)
  rw [roundRat_mag d (by norm_num)] at h1
  have h2 : (clip d).val = min d infBits := rfl
  rw [← hd]
  exact mag_le_iff.2 (by omega)

/-- rounding to nearest -/
theorem roundRat_one_lt {n k : Nat} (h : n < mag k + mag (k + 1)) : mag (roundRat n 1) ≤ 2 * mag k := by
  rcases Nat.lt_or_ge k (2 ^ 23) with hk | hk
  · rw [mag_subnormal (by omega), mag_subnormal (by omega)] at h
    apply roundRat_one_le
    rw [mag_subnormal (by omega)]
    omega
  · obtain ⟨r, ⟨b, h1, h2, h3⟩, e⟩ := roundRat_spec n (d := 1) (by norm_num)
    have hr : r ≤ k + 2 ^ 23 := by
      have d1 := double_succ hk
      have d2 := double_succ (k := k + 1) (by omega)
      rw [show k + 1 + 2 ^ 23 = k + 2 ^ 23 + 1 by ring] at d2
      have hn : ((n : ℝ) / ((1 : Nat) : ℝ)) = n := by norm_num
      rw [hn] at h1 h2 h3
      have hb : b ≤ k + 2 ^ 23 := by
        have h4 : mag b < mag (k + 2 ^ 23 + 1) := by
          have h5 : mag b ≤ n := by exact_mod_cast h1
          have h6 := mag_lt_succ k
          omega
        have := mag_strictMono.lt_iff_lt.1 h4
        omega
      rcases Nat.lt_or_ge b (k + 2 ^ 23) with hlt | hge
      · rcases h3 with ⟨_, e⟩ | ⟨_, e⟩ | ⟨_, e⟩ <;> omega
      · have hb' : b = k + 2 ^ 23 := by omega
        have h4 : 2 * n < mag b + mag (b + 1) := by rw [hb', d1, d2]; omega
        have h5 : (2 : ℝ) * n < mag b + mag (b + 1) := by exact_mod_cast h4
        rcases h3 with ⟨_, e⟩ | ⟨h6, e⟩ | ⟨h6, e⟩
        · omega
        · linarith
        · linarith
    rw [e, ← double_succ hk]
    exact mag_le_iff.2 (by simp only [clip]; omega)

theorem lt_roundRat_one {n k : Nat} (h : mag k + mag (k + 1) < n) (hn : (roundRat n 1).val < infBits) :
    2 * mag (k + 1) ≤ mag (roundRat n 1) := by
  rcases Nat.lt_or_ge k (2 ^ 23) with hk | hk
  · rw [mag_subnormal (by omega), mag_subnormal (by omega)] at h
    apply le_roundRat_one _ hn
    rw [mag_subnormal (by omega)]
    omega
  · obtain ⟨r, ⟨b, h1, h2, h3⟩, e⟩ := roundRat_spec n (d := 1) (by norm_num)
    have d1 := double_succ hk
    have d2 := double_succ (k := k + 1) (by omega)
    rw [show k + 1 + 2 ^ 23 = k + 2 ^ 23 + 1 by ring] at d2
    have hr : k + 2 ^ 23 + 1 ≤ r := by
      have hn : ((n : ℝ) / ((1 : Nat) : ℝ)) = n := by norm_num
      rw [hn] at h1 h2 h3
      have hb : k + 2 ^ 23 ≤ b := by
        have h4 : mag (k + 2 ^ 23) < mag (b + 1) := by
          have h5 : n < mag (b + 1) := by exact_mod_cast h2
          have h6 := mag_lt_succ k
          omega
        have := mag_strictMono.lt_iff_lt.1 h4
        omega
      rcases Nat.lt_or_ge (k + 2 ^ 23) b with hlt | hge
      · rcases h3 with ⟨_, e⟩ | ⟨_, e⟩ | ⟨_, e⟩ <;> omega
      · have hb' : b = k + 2 ^ 23 := by omega
        have h4 : mag b + mag (b + 1) < 2 * n := by rw [hb', d1, d2]; omega
        have h5 : (mag b + mag (b + 1) : ℝ) < 2 * n := by exact_mod_cast h4
        rcases h3 with ⟨h6, e⟩ | ⟨h6, e⟩ | ⟨_, e⟩
        · linarith
        · linarith
        · omega
    rw [e] at hn ⊢
    have hc : (clip r).val = min r infBits := rfl
    rw [← d2]
    exact mag_le_iff.2 (by omega)

/-- the bits of the half of a number -/
def halfBits (c : Fin (infBits + 1)) : Fin (infBits + 1) := roundRat (mag c * 2 ^ 149) (2 ^ 150)

theorem halfBits_le {c : Fin (infBits + 1)} {k : Nat} (h : mag c ≤ 2 * mag k) : (halfBits c).val ≤ k := by
  have h1 := roundRat_mono (n := mag c * 2 ^ 149) (d := 2 ^ 150) (n' := mag k * 2 ^ 150) (d' := 2 ^ 150) (by positivity)
    (by positivity) (Nat.mul_le_mul_right _ (by
      calc mag c * 2 ^ 149 ≤ (2 * mag k) * 2 ^ 149 := Nat.mul_le_mul_right _ h
        _ = mag k * 2 ^ 150 := by ring))
  rw [roundRat_mag k (by positivity)] at h1
  have : (clip k).val = min k infBits := rfl
  unfold halfBits
  omega

theorem le_halfBits {c : Fin (infBits + 1)} {k : Nat} (hk : k ≤ infBits) (h : 2 * mag k ≤ mag c) : k ≤ (halfBits c).val := by
  have h1 := roundRat_mono (n := mag k * 2 ^ 150) (d := 2 ^ 150) (n' := mag c * 2 ^ 149) (d' := 2 ^ 150) (by positivity)
    (by positivity) (Nat.mul_le_mul_right _ (by
      calc mag k * 2 ^ 150 = (2 * mag k) * 2 ^ 149 := by ring
        _ ≤ _ := Nat.mul_le_mul_right _ h))
  rw [roundRat_mag k (by positivity)] at h1
  have : (clip k).val = min k infBits := rfl
  unfold halfBits
  omega

theorem two_eq : ((2 : Nat) : Binary32) = num false ⟨0x40000000, by decide⟩ := by decide +kernel

theorem div_two {t : Bool} {c : Fin (infBits + 1)} (hc : c.val < infBits) :
    num t c / ((2 : Nat) : Binary32) = num t (halfBits c) := by
  rw [two_eq]
  show div _ _ = _
  unfold div
  dsimp only
  rw [if_neg (by omega), if_neg (by decide), if_neg (by decide)]
  have : mag 0x40000000 = 2 ^ 150 := by decide +kernel
  rw [this]
  simp only [Bool.xor_false]
  rfl

/-- the signed value of an ordered number, in units of `2 ** -149` -/
def sval (z : Int) : Int := if z < 0 then -(mag z.natAbs : Int) else mag z.natAbs

theorem value_eq (z : Ordered) : value (decide (z.val < 0)) ⟨z.val.natAbs, by have := z.property; omega⟩ = sval z.val := by
  unfold value sval
  by_cases h : z.val < 0 <;> simp [h]

theorem toOrdered_val (s : Bool) (b : Fin (infBits + 1)) : (toOrdered (num s b)).val = signedBits s b := rfl

/-- the bits of the midpoint, with sign -/
def midBits (x : Int) : Int :=
  if x < 0 then -((halfBits (roundRat x.natAbs 1)).val : Int) else (halfBits (roundRat x.natAbs 1)).val

theorem midpoint_eq {a b : Ordered} (ha : a.val.natAbs < infBits) (hb : b.val.natAbs < infBits)
    (h : (roundRat (sval b.val + sval a.val).natAbs 1).val < infBits) :
    (toOrdered ((ofOrdered b + ofOrdered a) / ((2 : Nat) : Binary32))).val = midBits (sval b.val + sval a.val) := by
  have e : ofOrdered b + ofOrdered a = add (ofOrdered b) (ofOrdered a) := rfl
  rw [e]
  unfold ofOrdered add
  dsimp only
  rw [if_neg (by omega), if_neg (by omega), value_eq, value_eq]
  generalize hx : sval b.val + sval a.val = x at h
  rw [div_two h]
  rw [toOrdered_val]
  unfold midBits
  by_cases h0 : x = 0
  · subst h0
    have h1 : (halfBits (roundRat (Int.natAbs 0) 1)).val = 0 := by decide
    generalize halfBits (roundRat (Int.natAbs 0) 1) = c at h1
    unfold signedBits
    rw [h1]
    simp
  · rw [if_neg h0]
    generalize halfBits (roundRat x.natAbs 1) = c
    by_cases h1 : x < 0
    · rw [decide_eq_true h1, if_pos h1, signedBits_true]
    · rw [decide_eq_false h1, if_neg h1, signedBits_false]

/-- the midpoint is not lower than the first number -/
theorem le_midBits {z x : Int} (hz : z.natAbs ≤ infBits) (h : 2 * sval z ≤ x) (hx : (roundRat x.natAbs 1).val < infBits) :
    z ≤ midBits x := by
  unfold midBits
  unfold sval at h
  by_cases hneg : z < 0
  · rw [if_pos hneg] at h
    split_ifs with h1
    · have := halfBits_le (roundRat_one_le (n := x.natAbs) (k := z.natAbs) (by omega))
      omega
    · omega
  · rw [if_neg hneg] at h
    rw [if_neg (by omega)]
    have := le_halfBits hz (le_roundRat_one (n := x.natAbs) (k := z.natAbs) (by omega) hx)
    omega

theorem midBits_neg (x : Int) : midBits (-x) = -midBits x := by
  unfold midBits
  rw [Int.natAbs_neg]
  by_cases h0 : x = 0
  · subst h0
    have h1 : (halfBits (roundRat (Int.natAbs 0) 1)).val = 0 := by decide
    rw [h1]; simp
  · by_cases h : x < 0
    · rw [if_neg (by omega), if_pos h, neg_neg]
    · rw [if_pos (by omega), if_neg h]

theorem sval_neg (z : Int) : sval (-z) = -sval z := by
  unfold sval
  rw [Int.natAbs_neg]
  by_cases h0 : z = 0
  · subst h0; simp
  · by_cases h : z < 0
    · rw [if_neg (by omega), if_pos h, neg_neg]
    · rw [if_pos (by omega), if_neg h]

theorem midBits_le {z x : Int} (hz : z.natAbs ≤ infBits) (h : x ≤ 2 * sval z) (hx : (roundRat x.natAbs 1).val < infBits) :
    midBits x ≤ z := by
  have := le_midBits (z := -z) (x := -x) (by omega) (by rw [sval_neg]; omega) (by rw [Int.natAbs_neg]; exact hx)
  rw [midBits_neg] at this
  omega

theorem sval_strictMono : StrictMono sval := by
  intro a b hab
  unfold sval
  have key : ∀ {x y : Nat}, x < y → mag x < mag y := fun h => mag_strictMono h
  split_ifs with h1 h2 h2
  · have := key (show b.natAbs < a.natAbs by omega)
    omega
  · have := key (show 0 < a.natAbs by omega)
    rw [mag_zero] at this
    omega
  · omega
  · have := key (show a.natAbs < b.natAbs by omega)
    omega

/-- the midpoint is lower than a number which is above the midpoint of it and the previous one -/
theorem midBits_lt {z x : Int} (hz : z.natAbs < infBits) (h : x < sval (z - 1) + sval z)
    (hx : (roundRat x.natAbs 1).val < infBits) : midBits x < z := by
  unfold midBits
  unfold sval at h
  rcases lt_or_ge 0 z with hpos | hneg
  · rw [if_neg (by omega), if_neg (by omega)] at h
    split_ifs with h1
    · omega
    · have e : z.natAbs = (z - 1).natAbs + 1 := by omega
      rw [e] at h
      have := halfBits_le (roundRat_one_lt (n := x.natAbs) (k := (z - 1).natAbs) (by omega))
      omega
  · have e : (z - 1).natAbs = z.natAbs + 1 := by omega
    have h2 : (if z < 0 then -(mag z.natAbs : Int) else mag z.natAbs) = -(mag z.natAbs : Int) := by
      split_ifs with h3
      · rfl
      · have : z = 0 := by omega
        subst this; rfl
    rw [if_pos (by omega), h2, e] at h
    rw [if_pos (by omega)]
    have := le_halfBits (c := roundRat x.natAbs 1) (k := z.natAbs + 1) (by omega)
      (lt_roundRat_one (n := x.natAbs) (k := z.natAbs) (by omega) hx)
    omega

/-- numbers whose sum does not overflow: the absolute value is lower than `2 ** 127` -/
theorem no_overflow {a b : Int} (ha : a.natAbs < 0x7f000000) (hb : b.natAbs < 0x7f000000) :
    (roundRat (sval b + sval a).natAbs 1).val < infBits := by
  have h1 : ∀ z : Int, z.natAbs < 0x7f000000 → (sval z).natAbs ≤ mag 0x7effffff := by
    intro z hz
    have := mag_le_iff.2 (show z.natAbs ≤ 0x7effffff by omega)
    unfold sval
    split_ifs <;> omega
  have h2 := h1 a ha
  have h3 := h1 b hb
  have h4 := roundRat_one_le (n := (sval b + sval a).natAbs) (k := 0x7effffff) (by omega)
  have h5 : 2 * mag 0x7effffff = mag 0x7f7fffff := by decide +kernel
  rw [h5] at h4
  have := mag_le_iff.1 h4
  unfold infBits
  omega

end Binary32
end Jax

namespace Bartz
open Jax Jax.Binary32 Spec

/-- the midpoint of two numbers is inbetween, possibly equal to one of them -/
theorem midpoint32_mem {a b : Ordered} (ha : a.val.natAbs < 0x7f000000) (hb : b.val.natAbs < 0x7f000000) (h : a ≤ b) :
    a ≤ binary32_dtype.midpoint a b ∧ binary32_dtype.midpoint a b ≤ b := by
  have hi : (0x7f000000 : Nat) < infBits := by decide
  have ho := no_overflow ha hb
  have e := midpoint_eq (a := a) (b := b) (by omega) (by omega) ho
  have h1 : sval a.val ≤ sval b.val := sval_strictMono.monotone h
  constructor
  · show a.val ≤ (toOrdered _).val
    rw [e]
    exact le_midBits (by omega) (by omega) ho
  · show (toOrdered _).val ≤ b.val
    rw [e]
    exact midBits_le (by omega) (by omega) ho

/-- the midpoint of two numbers that are not adjacent is lower than the second one -/
theorem midpoint32_lt {a b : Ordered} (ha : a.val.natAbs < 0x7f000000) (hb : b.val.natAbs < 0x7f000000)
    (h : a.val + 1 < b.val) : binary32_dtype.midpoint a b < b := by
  have hi : (0x7f000000 : Nat) < infBits := by decide
  have ho := no_overflow ha hb
  have e := midpoint_eq (a := a) (b := b) (by omega) (by omega) ho
  have h1 : sval a.val < sval (b.val - 1) := sval_strictMono (by omega)
  show (toOrdered _).val < b.val
  rw [e]
  exact midBits_lt (by omega) (by omega) ho

theorem midpoint32_pad {a : Ordered} (ha : a.val.natAbs < infBits ∨ a = binary32_dtype.huge) :
    binary32_dtype.midpoint a binary32_dtype.huge = binary32_dtype.huge := by
  have h2 : num false ⟨infBits, by decide⟩ / ((2 : Nat) : Binary32) = num false (clip infBits) := by decide +kernel
  rcases ha with ha | rfl
  · have e : ofOrdered binary32_dtype.huge + ofOrdered a = num false ⟨infBits, by decide⟩ := by
      show add _ _ = _
      have e' : ofOrdered binary32_dtype.huge = num false ⟨infBits, by decide⟩ := by decide +kernel
      rw [e']
      unfold ofOrdered add
      dsimp only
      rw [if_pos rfl, if_neg (by omega)]
    show toOrdered ((ofOrdered binary32_dtype.huge + ofOrdered a) / ((2 : Nat) : Binary32)) = _
    rw [e, h2]
    decide +kernel
  · decide +kernel

end Bartz
