import Verif.Lemmas.RoundError
import Verif.Lemmas.AssociativeScan
import Mathlib.Data.List.Forall2
import Mathlib.Analysis.SpecialFunctions.Exp
import Mathlib.Algebra.Order.Ring.Pow
import Mathlib.Algebra.Order.BigOperators.Group.List
/-! # Rounding errors of sums of nonnegative numbers in single precision -/

set_option autoImplicit false

namespace Jax
namespace Binary32

/-- rounding an integer, in units of `2 ** -149`, has always a small relative error -/
theorem roundRat_one_error {n : Nat} (h : (n : ℝ) ≤ 2 ^ 276) : |(mag (roundRat n 1) : ℝ) - n| ≤ n / 2 ^ 24 := by
  rcases Nat.lt_or_ge n (2 ^ 23) with hn | hn
  · have h1 : mag n = n := mag_subnormal hn.le
    have h2 : roundRat n 1 = clip n := by
      have := roundRat_mag n (d := 1) (by norm_num)
      rwa [h1, Nat.mul_one] at this
    have h3 : (clip n).val = n := clip_of_le (by unfold infBits; omega)
    rw [h2, h3, h1, sub_self, abs_zero]
    positivity
  · have := (roundRat_error (n := n) (d := 1) (by norm_num) (by simpa using h)).2
    rw [Nat.cast_one, div_one, max_eq_left (by exact_mod_cast hn)] at this
    exact this

/-- relative error of a sum -/
theorem add_rel_error {x y : Binary32} (hx : Finite x) (hy : Finite y) (h : |toReal x + toReal y| ≤ 2 ^ 127) :
    Finite (x + y) ∧ |toReal (x + y) - (toReal x + toReal y)| ≤ |toReal x + toReal y| / 2 ^ 24 := by
  refine ⟨(add_error hx hy h).1, ?_⟩
  cases x with
  | nan => exact hx.elim
  | num s b =>
    cases y with
    | nan => exact hy.elim
    | num s' b' =>
      have hx' : b.val < infBits := hx
      have hy' : b'.val < infBits := hy
      have e : num s b + num s' b' = num (if value s b + value s' b' = 0 then s && s' else decide (value s b + value s' b' < 0))
          (roundRat (value s b + value s' b').natAbs 1) := by
        show add _ _ = _
        unfold add
        dsimp only
        rw [if_neg (by omega), if_neg (by omega)]
      rw [e]
      have hz : toReal (num s b) + toReal (num s' b') = ((value s b + value s' b' : Int) : ℝ) / 2 ^ 149 := by
        unfold toReal
        rw [Int.cast_add, add_div]
      rw [hz] at h ⊢
      generalize value s b + value s' b' = z at h ⊢
      have hp : (0 : ℝ) < 2 ^ 149 := by positivity
      have hn : |(z : ℝ)| = (z.natAbs : ℝ) := by rw [Nat.cast_natAbs, Int.cast_abs]
      have h1 : (z.natAbs : ℝ) ≤ 2 ^ 276 := by
        rw [abs_div, abs_of_pos hp, div_le_iff₀ hp, hn, ← pow_add] at h
        exact h
      have h2 := roundRat_one_error h1
      generalize roundRat z.natAbs 1 = c at h2 ⊢
      have key : |toReal (num (if z = 0 then s && s' else decide (z < 0)) c) - (z : ℝ) / 2 ^ 149| =
          |(mag c : ℝ) - z.natAbs| / 2 ^ 149 := by
        unfold toReal
        rw [← sub_div, abs_div, abs_of_pos hp]
        congr 1
        unfold value
        rcases lt_trichotomy z 0 with h3 | h3 | h3
        · have e : (z.natAbs : ℝ) = -(z : ℝ) := by rw [← hn, abs_of_neg (by exact_mod_cast h3)]
          rw [if_neg h3.ne, decide_eq_true h3, e]
          simp only [if_true, Int.cast_neg, Int.cast_natCast, sub_neg_eq_add]
          rw [← abs_neg]
          congr 1
          ring
        · subst h3
          simp only [if_true, Int.natAbs_zero, Nat.cast_zero, sub_zero, Int.cast_zero]
          split_ifs <;> simp
        · have e : (z.natAbs : ℝ) = (z : ℝ) := by rw [← hn, abs_of_pos (by exact_mod_cast h3)]
          rw [if_neg h3.ne', decide_eq_false (not_lt.2 h3.le), e]
          simp
      rw [key, abs_div, abs_of_pos hp, hn, div_right_comm]
      exact div_le_div_of_nonneg_right h2 hp.le

/-- `x` is an approximation of the nonnegative number `v` after `D` roundings, barring overflow -/
def Near (D : Nat) (x : Binary32) (v : ℝ) : Prop :=
  0 ≤ v ∧ (v * (1 + 1 / 2 ^ 24) ^ D ≤ 2 ^ 127 →
    Finite x ∧ v * (1 - 1 / 2 ^ 24) ^ D ≤ toReal x ∧ toReal x ≤ v * (1 + 1 / 2 ^ 24) ^ D)

theorem Near.mono {D E : Nat} {x : Binary32} {v : ℝ} (h : Near D x v) (hDE : D ≤ E) : Near E x v := by
  refine ⟨h.1, fun hE => ?_⟩
  have h1 : v * (1 + 1 / 2 ^ 24) ^ D ≤ v * (1 + 1 / 2 ^ 24) ^ E :=
    mul_le_mul_of_nonneg_left (pow_le_pow_right₀ (by norm_num) hDE) h.1
  have h2 : v * (1 - 1 / 2 ^ 24) ^ E ≤ v * (1 - 1 / 2 ^ 24) ^ D :=
    mul_le_mul_of_nonneg_left (pow_le_pow_of_le_one (by norm_num) (by norm_num) hDE) h.1
  obtain ⟨h3, h4, h5⟩ := h.2 (h1.trans hE)
  exact ⟨h3, h2.trans h4, h5.trans h1⟩

theorem Near.add {D : Nat} {x y : Binary32} {v w : ℝ} (hx : Near D x v) (hy : Near D y w) : Near (D + 1) (x + y) (v + w) := by
  have hv := hx.1
  have hw := hy.1
  refine ⟨add_nonneg hv hw, fun h => ?_⟩
  obtain ⟨u, hu⟩ : ∃ u : ℝ, u = 1 / 2 ^ 24 := ⟨_, rfl⟩
  have hu0 : 0 < u := by rw [hu]; positivity
  have hu1 : u < 1 := by rw [hu]; norm_num
  have hx2 := hx.2
  have hy2 := hy.2
  rw [← hu] at h hx2 hy2 ⊢
  have hP : 0 < (1 + u) ^ D := by positivity
  have hQ : 0 < (1 - u) ^ D := pow_pos (by linarith) _
  rw [pow_succ, pow_succ]
  rw [pow_succ] at h
  set P := (1 + u) ^ D
  set Q := (1 - u) ^ D
  have h0 : (v + w) * P ≤ 2 ^ 127 := by
    refine _root_.le_trans ?_ h
    have : 0 ≤ (v + w) * P := by positivity
    nlinarith
  have hwP : 0 ≤ w * P := by positivity
  have hvP : 0 ≤ v * P := by positivity
  obtain ⟨f1, l1, u1⟩ := hx2 (by linarith)
  obtain ⟨f2, l2, u2⟩ := hy2 (by linarith)
  have hvQ : 0 ≤ v * Q := by positivity
  have hwQ : 0 ≤ w * Q := by positivity
  have hs0 : 0 ≤ toReal x + toReal y := by linarith
  have hs1 : toReal x + toReal y ≤ (v + w) * P := by linarith
  have hs2 : (v + w) * Q ≤ toReal x + toReal y := by linarith
  obtain ⟨f3, e3⟩ := add_rel_error f1 f2 (by rw [abs_of_nonneg hs0]; linarith)
  rw [abs_of_nonneg hs0, div_eq_mul_one_div, ← hu] at e3
  have := abs_le.1 e3
  refine ⟨f3, ?_, ?_⟩
  · have h1 := mul_le_mul_of_nonneg_right hs2 (by linarith : (0 : ℝ) ≤ 1 - u)
    linarith
  · have h1 := mul_le_mul_of_nonneg_right hs1 (by linarith : (0 : ℝ) ≤ 1 + u)
    linarith

theorem one_add_pow_le (m : Nat) (hm : m ≤ 2 ^ 24) : (1 + 1 / 2 ^ 24 : ℝ) ^ m ≤ 1 + 2 * m / 2 ^ 24 := by
  have h0 : (0 : ℝ) ≤ (m : ℝ) / 2 ^ 24 := by positivity
  have h1 : (m : ℝ) / 2 ^ 24 ≤ 1 := by
    rw [div_le_one (by positivity)]
    exact_mod_cast hm
  have h2 : (1 + 1 / 2 ^ 24 : ℝ) ^ m ≤ Real.exp ((m : ℝ) / 2 ^ 24) := by
    have e : (m : ℝ) / 2 ^ 24 = m * (1 / 2 ^ 24) := by ring
    rw [e, Real.exp_nat_mul]
    exact pow_le_pow_left₀ (by positivity) (by rw [add_comm]; exact Real.add_one_le_exp _) _
  have h3 := Real.abs_exp_sub_one_sub_id_le (x := (m : ℝ) / 2 ^ 24) (by rw [abs_of_nonneg h0]; exact h1)
  have h4 := (abs_le.1 h3).2
  have h5 : ((m : ℝ) / 2 ^ 24) ^ 2 ≤ (m : ℝ) / 2 ^ 24 := by
    rw [sq]; exact mul_le_of_le_one_left h0 h1
  have e : 2 * (m : ℝ) / 2 ^ 24 = 2 * ((m : ℝ) / 2 ^ 24) := by ring
  rw [e]
  linarith

theorem le_one_sub_pow (m : Nat) : 1 - 2 * m / 2 ^ 24 ≤ (1 - 1 / 2 ^ 24 : ℝ) ^ m := by
  have h := one_add_mul_le_pow (a := (-(1 / 2 ^ 24) : ℝ)) (by norm_num) m
  rw [← sub_eq_add_neg] at h
  refine _root_.le_trans ?_ h
  have h0 : (0 : ℝ) ≤ (m : ℝ) * (1 / 2 ^ 24) := by positivity
  have e : 2 * (m : ℝ) / 2 ^ 24 = 2 * ((m : ℝ) * (1 / 2 ^ 24)) := by ring
  rw [e]
  linarith

/-! ### Cumulative sums -/

open List

theorem near_cumsumFrom {D : Nat} : ∀ {xs : List Binary32} {vs : List ℝ} {x : Binary32} {v : ℝ} {m : Nat},
    Forall₂ (Near 0) xs vs → Near m x v → m + xs.length ≤ D → Forall₂ (Near D) (cumsumFrom x xs) (cumsumFrom v vs)
  | _, _, _, _, _, .nil, _, _ => .nil
  | _, _, x, v, m, .cons (a := y) (b := w) (l₁ := l) h ht, hx, hD => by
    rw [List.length_cons] at hD
    have h1 := hx.add (h.mono (Nat.zero_le m))
    exact .cons (h1.mono (by omega)) (near_cumsumFrom ht h1 (by omega))

/-- the error of the cumulative sums from the left -/
theorem near_cumsum {xs : List Binary32} {vs : List ℝ} (h : Forall₂ (Near 0) xs vs) :
    Forall₂ (Near xs.length) (cumsum xs) (cumsum vs) := by
  cases h with
  | nil => exact .nil
  | cons h ht => exact .cons (h.mono (Nat.zero_le _)) (near_cumsumFrom ht h (by simp))

theorem near_pairSums {D : Nat} : ∀ {xs : List Binary32} {vs : List ℝ}, Forall₂ (Near D) xs vs →
    Forall₂ (Near (D + 1)) (pairSums xs) (pairSums vs)
  | _, _, .nil => .nil
  | _, _, .cons _ .nil => .nil
  | _, _, .cons h (.cons h' ht) => .cons (h.add h') (near_pairSums ht)

theorem forall₂_evens {α β : Type} {R : α → β → Prop} : ∀ {xs : List α} {vs : List β}, Forall₂ R xs vs →
    Forall₂ R (evens xs) (evens vs)
  | _, _, .nil => .nil
  | _, _, .cons h .nil => .cons h .nil
  | _, _, .cons h (.cons _ ht) => .cons h (forall₂_evens ht)

theorem forall₂_interleave {α β : Type} {R : α → β → Prop} : ∀ {xs : List α} {vs : List β} {xs' : List α} {vs' : List β},
    Forall₂ R xs vs → Forall₂ R xs' vs' → Forall₂ R (interleave xs xs') (interleave vs vs')
  | _, _, _, _, .cons h ht, .cons h' ht' => .cons h (.cons h' (forall₂_interleave ht ht'))
  | _, _, _, _, .cons h ht, .nil => by
    unfold interleave
    exact .cons h ht
  | _, _, _, _, .nil, .nil => .nil
  | _, _, _, _, .nil, .cons _ _ => .nil

theorem near_zipWith {D : Nat} : ∀ {xs : List Binary32} {vs : List ℝ} {xs' : List Binary32} {vs' : List ℝ},
    Forall₂ (Near D) xs vs → Forall₂ (Near D) xs' vs' →
    Forall₂ (Near (D + 1)) (zipWith (· + ·) xs xs') (zipWith (· + ·) vs vs')
  | _, _, _, _, .cons h ht, .cons h' ht' => .cons (h.add h') (near_zipWith ht ht')
  | _, _, _, _, .cons _ _, .nil => .nil
  | _, _, _, _, .nil, .nil => .nil
  | _, _, _, _, .nil, .cons _ _ => .nil

theorem near_fuel : ∀ (fuel D : Nat) {xs : List Binary32} {vs : List ℝ}, Forall₂ (Near D) xs vs →
    Forall₂ (Near (D + 2 * Nat.log2 xs.length)) (associativeScanFuel fuel xs) (associativeScanFuel fuel vs) := by
  intro fuel
  induction fuel with
  | zero =>
    intro D xs vs h
    exact h.imp fun _ _ h => h.mono (by omega)
  | succ fuel ih =>
    intro D xs vs h
    have hlen := h.length_eq
    unfold associativeScanFuel
    rw [← hlen]
    split_ifs with h2
    · exact h.imp fun _ _ h => h.mono (by omega)
    · have h1 := ih (D + 1) (near_pairSums h)
      rw [pairSums_length] at h1
      have hlog : Nat.log2 xs.length = Nat.log2 (xs.length / 2) + 1 := by
        rw [Nat.log2_def xs.length, if_pos (by omega)]
      have h3 := h1.imp fun _ _ h => h.mono (show D + 1 + 2 * Nat.log2 (xs.length / 2) ≤ D + 2 * Nat.log2 xs.length - 1 by omega)
      have he := (forall₂_evens h).imp fun _ _ h => h.mono (show D ≤ D + 2 * Nat.log2 xs.length - 1 by omega)
      refine forall₂_interleave ?_ (h3.imp fun _ _ h => h.mono (by omega))
      refine List.rel_append ((List.forall₂_take 1 he).imp fun _ _ h => h.mono (by omega)) ?_
      have h4 := near_zipWith h3 (List.forall₂_drop 1 he)
      exact h4.imp fun _ _ h => h.mono (by omega)

/-- the error of the cumulative sums with the algorithm used on CPU -/
theorem near_associativeScan {xs : List Binary32} {vs : List ℝ} (h : Forall₂ (Near 0) xs vs) :
    Forall₂ (Near (2 * Nat.log2 xs.length)) (associativeScan xs) (cumsum vs) := by
  have := near_fuel xs.length 0 h
  rw [Nat.zero_add] at this
  rw [← associativeScan_eq]
  unfold associativeScan
  rw [← h.length_eq]
  exact this

end Binary32
end Jax
