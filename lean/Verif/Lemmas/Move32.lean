import Verif.Lemmas.Proposal32
import Verif.Lemmas.AcceptTrans
/-! # The choice between growing and pruning in single precision -/

set_option autoImplicit false

namespace Bartz
open Jax Spec

theorem lt_iff_value {x y : Binary32} {v w : ℝ} (hx : HasValue x v) (hy : HasValue y w) : Binary32.lt x y = true ↔ v < w := by
  have h1 := le_iff_value hy hx
  rw [← not_le, ← h1]
  obtain ⟨s, b, rfl, -, -⟩ := hx
  obtain ⟨s', b', rfl, -, -⟩ := hy
  unfold Binary32.lt Binary32.le
  rw [decide_eq_true_iff, decide_eq_true_iff, not_le]

/-- the choice between growing and pruning -/
theorem kind_iff [Binary32.Platform] (k : Fin (2 ^ 23)) :
    (FltFun.ltb (Binary32.uniform k 1) (half : Binary32) = true ↔ k.val < 2 ^ 22) ∧
    FltFun.ltb (Binary32.uniform k 1) (1 : Binary32) = true ∧ FltFun.ltb (Binary32.uniform k 1) (0 : Binary32) = false := by
  have hu := uniform_value k
  have hk : (k.val : ℝ) < 2 ^ 23 := by exact_mod_cast k.isLt
  have h0 : (0 : ℝ) ≤ k.val := Nat.cast_nonneg _
  refine ⟨?_, ?_, ?_⟩
  · refine (lt_iff_value hu half_value).trans ?_
    rw [div_lt_iff₀ (by norm_num), show (1 : ℝ) / 2 * 2 ^ 23 = ((2 ^ 22 : Nat) : ℝ) by norm_num, Nat.cast_lt]
  · refine (lt_iff_value hu hasValue_one).2 ?_
    rw [div_lt_one (by norm_num)]
    exact hk
  · rw [Bool.eq_false_iff]
    refine fun h => absurd ((lt_iff_value hu hasValue_zero).1 h) (not_lt.2 ?_)
    positivity

/-- the average of a function of the random bits -/
noncomputable def moveMean (f : MoveBits → ℝ) : ℝ := (∑ k, (∑ w, growMean fun g => f (k, g, w)) / 2 ^ 64) / 2 ^ 23

/-- the probability as an average of averages -/
theorem moveProb_eq (p : MoveBits → Prop) :
    moveProb p = (∑ k, (∑ w, growProb fun g => p (k, g, w)) / 2 ^ 64) / 2 ^ 23 := by
  classical
  have h1 : ((Finset.univ.filter p).card : ℝ) = ∑ k, ∑ w, ∑ g, if p (k, g, w) then (1 : ℝ) else 0 := by
    rw [Finset.card_filter, Nat.cast_sum, Fintype.sum_prod_type]
    refine Finset.sum_congr rfl fun k _ => ?_
    rw [Fintype.sum_prod_type (α₁ := GrowBits) (α₂ := Words), Finset.sum_comm]
    refine Finset.sum_congr rfl fun w _ => Finset.sum_congr rfl fun g _ => ?_
    push_cast
    rfl
  have h2 : moveProb p = ((Finset.univ.filter p).card : ℝ) / (2 ^ 23 * (2 ^ 23 * 2 ^ 64 * 2 ^ 64) * 2 ^ 64) := by
    unfold moveProb
    congr!
  have h3 : ∀ k w, growProb (fun g => p (k, g, w)) = (∑ g, if p (k, g, w) then (1 : ℝ) else 0) / (2 ^ 23 * 2 ^ 64 * 2 ^ 64) := by
    intro k w
    have : growProb (fun g => p (k, g, w)) = ((Finset.univ.filter fun g => p (k, g, w)).card : ℝ) / (2 ^ 23 * 2 ^ 64 * 2 ^ 64) := by
      unfold growProb
      congr!
    rw [this, Finset.card_filter, Nat.cast_sum]
    simp only [Nat.cast_ite, Nat.cast_one, Nat.cast_zero]
  rw [h2, h1]
  simp only [h3, ← Finset.sum_div]
  ring

theorem growMean_const (x : ℝ) : growMean (fun _ => x) = x := by
  unfold growMean
  beta_reduce
  have e64 : (∑ _w : Words, x) = 2 ^ 64 * x := by
    rw [Finset.sum_const, Finset.card_univ, Fintype.card_prod, Fintype.card_fin, nsmul_eq_mul]
    push_cast
    ring
  have e23 : (∑ _k : Fin (2 ^ 23), x) = 2 ^ 23 * x := by
    rw [Finset.sum_const, Finset.card_univ, Fintype.card_fin, nsmul_eq_mul]
    push_cast
    ring
  rw [e64, mul_div_cancel_left₀ _ (by positivity), e64, mul_div_cancel_left₀ _ (by positivity), e23,
    mul_div_cancel_left₀ _ (by positivity)]

/-- the probability as an average -/
theorem moveProb_mean (p : MoveBits → Prop) [DecidablePred p] : moveProb p = moveMean fun ω => if p ω then 1 else 0 := by
  rw [moveProb_eq]
  unfold moveMean
  simp only [growProb_eq]
  rfl

theorem growProb_const (p : Prop) [Decidable p] : growProb (fun _ => p) = if p then 1 else 0 := by
  rw [growProb_eq]
  by_cases h : p
  · simp only [h, if_true]
    have e64 : (∑ _w : Words, (1 : ℝ)) = 2 ^ 64 := by
      rw [Finset.sum_const, Finset.card_univ, Fintype.card_prod, Fintype.card_fin, nsmul_eq_mul, mul_one]
      push_cast
      ring
    have e23 : (∑ _k : Fin (2 ^ 23), (1 : ℝ)) = 2 ^ 23 := by
      rw [Finset.sum_const, Finset.card_univ, Fintype.card_fin, nsmul_eq_mul, mul_one]
      push_cast
      ring
    rw [e64, div_self (by positivity), e64, div_self (by positivity), e23, div_self (by positivity)]
  · simp only [h, if_false, Finset.sum_const_zero, zero_div]

/-- the average over the random bits of the kind of move, if the average given the kind is near the given ones -/
theorem kind_near {M N : Nat} (hM : M = N + N) (hN : 0 < N) {f : Fin M → ℝ} {x y ε : ℝ} (hx : ∀ k : Fin M, k.val < N → |f k - x| ≤ ε)
    (hy : ∀ k : Fin M, ¬ k.val < N → |f k - y| ≤ ε) : |(∑ k, f k) / M - (1 / 2 * x + 1 / 2 * y)| ≤ ε := by
  classical
  have hcard : (Finset.univ.filter fun k : Fin M => k.val < N).card = N := by
    have := Fin.card_filter_val_lt (n := M) (m := N)
    rw [this]
    omega
  have hcard' : (Finset.univ.filter fun k : Fin M => ¬ k.val < N).card = N := by
    have h := Finset.card_filter_add_card_filter_not (s := (Finset.univ : Finset (Fin M))) (fun k => k.val < N)
    rw [hcard, Finset.card_univ, Fintype.card_fin] at h
    omega
  have hN' : (0 : ℝ) < N := by exact_mod_cast hN
  have hM' : (M : ℝ) = 2 * N := by rw [hM]; push_cast; ring
  have e : ∑ k : Fin M, (f k - if k.val < N then x else y) = (∑ k, f k) - (N * x + N * y) := by
    rw [Finset.sum_sub_distrib, Finset.sum_ite, Finset.sum_const, Finset.sum_const, hcard, hcard', nsmul_eq_mul, nsmul_eq_mul]
  have e2 : (∑ k, f k) / M - (1 / 2 * x + 1 / 2 * y) = (∑ k : Fin M, (f k - if k.val < N then x else y)) / M := by
    rw [e, hM']
    field_simp
  rw [e2, abs_div, abs_of_pos (show (0 : ℝ) < M by rw [hM']; positivity), div_le_iff₀ (by rw [hM']; positivity)]
  refine (Finset.abs_sum_le_sum_abs _ _).trans ((Finset.sum_le_sum (g := fun _ => ε) fun k _ => ?_).trans (le_of_eq ?_))
  · split_ifs with h
    · exact hx k h
    · exact hy k h
  · rw [Finset.sum_const, Finset.card_univ, Fintype.card_fin, nsmul_eq_mul, mul_comm]

/-- the average over 64 random bits of something near a value -/
theorem words_mean_near {f : Words → ℝ} {x ε : ℝ} (h : ∀ w, |f w - x| ≤ ε) : |(∑ w, f w) / 2 ^ 64 - x| ≤ ε := by
  have hc : (Finset.univ : Finset Words).card • (1 : ℝ) = 2 ^ 64 := by
    rw [Finset.card_univ, Fintype.card_prod, Fintype.card_fin, nsmul_eq_mul, mul_one]
    push_cast
    ring
  have hs : ∀ y : ℝ, ∑ _w : Words, y = 2 ^ 64 * y := by
    intro y
    rw [Finset.sum_const, ← hc, nsmul_eq_mul, nsmul_eq_mul, mul_one]
  have e : (∑ w, f w) / 2 ^ 64 - x = (∑ w, (f w - x)) / 2 ^ 64 := by
    rw [Finset.sum_sub_distrib, hs, sub_div, mul_div_cancel_left₀ _ (by positivity)]
  rw [e, abs_div, abs_of_pos (show (0 : ℝ) < 2 ^ 64 by positivity), div_le_iff₀ (by positivity)]
  refine (Finset.abs_sum_le_sum_abs _ _).trans ((Finset.sum_le_sum (g := fun _ => ε) fun w _ => h w).trans (le_of_eq ?_))
  rw [hs, mul_comm]

end Bartz
