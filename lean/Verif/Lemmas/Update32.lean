import Verif.Lemmas.Move32
import Verif.Spec.Update32
import Verif.Props.AcceptError
/-! # Averages over the random bits used to update a tree -/

set_option autoImplicit false

namespace Bartz
open Jax Spec

/-- the probability that a uniform variate out of `N` equally spaced ones is at least a value -/
theorem card_ge {N : Nat} (hN : 0 < N) {x : ℝ} (h0 : 0 ≤ x) (h1 : x ≤ 1) :
    |((Finset.univ.filter fun k : Fin N => 1 - (k.val : ℝ) / N ≤ x).card : ℝ) / N - x| ≤ 1 / N := by
  have hN' : (0 : ℝ) < N := by exact_mod_cast hN
  have hc0 : 0 ≤ N * (1 - x) := mul_nonneg hN'.le (by linarith)
  have c1 := Nat.le_ceil (N * (1 - x))
  have c2 := Nat.ceil_lt_add_one hc0
  have hle : ⌈N * (1 - x)⌉₊ ≤ N := by
    refine Nat.ceil_le.2 ?_
    exact mul_le_of_le_one_right hN'.le (by linarith)
  have hiff : ∀ k : Fin N, 1 - (k.val : ℝ) / N ≤ x ↔ ¬ k.val < ⌈N * (1 - x)⌉₊ := by
    intro k
    rw [not_lt, Nat.ceil_le, sub_le_comm, le_div_iff₀ hN', mul_comm]
  simp only [hiff]
  generalize ⌈N * (1 - x)⌉₊ = c at c1 c2 hle
  have hcard : (Finset.univ.filter fun k : Fin N => k.val < c).card = c := by
    have := Fin.card_filter_val_lt (n := N) (m := c)
    rw [this]
    omega
  have hcard' : ((Finset.univ.filter fun k : Fin N => ¬ k.val < c).card : ℝ) = N - c := by
    have h := Finset.card_filter_add_card_filter_not (s := (Finset.univ : Finset (Fin N))) (fun k => k.val < c)
    rw [hcard, Finset.card_univ, Fintype.card_fin] at h
    have h' : (c : ℝ) + ((Finset.univ.filter fun k : Fin N => ¬ k.val < c).card : ℝ) = N := by exact_mod_cast h
    linarith
  rw [hcard', show ((N : ℝ) - c) / N - x = (N * (1 - x) - c) / N by field_simp; ring, abs_div, abs_of_pos hN']
  refine div_le_div_of_nonneg_right ?_ hN'.le
  rw [abs_le]
  constructor <;> linarith

/-- the probability to accept in exact arithmetic, given the variate -/
theorem accept_exact (ℓ : ℝ) : |bitsProb (fun k => Real.log (1 - k.val / 2 ^ 23) ≤ ℓ) - min 1 (Real.exp ℓ)| ≤ 1 / 2 ^ 23 := by
  classical
  rw [bitsProb_eq]
  have hpos : ∀ k : Fin (2 ^ 23), 0 < 1 - (k.val : ℝ) / 2 ^ 23 := by
    intro k
    have : (k.val : ℝ) < 2 ^ 23 := by exact_mod_cast k.isLt
    rw [sub_pos, div_lt_one (by norm_num)]
    exact this
  have hiff : ∀ k : Fin (2 ^ 23), Real.log (1 - (k.val : ℝ) / 2 ^ 23) ≤ ℓ ↔ 1 - (k.val : ℝ) / 2 ^ 23 ≤ min 1 (Real.exp ℓ) := by
    intro k
    rw [Real.log_le_iff_le_exp (hpos k), le_min_iff]
    refine ⟨fun h => ⟨?_, h⟩, fun h => h.2⟩
    have : (0 : ℝ) ≤ (k.val : ℝ) / 2 ^ 23 := by positivity
    linarith
  simp only [hiff]
  have h23 : (((2 ^ 23 : Nat) : Nat) : ℝ) = 2 ^ 23 := by norm_num
  have := card_ge (N := 2 ^ 23) (by norm_num) (x := min 1 (Real.exp ℓ)) (le_min zero_le_one (Real.exp_pos ℓ).le) (min_le_left _ _)
  rw [h23] at this
  exact this

/-- the probabilities of events that differ rarely -/
theorem bitsProb_sub (p q : Fin (2 ^ 23) → Prop) : |bitsProb p - bitsProb q| ≤ bitsProb fun k => ¬ (p k ↔ q k) := by
  classical
  rw [bitsProb_eq p, bitsProb_eq q, bitsProb_eq, ← sub_div, abs_div, abs_of_pos (show (0 : ℝ) < 2 ^ 23 by norm_num)]
  refine div_le_div_of_nonneg_right ?_ (by norm_num)
  have h1 : ((Finset.univ.filter p).card : ℝ) ≤ (Finset.univ.filter q).card + (Finset.univ.filter fun k => ¬ (p k ↔ q k)).card := by
    have : Finset.univ.filter p ⊆ Finset.univ.filter q ∪ Finset.univ.filter fun k => ¬ (p k ↔ q k) := by
      intro k hk
      simp only [Finset.mem_union, Finset.mem_filter, Finset.mem_univ, true_and] at hk ⊢
      tauto
    exact_mod_cast (Finset.card_le_card this).trans (Finset.card_union_le _ _)
  have h2 : ((Finset.univ.filter q).card : ℝ) ≤ (Finset.univ.filter p).card + (Finset.univ.filter fun k => ¬ (p k ↔ q k)).card := by
    have : Finset.univ.filter q ⊆ Finset.univ.filter p ∪ Finset.univ.filter fun k => ¬ (p k ↔ q k) := by
      intro k hk
      simp only [Finset.mem_union, Finset.mem_filter, Finset.mem_univ, true_and] at hk ⊢
      tauto
    exact_mod_cast (Finset.card_le_card this).trans (Finset.card_union_le _ _)
  rw [abs_le]
  constructor <;> linarith

/-- the probability to accept in single precision, with an error at most `b` on the log ratio -/
theorem accept_near [P : Binary32.Platform] {δ : ℝ} (hP : LogError P δ) (hδ : 0 ≤ δ) {ratio : Fin (2 ^ 23) → Binary32} {ℓ b : ℝ}
    (hb0 : 0 ≤ b) (hr : ∀ k, ∃ ρ, HasValue (ratio k) ρ ∧ |ρ - ℓ| ≤ b) :
    |bitsProb (fun k => Binary32.le (FltFun.log1p (-(Binary32.uniform k 1))) (ratio k) = true) - min 1 (Real.exp ℓ)| ≤
      2 * (b + 17 * δ) + 1 / 2 ^ 22 := by
  have h1 : bitsProb (fun k => ¬ (Binary32.le (FltFun.log1p (-(Binary32.uniform k 1))) (ratio k) = true ↔
      Real.log (1 - k.val / 2 ^ 23) ≤ ℓ)) ≤ 2 * (b + 17 * δ) + 1 / 2 ^ 23 := by
    refine bits_near (ℓ := ℓ) (by positivity) fun k hk => ?_
    obtain ⟨r, h1, h2⟩ := logu_error hP hδ k
    obtain ⟨ρ, h3, h4⟩ := hr k
    have h5 : (Binary32.le (FltFun.log1p (-(Binary32.uniform k 1))) (ratio k) = true ↔ r ≤ ρ) := le_iff_value h1 h3
    rw [h5] at hk
    by_contra hc
    apply hk
    rw [not_le] at hc
    exact le_iff_of_gap h2 h4 (by rw [add_comm]; exact hc)
  have h2 := (bitsProb_sub _ _).trans h1
  have h3 := accept_exact ℓ
  refine (abs_sub_le _ (bitsProb fun k => Real.log (1 - k.val / 2 ^ 23) ≤ ℓ) _).trans ((add_le_add h2 h3).trans (le_of_eq ?_))
  ring

/-- the probability as an average -/
theorem updateProb_mean (p : UpdateBits → Prop) : updateProb p = moveMean fun ω => bitsProb fun k => p (ω, k) := by
  classical
  have h1 : ((Finset.univ.filter p).card : ℝ) = ∑ k, ∑ w, ∑ k', ∑ w1, ∑ w2, ∑ u, if p ((k, (k', w1, w2), w), u) then (1 : ℝ) else 0 := by
    rw [Finset.card_filter, Nat.cast_sum, Fintype.sum_prod_type, Fintype.sum_prod_type]
    refine Finset.sum_congr rfl fun k _ => ?_
    rw [Fintype.sum_prod_type (α₁ := GrowBits) (α₂ := Words), Finset.sum_comm]
    refine Finset.sum_congr rfl fun w _ => ?_
    rw [Fintype.sum_prod_type]
    refine Finset.sum_congr rfl fun k' _ => ?_
    rw [Fintype.sum_prod_type (α₁ := Words) (α₂ := Words)]
    refine Finset.sum_congr rfl fun w1 _ => Finset.sum_congr rfl fun w2 _ => Finset.sum_congr rfl fun u _ => ?_
    push_cast
    rfl
  have h2 : updateProb p = ((Finset.univ.filter p).card : ℝ) / (2 ^ 23 * (2 ^ 23 * 2 ^ 64 * 2 ^ 64) * 2 ^ 64 * 2 ^ 23) := by
    unfold updateProb
    congr!
  have h3 : ∀ ω, bitsProb (fun k => p (ω, k)) = (∑ u, if p (ω, u) then (1 : ℝ) else 0) / 2 ^ 23 := by
    intro ω
    rw [bitsProb_eq, Finset.card_filter, Nat.cast_sum]
    simp only [Nat.cast_ite, Nat.cast_one, Nat.cast_zero]
  rw [h2, h1]
  unfold moveMean growMean
  simp only [h3, ← Finset.sum_div]
  ring

theorem words_sum_near {f f' : Words → ℝ} {ε : ℝ} (h : ∀ w, |f w - f' w| ≤ ε) : |(∑ w, f w) / 2 ^ 64 - (∑ w, f' w) / 2 ^ 64| ≤ ε := by
  have := words_mean_near (f := fun w => f w - f' w) (x := 0) (ε := ε) fun w => by rw [sub_zero]; exact h w
  rw [sub_zero, Finset.sum_sub_distrib, sub_div] at this
  exact this

theorem fin_sum_near {N : Nat} (hN : 0 < N) {f f' : Fin N → ℝ} {ε : ℝ} (h : ∀ k, |f k - f' k| ≤ ε) :
    |(∑ k, f k) / N - (∑ k, f' k) / N| ≤ ε := by
  have hN' : (0 : ℝ) < N := by exact_mod_cast hN
  rw [← sub_div, ← Finset.sum_sub_distrib, abs_div, abs_of_pos hN', div_le_iff₀ hN']
  refine (Finset.abs_sum_le_sum_abs _ _).trans ((Finset.sum_le_sum (g := fun _ => ε) fun k _ => h k).trans (le_of_eq ?_))
  rw [Finset.sum_const, Finset.card_univ, Fintype.card_fin, nsmul_eq_mul, mul_comm]

/-- the averages of functions near each other -/
theorem moveMean_near {f f' : MoveBits → ℝ} {ε : ℝ} (h : ∀ ω, |f ω - f' ω| ≤ ε) : |moveMean f - moveMean f'| ≤ ε := by
  have h23 : (((2 ^ 23 : Nat) : Nat) : ℝ) = 2 ^ 23 := by norm_num
  have hfin : ∀ g g' : Fin (2 ^ 23) → ℝ, (∀ k, |g k - g' k| ≤ ε) → |(∑ k, g k) / 2 ^ 23 - (∑ k, g' k) / 2 ^ 23| ≤ ε := by
    intro g g' hg
    have := fin_sum_near (N := 2 ^ 23) (by norm_num) hg
    rw [h23] at this
    exact this
  unfold moveMean growMean
  refine hfin _ _ fun k => words_sum_near fun w => hfin _ _ fun k' => words_sum_near fun w1 => words_sum_near fun w2 => h _

end Bartz
