import Verif.Spec.Proposal32
import Mathlib.Tactic.Linarith
import Mathlib.Tactic.Positivity
import Mathlib.Tactic.NormNum
import Mathlib.Tactic.Ring
import Mathlib.Algebra.Order.BigOperators.Group.Finset
import Mathlib.Algebra.BigOperators.Field
/-!
# Errors on the averages of functions of random choices
-/

set_option autoImplicit false

namespace Bartz
open Jax Spec

open scoped Classical in
/-- the average of a function of a random choice, in terms of the probabilities of the choices -/
theorem sum_choice {Ω : Type} [Fintype Ω] (X : Ω → Nat) (s : Finset Nat) (hX : ∀ w, X w ∈ s) (g : Nat → ℝ) :
    ∑ w, g (X w) = ∑ v ∈ s, ((Finset.univ.filter fun w => X w = v).card : ℝ) * g v := by
  rw [← Finset.sum_fiberwise_of_maps_to (g := X) (s := Finset.univ) (t := s) (fun w _ => hX w)]
  refine Finset.sum_congr rfl fun v _ => ?_
  rw [Finset.sum_congr rfl (g := fun _ => g v) (fun w hw => by rw [(Finset.mem_filter.1 hw).2]), Finset.sum_const, nsmul_eq_mul]

theorem avg_empty (f : Nat → ℝ) : avg ∅ f = 0 := by
  unfold avg
  simp

theorem avg_finset (s : Finset Nat) (f : Nat → ℝ) : avg (s : Set Nat) f = ∑ x ∈ s, f x * (1 / (s.card : ℝ)) := by
  unfold avg
  rw [finsum_mem_coe_finset, Set.ncard_coe_finset, ← Finset.sum_mul, mul_one_div]

theorem avg_bounds {S : Set Nat} (hS : S.Finite) {f : Nat → ℝ} (h : ∀ x ∈ S, 0 ≤ f x ∧ f x ≤ 1) : 0 ≤ avg S f ∧ avg S f ≤ 1 := by
  obtain ⟨s, rfl⟩ := hS.exists_finset_coe
  rw [avg_finset]
  have h' : ∀ x ∈ s, 0 ≤ f x ∧ f x ≤ 1 := fun x hx => h x hx
  refine ⟨Finset.sum_nonneg fun x hx => mul_nonneg (h' x hx).1 (by positivity), ?_⟩
  refine (Finset.sum_le_sum (g := fun _ => 1 / (s.card : ℝ)) fun x hx => ?_).trans ?_
  · exact mul_le_of_le_one_left (by positivity) (h' x hx).2
  · rw [Finset.sum_const, nsmul_eq_mul, mul_one_div]
    exact div_self_le_one _

/-- The average of a function of a choice about uniform in `S`, with at most `2 ** 16` elements. -/
theorem mean_near {X : Words → Nat} {S : Set Nat} (hS : S.Finite) (hX : S.Nonempty → ∀ w, X w ∈ S)
    (hp : ∀ v ∈ S, |wordsProb (fun w => X w = v) - 1 / (S.ncard : ℝ)| < 1 / 2 ^ 64) (hc : S.ncard ≤ 2 ^ 16) {g g' : Nat → ℝ} {b : ℝ}
    (hb : 0 ≤ b) (hg : ∀ v, 0 ≤ g v ∧ g v ≤ 1) (h0 : S = ∅ → ∀ v, g v = 0) (hgg : ∀ v ∈ S, |g v - g' v| ≤ b) :
    |(∑ w, g (X w)) / 2 ^ 64 - avg S g'| ≤ 1 / 2 ^ 48 + b := by
  classical
  rcases S.eq_empty_or_nonempty with he | hne
  · rw [Finset.sum_congr rfl (g := fun _ => (0 : ℝ)) (fun w _ => h0 he _), Finset.sum_const_zero, he, avg_empty]
    simp only [zero_div, sub_zero, abs_zero]
    positivity
  obtain ⟨s, rfl⟩ := hS.exists_finset_coe
  rw [Set.ncard_coe_finset] at hp hc
  have hs : 0 < s.card := Finset.card_pos.2 (Finset.coe_nonempty.1 hne)
  have hs' : (0 : ℝ) < s.card := by exact_mod_cast hs
  rw [sum_choice X s (fun w => hX hne w), avg_finset, Finset.sum_div, ← Finset.sum_sub_distrib]
  have key : ∀ v ∈ s, |((Finset.univ.filter fun w => X w = v).card : ℝ) * g v / 2 ^ 64 - g' v * (1 / (s.card : ℝ))| ≤
      1 / 2 ^ 64 + b * (1 / (s.card : ℝ)) := by
    intro v hv
    have h1 := hp v hv
    have e1 : ((Finset.univ.filter fun w => X w = v).card : ℝ) / 2 ^ 64 = wordsProb (fun w => X w = v) := by
      unfold wordsProb
      congr!
    have e2 : ((Finset.univ.filter fun w => X w = v).card : ℝ) * g v / 2 ^ 64 - g' v * (1 / (s.card : ℝ)) =
        (wordsProb (fun w => X w = v) - 1 / (s.card : ℝ)) * g v + (g v - g' v) * (1 / (s.card : ℝ)) := by
      rw [← e1]
      ring
    rw [e2]
    refine (abs_add_le _ _).trans (add_le_add ?_ ?_)
    · rw [abs_mul, abs_of_nonneg (hg v).1]
      exact (mul_le_of_le_one_right (abs_nonneg _) (hg v).2).trans h1.le
    · rw [abs_mul, abs_of_nonneg (show (0 : ℝ) ≤ 1 / s.card by positivity)]
      exact mul_le_mul_of_nonneg_right (hgg v hv) (by positivity)
  refine (Finset.abs_sum_le_sum_abs _ _).trans ((Finset.sum_le_sum key).trans ?_)
  rw [Finset.sum_const, nsmul_eq_mul, mul_add]
  have h2 : (s.card : ℝ) ≤ 2 ^ 16 := by exact_mod_cast hc
  have h3 : (s.card : ℝ) * (b * (1 / s.card)) = b := by
    rw [mul_comm b, ← mul_assoc, mul_one_div_cancel hs'.ne', one_mul]
  rw [h3]
  have h4 : (s.card : ℝ) * (1 / 2 ^ 64) ≤ 2 ^ 16 * (1 / 2 ^ 64) := mul_le_mul_of_nonneg_right h2 (by positivity)
  have h5 : (2 : ℝ) ^ 16 * (1 / 2 ^ 64) = 1 / 2 ^ 48 := by norm_num
  linarith

open scoped Classical in
/-- The average of a function of a choice in `0, ..., N - 1`, with probabilities that exceed the given ones by at most `η`. -/
theorem choice_near {X : Fin (2 ^ 23) → Nat} {N : Nat} (hX : ∀ k, X k < N) {G : Finset Nat} (hG : G ⊆ Finset.range N) {π : Nat → ℝ}
    {η : ℝ} (hη : 0 ≤ η) (hπ0 : ∀ i ∈ G, 0 ≤ π i) (hπ1 : ∑ i ∈ G, π i = 1)
    (hp : ∀ i, i < N → bitsProb (fun k => X k = i) ≤ (if i ∈ G then π i else 0) + η) {g g' : Nat → ℝ} {b : ℝ}
    (hg : ∀ v, 0 ≤ g v ∧ g v ≤ 1) (hgg : ∀ i ∈ G, |g i - g' i| ≤ b) :
    |(∑ k, g (X k)) / 2 ^ 23 - ∑ i ∈ G, π i * g' i| ≤ N * η + b := by
  -- the upper bound, for any function
  have upper : ∀ f : Nat → ℝ, (∀ v, 0 ≤ f v ∧ f v ≤ 1) → (∑ k, f (X k)) / 2 ^ 23 ≤ (∑ i ∈ G, π i * f i) + N * η := by
    intro f hf
    rw [sum_choice X (Finset.range N) (fun k => Finset.mem_range.2 (hX k)), Finset.sum_div]
    have h1 : ∀ i ∈ Finset.range N, ((Finset.univ.filter fun k => X k = i).card : ℝ) * f i / 2 ^ 23 ≤
        (if i ∈ G then π i * f i else 0) + η := by
      intro i hi
      have h2 := hp i (Finset.mem_range.1 hi)
      have e : ((Finset.univ.filter fun k => X k = i).card : ℝ) / 2 ^ 23 = bitsProb (fun k => X k = i) := by
        unfold bitsProb
        congr!
      rw [mul_div_right_comm, e]
      have h3 := mul_le_mul_of_nonneg_right h2 (hf i).1
      have h4 : η * f i ≤ η := mul_le_of_le_one_right hη (hf i).2
      split_ifs at h3 ⊢ <;> linarith
    refine (Finset.sum_le_sum h1).trans (le_of_eq ?_)
    rw [Finset.sum_add_distrib, Finset.sum_const, Finset.card_range, nsmul_eq_mul, ← Finset.sum_filter,
      Finset.filter_mem_eq_inter, Finset.inter_eq_right.2 hG]
  have hclose : |∑ i ∈ G, π i * g i - ∑ i ∈ G, π i * g' i| ≤ b := by
    rw [← Finset.sum_sub_distrib]
    refine (Finset.abs_sum_le_sum_abs _ _).trans ?_
    have : ∀ i ∈ G, |π i * g i - π i * g' i| ≤ π i * b := by
      intro i hi
      rw [← mul_sub, abs_mul, abs_of_nonneg (hπ0 i hi)]
      exact mul_le_mul_of_nonneg_left (hgg i hi) (hπ0 i hi)
    refine (Finset.sum_le_sum this).trans ?_
    rw [← Finset.sum_mul, hπ1, one_mul]
  rw [abs_le] at hclose
  have u1 := upper g hg
  have u2 := upper (fun v => 1 - g v) (fun v => ⟨by linarith [(hg v).2], by linarith [(hg v).1]⟩)
  have e1 : (∑ k, (1 - g (X k))) / 2 ^ 23 = 1 - (∑ k, g (X k)) / 2 ^ 23 := by
    rw [Finset.sum_sub_distrib, Finset.sum_const, Finset.card_univ, Fintype.card_fin, nsmul_eq_mul, mul_one, sub_div,
      Nat.cast_pow, Nat.cast_ofNat, div_self (by positivity)]
  have e2 : ∑ i ∈ G, π i * (1 - g i) = 1 - ∑ i ∈ G, π i * g i := by
    simp only [mul_sub, mul_one]
    rw [Finset.sum_sub_distrib, hπ1]
  rw [e1, e2] at u2
  rw [abs_le]
  constructor <;> linarith

/-- the average of a function of the random bits -/
noncomputable def growMean (f : GrowBits → ℝ) : ℝ := (∑ k, (∑ w1, (∑ w2, f (k, w1, w2)) / 2 ^ 64) / 2 ^ 64) / 2 ^ 23

/-- the probability as an average of averages -/
theorem growProb_eq (p : GrowBits → Prop) [DecidablePred p] :
    growProb p = (∑ k, (∑ w1, (∑ w2, if p (k, w1, w2) then (1 : ℝ) else 0) / 2 ^ 64) / 2 ^ 64) / 2 ^ 23 := by
  have h1 : ((Finset.univ.filter p).card : ℝ) = ∑ k, ∑ w1, ∑ w2, if p (k, w1, w2) then (1 : ℝ) else 0 := by
    rw [Finset.card_filter, Nat.cast_sum, Fintype.sum_prod_type]
    refine Finset.sum_congr rfl fun k _ => ?_
    rw [Fintype.sum_prod_type (α₁ := Words) (α₂ := Words)]
    refine Finset.sum_congr rfl fun w1 _ => Finset.sum_congr rfl fun w2 _ => ?_
    push_cast
    rfl
  have h2 : growProb p = ((Finset.univ.filter p).card : ℝ) / (2 ^ 23 * 2 ^ 64 * 2 ^ 64) := by
    unfold growProb
    congr!
  rw [h2, h1]
  simp only [← Finset.sum_div]
  ring

end Bartz
