import Verif.Spec.Regression
import Mathlib.Tactic.FieldSimp
import Mathlib.Tactic.Linarith
import Mathlib.Tactic.LinearCombination
/-! # Lemmas on linear regression -/

set_option autoImplicit false

namespace Spec
open Finset

/-- Centering is equivalent to adding an intercept. -/
theorem intercept_ge {n : Nat} (hn : 0 < n) (r : Nat → ℝ) (c : ℝ) :
    ∑ i ∈ range n, (r i - sampleMean n r) ^ 2 ≤ ∑ i ∈ range n, (r i - c) ^ 2 := by
  have hn' : (0 : ℝ) < n := by exact_mod_cast hn
  have key : ∑ i ∈ range n, (r i - c) ^ 2 =
      ∑ i ∈ range n, (r i - sampleMean n r) ^ 2 + n * (sampleMean n r - c) ^ 2 := by
    have h1 : ∑ i ∈ range n, (r i - sampleMean n r) = 0 := by
      rw [sum_sub_distrib, sum_const, card_range, nsmul_eq_mul, sampleMean]
      field_simp
      ring
    have h2 : ∀ i, (r i - c) ^ 2 = (r i - sampleMean n r) ^ 2 +
        2 * (sampleMean n r - c) * (r i - sampleMean n r) + (sampleMean n r - c) ^ 2 := by
      intro i; ring
    simp only [h2, sum_add_distrib, ← mul_sum, h1, sum_const, card_range, nsmul_eq_mul]
    ring
  rw [key]
  have : 0 ≤ n * (sampleMean n r - c) ^ 2 := by positivity
  linarith

theorem residual_center {n p : Nat} (hn : 0 < n) (A : Nat → Nat → ℝ) (b β : Nat → ℝ) (i : Nat) :
    (b i - sampleMean n b) - ∑ j ∈ range p, (A i j - sampleMean n fun i => A i j) * β j =
    (b i - ∑ j ∈ range p, A i j * β j) - sampleMean n fun i => b i - ∑ j ∈ range p, A i j * β j := by
  have h1 : (sampleMean n fun i => b i - ∑ j ∈ range p, A i j * β j) =
      sampleMean n b - ∑ j ∈ range p, (sampleMean n fun i => A i j) * β j := by
    unfold sampleMean
    rw [sum_sub_distrib, sum_comm, sub_div, sum_div (range p)]
    refine congrArg _ (sum_congr rfl fun j _ => ?_)
    rw [← sum_mul]
    ring
  rw [h1]
  simp only [sub_mul, sum_sub_distrib]
  ring

theorem intercept_iff {n p : Nat} (hn : 0 < n) (A : Nat → Nat → ℝ) (b : Nat → ℝ) (v : ℝ) :
    IsGLB (Set.range fun β => residualSS n p (fun i j => A i j - sampleMean n fun i => A i j)
      (fun i => b i - sampleMean n b) β) v ↔
    IsGLB (Set.range fun β : ℝ × (Nat → ℝ) => residualSSIntercept n p A b β.1 β.2) v := by
  have hsub : ∀ β₀ β, residualSSIntercept n p A b β₀ β =
      ∑ i ∈ range n, ((b i - ∑ j ∈ range p, A i j * β j) - β₀) ^ 2 := by
    intro β₀ β
    refine sum_congr rfl fun i _ => ?_
    ring
  have hc : ∀ β, residualSS n p (fun i j => A i j - sampleMean n fun i => A i j)
      (fun i => b i - sampleMean n b) β =
      residualSSIntercept n p A b (sampleMean n fun i => b i - ∑ j ∈ range p, A i j * β j) β := by
    intro β
    rw [hsub]
    refine sum_congr rfl fun i _ => ?_
    rw [residual_center hn]
  have hlb : lowerBounds (Set.range fun β => residualSS n p (fun i j => A i j - sampleMean n fun i => A i j)
      (fun i => b i - sampleMean n b) β) =
    lowerBounds (Set.range fun β : ℝ × (Nat → ℝ) => residualSSIntercept n p A b β.1 β.2) := by
    ext w
    constructor
    · rintro hw _ ⟨⟨β₀, β⟩, rfl⟩
      refine (hw ⟨β, rfl⟩).trans ?_
      simp only [hc, hsub]
      exact intercept_ge hn _ _
    · rintro hw _ ⟨β, rfl⟩
      simp only [hc]
      exact hw ⟨(_, β), rfl⟩
  unfold IsGLB
  rw [hlb]

/-- The minimum scales with the square of the responses. -/
theorem residualSS_scale {n p : Nat} (A : Nat → Nat → ℝ) (b : Nat → ℝ) {c : ℝ} (hc : 0 < c) (v w : ℝ)
    (hv : IsGLB (Set.range fun β => residualSS n p A b β) v)
    (hw : IsGLB (Set.range fun β => residualSS n p A (fun i => c * b i) β) w) : w = c ^ 2 * v := by
  have key : ∀ β, residualSS n p A (fun i => c * b i) (fun j => c * β j) = c ^ 2 * residualSS n p A b β := by
    intro β
    unfold residualSS
    rw [mul_sum]
    refine sum_congr rfl fun i _ => ?_
    have : ∑ j ∈ range p, A i j * (c * β j) = c * ∑ j ∈ range p, A i j * β j := by
      rw [mul_sum]
      exact sum_congr rfl fun j _ => by ring
    rw [this]
    ring
  have hc2 : 0 < c ^ 2 := by positivity
  apply le_antisymm
  · have : w / c ^ 2 ≤ v := by
      refine hv.2 ?_
      rintro _ ⟨β, rfl⟩
      rw [div_le_iff₀ hc2, mul_comm]
      simp only
      rw [← key]
      exact hw.1 ⟨_, rfl⟩
    rw [div_le_iff₀ hc2] at this
    linarith
  · refine hw.2 ?_
    rintro _ ⟨β, rfl⟩
    have h1 := key fun j => β j / c
    have h2 : (fun j => c * (β j / c)) = β := by
      funext j; field_simp
    rw [h2] at h1
    simp only
    rw [h1]
    exact mul_le_mul_of_nonneg_left (hv.1 ⟨_, rfl⟩) hc2.le

end Spec
