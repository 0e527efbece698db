import Mathlib.Probability.Kernel.Invariance
import Mathlib.MeasureTheory.Measure.Decomposition.Hahn
import Mathlib.MeasureTheory.Measure.Sub
/-! # Irreducible Markov kernels have at most one invariant probability measure -/

set_option autoImplicit false

namespace Bartz
open MeasureTheory ProbabilityTheory
open scoped ENNReal

section
variable {X : Type} [MeasurableSpace X]

theorem measure_eq_of_le_of_univ {μ ν : Measure X} [IsFiniteMeasure ν] (h : μ ≤ ν)
    (hu : μ Set.univ = ν Set.univ) : μ = ν := by
  refine Measure.ext fun A hA => le_antisymm (h A) ?_
  have h1 := measure_add_measure_compl (μ := μ) hA
  have h2 := measure_add_measure_compl (μ := ν) hA
  by_contra hlt
  push Not at hlt
  have h3 : μ Set.univ < ν Set.univ := by
    rw [← h1, ← h2]
    exact ENNReal.add_lt_add_of_lt_of_le (ne_top_of_le_ne_top (measure_ne_top ν _) (h Aᶜ)) hlt (h _)
  exact h3.ne hu

theorem bind_univ {κ : Kernel X X} [IsMarkovKernel κ] (μ : Measure X) :
    μ.bind κ Set.univ = μ Set.univ := by
  rw [Measure.bind_apply MeasurableSet.univ κ.aemeasurable]
  simp

theorem invariant_pow {κ : Kernel X X} {μ : Measure X} (h : κ.Invariant μ) (n : Nat) :
    (κ ^ n).Invariant μ := by
  induction n with
  | zero => rw [pow_zero]; exact Measure.bind_dirac
  | succ n ih => rw [pow_succ]; exact ih.comp h

/-- absolute continuity with respect to an invariant distribution is preserved -/
theorem absCont_pow {X : Type} [MeasurableSpace X] {κ : Kernel X X} {π : Measure X} (hπ : κ.Invariant π)
    {x : X} (h : κ x ≪ π) (n : Nat) : (κ ^ (n + 1)) x ≪ π := by
  have hn : ∀ n, (κ ^ n).Invariant π := invariant_pow hπ
  refine Measure.AbsolutelyContinuous.mk fun A hA h0 => ?_
  have h1 : ∀ᵐ y ∂π, (κ ^ n) y A = 0 := by
    have h2 : ∫⁻ y, (κ ^ n) y A ∂π = 0 := by
      rw [← Measure.bind_apply hA (Kernel.aemeasurable _), (hn n).def, h0]
    exact (lintegral_eq_zero_iff (Kernel.measurable_coe _ hA)).1 h2
  rw [pow_succ]
  show ((κ ^ n) ∘ₖ κ) x A = 0
  rw [Kernel.comp_apply' _ _ _ hA]
  exact (lintegral_eq_zero_iff (Kernel.measurable_coe _ hA)).2 (h.ae_le h1)

/-- the part of an invariant measure in excess of another one is invariant -/
theorem invariant_of_excess {κ : Kernel X X} [IsMarkovKernel κ] {m1 m2 : Measure X} [IsFiniteMeasure m1]
    {H : Set X} (hH : MeasurableSet H) (h1 : m1 Hᶜ = 0) (h2 : m2 H = 0)
    (h : m1.bind κ + m2 = m1 + m2.bind κ) : κ.Invariant m1 := by
  have hle : m1 ≤ m1.bind κ := by
    refine Measure.le_iff.2 fun A hA => ?_
    have e := congrArg (fun μ => μ (A ∩ H)) h
    simp only [Measure.add_apply] at e
    have z : m2 (A ∩ H) = 0 := measure_mono_null Set.inter_subset_right h2
    rw [z, add_zero] at e
    calc m1 A ≤ m1 (A ∩ H) + m1 Hᶜ := by
          refine (measure_mono ?_).trans (measure_union_le _ _)
          intro x hx
          by_cases hxH : x ∈ H
          · exact Or.inl ⟨hx, hxH⟩
          · exact Or.inr hxH
      _ = m1 (A ∩ H) := by rw [h1, add_zero]
      _ ≤ m1.bind κ (A ∩ H) := by rw [e]; exact le_self_add
      _ ≤ m1.bind κ A := measure_mono Set.inter_subset_left
  have hfin : IsFiniteMeasure (m1.bind κ) := ⟨by rw [bind_univ]; exact measure_lt_top _ _⟩
  exact (measure_eq_of_le_of_univ hle (bind_univ m1).symm).symm

theorem unique_invariant {κ : Kernel X X} [IsMarkovKernel κ] {μ π : Measure X} [IsProbabilityMeasure μ]
    [IsProbabilityMeasure π] (hμ : κ.Invariant μ) (hπ : κ.Invariant π)
    (hirr : ∀ A, MeasurableSet A → π A ≠ 0 → ∀ᵐ x ∂μ, ∃ n, (κ ^ n) x A ≠ 0) : μ = π := by
  obtain ⟨H, hH⟩ := exists_isHahnDecomposition π μ
  have hHm := hH.measurableSet
  set m1 := μ.restrict H - π.restrict H with hm1
  set m2 := π.restrict Hᶜ - μ.restrict Hᶜ with hm2
  have e1 : m1 + π.restrict H = μ.restrict H := Measure.sub_add_cancel_of_le hH.le_on
  have e2 : m2 + μ.restrict Hᶜ = π.restrict Hᶜ := Measure.sub_add_cancel_of_le hH.ge_on_compl
  have l1 : m1 ≤ μ.restrict H := Measure.sub_le
  have l2 : m2 ≤ π.restrict Hᶜ := Measure.sub_le
  have f1 : IsFiniteMeasure m1 := ⟨lt_of_le_of_lt (l1 _) (measure_lt_top _ _)⟩
  have f2 : IsFiniteMeasure m2 := ⟨lt_of_le_of_lt (l2 _) (measure_lt_top _ _)⟩
  have n1 : m1 Hᶜ = 0 := nonpos_iff_eq_zero.1 ((l1 _).trans (by
    rw [Measure.restrict_apply hHm.compl]; simp))
  have n2 : m2 H = 0 := nonpos_iff_eq_zero.1 ((l2 _).trans (by
    rw [Measure.restrict_apply hHm]; simp))
  have key : μ + m2 = m1 + π := by
    have r1 := Measure.restrict_add_restrict_compl (μ := μ) hHm
    have r2 := Measure.restrict_add_restrict_compl (μ := π) hHm
    calc μ + m2 = μ.restrict H + μ.restrict Hᶜ + m2 := by rw [r1]
      _ = m1 + π.restrict H + (m2 + μ.restrict Hᶜ) := by rw [e1]; abel
      _ = m1 + (π.restrict H + π.restrict Hᶜ) := by rw [e2]; abel
      _ = m1 + π := by rw [r2]
  have hb : μ + m2.bind κ = m1.bind κ + π := by
    have := congrArg (fun ν => ν.bind κ) key
    simp only [Measure.comp_add] at this
    rwa [hμ.def, hπ.def] at this
  have hc : m1.bind κ + m2 = m1 + m2.bind κ := by
    have h3 : (m1.bind κ + m2) + π = (m1 + m2.bind κ) + π := by
      calc (m1.bind κ + m2) + π = (m1.bind κ + π) + m2 := by abel
        _ = (μ + m2) + m2.bind κ := by rw [← hb]; abel
        _ = _ := by rw [key]; abel
    refine Measure.ext fun A _ => ?_
    have := congrArg (fun ν => ν A) h3
    simp only [Measure.add_apply] at this ⊢
    exact (ENNReal.add_left_inj (measure_ne_top π A)).1 this
  have i1 := invariant_of_excess hHm n1 n2 hc
  have fin : ∀ {p q r : ℝ≥0∞}, q ≠ ∞ → q = p + q → p = 0 := by
    intro p q r hq h
    have : 0 + q = p + q := by rw [zero_add]; exact h
    exact ((ENNReal.add_left_inj hq).1 this).symm
  by_cases hz : π Hᶜ = 0
  · have m20 : m2 = 0 := by
      rw [← Measure.measure_univ_eq_zero]
      refine nonpos_iff_eq_zero.1 ((l2 _).trans ?_)
      rw [Measure.restrict_apply_univ, hz]
    rw [m20, add_zero] at key
    have m10 : m1 Set.univ = 0 := by
      have := congrArg (fun ν => ν Set.univ) key
      simp only [Measure.add_apply, measure_univ] at this
      exact fin (r := 0) ENNReal.one_ne_top this
    rw [Measure.measure_univ_eq_zero] at m10
    rw [key, m10, zero_add]
  · have m10 : m1 = 0 := by
      have h1 : ∀ᵐ x ∂m1, ∃ n, (κ ^ n) x Hᶜ ≠ 0 :=
        ((Measure.absolutelyContinuous_of_le l1).trans Measure.restrict_le_self.absolutelyContinuous)
          (hirr Hᶜ hHm.compl hz)
      have h2 : ∀ᵐ x ∂m1, ∀ n, (κ ^ n) x Hᶜ = 0 := by
        rw [ae_all_iff]
        intro n
        have h3 := (invariant_pow i1 n).def
        have h4 : m1.bind (κ ^ n) Hᶜ = 0 := by rw [h3]; exact n1
        rw [Measure.bind_apply hHm.compl (κ ^ n).aemeasurable,
          lintegral_eq_zero_iff ((κ ^ n).measurable_coe hHm.compl)] at h4
        exact h4
      have h3 : ∀ᵐ x ∂m1, False := by
        filter_upwards [h1, h2] with x ⟨n, hn⟩ h
        exact hn (h n)
      simpa using h3
    rw [m10, zero_add] at key
    have m20 : m2 Set.univ = 0 := by
      have := congrArg (fun ν => ν Set.univ) key
      simp only [Measure.add_apply, measure_univ] at this
      rw [add_comm] at this
      exact fin (r := 0) ENNReal.one_ne_top this.symm
    rw [Measure.measure_univ_eq_zero] at m20
    rw [← key, m20, add_zero]

end
end Bartz
