import Mathlib.MeasureTheory.Integral.Marginal
import Mathlib.MeasureTheory.Measure.WithDensity
/-! # Product measures -/

set_option autoImplicit false

namespace Bartz
open MeasureTheory
open scoped ENNReal

section
variable {ι : Type} [Fintype ι] [DecidableEq ι] {X : ι → Type} [∀ i, MeasurableSpace (X i)]
  {μ : ∀ i, Measure (X i)} [∀ i, SigmaFinite (μ i)]

theorem lmarginal_prod {f : ∀ i, X i → ℝ≥0∞} (hf : ∀ i, Measurable (f i)) (s : Finset ι) :
    ∀ x, (∫⋯∫⁻_s, (fun x => ∏ i ∈ s, f i (x i)) ∂μ) x = ∏ i ∈ s, ∫⁻ y, f i y ∂μ i := by
  induction s using Finset.induction with
  | empty => intro x; simp
  | insert i s hi ih =>
    intro x
    have hm : Measurable fun x : ∀ i, X i => ∏ k ∈ insert i s, f k (x k) :=
      Finset.measurable_prod _ fun k _ => (hf k).comp (measurable_pi_apply k)
    rw [lmarginal_insert _ hm hi, Finset.prod_insert hi]
    have e : ∀ y : X i, (∫⋯∫⁻_s, (fun x => ∏ k ∈ insert i s, f k (x k)) ∂μ) (Function.update x i y) =
        f i y * ∏ k ∈ s, ∫⁻ y, f k y ∂μ k := by
      intro y
      rw [← ih (Function.update x i y)]
      unfold lmarginal
      rw [← lintegral_const_mul]
      · refine lintegral_congr fun z => ?_
        dsimp only
        rw [Finset.prod_insert hi]
        congr 2
        rw [Function.updateFinset_def]
        simp [hi]
      · refine Finset.measurable_prod _ fun k _ => (hf k).comp ?_
        exact (measurable_pi_apply k).comp measurable_updateFinset
    rw [lintegral_congr e, lintegral_mul_const _ (hf i)]

theorem lintegral_pi_prod {f : ∀ i, X i → ℝ≥0∞} (hf : ∀ i, Measurable (f i)) :
    ∫⁻ x, ∏ i, f i (x i) ∂Measure.pi μ = ∏ i, ∫⁻ y, f i y ∂μ i := by
  rcases isEmpty_or_nonempty (∀ i, X i) with h | ⟨⟨x⟩⟩
  · rw [lintegral_of_isEmpty]
    obtain ⟨i, hi⟩ := isEmpty_pi.1 h
    rw [Finset.prod_eq_zero (Finset.mem_univ i)]
    rw [lintegral_of_isEmpty]
  · rw [lintegral_eq_lmarginal_univ x, lmarginal_prod hf]

theorem pi_withDensity {f : ∀ i, X i → ℝ≥0∞} (hf : ∀ i, Measurable (f i))
    [∀ i, SigmaFinite ((μ i).withDensity (f i))] :
    (Measure.pi μ).withDensity (fun x => ∏ i, f i (x i)) =
      Measure.pi fun i => (μ i).withDensity (f i) := by
  symm
  apply Measure.pi_eq
  intro s hs
  have hS : MeasurableSet (Set.univ.pi s) := MeasurableSet.univ_pi hs
  rw [withDensity_apply _ hS, ← lintegral_indicator hS]
  have e : ∀ x : ∀ i, X i, (Set.univ.pi s).indicator (fun x => ∏ i, f i (x i)) x =
      ∏ i, (s i).indicator (f i) (x i) := by
    intro x
    by_cases h : x ∈ Set.univ.pi s
    · rw [Set.indicator_of_mem h]
      exact Finset.prod_congr rfl fun i _ => (Set.indicator_of_mem (h i (Set.mem_univ i)) _).symm
    · rw [Set.indicator_of_notMem h]
      rw [Set.mem_univ_pi] at h
      push Not at h
      obtain ⟨i, hi⟩ := h
      rw [Finset.prod_eq_zero (Finset.mem_univ i)]
      exact Set.indicator_of_notMem hi _
  rw [lintegral_congr e, lintegral_pi_prod fun i => (hf i).indicator (hs i)]
  refine Finset.prod_congr rfl fun i _ => ?_
  rw [lintegral_indicator (hs i), withDensity_apply _ (hs i)]

omit [∀ i, SigmaFinite (μ i)] in
theorem pi_smul {c : ι → ℝ≥0∞} {ν : ∀ i, Measure (X i)} [∀ i, IsFiniteMeasure (ν i)]
    (hc : ∀ i, c i ≠ ∞) : (Measure.pi fun i => c i • ν i) = (∏ i, c i) • Measure.pi ν := by
  have : ∀ i, IsFiniteMeasure (c i • ν i) := fun i => Measure.smul_finite _ (hc i)
  apply Measure.pi_eq
  intro s hs
  rw [Measure.smul_apply, Measure.pi_pi, smul_eq_mul, ← Finset.prod_mul_distrib]
  rfl

end

/-! ### Sweeps -/

section
variable {ι X D : Type} [Fintype ι] [DecidableEq ι] [MeasurableSpace X] [MeasurableSpace D]

/-- update in the given order, each time using the corresponding random element -/
def sweepL (u : X → ι → D → X) (l : List ι) (x : X) (d : ι → D) : X :=
  l.foldl (fun x i => u x i (d i)) x

/-- integrate one random element at a time -/
noncomputable def sweepK (u : X → ι → D → X) (μ : ι → Measure D) : List ι → (X → ℝ≥0∞) → X → ℝ≥0∞
  | [], f => f
  | i :: l, f => fun x => ∫⁻ d, sweepK u μ l f (u x i d) ∂μ i

variable {u : X → ι → D → X} {μ : ι → Measure D} [∀ i, SigmaFinite (μ i)]
  (hu : ∀ i, Measurable fun p : X × D => u p.1 i p.2) {f : X → ℝ≥0∞} (hf : Measurable f)
include hu

omit [Fintype ι] [∀ i, SigmaFinite (μ i)] [DecidableEq ι] in
theorem measurable_sweepL (l : List ι) : Measurable fun p : X × (ι → D) => sweepL u l p.1 p.2 := by
  induction l with
  | nil => exact measurable_fst
  | cons i l ih =>
    have : (fun p : X × (ι → D) => sweepL u (i :: l) p.1 p.2) =
        (fun p : X × (ι → D) => sweepL u l p.1 p.2) ∘ fun p => (u p.1 i (p.2 i), p.2) := rfl
    rw [this]
    refine ih.comp (Measurable.prodMk ?_ measurable_snd)
    exact (hu i).comp (measurable_fst.prodMk ((measurable_pi_apply i).comp measurable_snd))

include hf

omit [Fintype ι] [DecidableEq ι] in
theorem measurable_sweepK (l : List ι) : Measurable (sweepK u μ l f) := by
  induction l with
  | nil => exact hf
  | cons i l ih => exact Measurable.lintegral_prod_right (ih.comp (hu i))

omit [Fintype ι] in
theorem lmarginal_sweep {l : List ι} (hl : l.Nodup) :
    ∀ x d, (∫⋯∫⁻_l.toFinset, (fun d => f (sweepL u l x d)) ∂μ) d = sweepK u μ l f x := by
  induction l with
  | nil => intro x d; simp [sweepL, sweepK]
  | cons i l ih =>
    intro x d
    rw [List.nodup_cons] at hl
    have hi : i ∉ l.toFinset := by simpa using hl.1
    have hm : ∀ l x, Measurable fun d : ι → D => f (sweepL u l x d) := fun l x =>
      hf.comp ((measurable_sweepL hu l).comp (measurable_const.prodMk measurable_id))
    rw [List.toFinset_cons, lmarginal_insert _ (hm _ x) hi]
    show _ = ∫⁻ d, sweepK u μ l f (u x i d) ∂μ i
    refine lintegral_congr fun y => ?_
    rw [← ih hl.2 (u x i y) (Function.update d i y)]
    unfold lmarginal
    refine lintegral_congr fun z => ?_
    show f (sweepL u l (u x i (Function.updateFinset (Function.update d i y) l.toFinset z i)) _) = _
    congr 3
    rw [Function.updateFinset_def]
    simp [hl.1]

theorem lintegral_sweep {l : List ι} (hl : l.Nodup) (huniv : ∀ i, i ∈ l) (x : X) :
    ∫⁻ d, f (sweepL u l x d) ∂Measure.pi μ = sweepK u μ l f x := by
  have e : l.toFinset = Finset.univ := by ext i; simpa using huniv i
  rcases isEmpty_or_nonempty (ι → D) with h | ⟨⟨d⟩⟩
  · rw [lintegral_of_isEmpty]
    obtain ⟨i, hi⟩ := isEmpty_pi.1 h
    cases l with
    | nil => exact absurd (huniv i) (by simp)
    | cons k l =>
      show 0 = ∫⁻ d, _ ∂μ k
      rw [lintegral_of_isEmpty]
  · rw [lintegral_eq_lmarginal_univ d, ← e, lmarginal_sweep hu hf hl]

omit [Fintype ι] [DecidableEq ι] in
theorem sweepK_invariant {π : Measure X}
    (hinv : ∀ i (g : X → ℝ≥0∞), Measurable g → ∫⁻ x, ∫⁻ d, g (u x i d) ∂μ i ∂π = ∫⁻ x, g x ∂π)
    (l : List ι) : ∫⁻ x, sweepK u μ l f x ∂π = ∫⁻ x, f x ∂π := by
  induction l with
  | nil => rfl
  | cons i l ih =>
    rw [← ih]
    exact hinv i _ (measurable_sweepK hu hf l)

end
end Bartz
