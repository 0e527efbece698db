import Verif.Lemmas.BartConn
/-! # The distribution after a step is absolutely continuous with respect to the posterior distribution -/

set_option autoImplicit false

namespace Bartz
open Jax Spec MeasureTheory ProbabilityTheory
open scoped ENNReal

section
variable {a : InitArgs ℝ} {g h : Params a.num_trees (nodes a) → ℝ≥0∞} {θ : Params a.num_trees (nodes a)}
  {T T' : Rules} {R : Nat → ℝ} {v : ℝ}

theorem possible_of_trans (hT : PossibleTree a T) (h : trans a R v T T' ≠ 0) : PossibleTree a T' := by
  by_cases hne : T' = T
  · rw [hne]; exact hT
  by_contra hP
  apply h
  have e : newRules a R v T ⁻¹' {T'} = ∅ := by
    ext w
    simp only [Set.mem_preimage, Set.mem_singleton_iff, Set.mem_empty_iff_false, iff_false]
    exact fun hw => hP ((newRules_eq_iff hT hne).1 hw).1
  show unifDist (newRules a R v T ⁻¹' {T'}) = 0
  rw [e, measure_empty]

theorem sigI_ne_zero (hα : 0 < a.sigma2_alpha) (hβ : 0 < a.sigma2_beta) (hg : Measurable g)
    (h : sigK a g θ ≠ 0) : sigI a g θ ≠ 0 := by
  obtain ⟨C, hC0, _, hC⟩ := sigma_integral (a := a) hα hβ (residList a θ.1)
  have h1 := hC (fun v => g (θ.1, v)) (hg.comp measurable_prodMk_left)
  rw [residList_length] at h1
  have h2 : ∫⁻ v, ENNReal.ofReal ((residList a θ.1).map fun e => normalPdf 0 v e).prod * g (θ.1, v)
      ∂sigmaDist a ≠ 0 := by
    rw [h1]; exact mul_ne_zero hC0 h
  refine lintegral_ne_zero_of_imp (hg.comp measurable_prodMk_left) ?_ h2
  exact Filter.Eventually.of_forall fun v hv => right_ne_zero_of_mul hv

theorem sweep_abs (hu : Usable a) (hp : ∀ x ∈ a.p_nonterminal, x < 1) (hg : Measurable g) (hh : Measurable h)
    (hgh : ∀ θ, g θ ≠ 0 → h θ ≠ 0) (l : List (Fin a.num_trees)) :
    ∀ θ, PossibleParams a θ → sweepK (updParams a) (fun _ => treeDraws (nodes a)) l g θ ≠ 0 →
      sweepK (setT (a := a)) (fun _ => treeDist a) l h θ ≠ 0 := by
  induction l with
  | nil => intro θ _ hne; exact hgh θ hne
  | cons s l ih =>
    intro θ hθ hne
    set f := sweepK (updParams a) (fun _ => treeDraws (nodes a)) l g with hf
    have hfm : Measurable f := measurable_sweepUpd hg l
    have hm : Measurable (sweepK (setT (a := a)) (fun _ => treeDist a) l h) :=
      measurable_sweepK measurable_setT hh l
    have hm1 : Measurable fun y => sweepK (setT (a := a)) (fun _ => treeDist a) l h (setT θ s y) :=
      hm.comp ((measurable_setT s).comp measurable_prodMk_left)
    have hG : Measurable fun y : Tree (nodes a) => f (Function.update θ.1 s y, θ.2) :=
      hfm.comp ((measurable_update θ.1).prodMk measurable_const)
    have e := lintegral_treeDraws (R := others a θ.1 s) (v := θ.2) hG (θ.1 s).1
    have e' : ∀ d, f (updParams a θ s d) = (fun y : Tree (nodes a) => f (Function.update θ.1 s y, θ.2))
      (newTree a (others a θ.1 s) θ.2 (θ.1 s).1 d) := fun _ => rfl
    change ∫⁻ d, f (updParams a θ s d) ∂treeDraws (nodes a) ≠ 0 at hne
    rw [lintegral_congr e', e, Ne, ENNReal.tsum_eq_zero] at hne
    push Not at hne
    obtain ⟨T', hT'⟩ := hne
    have hP := possible_of_trans (hθ.tree s) (right_ne_zero_of_mul hT')
    have h1 := left_ne_zero_of_mul hT'
    show ∫⁻ y, sweepK (setT (a := a)) (fun _ => treeDist a) l h (setT θ s y) ∂treeDist a ≠ 0
    rw [lintegral_treeDist hm1, Ne, ENNReal.tsum_eq_zero]
    push Not
    refine ⟨T', mul_ne_zero (ruleW_ne_zero hu hp hP) ?_⟩
    have hG' : Measurable fun z => f (Function.update θ.1 s (T', z), θ.2) := hG.comp measurable_prodMk_left
    have h2 := leaf_integral (R := others a θ.1 s) hu hθ.sigma2 hP hG'
    have h3 : ∫⁻ z, treeLik a (others a θ.1 s) θ.2 (T', z) * f (Function.update θ.1 s (T', z), θ.2)
        ∂leafPrior a T' ≠ 0 := by
      rw [h2]
      refine mul_ne_zero ?_ h1
      simp only [ne_eq, ENNReal.ofReal_eq_zero, not_le]
      exact lik_pos hu.trees hθ.sigma2 _ _
    refine lintegral_ne_zero_of_imp (hm1.comp measurable_prodMk_left) ?_ h3
    filter_upwards [leafPrior_ae a T'] with L hL hne
    exact ih _ (possible_putT (C := fun _ => T') (s := s) hθ hP hL) (right_ne_zero_of_mul hne)

/-- the sets that may be reached in one step have positive posterior probability -/
theorem step_abs (hu : Usable a) (hp : ∀ x ∈ a.p_nonterminal, x < 1) (hα : 0 < a.sigma2_alpha)
    (hβ : 0 < a.sigma2_beta) (hθ : PossibleParams a θ) : stepKernel a θ ≪ posterior a := by
  refine Measure.AbsolutelyContinuous.mk fun A hA h0 => ?_
  by_contra hne
  have hg : Measurable (A.indicator (1 : Params a.num_trees (nodes a) → ℝ≥0∞)) := measurable_one.indicator hA
  rw [← lintegral_indicator_one hA, lintegral_step hα hg] at hne
  refine posterior_of_set hα hβ hg (sweep_abs hu hp (measurable_sigK hα hg) (measurable_sigI hg)
    (fun θ h => sigI_ne_zero hα hβ hg h) _ θ hθ hne) ?_
  rw [lintegral_indicator_one hA, h0]

end
end Bartz
