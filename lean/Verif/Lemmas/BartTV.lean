import Verif.Lemmas.TotalVariation
import Verif.Lemmas.BartEndless
/-! # Convergence in total variation of the Markov chain -/

set_option autoImplicit false

namespace Bartz
open Jax Spec MeasureTheory ProbabilityTheory Filter Topology
open scoped ENNReal

instance : Countable Rules :=
  Function.Injective.countable (f := fun r : Rules => (r.var, r.split)) fun r r' h => by
    cases r; cases r'; simpa using h

instance : DiscreteMeasurableSpace Rules := ⟨fun _ => trivial⟩

section
variable {a : InitArgs ℝ} {C : Fin a.num_trees → Rules}

theorem sweepPut_zero {f : Params a.num_trees (nodes a) → ℝ≥0∞} :
    ∀ (l : List (Fin a.num_trees)) (θ : Params a.num_trees (nodes a)),
      (∀ t, t ∉ l → (θ.1 t).1 = C t) →
      (∀ θ' : Params a.num_trees (nodes a), (∀ t, (θ'.1 t).1 = C t) → f θ' = 0) →
      sweepK (putT C) (fun s => leafPrior a (C s)) l f θ = 0 := by
  intro l
  induction l with
  | nil => intro θ hθ h; exact h θ fun t => hθ t (by simp)
  | cons s l ih =>
    intro θ hθ h
    show ∫⁻ L, sweepK (putT C) (fun s => leafPrior a (C s)) l f (putT C θ s L) ∂leafPrior a (C s) = 0
    rw [lintegral_congr fun L => ih (putT C θ s L) (fun t ht => ?_) h, lintegral_zero]
    by_cases hts : t = s
    · subst hts; simp [putT]
    · simp only [putT, Function.update_of_ne hts]
      exact hθ t (by simp [hts, ht])

/-- a set of parameters with the given decision rules charges no other configuration -/
theorem charge_config {C' : Fin a.num_trees → Rules} {A : Set (Params a.num_trees (nodes a))}
    (hA : A ⊆ {θ | ∀ t, (θ.1 t).1 = C t}) (h : Charge a C' (A.indicator 1)) : C' = C := by
  by_contra hne
  refine h (fun t => (C' t, 0), 0) (sweepPut_zero _ _ (fun t ht => absurd (List.mem_finRange t) ht) fun θ hθ => ?_)
  unfold sigI
  rw [lintegral_congr fun v => Set.indicator_of_notMem (s := A) (f := 1) (a := (θ.1, v)) fun hv => hne ?_,
    lintegral_zero]
  funext t
  rw [← hθ t]
  exact hA hv t

/-- the distribution of the chain converges to the posterior distribution -/
theorem step_tv (hu : Usable a) (hp : ∀ x ∈ a.p_nonterminal, x < 1) (hα : 0 < a.sigma2_alpha)
    (hβ : 0 < a.sigma2_beta) (hm : ∃ m, 1 ≤ m ∧ a.min_points_per_leaf = some m)
    {θ : Params a.num_trees (nodes a)} (hθ : PossibleParams a θ) : ∃ e : Nat → ℝ, Tendsto e atTop (𝓝 0) ∧
      ∀ n A, MeasurableSet A → |((stepKernel a ^ n) θ).real A - (posterior a).real A| ≤ e n := by
  have hpr := posterior_prob hu hp hα hβ
  have hmk := stepKernel_markov (a := a) hα
  obtain ⟨hC, hC0⟩ := posterior_config hu hp hα hβ (C := fun _ => rootT a) fun _ => root_possible a
  refine tv_tendsto (stepKernel_invariant hu hp hα hβ) (posterior_ae a) (fun θ hθ => step_abs hu hp hα hβ hθ)
    (fun θ hθ A hA h0 => eventually_pos hu hp hα hβ hm hθ hA h0) hC hC0 (fun θ hθ => ?_) hθ
  obtain ⟨N, hN⟩ := eventually_conn hu hp hα hβ hm (C := fun t => (θ.1 t).1) (C' := fun _ => rootT a)
    (PossibleParams.tree hθ) fun _ => root_possible a
  refine ⟨N, fun n hn A hA hsub h0 => ?_⟩
  have hg : Measurable (A.indicator (1 : Params a.num_trees (nodes a) → ℝ≥0∞)) := measurable_one.indicator hA
  rw [← lintegral_indicator_one hA] at h0 ⊢
  obtain ⟨C', hC', hch⟩ := exists_charge hg h0
  rw [charge_config hsub hch] at hch
  exact hN n hn θ hθ (fun _ => rfl) _ hg hch

end

section
variable {K : Type} [KeyLike K] {a : InitArgs ℝ} {s : State ℝ} {key : K}

/-- the distribution of the state at any iteration of an endless run -/
theorem endless_prob (hu : Usable a) (hα : 0 < a.sigma2_alpha) (hβ : 0 < a.sigma2_beta)
    (hc : Consistent a s) (hsig : 0 < s.sigma2) [IsProbabilityMeasure (stepDraws a)]
    {rng : (Nat → StepDraws a.num_trees (nodes a)) → Rng K ℝ} (hr : EndlessSites a key rng)
    {A : Set (Params a.num_trees (nodes a))} (hA : MeasurableSet A) (i : Nat) :
    endlessDraws a {O | paramsOf a (chain (step (rng O)) s key i) ∈ A} =
      (stepKernel a ^ i) (paramsOf a s) A := by
  have hmk := stepKernel_markov (a := a) hα
  have hmeas : Measurable fun O : Nat → StepDraws a.num_trees (nodes a) =>
      ((shift (stepFun a))^[i] (paramsOf a s, O)).1 :=
    measurable_fst.comp (((measurable_shift (measurable_stepFun a)).iterate i).comp measurable_prodMk_left)
  have e : {O | paramsOf a (chain (step (rng O)) s key i) ∈ A} =ᵐ[endlessDraws a]
      {O | ((shift (stepFun a))^[i] (paramsOf a s, O)).1 ∈ A} := by
    filter_upwards [endless_ae (a := a)] with O hO
    have hstep := fun i => (endless_params hu hβ hc hsig hr hO i).2
    have hit := shift_iterate (u := stepFun a) (p := fun i => paramsOf a (chain (step (rng O)) s key i))
      (o := O) hstep i
    have h0 : paramsOf a (chain (step (rng O)) s key 0) = paramsOf a s := rfl
    simp only [h0] at hit
    refine eq_iff_iff.2 ?_
    show paramsOf a (chain (step (rng O)) s key i) ∈ A ↔ ((shift (stepFun a))^[i] (paramsOf a s, O)).1 ∈ A
    rw [hit]
  rw [measure_congr e]
  have h := lintegral_shift_pow (u := stepFun a) (ν := stepDraws a) (κ := stepKernel a) (measurable_stepFun a)
    (stepKernel_apply a) (h := fun p => A.indicator 1 p.1)
    ((measurable_one.indicator hA).comp measurable_fst) i (paramsOf a s)
  have e1 : ∫⁻ o, A.indicator 1 ((shift (stepFun a))^[i] (paramsOf a s, o)).1 ∂seqM (stepDraws a) =
      endlessDraws a {O | ((shift (stepFun a))^[i] (paramsOf a s, O)).1 ∈ A} :=
    lintegral_indicator_one (hmeas hA)
  rw [← e1, h]
  simp only [lintegral_const, measure_univ, mul_one]
  exact lintegral_indicator_one hA

end
end Bartz
