import Verif.Lemmas.BartInvariant
/-! # The transition kernel of the Markov chain -/

set_option autoImplicit false

namespace Bartz
open Jax Spec MeasureTheory ProbabilityTheory
open scoped ENNReal

section
variable {a : InitArgs ℝ}

theorem usable_of (ha : ValidArgs a) (hp : ProperSettings a) : Usable a := by
  refine ⟨ha, hp.trees, fillOK ha hp.counts, ?_⟩
  rcases hp.rules with h | ⟨hc, h⟩
  · exact Or.inl h
  · refine Or.inr ⟨hc, ?_⟩
    have := ha.depth_pos
    show a.p_nonterminal.length - 1 < a.max_split.length
    omega

theorem stepDraws_prob (hα : 0 < a.sigma2_alpha) : IsProbabilityMeasure (stepDraws a) := by
  have hs : IsProbabilityMeasure (treeDraws (nodes a)) := by unfold treeDraws; infer_instance
  have hα' : 0 < a.sigma2_alpha + a.y.length / 2 := by positivity
  have hpr : IsProbabilityMeasure (gammaMeasure (a.sigma2_alpha + a.y.length / 2) 1) :=
    isProbabilityMeasure_gammaMeasure hα' one_pos
  unfold stepDraws
  infer_instance

instance (a : InitArgs ℝ) : SFinite (stepDraws a) := by
  have hs : IsProbabilityMeasure (treeDraws (nodes a)) := by unfold treeDraws; infer_instance
  unfold stepDraws gammaMeasure
  infer_instance

theorem measurableSet_unitCube : MeasurableSet unitCube :=
  MeasurableSet.univ_pi fun _ => measurableSet_Ico

theorem unif_ae : ∀ᵐ w ∂unifDist, w ∈ unitCube := by
  rw [unifDist_eq]
  exact ae_restrict_mem measurableSet_unitCube

theorem gamma_pos (α : ℝ) : ∀ᵐ g ∂gammaMeasure α 1, 0 < g := by
  unfold gammaMeasure
  rw [ae_withDensity_iff (f := gammaPDF α 1) (measurable_gammaPDFReal α 1).ennreal_ofReal]
  have h0 : ∀ᵐ x : ℝ, x ≠ 0 := by simp [ae_iff]
  filter_upwards [h0] with x hx h
  rcases lt_trichotomy x 0 with h1 | h1 | h1
  · exact absurd (gammaPDF_of_neg h1) h
  · exact absurd h1 hx
  · exact h1

/-- the random numbers are in the right range -/
def GoodDraws (o : StepDraws a.num_trees (nodes a)) : Prop :=
  (∀ t, (o.1 t).1 ∈ unitCube) ∧ 0 < o.2

theorem stepDraws_ae (a : InitArgs ℝ) : ∀ᵐ o ∂stepDraws a, GoodDraws o := by
  have hs : IsProbabilityMeasure (treeDraws (nodes a)) := by unfold treeDraws; infer_instance
  have hsf : SFinite (gammaMeasure (a.sigma2_alpha + a.y.length / 2) 1) := by
    unfold gammaMeasure; infer_instance
  have h1 : ∀ᵐ d ∂treeDraws (nodes a), d.1 ∈ unitCube := by
    unfold treeDraws
    exact Measure.quasiMeasurePreserving_fst.ae unif_ae
  have h2 : ∀ᵐ x ∂Measure.pi fun _ : Fin a.num_trees => treeDraws (nodes a),
      ∀ t, (x t).1 ∈ unitCube := by
    rw [ae_all_iff]
    intro t
    exact (Measure.quasiMeasurePreserving_eval (fun _ : Fin a.num_trees => treeDraws (nodes a)) t).ae h1
  have h3 : ∀ᵐ o ∂stepDraws a, ∀ t, (o.1 t).1 ∈ unitCube := by
    unfold stepDraws
    exact Measure.quasiMeasurePreserving_fst.ae h2
  have h4 : ∀ᵐ o ∂stepDraws a, 0 < o.2 := by
    unfold stepDraws
    exact Measure.quasiMeasurePreserving_snd.ae (gamma_pos _)
  filter_upwards [h3, h4] with o h h' using ⟨h, h'⟩

theorem joint_ne_zero (hu : Usable a) (hp : ∀ x ∈ a.p_nonterminal, x < 1)
    (hα : 0 < a.sigma2_alpha) (hβ : 0 < a.sigma2_beta) : jointDist a Set.univ ≠ 0 := by
  classical
  have h1 := lintegral_joint' (a := a) (f := fun _ => 1) measurable_const
  rw [lintegral_one] at h1
  rw [h1]
  have hm : Measurable fun x => ∫⁻ v, dataDensity a (x, v) * 1 ∂sigmaDist a := by
    simp only [mul_one]
    exact Measurable.lintegral_prod_right' (measurable_dataDensity a)
  have hne : ∀ x, ∫⁻ v, dataDensity a (x, v) * 1 ∂sigmaDist a ≠ 0 := by
    intro x
    obtain ⟨C, hC, _, h⟩ := sigma_integral (a := a) hα hβ (residList a x)
    have hα' : 0 < a.sigma2_alpha + (residList a x).length / 2 := by positivity
    have hpr : IsProbabilityMeasure (gammaMeasure (a.sigma2_alpha + (residList a x).length / 2) 1) :=
      isProbabilityMeasure_gammaMeasure hα' one_pos
    have h2 := h (fun _ => 1) measurable_const
    rw [lintegral_one, measure_univ, mul_one] at h2
    simp only [dataDensity_eq]
    rw [h2]; exact hC
  rw [Ne, lintegral_eq_zero_iff hm]
  intro h
  have hpi : (Measure.pi fun _ : Fin a.num_trees => treeDist a) Set.univ = 0 := by
    have : ∀ᵐ x ∂Measure.pi fun _ : Fin a.num_trees => treeDist a, False := by
      filter_upwards [h] with x hx
      exact hne x hx
    rwa [ae_iff, show {x : Fin a.num_trees → Tree (nodes a) | ¬ False} = Set.univ by simp] at this
  rw [Measure.pi_univ, Finset.prod_eq_zero_iff] at hpi
  obtain ⟨t, _, ht⟩ := hpi
  rw [treeDist_univ, ENNReal.tsum_eq_zero] at ht
  have hT := possible_of_inv hu (stateInv_init hu.valid) hu.trees
  have := ht (treeOf a (init a) 0).1
  rw [ruleW, if_pos hT, ENNReal.ofReal_eq_zero] at this
  exact absurd (possible_treePrior_pos hu hp hT) (not_lt.2 this)

theorem posterior_prob (hu : Usable a) (hp : ∀ x ∈ a.p_nonterminal, x < 1)
    (hα : 0 < a.sigma2_alpha) (hβ : 0 < a.sigma2_beta) : IsProbabilityMeasure (posterior a) := by
  constructor
  unfold posterior
  rw [Measure.smul_apply, smul_eq_mul]
  exact ENNReal.inv_mul_cancel (joint_ne_zero hu hp hα hβ) (joint_ne_top hα hβ)

seal stepFun in
theorem measurable_stepMeasure (a : InitArgs ℝ) :
    Measurable fun θ => (stepDraws a).map (stepFun a θ) := by
  have hf := measurable_stepFun a
  refine Measure.measurable_of_measurable_coe _ fun S hS => ?_
  have e : ∀ θ, (stepDraws a).map (stepFun a θ) S = stepDraws a (Prod.mk θ ⁻¹'
      ((fun p : Params a.num_trees (nodes a) × StepDraws a.num_trees (nodes a) =>
        stepFun a p.1 p.2) ⁻¹' S)) := by
    intro θ
    have h : Measurable (stepFun a θ) := by
      have h : Measurable fun o : StepDraws a.num_trees (nodes a) => (θ, o) := measurable_prodMk_left
      exact hf.comp h
    rw [Measure.map_apply h hS]
    rfl
  simp only [e]
  exact measurable_measure_prodMk_left (hf hS)

/-- the transition kernel of the Markov chain -/
noncomputable def stepKernel (a : InitArgs ℝ) :
    Kernel (Params a.num_trees (nodes a)) (Params a.num_trees (nodes a)) :=
  ⟨fun θ => (stepDraws a).map (stepFun a θ), measurable_stepMeasure a⟩

seal stepFun in
theorem measurable_stepFun_right (a : InitArgs ℝ) (θ : Params a.num_trees (nodes a)) :
    Measurable (stepFun a θ) := by
  have h : Measurable fun o : StepDraws a.num_trees (nodes a) => (θ, o) := measurable_prodMk_left
  exact (measurable_stepFun a).comp h

theorem stepKernel_apply (a : InitArgs ℝ) (θ : Params a.num_trees (nodes a)) :
    stepKernel a θ = (stepDraws a).map (stepFun a θ) := rfl

theorem stepKernel_markov (hα : 0 < a.sigma2_alpha) : IsMarkovKernel (stepKernel a) := by
  have := stepDraws_prob hα
  refine ⟨fun θ => ?_⟩
  rw [stepKernel_apply]
  exact Measure.isProbabilityMeasure_map (measurable_stepFun_right a θ).aemeasurable

theorem lintegral_stepKernel {g : Params a.num_trees (nodes a) → ℝ≥0∞} (hg : Measurable g)
    (θ : Params a.num_trees (nodes a)) :
    ∫⁻ θ', g θ' ∂stepKernel a θ = ∫⁻ o, g (stepFun a θ o) ∂stepDraws a := by
  rw [stepKernel_apply, lintegral_map hg (measurable_stepFun_right a θ)]

theorem stepKernel_invariant (hu : Usable a) (hp : ∀ x ∈ a.p_nonterminal, x < 1)
    (hα : 0 < a.sigma2_alpha) (hβ : 0 < a.sigma2_beta) : (stepKernel a).Invariant (posterior a) := by
  refine Measure.ext_of_lintegral _ fun g hg => ?_
  rw [Measure.lintegral_bind (stepKernel a).aemeasurable hg.aemeasurable]
  simp only [lintegral_stepKernel hg]
  unfold posterior
  rw [lintegral_smul_measure, lintegral_smul_measure, joint_step hu hp hα hβ hg]

/-! ### Support of the posterior distribution -/

theorem leafPrior_ae (a : InitArgs ℝ) (T : Rules) :
    ∀ᵐ z ∂leafPrior a T, ∀ i : Fin (nodes a), ¬ IsLeaf T.split i → z i = 0 := by
  classical
  have hpr : ∀ i : Fin (nodes a), IsProbabilityMeasure (if IsLeaf T.split i then
      gaussianReal 0 (1 / (a.num_trees : NNReal)) else Measure.dirac 0) := by
    intro i; split_ifs <;> infer_instance
  rw [ae_all_iff]
  intro i
  by_cases hl : IsLeaf T.split i
  · exact Filter.Eventually.of_forall fun z h => absurd hl h
  · have h : ∀ᵐ x ∂(if IsLeaf T.split i then gaussianReal 0 (1 / (a.num_trees : NNReal))
        else Measure.dirac 0), x = 0 := by
      rw [if_neg hl, ae_dirac_eq]
      rfl
    have h2 := (Measure.quasiMeasurePreserving_eval (fun i : Fin (nodes a) => if IsLeaf T.split i then
      gaussianReal 0 (1 / (a.num_trees : NNReal)) else Measure.dirac 0) i).ae h
    unfold leafPrior
    filter_upwards [h2] with z hz _ using hz

theorem treeDist_ae (a : InitArgs ℝ) : ∀ᵐ y ∂treeDist a, PossibleTree a y.1 ∧
    ∀ i : Fin (nodes a), ¬ IsLeaf y.1.split i → y.2 i = 0 := by
  classical
  have hset : MeasurableSet {y : Tree (nodes a) | PossibleTree a y.1 ∧
      ∀ i : Fin (nodes a), ¬ IsLeaf y.1.split i → y.2 i = 0} := by
    refine MeasurableSet.inter (measurable_fst (MeasurableSet.of_discrete (s := {T | PossibleTree a T}))) ?_
    have : {y : Tree (nodes a) | ∀ i : Fin (nodes a), ¬ IsLeaf y.1.split i → y.2 i = 0} =
        ⋂ i : Fin (nodes a), ({y | IsLeaf y.1.split i} ∪ {y | y.2 i = 0}) := by
      ext y
      simp only [Set.mem_iInter, Set.mem_union, Set.mem_ofPred_eq]
      exact forall_congr' fun i => by rw [or_iff_not_imp_left]
    change MeasurableSet {y : Tree (nodes a) | ∀ i : Fin (nodes a), ¬ IsLeaf y.1.split i → y.2 i = 0}
    rw [this]
    refine MeasurableSet.iInter fun i => MeasurableSet.union ?_ ?_
    · exact measurable_fst (MeasurableSet.of_discrete (s := {T : Rules | IsLeaf T.split i}))
    · exact ((measurable_pi_apply i).comp measurable_snd) (measurableSet_singleton 0)
  unfold treeDist
  rw [Measure.ae_sum_iff]
  intro T
  by_cases hT : PossibleTree a T
  · refine Measure.ae_smul_measure ?_ _
    rw [ae_map_iff measurable_prodMk_left.aemeasurable hset]
    filter_upwards [leafPrior_ae a T] with z hz using ⟨hT, hz⟩
  · rw [if_neg hT, zero_smul]
    simp

theorem posterior_ae (a : InitArgs ℝ) : ∀ᵐ θ ∂posterior a, PossibleParams a θ := by
  have h1 : ∀ᵐ θ ∂priorDist a, PossibleParams a θ := by
    unfold priorDist
    have h2 : ∀ᵐ x ∂Measure.pi fun _ : Fin a.num_trees => treeDist a, ∀ t, PossibleTree a (x t).1 ∧
        ∀ i : Fin (nodes a), ¬ IsLeaf (x t).1.split i → (x t).2 i = 0 := by
      rw [ae_all_iff]
      intro t
      exact (Measure.quasiMeasurePreserving_eval (fun _ : Fin a.num_trees => treeDist a) t).ae
        (treeDist_ae a)
    have h3 := (Measure.quasiMeasurePreserving_fst (μ := Measure.pi fun _ : Fin a.num_trees => treeDist a)
      (ν := sigmaDist a)).ae h2
    have h4 := (Measure.quasiMeasurePreserving_snd (μ := Measure.pi fun _ : Fin a.num_trees => treeDist a)
      (ν := sigmaDist a)).ae (sigma_pos a)
    filter_upwards [h3, h4] with θ hθ hs
    exact ⟨fun t => (hθ t).1, fun t => (hθ t).2, hs⟩
  have h2 : ∀ᵐ θ ∂jointDist a, PossibleParams a θ := withDensity_absolutelyContinuous _ _ h1
  exact Measure.ae_smul_measure h2 _

theorem possibleParams_of {s : State ℝ} (hc : Consistent a s) (hs : 0 < s.sigma2) :
    PossibleParams a (paramsOf a s) :=
  ⟨fun t => hc.possible t t.2, fun _ _ hl => if_neg hl, hs⟩

/-! ### Many steps -/

section
variable {K : Type} [KeyLike K] {s : State ℝ} {key : K}

theorem consistent_step (hu : Usable a) (hc : Consistent a s) {rng : Rng K ℝ} (hr : LawfulRng rng)
    (key : K) : Consistent a (step rng s key) := by
  obtain ⟨h1, h2⟩ := Consistent.inv hu hc
  exact consistent_of_inv hu (stateInv_step hu.valid h1 rng hr key)
    (residInv_step hu.valid h1 h2 rng hr key)

theorem stepFun_sigma_pos (hβ : 0 < a.sigma2_beta) (θ : Params a.num_trees (nodes a))
    {o : StepDraws a.num_trees (nodes a)} (ho : GoodDraws o) : 0 < (stepFun a θ o).2 := by
  unfold stepFun
  exact div_pos (by have := sumSq_nonneg (residList a (sweepL (updTree a θ.2)
    (List.finRange a.num_trees) θ.1 o.1)); positivity) ho.2

theorem chain_params (hu : Usable a) (hβ : 0 < a.sigma2_beta) (hc : Consistent a s) (hsig : 0 < s.sigma2)
    {n : Nat} {rng : (Fin n → StepDraws a.num_trees (nodes a)) → Rng K ℝ} (hr : RunSites a key n rng)
    {O : Fin n → StepDraws a.num_trees (nodes a)} (hO : ∀ i, GoodDraws (O i)) :
    ∀ i, i ≤ n → (Consistent a (chain (step (rng O)) s key i) ∧ 0 < (chain (step (rng O)) s key i).sigma2) ∧
      ∀ h : i < n, paramsOf a (chain (step (rng O)) s key (i + 1)) =
        stepFun a (paramsOf a (chain (step (rng O)) s key i)) (O ⟨i, h⟩) := by
  have hstep : ∀ i (h : i < n), Consistent a (chain (step (rng O)) s key i) →
      0 < (chain (step (rng O)) s key i).sigma2 →
      Consistent a (chain (step (rng O)) s key (i + 1)) ∧
      paramsOf a (chain (step (rng O)) s key (i + 1)) =
        stepFun a (paramsOf a (chain (step (rng O)) s key i)) (O ⟨i, h⟩) := by
    intro i h hci hsi
    have hsites := hr ⟨i, h⟩ O (fun k t _ => (hO k).1 t)
    have e : Function.update O ⟨i, h⟩ (O ⟨i, h⟩) = O := Function.update_eq_self _ _
    have h1 := step_params hu hci hsi hsites (o := O ⟨i, h⟩) (hO ⟨i, h⟩).1
    have hl := hsites.lawful (O ⟨i, h⟩) (hO ⟨i, h⟩).1
    rw [e] at h1 hl
    exact ⟨consistent_step hu hci hl _, h1⟩
  intro i
  induction i with
  | zero =>
    intro _
    exact ⟨⟨hc, hsig⟩, fun h => (hstep 0 h hc hsig).2⟩
  | succ i ih =>
    intro hi
    obtain ⟨⟨h1, h2⟩, h3⟩ := ih (by omega)
    have h4 := hstep i (by omega) h1 h2
    have h5 : 0 < (chain (step (rng O)) s key (i + 1)).sigma2 := by
      have : (chain (step (rng O)) s key (i + 1)).sigma2 =
        (paramsOf a (chain (step (rng O)) s key (i + 1))).2 := rfl
      rw [this, h4.2]
      exact stepFun_sigma_pos hβ _ (hO _)
    exact ⟨⟨h4.1, h5⟩, fun h => (hstep (i + 1) h h4.1 h5).2⟩

/-- iteration of the step -/
noncomputable def stepUpd (a : InitArgs ℝ) {n : Nat} (θ : Params a.num_trees (nodes a)) (_ : Fin n)
    (o : StepDraws a.num_trees (nodes a)) : Params a.num_trees (nodes a) := stepFun a θ o

theorem chain_sweep {n : Nat} {p : Nat → Params a.num_trees (nodes a)}
    {O : Fin n → StepDraws a.num_trees (nodes a)}
    (h : ∀ i (hi : i < n), p (i + 1) = stepFun a (p i) (O ⟨i, hi⟩)) :
    p n = sweepL (stepUpd a) (List.finRange n) (p 0) O := by
  have key : ∀ k, k ≤ n → ((List.finRange n).take k).foldl (fun x i => stepUpd a x i (O i)) (p 0) = p k := by
    intro k
    induction k with
    | zero => intro _; rfl
    | succ k ih =>
      intro hk
      rw [List.take_add_one, List.foldl_append, ih (by omega),
        List.getElem?_eq_getElem (by simpa using hk)]
      simp only [Option.toList, List.getElem_finRange, List.foldl_cons, List.foldl_nil, Fin.cast_mk]
      exact (h k hk).symm
  have := key n (le_refl n)
  rw [List.take_of_length_le (by simp)] at this
  exact this.symm

theorem sweepK_stepUpd {n : Nat} (l : List (Fin n)) {f : Params a.num_trees (nodes a) → ℝ≥0∞}
    (hf : Measurable f) (θ : Params a.num_trees (nodes a)) :
    sweepK (stepUpd a) (fun _ => stepDraws a) l f θ = ∫⁻ θ', f θ' ∂(stepKernel a ^ l.length) θ := by
  induction l generalizing θ with
  | nil =>
    rw [List.length_nil, pow_zero]
    show f θ = ∫⁻ θ', f θ' ∂Kernel.id θ
    rw [Kernel.id_apply, lintegral_dirac' _ hf]
  | cons i l ih =>
    show ∫⁻ o, sweepK (stepUpd a) (fun _ => stepDraws a) l f (stepFun a θ o) ∂stepDraws a = _
    have hm : Measurable fun θ => ∫⁻ θ', f θ' ∂(stepKernel a ^ l.length) θ := hf.lintegral_kernel
    simp only [ih]
    rw [← lintegral_stepKernel hm, List.length_cons, pow_succ]
    exact (Kernel.lintegral_comp _ _ _ hf).symm

theorem runDraws_ae (n : Nat) (hα : 0 < a.sigma2_alpha) :
    ∀ᵐ O ∂Measure.pi fun _ : Fin n => stepDraws a, ∀ i, GoodDraws (O i) := by
  have hpr := stepDraws_prob hα
  rw [ae_all_iff]
  intro i
  exact (Measure.quasiMeasurePreserving_eval (fun _ : Fin n => stepDraws a) i).ae (stepDraws_ae a)

theorem chain_ae (hu : Usable a) (hα : 0 < a.sigma2_alpha) (hβ : 0 < a.sigma2_beta)
    (hc : Consistent a s) (hsig : 0 < s.sigma2)
    {n : Nat} {rng : (Fin n → StepDraws a.num_trees (nodes a)) → Rng K ℝ} (hr : RunSites a key n rng) :
    (Measurable fun O : Fin n → StepDraws a.num_trees (nodes a) =>
      sweepL (stepUpd a) (List.finRange n) (paramsOf a s) O) ∧
    (fun O => paramsOf a (chain (step (rng O)) s key n)) =ᵐ[Measure.pi fun _ : Fin n =>
      stepDraws a] fun O => sweepL (stepUpd a) (List.finRange n) (paramsOf a s) O := by
  have hupd : ∀ i : Fin n, Measurable fun p : Params a.num_trees (nodes a) ×
      StepDraws a.num_trees (nodes a) => stepUpd a p.1 i p.2 := fun _ => measurable_stepFun a
  refine ⟨(measurable_sweepL hupd (List.finRange n)).comp measurable_prodMk_left, ?_⟩
  filter_upwards [runDraws_ae (a := a) n hα] with O hO
  exact chain_sweep (p := fun i => paramsOf a (chain (step (rng O)) s key i)) fun i hi =>
    (chain_params hu hβ hc hsig hr hO i (Nat.le_of_lt hi)).2 hi

/-- the distribution of the parameters after many steps -/
theorem chain_kernel (hu : Usable a) (hα : 0 < a.sigma2_alpha) (hβ : 0 < a.sigma2_beta)
    (hc : Consistent a s) (hsig : 0 < s.sigma2)
    {n : Nat} {rng : (Fin n → StepDraws a.num_trees (nodes a)) → Rng K ℝ} (hr : RunSites a key n rng) :
    (Measure.pi fun _ : Fin n => stepDraws a).map
      (fun O => paramsOf a (chain (step (rng O)) s key n)) = (stepKernel a ^ n) (paramsOf a s) := by
  have hpr := stepDraws_prob hα
  have hupd : ∀ i : Fin n, Measurable fun p : Params a.num_trees (nodes a) ×
      StepDraws a.num_trees (nodes a) => stepUpd a p.1 i p.2 := fun _ => measurable_stepFun a
  obtain ⟨hm, e⟩ := chain_ae hu hα hβ hc hsig hr
  rw [Measure.map_congr e]
  refine Measure.ext_of_lintegral _ fun g hg => ?_
  rw [lintegral_map hg hm, lintegral_sweep hupd hg (List.nodup_finRange n) List.mem_finRange,
    sweepK_stepUpd _ hg, List.length_finRange]

/-- probability of an event after many steps -/
theorem chain_prob (hu : Usable a) (hα : 0 < a.sigma2_alpha) (hβ : 0 < a.sigma2_beta)
    (hc : Consistent a s) (hsig : 0 < s.sigma2)
    {n : Nat} {rng : (Fin n → StepDraws a.num_trees (nodes a)) → Rng K ℝ} (hr : RunSites a key n rng)
    {A : Set (Params a.num_trees (nodes a))} (hA : MeasurableSet A) :
    (Measure.pi fun _ => stepDraws a) {O | paramsOf a (chain (step (rng O)) s key n) ∈ A} =
      (stepKernel a ^ n) (paramsOf a s) A := by
  obtain ⟨hm, e⟩ := chain_ae hu hα hβ hc hsig hr
  rw [← chain_kernel hu hα hβ hc hsig hr,
    Measure.map_apply_of_aemeasurable ⟨_, hm, e⟩ hA]
  rfl

end
end
end Bartz
