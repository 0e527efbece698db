import Verif.Spec.Standard
import Verif.Props.Irreducible
/-! # Posterior distribution with an arbitrary prior on the decision rules -/

set_option autoImplicit false

namespace Bartz
open Jax Spec MeasureTheory ProbabilityTheory
open scoped ENNReal

section
variable {a : InitArgs ℝ} {w w' : Rules → ℝ≥0∞}

/-- a priori distribution of a tree, given the a priori probability of the rules -/
noncomputable def weighted (a : InitArgs ℝ) (w : Rules → ℝ≥0∞) : Measure (Tree (nodes a)) :=
  Measure.sum fun T : Rules => w T • (leafPrior a T).map (Prod.mk T)

/-- joint distribution of data and parameters -/
noncomputable def weightedJoint (a : InitArgs ℝ) (w : Rules → ℝ≥0∞) : Measure (Params a.num_trees (nodes a)) :=
  ((Measure.pi fun _ => weighted a w).prod (sigmaDist a)).withDensity (dataDensity a)

/-- the probability is finite, and zero if the tree is impossible -/
structure GoodWeight (a : InitArgs ℝ) (w : Rules → ℝ≥0∞) : Prop where
  top : ∀ T, w T ≠ ∞
  zero : ∀ T, ¬ PossibleTree a T → w T = 0

theorem joint_weighted (a : InitArgs ℝ) : jointDist a = weightedJoint a (ruleW a) := rfl

theorem goodWeight_ruleW (a : InitArgs ℝ) : GoodWeight a (ruleW a) := by
  classical
  refine ⟨fun T => ?_, fun T hT => ?_⟩
  · unfold ruleW
    split_ifs <;> simp
  · unfold ruleW
    rw [if_neg hT]

theorem lintegral_weighted {f : Tree (nodes a) → ℝ≥0∞} (hf : Measurable f) :
    ∫⁻ y, f y ∂weighted a w = ∑' T, w T * ∫⁻ z, f (T, z) ∂leafPrior a T := by
  unfold weighted
  rw [lintegral_sum_measure]
  congr 1
  funext T
  rw [lintegral_smul_measure, lintegral_map hf measurable_prodMk_left]
  rfl

theorem weighted_finite (hw : GoodWeight a w) : IsFiniteMeasure (weighted a w) := by
  classical
  constructor
  have h := lintegral_weighted (a := a) (w := w) (f := fun _ => 1) measurable_const
  simp only [lintegral_one, measure_univ, mul_one] at h
  rw [h, tsum_eq_sum (s := (finite_possible a).toFinset)]
  · rw [ENNReal.sum_lt_top]
    exact fun T _ => (hw.top T).lt_top
  · intro T hT
    exact hw.zero T (by simpa using hT)

theorem pi_smul_const {ι α : Type} [Fintype ι] [MeasurableSpace α] (ν : Measure α) [IsFiniteMeasure ν] {c : ℝ≥0∞}
    (hc : c ≠ ∞) : (Measure.pi fun _ : ι => c • ν) = c ^ Fintype.card ι • Measure.pi fun _ : ι => ν := by
  have : IsFiniteMeasure (c • ν) := ν.smul_finite hc
  refine Measure.pi_eq fun s hs => ?_
  rw [Measure.smul_apply, Measure.pi_pi]
  simp only [Measure.smul_apply, smul_eq_mul, Finset.prod_mul_distrib, Finset.prod_const, Finset.card_univ]

/-- the trees that have given decision rules -/
def withRules (a : InitArgs ℝ) (T : Rules) : Set (Tree (nodes a)) := Prod.fst ⁻¹' {T}

theorem measurableSet_withRules (a : InitArgs ℝ) (T : Rules) : MeasurableSet (withRules a T) :=
  measurable_fst (measurableSet_singleton T)

theorem weighted_restrict (w : Rules → ℝ≥0∞) (T : Rules) :
    (weighted a w).restrict (withRules a T) = w T • (leafPrior a T).map (Prod.mk T) := by
  refine Measure.ext_of_lintegral _ fun f hf => ?_
  rw [← lintegral_indicator (measurableSet_withRules a T), lintegral_weighted (hf.indicator (measurableSet_withRules a T)),
    lintegral_smul_measure, lintegral_map hf measurable_prodMk_left, tsum_eq_single T]
  · congr 1
    refine lintegral_congr fun z => Set.indicator_of_mem (show (T, z) ∈ withRules a T from rfl) f
  · intro T' hT'
    have : ∀ z, (withRules a T).indicator f (T', z) = 0 := fun z =>
      Set.indicator_of_notMem (show (T', z) ∉ withRules a T from hT') f
    simp [this]

/-- all the trees have given decision rules -/
def allRules (a : InitArgs ℝ) (T : Rules) : Set (Params a.num_trees (nodes a)) :=
  (Set.univ.pi fun _ => withRules a T) ×ˢ Set.univ

/-- the factor of the joint probability which does not depend on the prior of the decision rules -/
noncomputable def dataWeight (a : InitArgs ℝ) (T : Rules) : ℝ≥0∞ :=
  ∫⁻ θ, dataDensity a θ ∂((Measure.pi fun _ : Fin a.num_trees => (leafPrior a T).map (Prod.mk T)).prod (sigmaDist a))

theorem measurableSet_allRules (a : InitArgs ℝ) (T : Rules) : MeasurableSet (allRules a T) :=
  (MeasurableSet.univ_pi fun _ => measurableSet_withRules a T).prod MeasurableSet.univ

theorem joint_config (hw : GoodWeight a w) (T : Rules) :
    weightedJoint a w (allRules a T) = w T ^ a.num_trees * dataWeight a T := by
  have := weighted_finite hw
  unfold weightedJoint
  rw [withDensity_apply _ (measurableSet_allRules a T)]
  unfold allRules
  rw [← Measure.prod_restrict, Measure.restrict_pi_pi, Measure.restrict_univ]
  simp only [weighted_restrict]
  have : IsProbabilityMeasure ((leafPrior a T).map (Prod.mk T)) :=
    Measure.isProbabilityMeasure_map measurable_prodMk_left.aemeasurable
  rw [pi_smul_const _ (hw.top T), Fintype.card_fin, Measure.prod_smul_left, lintegral_smul_measure]
  rfl

theorem allRules_eq (a : InitArgs ℝ) (T : Rules) : allRules a T = {θ | ∀ t, (θ.1 t).1 = T} := by
  ext θ
  simp [allRules, withRules]

theorem dataWeight_ne_zero (hu : Usable a) (hp : ProperSettings a) {T : Rules} (hT : PossibleTree a T) :
    dataWeight a T ≠ 0 := by
  intro h0
  refine (posterior_config hu hp.nonterminal hp.alpha hp.beta (C := fun _ => T) fun _ => hT).2 ?_
  rw [← allRules_eq]
  unfold posterior
  rw [Measure.smul_apply, joint_weighted, joint_config (goodWeight_ruleW a), h0]
  simp

theorem dataWeight_ne_top (hu : Usable a) (hp : ProperSettings a) {T : Rules} (hT : PossibleTree a T) :
    dataWeight a T ≠ ∞ := by
  intro h0
  refine joint_ne_top (a := a) hp.alpha hp.beta (top_unique ?_)
  refine le_trans (le_of_eq ?_) (measure_mono (Set.subset_univ (allRules a T)))
  rw [joint_weighted, joint_config (goodWeight_ruleW a), h0, ENNReal.mul_top]
  exact pow_ne_zero _ (ruleW_ne_zero hu hp.nonterminal hT)

theorem weighted_ne_zero (hu : Usable a) (hp : ProperSettings a) (hw : GoodWeight a w)
    {T : Rules} (hT : PossibleTree a T) (h0 : w T ≠ 0) : weightedJoint a w Set.univ ≠ 0 := by
  intro h
  have := measure_mono_null (Set.subset_univ (allRules a T)) h
  rw [joint_config hw] at this
  exact mul_ne_zero (pow_ne_zero _ h0) (dataWeight_ne_zero hu hp hT) this

theorem weighted_ne_top (hp : ProperSettings a) (hw : GoodWeight a w) : weightedJoint a w Set.univ ≠ ∞ := by
  have := weighted_finite hw
  obtain ⟨C, hC, hle⟩ := density_bound (a := a) hp.alpha hp.beta
  unfold weightedJoint
  rw [withDensity_apply _ MeasurableSet.univ, Measure.restrict_univ,
    lintegral_prod _ (measurable_dataDensity a).aemeasurable]
  simp only [mul_one] at hle
  refine ne_top_of_le_ne_top ?_ (lintegral_mono hle)
  rw [lintegral_const]
  exact ENNReal.mul_ne_top hC (measure_ne_top _ _)

theorem weighted_ae (hu : Usable a) (hp : ProperSettings a) (hw : GoodWeight a w) :
    ∀ᵐ θ ∂weightedJoint a w, PossibleParams a θ := by
  have := weighted_finite hw
  have h0 : ∀ᵐ y ∂weighted a w, PossibleTree a y.1 ∧
      ∀ i : Fin (nodes a), ¬ IsLeaf y.1.split i → y.2 i = 0 := by
    have h := treeDist_ae a
    rw [show treeDist a = weighted a (ruleW a) from rfl] at h
    unfold weighted at h ⊢
    rw [Measure.ae_sum_iff] at h ⊢
    intro T
    by_cases hT : PossibleTree a T
    · exact Measure.ae_smul_measure ((Measure.ae_ennreal_smul_measure_iff (ruleW_ne_zero hu hp.nonterminal hT)).1 (h T)) _
    · rw [hw.zero T hT, zero_smul]
      simp
  have h1 : ∀ᵐ θ ∂(Measure.pi fun _ : Fin a.num_trees => weighted a w).prod (sigmaDist a), PossibleParams a θ := by
    have h2 : ∀ᵐ x ∂Measure.pi fun _ : Fin a.num_trees => weighted a w, ∀ t, PossibleTree a (x t).1 ∧
        ∀ i : Fin (nodes a), ¬ IsLeaf (x t).1.split i → (x t).2 i = 0 := by
      rw [ae_all_iff]
      intro t
      exact (Measure.quasiMeasurePreserving_eval (fun _ : Fin a.num_trees => weighted a w) t).ae h0
    have h3 := (Measure.quasiMeasurePreserving_fst (μ := Measure.pi fun _ : Fin a.num_trees => weighted a w)
      (ν := sigmaDist a)).ae h2
    have h4 := (Measure.quasiMeasurePreserving_snd (μ := Measure.pi fun _ : Fin a.num_trees => weighted a w)
      (ν := sigmaDist a)).ae (sigma_pos a)
    filter_upwards [h3, h4] with θ hθ hs
    exact ⟨fun t => (hθ t).1, fun t => (hθ t).2, hs⟩
  exact withDensity_absolutelyContinuous _ _ h1

/-- two posterior distributions are equal only if the priors are, provided they agree on a tree -/
theorem weighted_cross (hu : Usable a) (hp : ProperSettings a) (hw : GoodWeight a w) (hw' : GoodWeight a w')
    (h : (weightedJoint a w Set.univ)⁻¹ • weightedJoint a w = (weightedJoint a w' Set.univ)⁻¹ • weightedJoint a w')
    {T T' : Rules} (hT : PossibleTree a T) (hT' : PossibleTree a T') (he : w T = w' T) (h0 : w T ≠ 0) : w T' = w' T' := by
  have hz := weighted_ne_zero hu hp hw hT h0
  have ht := weighted_ne_top hp hw
  have key : ∀ T, PossibleTree a T → (weightedJoint a w Set.univ)⁻¹ * w T ^ a.num_trees =
      (weightedJoint a w' Set.univ)⁻¹ * w' T ^ a.num_trees := by
    intro T hT
    have h1 := congrArg (fun μ => μ (allRules a T)) h
    simp only [Measure.smul_apply, smul_eq_mul] at h1
    rw [joint_config hw, joint_config hw', ← mul_assoc, ← mul_assoc] at h1
    exact (ENNReal.mul_left_inj (dataWeight_ne_zero hu hp hT) (dataWeight_ne_top hu hp hT)).1 h1
  have e0 : (weightedJoint a w Set.univ)⁻¹ = (weightedJoint a w' Set.univ)⁻¹ := by
    have := key T hT
    rw [← he] at this
    exact (ENNReal.mul_left_inj (pow_ne_zero _ h0) (ENNReal.pow_ne_top (hw.top T))).1 this
  have h2 := key T' hT'
  rw [← e0] at h2
  have h3 := (ENNReal.mul_right_inj (ENNReal.inv_ne_zero.2 ht) (ENNReal.inv_ne_top.2 hz)).1 h2
  exact (ENNReal.pow_right_strictMono hp.trees.ne').injective h3

theorem weighted_prob (hu : Usable a) (hp : ProperSettings a) (hw : GoodWeight a w)
    {T : Rules} (hT : PossibleTree a T) (h0 : w T ≠ 0) :
    IsProbabilityMeasure ((weightedJoint a w Set.univ)⁻¹ • weightedJoint a w) := by
  constructor
  rw [Measure.smul_apply, smul_eq_mul]
  exact ENNReal.inv_mul_cancel (weighted_ne_zero hu hp hw hT h0) (weighted_ne_top hp hw)

end
end Bartz
