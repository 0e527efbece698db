import Verif.Lemmas.BartConj
import Mathlib.Probability.Distributions.Gamma
import Mathlib.Probability.Kernel.Invariance
/-! # The step leaves the posterior distribution unchanged -/

set_option autoImplicit false

namespace Bartz
open Jax Spec MeasureTheory ProbabilityTheory
open scoped ENNReal

section
variable {a : InitArgs ℝ} {R : Nat → ℝ} {v : ℝ}

/-! ### One tree, with the other ones fixed -/

/-- the distribution of the uniform random numbers -/
noncomputable abbrev unifDist : Measure (Fin 6 → ℝ) :=
  Measure.pi fun _ => volume.restrict (Set.Ico 0 1)

theorem unifDist_eq : unifDist = volume.restrict unitCube := by
  unfold unifDist unitCube
  rw [← Measure.restrict_pi_pi, volume_pi]

instance : IsProbabilityMeasure (volume.restrict (Set.Ico (0 : ℝ) 1)) := ⟨by simp⟩

theorem prob_eq {P : (Fin 6 → ℝ) → Prop} (hP : MeasurableSet {w | P w}) :
    unifDist {w | P w} = ENNReal.ofReal (prob P) := by
  have e : {w | P w} ∩ unitCube = {w | w ∈ unitCube ∧ P w} := by
    ext w; exact and_comm
  unfold prob
  rw [ENNReal.ofReal_toReal, unifDist_eq, Measure.restrict_apply hP, e]
  rw [← e, ← Measure.restrict_apply hP, ← unifDist_eq]
  exact measure_ne_top _ _

theorem measurable_newRules_w (a : InitArgs ℝ) (R : Nat → ℝ) (v : ℝ) (T : Rules) :
    Measurable (newRules a R v T) := by
  have h : Measurable fun w : Fin 6 → ℝ => (((R, v), w) : MoveIn) := measurable_const.prodMk measurable_id
  exact (measurable_newRules_at a T).comp h

/-- probability that `T` becomes `T'` -/
noncomputable def trans (a : InitArgs ℝ) (R : Nat → ℝ) (v : ℝ) (T T' : Rules) : ℝ≥0∞ :=
  unifDist (newRules a R v T ⁻¹' {T'})

theorem trans_sum (a : InitArgs ℝ) (R : Nat → ℝ) (v : ℝ) (T : Rules) : ∑' T', trans a R v T T' = 1 := by
  have h := lintegral_countable' (μ := unifDist.map (newRules a R v T)) (fun _ => 1)
  have hp : IsProbabilityMeasure (unifDist.map (newRules a R v T)) :=
    Measure.isProbabilityMeasure_map (measurable_newRules_w a R v T).aemeasurable
  simp only [lintegral_const, measure_univ, one_mul] at h
  rw [h]
  congr 1
  funext T'
  rw [Measure.map_apply (measurable_newRules_w a R v T) (measurableSet_singleton _)]
  rfl

theorem trans_eq {T T' : Rules} (hT : PossibleTree a T) (hne : T' ≠ T) :
    trans a R v T T' = ENNReal.ofReal (prob (Becomes a R v T T')) := by
  have e : newRules a R v T ⁻¹' {T'} = {w | Becomes a R v T T' w} := by
    ext w; exact newRules_eq_iff hT hne
  unfold trans
  rw [e, prob_eq]
  rw [← e]
  exact measurable_newRules_w a R v T (measurableSet_singleton _)

theorem trans_balance (hu : Usable a) (hp : ∀ x ∈ a.p_nonterminal, x < 1) (hv : 0 < v) (T T' : Rules) :
    ruleW a T * ENNReal.ofReal (lik a R v T) * trans a R v T T' =
      ruleW a T' * ENNReal.ofReal (lik a R v T') * trans a R v T' T := by
  classical
  have key : ∀ T T' : Rules, PossibleTree a T → ¬ PossibleTree a T' → trans a R v T T' = 0 := by
    intro T T' hT hT'
    unfold trans
    rw [show newRules a R v T ⁻¹' {T'} = ∅ from Set.eq_empty_of_forall_notMem fun w hw => hT' (by
      have hw' : newRules a R v T w = T' := hw
      rw [← hw']; exact newRules_possible hT), measure_empty]
  by_cases hne : T' = T
  · rw [hne]
  by_cases hT : PossibleTree a T <;> by_cases hT' : PossibleTree a T'
  · have hb := balance (R := R) hu hp hv hT hT'
    have h1 := (possible_treePrior_pos hu hp hT).le
    have h2 := (possible_treePrior_pos hu hp hT').le
    have h3 := (lik_pos hu.trees hv R T).le
    have h4 := (lik_pos hu.trees hv R T').le
    rw [trans_eq hT hne, trans_eq hT' (Ne.symm hne), ruleW, ruleW, if_pos hT, if_pos hT',
      ← ENNReal.ofReal_mul h1, ← ENNReal.ofReal_mul h2, ← ENNReal.ofReal_mul (mul_nonneg h1 h3),
      ← ENNReal.ofReal_mul (mul_nonneg h2 h4), hb]
  · rw [key T T' hT hT', ruleW, ruleW, if_neg hT']; simp
  · rw [key T' T hT' hT, ruleW, ruleW, if_neg hT]; simp
  · rw [ruleW, ruleW, if_neg hT, if_neg hT']; simp

/-- the update of a tree leaves the distribution of the tree unchanged -/
theorem tree_invariant (hu : Usable a) (hp : ∀ x ∈ a.p_nonterminal, x < 1) (hv : 0 < v)
    (R : Nat → ℝ) {G : Tree (nodes a) → ℝ≥0∞} (hG : Measurable G) :
    ∫⁻ y, treeLik a R v y * ∫⁻ d, G (newTree a R v y.1 d) ∂treeDraws (nodes a) ∂treeDist a =
      ∫⁻ y, treeLik a R v y * G y ∂treeDist a := by
  classical
  have hm := measurable_treeLik a R v
  have hnt : Measurable fun p : Rules × ((Fin 6 → ℝ) × (Fin (nodes a) → ℝ)) => newTree a R v p.1 p.2 := by
    have h : Measurable fun p : Rules × ((Fin 6 → ℝ) × (Fin (nodes a) → ℝ)) =>
        (p.1, ((R, v), p.2)) := measurable_fst.prodMk (measurable_const.prodMk measurable_snd)
    exact (measurable_newTree a).comp h
  -- average over the new leaves
  set H : Rules → ℝ≥0∞ := fun T => ∫⁻ z, G (T, newLeaves a R v T z) ∂Measure.pi fun _ => gaussianReal 0 1
    with hH
  have hin : ∀ T, ∫⁻ d, G (newTree a R v T d) ∂treeDraws (nodes a) = ∑' T', H T' * trans a R v T T' := by
    intro T
    have hmT : Measurable fun d => G (newTree a R v T d) := hG.comp (hnt.comp measurable_prodMk_left)
    unfold treeDraws
    rw [lintegral_prod _ hmT.aemeasurable]
    have e : ∀ w, ∫⁻ z, G (newTree a R v T (w, z)) ∂(Measure.pi fun _ => gaussianReal 0 1) =
        H (newRules a R v T w) := fun w => rfl
    rw [lintegral_congr e, ← lintegral_map (μ := unifDist) (f := H) measurable_from_top
      (measurable_newRules_w a R v T), lintegral_countable']
    congr 1
    funext T'
    rw [Measure.map_apply (measurable_newRules_w a R v T) (measurableSet_singleton _)]
    rfl
  have hleft : Measurable fun y : Tree (nodes a) => treeLik a R v y *
      ∫⁻ d, G (newTree a R v y.1 d) ∂treeDraws (nodes a) :=
    hm.mul ((measurable_from_top (f := fun T => ∫⁻ d, G (newTree a R v T d) ∂treeDraws (nodes a))).comp
      measurable_fst)
  rw [lintegral_treeDist hleft, lintegral_treeDist (f := fun y => treeLik a R v y * G y) (hm.mul hG)]
  have e1 : ∀ T, ruleW a T * ∫⁻ z, treeLik a R v (T, z) *
      ∫⁻ d, G (newTree a R v (T, z).1 d) ∂treeDraws (nodes a) ∂leafPrior a T =
      ∑' T', ruleW a T * ENNReal.ofReal (lik a R v T) * trans a R v T T' * H T' := by
    intro T
    by_cases hT : PossibleTree a T
    · rw [leaf_integral hu hv hT (h := fun _ => ∫⁻ d, G (newTree a R v T d) ∂treeDraws (nodes a))
        measurable_const, lintegral_const, measure_univ, mul_one, hin, ← mul_assoc, ← ENNReal.tsum_mul_left]
      congr 1
      funext T'
      ring
    · simp [ruleW, hT]
  have e2 : ∀ T, ruleW a T * ∫⁻ z, treeLik a R v (T, z) * G (T, z) ∂leafPrior a T =
      ruleW a T * ENNReal.ofReal (lik a R v T) * H T := by
    intro T
    by_cases hT : PossibleTree a T
    · rw [leaf_integral hu hv hT (h := fun z => G (T, z)) (hG.comp measurable_prodMk_left), ← mul_assoc]
    · simp [ruleW, hT]
  rw [tsum_congr e1, tsum_congr e2, ENNReal.tsum_comm]
  refine tsum_congr fun T' => ?_
  rw [tsum_congr fun T => by rw [trans_balance hu hp hv T T'], ENNReal.tsum_mul_right,
    ENNReal.tsum_mul_left, trans_sum, mul_one]

/-! ### One tree -/

theorem normalPdf_shift (m c v x : ℝ) : normalPdf (m + c) v x = normalPdf m v (x - c) := by
  unfold normalPdf gaussianPDFReal
  rw [show x - (m + c) = x - c - m by ring]

theorem others_update (a : InitArgs ℝ) (x : Fin a.num_trees → Tree (nodes a)) (t : Fin a.num_trees)
    (y : Tree (nodes a)) : others a (Function.update x t y) t = others a x t := by
  funext j
  unfold others
  congr 1
  refine Finset.sum_congr rfl fun u hu => ?_
  rw [Function.update_of_ne (Finset.ne_of_mem_erase hu)]

theorem dataDensity_update (a : InitArgs ℝ) (x : Fin a.num_trees → Tree (nodes a)) (t : Fin a.num_trees)
    (y : Tree (nodes a)) (v : ℝ) :
    dataDensity a (Function.update x t y, v) = treeLik a (others a x t) v y := by
  unfold dataDensity treeLik
  refine Finset.prod_congr rfl fun j _ => ?_
  dsimp only
  rw [← Finset.add_sum_erase _ _ (Finset.mem_univ t), Function.update_self, normalPdf_shift]
  congr 2
  rw [← others_update a x t y]
  rfl

seal updParams in
theorem measurable_avgTree (t : Fin a.num_trees) {g : Params a.num_trees (nodes a) → ℝ≥0∞}
    (hg : Measurable g) :
    Measurable fun θ => ∫⁻ d, g (updParams a θ t d) ∂treeDraws (nodes a) := by
  have hs : SFinite (treeDraws (nodes a)) := by unfold treeDraws; infer_instance
  exact Measurable.lintegral_prod_right' (f := fun p : Params a.num_trees (nodes a) ×
    ((Fin 6 → ℝ) × (Fin (nodes a) → ℝ)) => g (updParams a p.1 t p.2)) (hg.comp (measurable_updParams a t))

seal stepFun in
theorem measurable_stepFun_at {g : Params a.num_trees (nodes a) → ℝ≥0∞} (hg : Measurable g)
    (θ : Params a.num_trees (nodes a)) : Measurable fun o => g (stepFun a θ o) := by
  have h : Measurable fun o : StepDraws a.num_trees (nodes a) => (θ, o) := measurable_prodMk_left
  exact hg.comp ((measurable_stepFun a).comp h)

theorem trees_invariant (hu : Usable a) (hp : ∀ x ∈ a.p_nonterminal, x < 1) (hv : 0 < v)
    (t : Fin a.num_trees) {g : Params a.num_trees (nodes a) → ℝ≥0∞} (hg : Measurable g) :
    ∫⁻ x, dataDensity a (x, v) * ∫⁻ d, g (updParams a (x, v) t d) ∂treeDraws (nodes a)
        ∂(Measure.pi fun _ => treeDist a) =
      ∫⁻ x, dataDensity a (x, v) * g (x, v) ∂Measure.pi fun _ => treeDist a := by
  have hs : SFinite (treeDraws (nodes a)) := by unfold treeDraws; infer_instance
  have hxv : Measurable fun x : Fin a.num_trees → Tree (nodes a) => (x, v) := measurable_prodMk_right
  have hd : Measurable fun x : Fin a.num_trees → Tree (nodes a) => dataDensity a (x, v) :=
    (measurable_dataDensity a).comp hxv
  have hi : Measurable fun x : Fin a.num_trees → Tree (nodes a) =>
      ∫⁻ d, g (updParams a (x, v) t d) ∂treeDraws (nodes a) := (measurable_avgTree t hg).comp hxv
  refine lintegral_eq_of_lmarginal_eq {t} (hd.mul hi) (hd.mul (hg.comp hxv)) ?_
  rw [lmarginal_singleton, lmarginal_singleton]
  funext x
  have hG : Measurable fun y => g (Function.update x t y, v) :=
    hg.comp ((measurable_update x).prodMk measurable_const)
  have := tree_invariant hu hp hv (others a x t) hG
  simp only [dataDensity_update]
  rw [← this]
  refine lintegral_congr fun y => ?_
  congr 1
  refine lintegral_congr fun d => ?_
  unfold updParams updTree
  dsimp only
  rw [others_update, Function.update_self, Function.update_idem]

instance (a : InitArgs ℝ) : SFinite (volume.withDensity fun v =>
    ENNReal.ofReal (invGammaPdf a.sigma2_alpha a.sigma2_beta v)) := inferInstance

/-- the a priori distribution of the variance -/
noncomputable abbrev sigmaDist (a : InitArgs ℝ) : Measure ℝ :=
  volume.withDensity fun v => ENNReal.ofReal (invGammaPdf a.sigma2_alpha a.sigma2_beta v)

theorem sigma_pos (a : InitArgs ℝ) : ∀ᵐ v ∂sigmaDist a, 0 < v := by
  rw [ae_withDensity_iff (measurable_invGammaPdf _ _).ennreal_ofReal]
  refine Filter.Eventually.of_forall fun v h => ?_
  by_contra hv
  rw [invGammaPdf, if_neg hv] at h
  simp at h

theorem lintegral_joint {f : Params a.num_trees (nodes a) → ℝ≥0∞} (hf : Measurable f) :
    ∫⁻ θ, f θ ∂jointDist a = ∫⁻ v, ∫⁻ x, dataDensity a (x, v) * f (x, v)
      ∂(Measure.pi fun _ => treeDist a) ∂sigmaDist a := by
  unfold jointDist priorDist
  rw [lintegral_withDensity_eq_lintegral_mul _ (measurable_dataDensity a) hf,
    lintegral_prod_symm' _ ((measurable_dataDensity a).mul hf)]
  rfl

theorem lintegral_joint' {f : Params a.num_trees (nodes a) → ℝ≥0∞} (hf : Measurable f) :
    ∫⁻ θ, f θ ∂jointDist a = ∫⁻ x, ∫⁻ v, dataDensity a (x, v) * f (x, v)
      ∂sigmaDist a ∂(Measure.pi fun _ => treeDist a) := by
  unfold jointDist priorDist
  rw [lintegral_withDensity_eq_lintegral_mul _ (measurable_dataDensity a) hf,
    lintegral_prod _ ((measurable_dataDensity a).mul hf).aemeasurable]
  rfl

/-- the update of a tree leaves the joint distribution unchanged -/
theorem joint_tree (hu : Usable a) (hp : ∀ x ∈ a.p_nonterminal, x < 1)
    (t : Fin a.num_trees) {g : Params a.num_trees (nodes a) → ℝ≥0∞} (hg : Measurable g) :
    ∫⁻ θ, ∫⁻ d, g (updParams a θ t d) ∂treeDraws (nodes a) ∂jointDist a = ∫⁻ θ, g θ ∂jointDist a := by
  have hi : Measurable fun θ => ∫⁻ d, g (updParams a θ t d) ∂treeDraws (nodes a) :=
    measurable_avgTree t hg
  rw [lintegral_joint hi, lintegral_joint hg]
  refine lintegral_congr_ae ?_
  filter_upwards [sigma_pos a] with v hv
  exact trees_invariant hu hp hv t hg

/-! ### The variance -/

theorem residList_length (a : InitArgs ℝ) (x : Fin a.num_trees → Tree (nodes a)) :
    (residList a x).length = a.y.length := by simp [residList]

theorem normalPdf_zero (m v x : ℝ) : normalPdf m v x = normalPdf 0 v (x - m) := by
  have := normalPdf_shift 0 m v x
  rwa [zero_add] at this

theorem dataDensity_eq (a : InitArgs ℝ) (x : Fin a.num_trees → Tree (nodes a)) (v : ℝ) :
    dataDensity a (x, v) = ENNReal.ofReal ((residList a x).map fun e => normalPdf 0 v e).prod := by
  unfold dataDensity residList
  rw [List.map_map, ← list_prod_range]
  have := list_prod_filter (l := List.range a.y.length) (fun _ => true)
    (fun j => normalPdf 0 v (a.y.getD j 0 - ∑ t, treeValue a.X j (x t))) (fun j => normalPdf_nonneg _ _ _)
  rw [List.filter_true] at this
  refine Eq.trans ?_ this.symm
  simp only [if_true]
  congr 2
  funext j
  rw [normalPdf_zero]

theorem sumSq_nonneg (r : List ℝ) : 0 ≤ sumSq r := by
  unfold sumSq
  apply List.sum_nonneg
  intro y hy
  rw [List.mem_map] at hy
  obtain ⟨z, _, rfl⟩ := hy
  exact mul_self_nonneg z

/-- integrals over the variance -/
theorem sigma_integral (hα : 0 < a.sigma2_alpha) (hβ : 0 < a.sigma2_beta) (r : List ℝ) :
    ∃ C : ℝ≥0∞, C ≠ 0 ∧ C ≠ ∞ ∧ ∀ f : ℝ → ℝ≥0∞, Measurable f →
      ∫⁻ v, ENNReal.ofReal (r.map fun e => normalPdf 0 v e).prod * f v ∂sigmaDist a =
        C * ∫⁻ g, f ((a.sigma2_beta + sumSq r / 2) / g)
          ∂gammaMeasure (a.sigma2_alpha + r.length / 2) 1 := by
  obtain ⟨C, hC, h⟩ := isSigmaPosterior hα hβ r
  have hα' : 0 < a.sigma2_alpha + r.length / 2 := by positivity
  have hβ' : 0 < a.sigma2_beta + sumSq r / 2 := by have := sumSq_nonneg r; positivity
  refine ⟨ENNReal.ofReal C, by simpa using hC, by simp, ?_⟩
  intro f hf
  have hpm : Measurable fun v => ENNReal.ofReal (r.map fun e => normalPdf 0 v e).prod := by
    refine Measurable.ennreal_ofReal ?_
    clear h hα' hβ'
    induction r with
    | nil => simp
    | cons y r ih =>
      simp only [List.map_cons, List.prod_cons]
      exact (measurable_normalPdf measurable_const measurable_id measurable_const).mul ih
  have hdiv : Measurable fun g : ℝ => (a.sigma2_beta + sumSq r / 2) / g := measurable_const.div measurable_id
  rw [lintegral_withDensity_eq_lintegral_mul _ (measurable_invGammaPdf _ _).ennreal_ofReal
      (g := fun v => ENNReal.ofReal (r.map fun e => normalPdf 0 v e).prod * f v) (hpm.mul hf),
    ← lintegral_map hf hdiv, map_div_gamma hα' hβ',
    lintegral_withDensity_eq_lintegral_mul _ (measurable_invGammaPdf _ _).ennreal_ofReal hf,
    ← lintegral_const_mul _ ((measurable_invGammaPdf _ _).ennreal_ofReal.mul hf)]
  refine lintegral_congr fun v => ?_
  simp only [Pi.mul_apply]
  rw [← mul_assoc, ← mul_assoc, ← ENNReal.ofReal_mul (invGammaPdf_nonneg hα hβ v),
    ← ENNReal.ofReal_mul hC.le]
  congr 2
  exact h v

/-- the update of the variance leaves the joint distribution unchanged -/
theorem joint_sigma (hα : 0 < a.sigma2_alpha) (hβ : 0 < a.sigma2_beta)
    {g : Params a.num_trees (nodes a) → ℝ≥0∞} (hg : Measurable g) :
    ∫⁻ θ, ∫⁻ d, g (updSigma a θ d) ∂gammaMeasure (a.sigma2_alpha + a.y.length / 2) 1 ∂jointDist a =
      ∫⁻ θ, g θ ∂jointDist a := by
  have hα' : 0 < a.sigma2_alpha + a.y.length / 2 := by positivity
  have hpr : IsProbabilityMeasure (gammaMeasure (a.sigma2_alpha + a.y.length / 2) 1) :=
    isProbabilityMeasure_gammaMeasure hα' one_pos
  have hi : Measurable fun θ => ∫⁻ d, g (updSigma a θ d) ∂gammaMeasure (a.sigma2_alpha + a.y.length / 2) 1 :=
    Measurable.lintegral_prod_right' (f := fun p : Params a.num_trees (nodes a) × ℝ => g (updSigma a p.1 p.2))
      (hg.comp (measurable_updSigma a))
  rw [lintegral_joint' hi, lintegral_joint' hg]
  refine lintegral_congr fun x => ?_
  obtain ⟨C, _, _, hC⟩ := sigma_integral (a := a) hα hβ (residList a x)
  rw [residList_length] at hC
  simp only [dataDensity_eq]
  rw [hC (fun v => g (x, v)) (hg.comp measurable_prodMk_left),
    hC (fun v => ∫⁻ d, g (updSigma a (x, v) d) ∂gammaMeasure (a.sigma2_alpha + a.y.length / 2) 1)
      (hi.comp measurable_prodMk_left)]
  congr 1
  simp only [updSigma, lintegral_const, measure_univ, mul_one]

/-! ### The step -/

/-- the step leaves the joint distribution unchanged -/
theorem joint_step (hu : Usable a) (hp : ∀ x ∈ a.p_nonterminal, x < 1)
    (hα : 0 < a.sigma2_alpha) (hβ : 0 < a.sigma2_beta)
    {g : Params a.num_trees (nodes a) → ℝ≥0∞} (hg : Measurable g) :
    ∫⁻ θ, ∫⁻ o, g (stepFun a θ o) ∂stepDraws a ∂jointDist a = ∫⁻ θ, g θ ∂jointDist a := by
  have hs : IsProbabilityMeasure (treeDraws (nodes a)) := by unfold treeDraws; infer_instance
  have hα' : 0 < a.sigma2_alpha + a.y.length / 2 := by positivity
  have hpr : IsProbabilityMeasure (gammaMeasure (a.sigma2_alpha + a.y.length / 2) 1) :=
    isProbabilityMeasure_gammaMeasure hα' one_pos
  have hi : Measurable fun θ => ∫⁻ d, g (updSigma a θ d) ∂gammaMeasure (a.sigma2_alpha + a.y.length / 2) 1 :=
    Measurable.lintegral_prod_right' (f := fun p : Params a.num_trees (nodes a) × ℝ => g (updSigma a p.1 p.2))
      (hg.comp (measurable_updSigma a))
  have e : ∀ θ, ∫⁻ o, g (stepFun a θ o) ∂stepDraws a = sweepK (updParams a)
      (fun _ => treeDraws (nodes a)) (List.finRange a.num_trees) (fun θ => ∫⁻ d, g (updSigma a θ d)
        ∂gammaMeasure (a.sigma2_alpha + a.y.length / 2) 1) θ := by
    intro θ
    have hm : Measurable fun o => g (stepFun a θ o) := measurable_stepFun_at hg θ
    unfold stepDraws
    rw [lintegral_prod _ hm.aemeasurable]
    simp only [stepFun_eq]
    exact lintegral_sweep (measurable_updParams a) hi (List.nodup_finRange _) (List.mem_finRange) θ
  rw [lintegral_congr e, sweepK_invariant (measurable_updParams a) hi
    (fun t g hg => joint_tree hu hp t hg), joint_sigma hα hβ hg]

/-! ### The joint distribution can be normalized -/

theorem density_bound' (hα : 0 < a.sigma2_alpha) (hβ : 0 < a.sigma2_beta) :
    ∃ C : ℝ≥0∞, C ≠ ∞ ∧ ∀ x (f : ℝ → ℝ≥0∞), Measurable f →
      ∫⁻ v, dataDensity a (x, v) * f v ∂sigmaDist a ≤
        C * ∫⁻ g, f (a.sigma2_beta / g) ∂gammaMeasure (a.sigma2_alpha + a.y.length / 2) 1 := by
  obtain ⟨C, _, hC, h⟩ := sigma_integral (a := a) hα hβ (List.replicate a.y.length 0)
  refine ⟨C, hC, fun x f hf => ?_⟩
  have hz : sumSq (List.replicate a.y.length 0) = 0 := by
    simp [sumSq]
  have h2 := h f hf
  rw [hz, zero_div, add_zero, List.length_replicate] at h2
  rw [← h2]
  refine lintegral_mono_ae ?_
  filter_upwards [sigma_pos a] with v hv
  rw [dataDensity_eq]
  gcongr
  rw [prod_pdf hv, prod_pdf hv, residList_length, List.length_replicate, hz]
  refine mul_le_mul_of_nonneg_left ?_ (by positivity)
  apply Real.exp_le_exp.2
  have := sumSq_nonneg (residList a x)
  simp only [mul_zero, sub_zero, ne_eq, OfNat.ofNat_ne_zero, not_false_eq_true, zero_pow, add_zero,
    neg_zero, zero_div]
  exact div_nonpos_of_nonpos_of_nonneg (by linarith) (by positivity)

theorem density_bound (hα : 0 < a.sigma2_alpha) (hβ : 0 < a.sigma2_beta) :
    ∃ C : ℝ≥0∞, C ≠ ∞ ∧ ∀ x, ∫⁻ v, dataDensity a (x, v) * 1 ∂sigmaDist a ≤ C := by
  obtain ⟨C, hC, h⟩ := density_bound' (a := a) hα hβ
  have hα' : 0 < a.sigma2_alpha + a.y.length / 2 := by positivity
  have hpr : IsProbabilityMeasure (gammaMeasure (a.sigma2_alpha + a.y.length / 2) 1) :=
    isProbabilityMeasure_gammaMeasure hα' one_pos
  refine ⟨C, hC, fun x => ?_⟩
  have := h x (fun _ => 1) measurable_const
  rwa [lintegral_one, measure_univ, mul_one] at this

theorem joint_ne_top (hα : 0 < a.sigma2_alpha) (hβ : 0 < a.sigma2_beta) :
    jointDist a Set.univ ≠ ∞ := by
  have h1 := lintegral_joint' (a := a) (f := fun _ => 1) measurable_const
  rw [lintegral_one] at h1
  rw [h1]
  obtain ⟨C, hC, hle⟩ := density_bound (a := a) hα hβ
  refine ne_top_of_le_ne_top ?_ (lintegral_mono hle)
  rw [lintegral_const]
  exact ENNReal.mul_ne_top hC (measure_ne_top _ _)

end
end Bartz
