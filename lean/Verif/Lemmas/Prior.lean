import Verif.Spec.Prior
import Verif.Lemmas.BartConn
import Mathlib.Probability.Independence.CharacteristicFunction
import Mathlib.Probability.Independence.Integration
import Mathlib.Probability.Moments.Covariance
/-! # The a priori distribution of the regression function -/

set_option autoImplicit false

namespace Bartz
open Jax Spec MeasureTheory ProbabilityTheory
open scoped ENNReal

/-! ### Sums of independent normal variables -/

theorem map_sum_gaussian {n : Nat} (hn : 0 < n) :
    (Measure.pi fun _ : Fin n => gaussianReal 0 (1 / (n : NNReal))).map (fun x => ∑ i, x i) = gaussianReal 0 1 := by
  apply Measure.ext_of_charFun
  rw [charFun_map_sum_pi_eq_prod]
  funext t
  rw [Finset.prod_const, Pi.pow_apply, charFun_gaussianReal, charFun_gaussianReal, ← Complex.exp_nat_mul]
  congr 1
  have : (n : ℂ) ≠ 0 := by exact_mod_cast hn.ne'
  simp
  field_simp

section
variable {a : InitArgs ℝ} {T : Rules}

/-- the leaf a point belongs to -/
theorem exists_leaf (h64 : a.p_nonterminal.length < 64) (hT : PossibleTree a T) (X : List (List Nat)) (j : Nat) :
    ∃ i : Fin (nodes a), FallsInto (point X j) T.var T.split i ∧ ∀ z, treeValue X j ((T, z) : Tree (nodes a)) = z i := by
  have hf := traverse_fallsInto (x := point X j) h64 hT.var_length hT.split.length
  have hi := leaf_lt hT.split.length hf.1
  exact ⟨⟨_, hi⟩, hf, fun z => treeValue_eq (x := (T, z)) h64 hT.var_length hT.split.length ⟨_, hi⟩ hf⟩

theorem leafPrior_map {i : Fin (nodes a)} (hi : IsLeaf T.split i) :
    (leafPrior a T).map (fun z => z i) = gaussianReal 0 (1 / (a.num_trees : NNReal)) := by
  classical
  unfold leafPrior
  have : ∀ i : Fin (nodes a), IsProbabilityMeasure (if IsLeaf T.split i then
      gaussianReal 0 (1 / (a.num_trees : NNReal)) else Measure.dirac 0) := by
    intro i; split_ifs <;> infer_instance
  have h := (measurePreserving_eval (fun i : Fin (nodes a) => if IsLeaf T.split i then
      gaussianReal 0 (1 / (a.num_trees : NNReal)) else Measure.dirac 0) i).map_eq
  rw [if_pos hi] at h
  exact h

theorem ruleW_eq_zero (hT : ¬ PossibleTree a T) : ruleW a T = 0 := by unfold ruleW; rw [if_neg hT]

/-- the value of a tree at a point is normal -/
theorem treeDist_map (h64 : a.p_nonterminal.length < 64) (X : List (List Nat)) (j : Nat) :
    (treeDist a).map (treeValue X j) = treeDist a Set.univ • gaussianReal 0 (1 / (a.num_trees : NNReal)) := by
  ext S hS
  have hm := measurable_treeValue (N := nodes a) X j
  rw [Measure.map_apply hm hS, Measure.smul_apply, smul_eq_mul, treeDist_univ, ← lintegral_indicator_one (hm hS),
    lintegral_treeDist (measurable_one.indicator (hm hS)), ← ENNReal.tsum_mul_right]
  congr 1
  funext T
  by_cases hT : PossibleTree a T
  · congr 1
    obtain ⟨i, hi, he⟩ := exists_leaf h64 hT X j
    rw [← leafPrior_map hi.1, Measure.map_apply (measurable_pi_apply i) hS,
      ← lintegral_indicator_one (measurable_pi_apply i hS)]
    congr 1
    funext z
    classical
    show (if treeValue X j ((T, z) : Tree (nodes a)) ∈ S then (1 : ℝ≥0∞) else 0) = if z i ∈ S then 1 else 0
    rw [he]
  · rw [ruleW_eq_zero hT, zero_mul, zero_mul]

theorem treeDist_ne_zero (hu : Usable a) (hp : ∀ x ∈ a.p_nonterminal, x < 1) : treeDist a Set.univ ≠ 0 := by
  intro ht
  rw [treeDist_univ, ENNReal.tsum_eq_zero] at ht
  have := ht (rootT a)
  rw [ruleW, if_pos (root_possible a), ENNReal.ofReal_eq_zero] at this
  exact absurd (possible_treePrior_pos hu hp (root_possible a)) (not_lt.2 this)

theorem treePriorDist_prob (hu : Usable a) (hp : ∀ x ∈ a.p_nonterminal, x < 1) : IsProbabilityMeasure (treePriorDist a) := by
  constructor
  unfold treePriorDist
  rw [Measure.smul_apply, smul_eq_mul]
  exact ENNReal.inv_mul_cancel (treeDist_ne_zero hu hp) (measure_ne_top _ _)

theorem treePriorDist_map (hu : Usable a) (hp : ∀ x ∈ a.p_nonterminal, x < 1) (X : List (List Nat)) (j : Nat) :
    (treePriorDist a).map (treeValue X j) = gaussianReal 0 (1 / (a.num_trees : NNReal)) := by
  unfold treePriorDist
  rw [Measure.map_smul, treeDist_map hu.valid.depth_lt, smul_smul,
    ENNReal.inv_mul_cancel (treeDist_ne_zero hu hp) (measure_ne_top _ _), one_smul]

theorem sigmaDist_univ_ne_top (hα : 0 < a.sigma2_alpha) (hβ : 0 < a.sigma2_beta) : sigmaDist a Set.univ ≠ ∞ := by
  obtain ⟨C, _, hC, h⟩ := sigma_integral (a := a) hα hβ []
  have hα' : 0 < a.sigma2_alpha + ([] : List ℝ).length / 2 := by positivity
  have hpr := isProbabilityMeasure_gammaMeasure hα' one_pos
  have h2 := h (fun _ => 1) measurable_const
  rw [lintegral_one, measure_univ, mul_one] at h2
  simp only [List.map_nil, List.prod_nil, ENNReal.ofReal_one, one_mul, lintegral_one] at h2
  rw [h2]; exact hC

/-- a priori the trees are independent and identically distributed -/
theorem prior_map_fst (hu : Usable a) (hp : ∀ x ∈ a.p_nonterminal, x < 1) (hα : 0 < a.sigma2_alpha) (hβ : 0 < a.sigma2_beta) :
    (prior a).map Prod.fst = Measure.pi fun _ => treePriorDist a := by
  have hpr := treePriorDist_prob hu hp
  have hs0 : sigmaDist a Set.univ ≠ 0 := by
    rw [Ne, Measure.measure_univ_eq_zero]; exact sigmaDist_ne_zero hα hβ
  have hst := sigmaDist_univ_ne_top hα hβ
  have hm0 := treeDist_ne_zero hu hp
  have hmt : treeDist a Set.univ ≠ ∞ := measure_ne_top _ _
  have e : priorDist a = (Measure.pi fun _ => treeDist a).prod (sigmaDist a) := rfl
  have hsf : IsFiniteMeasure (sigmaDist a) := ⟨lt_top_iff_ne_top.2 hst⟩
  have hun : priorDist a Set.univ = treeDist a Set.univ ^ a.num_trees * sigmaDist a Set.univ := by
    rw [e, Measure.prod_apply MeasurableSet.univ]
    simp [Measure.pi_univ, mul_comm]
  unfold prior
  rw [Measure.map_smul, hun, e, Measure.map_fst_prod, smul_smul]
  refine (Measure.pi_eq fun S hS => ?_).symm
  rw [Measure.smul_apply, Measure.pi_pi, smul_eq_mul]
  simp only [treePriorDist, Measure.smul_apply, smul_eq_mul]
  rw [Finset.prod_mul_distrib, Finset.prod_const, Finset.card_univ, Fintype.card_fin, mul_comm (treeDist a Set.univ ^ _),
    ENNReal.mul_inv (Or.inl hs0) (Or.inl hst), mul_comm (sigmaDist a Set.univ)⁻¹, mul_assoc (_ ^ _)⁻¹,
    ENNReal.inv_mul_cancel hs0 hst, mul_one, ENNReal.inv_pow]

theorem measurable_treeSum (X : List (List Nat)) (j : Nat) :
    Measurable fun x : Fin a.num_trees → Tree (nodes a) => ∑ t, treeValue X j (x t) :=
  Finset.measurable_sum _ fun t _ => (measurable_treeValue X j).comp (measurable_pi_apply t)

/-- the sum of the trees at a point is normal -/
theorem prior_map_sum (hu : Usable a) (hp : ∀ x ∈ a.p_nonterminal, x < 1) (hα : 0 < a.sigma2_alpha) (hβ : 0 < a.sigma2_beta)
    (X : List (List Nat)) (j : Nat) :
    (prior a).map (fun θ => ∑ t, treeValue X j (θ.1 t)) = gaussianReal 0 1 := by
  have hpr := treePriorDist_prob hu hp
  have e : (fun θ : Params a.num_trees (nodes a) => ∑ t, treeValue X j (θ.1 t)) =
      (fun x : Fin a.num_trees → ℝ => ∑ t, x t) ∘ (fun (x : Fin a.num_trees → Tree (nodes a)) t => treeValue X j (x t)) ∘ Prod.fst := rfl
  have hm1 : Measurable fun (x : Fin a.num_trees → Tree (nodes a)) t => treeValue X j (x t) :=
    measurable_pi_lambda _ fun t => (measurable_treeValue X j).comp (measurable_pi_apply t)
  rw [e, ← Measure.map_map (by fun_prop) (hm1.comp measurable_fst), ← Measure.map_map hm1 measurable_fst, prior_map_fst hu hp hα hβ]
  have hg : ∀ _ : Fin a.num_trees, SigmaFinite ((treePriorDist a).map (treeValue X j)) := by
    intro _; rw [treePriorDist_map hu hp]; infer_instance
  rw [Measure.pi_map_pi (f := fun _ => treeValue X j) fun _ => (measurable_treeValue X j).aemeasurable]
  simp only [treePriorDist_map hu hp]
  exact map_sum_gaussian hu.trees

/-! ### Covariances -/

theorem leafPrior_indep (T : Rules) : iIndepFun (fun (i : Fin (nodes a)) (z : Fin (nodes a) → ℝ) => z i) (leafPrior a T) := by
  classical
  unfold leafPrior
  have : ∀ i : Fin (nodes a), IsProbabilityMeasure (if IsLeaf T.split i then
      gaussianReal 0 (1 / (a.num_trees : NNReal)) else Measure.dirac 0) := by
    intro i; split_ifs <;> infer_instance
  exact iIndepFun_pi (X := fun _ x => x) fun _ => aemeasurable_id

theorem leafPrior_mean {i : Fin (nodes a)} (hi : IsLeaf T.split i) : ∫ z, z i ∂leafPrior a T = 0 := by
  have h := integral_map (μ := leafPrior a T) (measurable_pi_apply i).aemeasurable (f := fun x : ℝ => x)
    aestronglyMeasurable_id
  rw [leafPrior_map hi] at h
  rw [← h, integral_id_gaussianReal]

theorem gaussian_sq (v : NNReal) : ∫ x, x * x ∂gaussianReal 0 v = v := by
  have h := variance_id_gaussianReal (μ := 0) (v := v)
  rw [variance_eq_sub (memLp_id_gaussianReal 2)] at h
  simpa [pow_two] using h

theorem leafPrior_cov {i k : Fin (nodes a)} (hi : IsLeaf T.split i) (hk : IsLeaf T.split k) :
    ∫ z, z i * z k ∂leafPrior a T = if i = k then 1 / (a.num_trees : ℝ) else 0 := by
  by_cases h : i = k
  · subst h
    rw [if_pos rfl]
    have h := integral_map (μ := leafPrior a T) (measurable_pi_apply i).aemeasurable (f := fun x : ℝ => x * x)
      (by fun_prop)
    rw [leafPrior_map hi, gaussian_sq] at h
    rw [← h]; simp
  · rw [if_neg h]
    have := ((leafPrior_indep (a := a) T).indepFun h).integral_fun_mul_eq_mul_integral
      (measurable_pi_apply i).aestronglyMeasurable (measurable_pi_apply k).aestronglyMeasurable
    rw [this, leafPrior_mean hi, zero_mul]

theorem memLp_treeValue (hu : Usable a) (hp : ∀ x ∈ a.p_nonterminal, x < 1) (X : List (List Nat)) (j : Nat) :
    MemLp (treeValue X j) 2 (treePriorDist a) := by
  have h := memLp_id_gaussianReal (μ := 0) (v := 1 / (a.num_trees : NNReal)) 2
  rw [← treePriorDist_map hu hp X j, memLp_map_measure_iff aestronglyMeasurable_id (measurable_treeValue X j).aemeasurable] at h
  exact h

theorem integral_treeValue (hu : Usable a) (hp : ∀ x ∈ a.p_nonterminal, x < 1) (X : List (List Nat)) (j : Nat) :
    ∫ y, treeValue X j y ∂treePriorDist a = 0 := by
  have h := integral_map (μ := treePriorDist a) (measurable_treeValue X j).aemeasurable (f := fun x : ℝ => x)
    aestronglyMeasurable_id
  rw [treePriorDist_map hu hp] at h
  rw [← h, integral_id_gaussianReal]

theorem sameLeaf_iff (h64 : a.p_nonterminal.length < 64) (hT : PossibleTree a T) {X : List (List Nat)} {j k i i' : Nat}
    (h : FallsInto (point X j) T.var T.split i) (h' : FallsInto (point X k) T.var T.split i') :
    SameLeaf X j k T ↔ i = i' := by
  constructor
  · rintro ⟨l, h1, h2⟩
    rw [fallsInto_unique h64 hT.var_length hT.split.length h h1, fallsInto_unique h64 hT.var_length hT.split.length h' h2]
  · rintro rfl
    exact ⟨i, h, h'⟩

theorem measurableSet_rules (S : Set Rules) : MeasurableSet {y : Tree (nodes a) | y.1 ∈ S} :=
  measurable_fst (MeasurableSpace.measurableSet_top : MeasurableSet S)

/-- covariance of the values of a tree at two points -/
theorem treePriorDist_cov (hu : Usable a) (hp : ∀ x ∈ a.p_nonterminal, x < 1) (X : List (List Nat)) (j k : Nat) :
    ∫ y, treeValue X j y * treeValue X k y ∂treePriorDist a =
      1 / a.num_trees * (treePriorDist a).real {y | SameLeaf X j k y.1} := by
  classical
  have hm : Measurable fun y : Tree (nodes a) => treeValue X j y * treeValue X k y :=
    (measurable_treeValue X j).mul (measurable_treeValue X k)
  have h0 := treeDist_ne_zero hu hp
  have hc : (treeDist a Set.univ)⁻¹ ≠ ∞ := ENNReal.inv_ne_top.2 h0
  have hint : Integrable (fun y => treeValue X j y * treeValue X k y) (treeDist a) := by
    have h1 := (memLp_treeValue hu hp X j).integrable_mul (memLp_treeValue hu hp X k)
    unfold treePriorDist at h1
    rwa [integrable_smul_measure (ENNReal.inv_ne_zero.2 (measure_ne_top _ _)) hc] at h1
  have key : ∫ y, treeValue X j y * treeValue X k y ∂treeDist a =
      1 / a.num_trees * (treeDist a).real {y | SameLeaf X j k y.1} := by
    have hsame : treeDist a {y | SameLeaf X j k y.1} = ∑' T, ruleW a T * if SameLeaf X j k T then 1 else 0 := by
      have hs : MeasurableSet {y : Tree (nodes a) | SameLeaf X j k y.1} := measurableSet_rules {T | SameLeaf X j k T}
      rw [← lintegral_indicator_one hs, lintegral_treeDist (measurable_one.indicator hs)]
      congr 1
      funext T
      congr 1
      have : ∀ z, Set.indicator {y : Tree (nodes a) | SameLeaf X j k y.1} (1 : Tree (nodes a) → ℝ≥0∞) (T, z) =
          if SameLeaf X j k T then 1 else 0 := fun z => rfl
      simp only [this]
      simp
    rw [measureReal_def, hsame, ENNReal.tsum_toReal_eq, ← tsum_mul_left]
    · have e := integral_sum_measure (f := fun y => treeValue X j y * treeValue X k y) (μ := fun T : Rules =>
        ruleW a T • (leafPrior a T).map (Prod.mk T)) (show Integrable _ (treeDist a) from hint)
      refine Eq.trans e ?_
      congr 1
      funext T
      rw [integral_smul_measure, integral_map measurable_prodMk_left.aemeasurable hm.aestronglyMeasurable]
      by_cases hT : PossibleTree a T
      · obtain ⟨i, hi, he⟩ := exists_leaf hu.valid.depth_lt hT X j
        obtain ⟨i', hi', he'⟩ := exists_leaf hu.valid.depth_lt hT X k
        simp only [he, he']
        rw [leafPrior_cov hi.1 hi'.1]
        simp only [sameLeaf_iff hu.valid.depth_lt hT hi hi', Fin.ext_iff]
        split_ifs <;> simp [mul_comm]
      · rw [ruleW_eq_zero hT]; simp
    · intro T
      unfold ruleW
      split_ifs <;> simp
  unfold treePriorDist
  rw [integral_smul_measure, key, measureReal_ennreal_smul_apply, smul_eq_mul]
  ring

/-- a priori covariance of the values of the sum of the trees at two points -/
theorem prior_cov (hu : Usable a) (hp : ∀ x ∈ a.p_nonterminal, x < 1) (hα : 0 < a.sigma2_alpha) (hβ : 0 < a.sigma2_beta)
    (X : List (List Nat)) (j k : Nat) :
    ∫ θ, (∑ t, treeValue X j (θ.1 t)) * (∑ t, treeValue X k (θ.1 t)) ∂prior a =
      (treePriorDist a).real {y | SameLeaf X j k y.1} := by
  have hpr := treePriorDist_prob hu hp
  have h := integral_map (μ := prior a) measurable_fst.aemeasurable
    (f := fun x : Fin a.num_trees → Tree (nodes a) => (∑ t, treeValue X j (x t)) * (∑ t, treeValue X k (x t)))
    ((measurable_treeSum X j).mul (measurable_treeSum X k)).aestronglyMeasurable
  rw [← h, prior_map_fst hu hp hα hβ]
  have hmp : ∀ t : Fin a.num_trees, MeasurePreserving (Function.eval t) (Measure.pi fun _ => treePriorDist a) (treePriorDist a) :=
    fun t => measurePreserving_eval (fun _ => treePriorDist a) t
  have hL : ∀ (l : Nat) (t : Fin a.num_trees), MemLp (fun x => treeValue X l (x t)) 2 (Measure.pi fun _ => treePriorDist a) :=
    fun l t => (memLp_treeValue hu hp X l).comp_measurePreserving (hmp t)
  simp only [Finset.sum_mul_sum]
  have hi : ∀ t u : Fin a.num_trees, Integrable (fun x => treeValue X j (x t) * treeValue X k (x u))
      (Measure.pi fun _ => treePriorDist a) := fun t u => (hL j t).integrable_mul (hL k u)
  have hev : ∀ (f : Tree (nodes a) → ℝ) (t : Fin a.num_trees), Measurable f →
      ∫ x, f (x t) ∂(Measure.pi fun _ : Fin a.num_trees => treePriorDist a) = ∫ y, f y ∂treePriorDist a := by
    intro f t hf
    conv_rhs => rw [← (hmp t).map_eq]
    exact (integral_map (measurable_pi_apply t).aemeasurable hf.aestronglyMeasurable).symm
  have hval : ∀ t u : Fin a.num_trees, ∫ x, treeValue X j (x t) * treeValue X k (x u) ∂(Measure.pi fun _ => treePriorDist a) =
      if t = u then 1 / a.num_trees * (treePriorDist a).real {y | SameLeaf X j k y.1} else 0 := by
    intro t u
    split_ifs with htu
    · subst htu
      rw [← treePriorDist_cov hu hp]
      exact hev (fun y => treeValue X j y * treeValue X k y) t ((measurable_treeValue X j).mul (measurable_treeValue X k))
    · have hind := (iIndepFun_pi (μ := fun _ : Fin a.num_trees => treePriorDist a) (X := fun _ y => y)
        fun _ => aemeasurable_id).indepFun htu
      have hind := hind.comp (measurable_treeValue (N := nodes a) X j) (measurable_treeValue (N := nodes a) X k)
      have := hind.integral_fun_mul_eq_mul_integral
        ((measurable_treeValue X j).comp (measurable_pi_apply t)).aestronglyMeasurable
        ((measurable_treeValue X k).comp (measurable_pi_apply u)).aestronglyMeasurable
      refine this.trans ?_
      have e := hev (treeValue X j) t (measurable_treeValue X j)
      rw [integral_treeValue hu hp] at e
      rw [show ∫ x, (treeValue X j ∘ fun ω : Fin a.num_trees → Tree (nodes a) => ω t) x ∂(Measure.pi fun _ => treePriorDist a) = 0 from e,
        zero_mul]
  rw [integral_finsetSum _ fun t _ => integrable_finsetSum _ fun u _ => hi t u]
  have : ∀ t ∈ Finset.univ, ∫ x, ∑ u, treeValue X j (x t) * treeValue X k (x u) ∂(Measure.pi fun _ : Fin a.num_trees => treePriorDist a) =
      1 / a.num_trees * (treePriorDist a).real {y | SameLeaf X j k y.1} := by
    intro t _
    rw [integral_finsetSum _ fun u _ => hi t u]
    simp only [hval]
    simp
  rw [Finset.sum_congr rfl this, Finset.sum_const, Finset.card_univ, Fintype.card_fin, nsmul_eq_mul]
  have hn : (a.num_trees : ℝ) ≠ 0 := by exact_mod_cast hu.trees.ne'
  field_simp

end
end Bartz
