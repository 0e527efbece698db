import Verif.Lemmas.BartKernel
import Mathlib.Probability.Distributions.Gaussian.Basic
/-! # The moments of the predictions exist -/

set_option autoImplicit false

namespace Bartz
open Jax Spec MeasureTheory ProbabilityTheory
open scoped ENNReal

section
variable {a : InitArgs ℝ}

theorem leaf_moment (a : InitArgs ℝ) (T : Rules) (i : Fin (nodes a)) (p : Nat) :
    ∫⁻ z, ENNReal.ofReal (|z i| ^ p) ∂leafPrior a T ≠ ∞ := by
  classical
  have hpr : ∀ i : Fin (nodes a), IsProbabilityMeasure (if IsLeaf T.split i then
      gaussianReal 0 (1 / (a.num_trees : NNReal)) else Measure.dirac 0) := by
    intro i; split_ifs <;> infer_instance
  have hm : Measurable fun x : ℝ => ENNReal.ofReal (|x| ^ p) := by fun_prop
  have e : ∫⁻ z, ENNReal.ofReal (|z i| ^ p) ∂leafPrior a T = ∫⁻ x, ENNReal.ofReal (|x| ^ p)
      ∂(if IsLeaf T.split i then gaussianReal 0 (1 / (a.num_trees : NNReal)) else Measure.dirac 0) := by
    have := (measurePreserving_eval (fun i : Fin (nodes a) => if IsLeaf T.split i then
      gaussianReal 0 (1 / (a.num_trees : NNReal)) else Measure.dirac 0) i).lintegral_comp hm
    exact this
  rw [e]
  split_ifs with hl
  · have h1 : MemLp (id : ℝ → ℝ) p (gaussianReal 0 (1 / (a.num_trees : NNReal))) := by
      have := memLp_id_gaussianReal (μ := 0) (v := 1 / (a.num_trees : NNReal)) (p : NNReal)
      simpa using this
    have h2 : Integrable (fun x : ℝ => |x| ^ p) (gaussianReal 0 (1 / (a.num_trees : NNReal))) := by
      have := h1.integrable_norm_pow'
      simpa using this
    have h3 := h2.lintegral_lt_top
    exact h3.ne
  · rw [lintegral_dirac' _ hm]
    simp

theorem tree_moment (a : InitArgs ℝ) (i : Fin (nodes a)) (p : Nat) :
    ∫⁻ y, ENNReal.ofReal (|y.2 i| ^ p) ∂treeDist a ≠ ∞ := by
  classical
  have hm : Measurable fun y : Tree (nodes a) => ENNReal.ofReal (|y.2 i| ^ p) := by
    have : Measurable fun y : Tree (nodes a) => y.2 i := (measurable_pi_apply i).comp measurable_snd
    exact (this.abs.pow_const p).ennreal_ofReal
  rw [lintegral_treeDist hm, tsum_eq_sum (s := (finite_possible a).toFinset)]
  · refine (ENNReal.sum_lt_top.2 fun T _ => ?_).ne
    refine ENNReal.mul_lt_top ?_ (leaf_moment a T i p).lt_top
    unfold ruleW
    split_ifs
    · exact ENNReal.ofReal_lt_top
    · exact ENNReal.zero_lt_top
  · intro T hT
    have : ¬ PossibleTree a T := by simpa using hT
    rw [ruleW, if_neg this, zero_mul]

/-- the values of the leaves have finite moments -/
theorem posterior_moment (hu : Usable a) (hp : ∀ x ∈ a.p_nonterminal, x < 1) (hα : 0 < a.sigma2_alpha)
    (hβ : 0 < a.sigma2_beta) (t : Fin a.num_trees) (i : Fin (nodes a)) (p : Nat) :
    ∫⁻ θ, ENNReal.ofReal (|(θ.1 t).2 i| ^ p) ∂posterior a ≠ ∞ := by
  classical
  have hmy : Measurable fun y : Tree (nodes a) => ENNReal.ofReal (|y.2 i| ^ p) := by
    have : Measurable fun y : Tree (nodes a) => y.2 i := (measurable_pi_apply i).comp measurable_snd
    exact (this.abs.pow_const p).ennreal_ofReal
  have hmx : Measurable fun x : Fin a.num_trees → Tree (nodes a) => ENNReal.ofReal (|(x t).2 i| ^ p) :=
    hmy.comp (measurable_pi_apply t)
  have hm : Measurable fun θ : Params a.num_trees (nodes a) => ENNReal.ofReal (|(θ.1 t).2 i| ^ p) :=
    hmx.comp measurable_fst
  unfold posterior
  rw [lintegral_smul_measure, lintegral_joint' hm]
  refine ENNReal.mul_ne_top (ENNReal.inv_ne_top.2 (joint_ne_zero hu hp hα hβ)) ?_
  obtain ⟨C, hC, hle⟩ := density_bound (a := a) hα hβ
  have hd : ∀ x, Measurable fun v => dataDensity a (x, v) := fun x =>
    (measurable_dataDensity a).comp measurable_prodMk_left
  have hle' : ∀ x, ∫⁻ v, dataDensity a (x, v) * ENNReal.ofReal (|(x t).2 i| ^ p) ∂sigmaDist a ≤
      C * ENNReal.ofReal (|(x t).2 i| ^ p) := by
    intro x
    rw [lintegral_mul_const _ (hd x)]
    have := hle x
    simp only [mul_one] at this
    gcongr
  refine ne_top_of_le_ne_top ?_ (lintegral_mono hle')
  rw [lintegral_const_mul _ hmx]
  refine ENNReal.mul_ne_top hC ?_
  have e : ∫⁻ x, ENNReal.ofReal (|(x t).2 i| ^ p) ∂(Measure.pi fun _ : Fin a.num_trees => treeDist a) =
      ∫⁻ y, ENNReal.ofReal (|y.2 i| ^ p) ∂(Measure.pi fun _ : Fin a.num_trees => treeDist a).map (Function.eval t) :=
    (lintegral_map hmy (measurable_pi_apply t)).symm
  rw [e, Measure.pi_map_eval, lintegral_smul_measure]
  refine ENNReal.mul_ne_top ?_ (tree_moment a i p)
  exact (ENNReal.prod_lt_top fun _ _ => measure_lt_top _ _).ne

theorem abs_treeValue_le {N : Nat} (X : List (List Nat)) (j : Nat) (x : Tree N) :
    |treeValue X j x| ≤ ∑ i, |x.2 i| := by
  classical
  unfold treeValue
  refine (Finset.abs_sum_le_sum_abs _ _).trans (Finset.sum_le_sum fun i _ => ?_)
  split_ifs
  · exact le_rfl
  · simp

/-- the value of a leaf has all the moments -/
theorem memLp_leaf (hu : Usable a) (hp : ∀ x ∈ a.p_nonterminal, x < 1) (hα : 0 < a.sigma2_alpha)
    (hβ : 0 < a.sigma2_beta) (t : Fin a.num_trees) (i : Fin (nodes a)) (p : Nat) :
    MemLp (fun θ : Params a.num_trees (nodes a) => (θ.1 t).2 i) p (posterior a) := by
  have hm : Measurable fun θ : Params a.num_trees (nodes a) => (θ.1 t).2 i :=
    (measurable_pi_apply i).comp (measurable_snd.comp ((measurable_pi_apply t).comp measurable_fst))
  have hpr := posterior_prob hu hp hα hβ
  by_cases h0 : p = 0
  · subst h0
    simpa using hm.aestronglyMeasurable
  refine ⟨hm.aestronglyMeasurable, ?_⟩
  rw [eLpNorm_lt_top_iff_lintegral_rpow_enorm_lt_top (by exact_mod_cast h0) (by simp)]
  refine lt_of_le_of_lt (le_of_eq (lintegral_congr fun θ => ?_)) (posterior_moment hu hp hα hβ t i p).lt_top
  rw [ENNReal.toReal_natCast, ENNReal.rpow_natCast, ENNReal.ofReal_pow (abs_nonneg _),
    Real.enorm_eq_ofReal_abs]

/-- the sum of the trees at a point has all the moments -/
theorem memLp_predict (hu : Usable a) (hp : ∀ x ∈ a.p_nonterminal, x < 1) (hα : 0 < a.sigma2_alpha)
    (hβ : 0 < a.sigma2_beta) (X : List (List Nat)) (j : Nat) (p : Nat) :
    MemLp (fun θ : Params a.num_trees (nodes a) => ∑ t, treeValue X j (θ.1 t)) p (posterior a) := by
  have hm : Measurable fun θ : Params a.num_trees (nodes a) => ∑ t, treeValue X j (θ.1 t) := by
    refine Finset.measurable_sum _ fun t _ => ?_
    exact (measurable_treeValue X j).comp ((measurable_pi_apply t).comp measurable_fst)
  have h : MemLp (fun θ : Params a.num_trees (nodes a) => ∑ t, ∑ i, |(θ.1 t).2 i|) p (posterior a) :=
    memLp_finsetSum _ fun t _ => memLp_finsetSum _ fun i _ => (memLp_leaf hu hp hα hβ t i p).abs
  refine h.mono hm.aestronglyMeasurable (ae_of_all _ fun θ => ?_)
  rw [Real.norm_eq_abs, Real.norm_eq_abs, abs_of_nonneg (a := ∑ t, ∑ i, |(θ.1 t).2 i|)
    (Finset.sum_nonneg fun _ _ => Finset.sum_nonneg fun _ _ => abs_nonneg _)]
  exact (Finset.abs_sum_le_sum_abs _ _).trans
    (Finset.sum_le_sum fun t _ => abs_treeValue_le X j (θ.1 t))

/-! ### The variance -/

theorem gamma_moment {α r : ℝ} (hr : 0 < α - r) (hα : 0 < α) {b : ℝ} (hb : 0 < b) :
    ∫⁻ g, ENNReal.ofReal ((b / g) ^ r) ∂gammaMeasure α 1 ≠ ∞ := by
  have hm : Measurable fun g : ℝ => ENNReal.ofReal ((b / g) ^ r) := by fun_prop
  have e : ∫⁻ g, ENNReal.ofReal ((b / g) ^ r) ∂gammaMeasure α 1 =
      ENNReal.ofReal (b ^ r * Real.Gamma (α - r) / Real.Gamma α) * ∫⁻ g, 1 ∂gammaMeasure (α - r) 1 := by
    unfold gammaMeasure
    have h1 : Measurable (gammaPDF α 1) := (measurable_gammaPDFReal α 1).ennreal_ofReal
    have h2 : Measurable (gammaPDF (α - r) 1) := (measurable_gammaPDFReal (α - r) 1).ennreal_ofReal
    rw [lintegral_withDensity_eq_lintegral_mul _ h1 hm,
      lintegral_withDensity_eq_lintegral_mul _ h2 measurable_const, ← lintegral_const_mul _
        (h2.mul measurable_const)]
    have h0 : ∀ᵐ x : ℝ, x ≠ 0 := by simp [ae_iff]
    refine lintegral_congr_ae ?_
    filter_upwards [h0] with x hx
    simp only [Pi.mul_apply, mul_one]
    rcases lt_or_gt_of_ne hx with hx | hx
    · rw [gammaPDF_of_neg hx, gammaPDF_of_neg hx, zero_mul, mul_zero]
    · have g1 := Real.Gamma_pos_of_pos hα
      have g2 := Real.Gamma_pos_of_pos hr
      rw [gammaPDF_of_nonneg hx.le, gammaPDF_of_nonneg hx.le, ← ENNReal.ofReal_mul (by positivity),
        ← ENNReal.ofReal_mul (by positivity)]
      congr 1
      rw [Real.div_rpow hb.le hx.le, Real.one_rpow, Real.one_rpow,
        show α - r - 1 = (α - 1) - r by ring, Real.rpow_sub hx (α - 1) r]
      field_simp
  have hpr := isProbabilityMeasure_gammaMeasure hr one_pos
  rw [e, lintegral_one, measure_univ, mul_one]
  exact ENNReal.ofReal_ne_top

/-- the variance has the moments up to half the number of degrees of freedom -/
theorem sigma_moment (hu : Usable a) (hp : ∀ x ∈ a.p_nonterminal, x < 1) (hα : 0 < a.sigma2_alpha)
    (hβ : 0 < a.sigma2_beta) {r : ℝ} (hr : r < a.sigma2_alpha + a.y.length / 2) :
    ∫⁻ θ, ENNReal.ofReal (θ.2 ^ r) ∂posterior a ≠ ∞ := by
  have hf : Measurable fun v : ℝ => ENNReal.ofReal (v ^ r) := by fun_prop
  have hm : Measurable fun θ : Params a.num_trees (nodes a) => ENNReal.ofReal (θ.2 ^ r) :=
    hf.comp measurable_snd
  unfold posterior
  rw [lintegral_smul_measure, lintegral_joint' hm]
  refine ENNReal.mul_ne_top (ENNReal.inv_ne_top.2 (joint_ne_zero hu hp hα hβ)) ?_
  obtain ⟨C, hC, hle⟩ := density_bound' (a := a) hα hβ
  refine ne_top_of_le_ne_top ?_ (lintegral_mono fun x => hle x _ hf)
  dsimp only
  rw [lintegral_const]
  refine ENNReal.mul_ne_top (ENNReal.mul_ne_top hC ?_) (measure_ne_top _ _)
  exact gamma_moment (by linarith) (by positivity) hβ

theorem integrable_sigma (hu : Usable a) (hp : ∀ x ∈ a.p_nonterminal, x < 1) (hα : 0 < a.sigma2_alpha)
    (hβ : 0 < a.sigma2_beta) {r : ℝ} (hr : r < a.sigma2_alpha + a.y.length / 2) :
    Integrable (fun θ : Params a.num_trees (nodes a) => θ.2 ^ r) (posterior a) := by
  have hf : Measurable fun v : ℝ => v ^ r := by fun_prop
  have hm : Measurable fun θ : Params a.num_trees (nodes a) => θ.2 ^ r := hf.comp measurable_snd
  refine ⟨hm.aestronglyMeasurable, ?_⟩
  rw [hasFiniteIntegral_iff_ofReal]
  · exact (sigma_moment hu hp hα hβ hr).lt_top
  · filter_upwards [posterior_ae a] with θ hθ
    exact Real.rpow_nonneg hθ.sigma2.le r

end
end Bartz
