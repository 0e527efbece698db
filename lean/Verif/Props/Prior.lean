import Verif.Lemmas.Prior
import Verif.Props.Convergence
/-!
# The a priori distribution of the regression function: C95

The a priori distribution is defined in `Spec/Bart.lean` and `Spec/Prior.lean`; the stationary distribution of the MCMC is the posterior
distribution obtained from it (C68, C70).
-/

set_option autoImplicit false

namespace Bartz
open Jax Spec MeasureTheory ProbabilityTheory

section
variable {a : InitArgs ℝ}

/-- **C95**. At any point, the a priori distribution of the sum of the trees is normal with mean 0 and variance 1, for any number of trees
and any setting of the distribution of the trees. -/
theorem C95_normal (ha : ValidArgs a) (hp : ProperSettings a) (X : List (List Nat)) (j : Nat) :
    IsProbabilityMeasure (prior a) ∧ (prior a).map (fun θ => ∑ t, treeValue X j (θ.1 t)) = gaussianReal 0 1 := by
  have hu := usable_of ha hp
  have h := prior_map_sum hu hp.nonterminal hp.alpha hp.beta X j
  refine ⟨⟨?_⟩, h⟩
  have := congrArg (fun μ => μ Set.univ) h
  simp only [measure_univ] at this
  have hm : Measurable fun θ : Params a.num_trees (nodes a) => ∑ t, treeValue X j (θ.1 t) :=
    (measurable_treeSum X j).comp measurable_fst
  rwa [Measure.map_apply hm MeasurableSet.univ, Set.preimage_univ] at this

/-- **C95**. The a priori covariance, hence correlation, of the values of the sum of the trees at two points is the probability that a tree does
not separate them. -/
theorem C95_correlation (ha : ValidArgs a) (hp : ProperSettings a) (X : List (List Nat)) (j k : Nat) :
    ∫ θ, (∑ t, treeValue X j (θ.1 t)) * (∑ t, treeValue X k (θ.1 t)) ∂prior a =
      (treePriorDist a).real {y | SameLeaf X j k y.1} :=
  prior_cov (usable_of ha hp) hp.nonterminal hp.alpha hp.beta X j k

/-- Without datapoints, the posterior distribution is the a priori distribution. -/
theorem C95_no_data (hy : a.y = []) : posterior a = prior a := by
  have : dataDensity a = 1 := by
    funext θ
    simp [dataDensity, hy]
  have h : jointDist a = priorDist a := by
    unfold jointDist
    rw [this, withDensity_one]
  unfold posterior prior
  rw [h]

end

section
variable {K P : Type} [KeyLike K] [Field P] [LinearOrder P] [IsStrictOrderedRing P] {lib : Lib ℝ P} {a : GbartArgs K ℝ}

/-- **C95** for `gbart`. At any point, the a priori distribution of the regression function (the sum of the trees rescaled and shifted
like the predictions, see C73) is normal, its mean is the attribute `offset`, its standard deviation is the attribute `scale`, for any number of
trees. The covariance of the values at two points is `scale ** 2` times the probability that a tree does not separate them. -/
theorem C95_gbart (h : ValidGbart lib a) (hp : ProperGbart lib a) (hacc : AccurateLinspace lib a)
    (hy : 0 < a.y_train.length) (hn : a.y_train.length < 2 ^ 64) (hc : a.numcut + 1 < 2 ^ 64) {rng : Rng K ℝ} (hrng : LawfulRng rng)
    {sp : Splits P} (hsp : determine_splits lib a.x_train.x a.x_train.n a.usequants a.numcut = some sp) (x : List (List ℝ)) :
    let f := fun (j : Nat) (θ : Params (gbart_init_args lib a sp).num_trees (nodes (gbart_init_args lib a sp))) =>
      (gbart_settings lib a).offset + (gbart_settings lib a).scale *
        ∑ t, treeValue (gbart_bin_predictors lib x sp.splits) j (θ.1 t)
    ∃ g, gbart lib rng a = some g ∧
    (∀ j, (prior (gbart_init_args lib a sp)).map (f j) = gaussianReal g.offset (g.scale ^ 2).toNNReal) ∧
    ∀ j k, ∫ θ, (f j θ - g.offset) * (f k θ - g.offset) ∂prior (gbart_init_args lib a sp) =
      g.scale ^ 2 * (treePriorDist (gbart_init_args lib a sp)).real
        {y | SameLeaf (gbart_bin_predictors lib x sp.splits) j k y.1} := by
  intro f
  have hv := gbart_args_valid h hsp
  have hps := gbart_proper h hp hsp hacc hn hc hy
  obtain ⟨sp', g, h1, h2⟩ := gbart_spec hrng h
  refine ⟨g, h1, ?_⟩
  have hf : ∀ j θ, f j θ = g.offset + g.scale * ∑ t, treeValue (gbart_bin_predictors lib x sp.splits) j (θ.1 t) := by
    intro j θ; rw [h2.offset, h2.scale]
  constructor
  · intro j
    have e : f j = (fun z => g.offset + z) ∘ (fun z => g.scale * z) ∘
        fun θ => ∑ t, treeValue (gbart_bin_predictors lib x sp.splits) j (θ.1 t) := funext (hf j)
    have hm : Measurable fun θ : Params (gbart_init_args lib a sp).num_trees (nodes (gbart_init_args lib a sp)) =>
        ∑ t, treeValue (gbart_bin_predictors lib x sp.splits) j (θ.1 t) := (measurable_treeSum _ j).comp measurable_fst
    rw [e, ← Measure.map_map (by fun_prop) ((measurable_const_mul _).comp hm), ← Measure.map_map (by fun_prop) hm,
      (C95_normal hv hps _ j).2, gaussianReal_map_const_mul, gaussianReal_map_const_add]
    congr 1
    · simp
    · ext
      simp [Real.coe_toNNReal _ (sq_nonneg g.scale)]
  · intro j k
    have e : ∀ θ, (f j θ - g.offset) * (f k θ - g.offset) = g.scale ^ 2 *
        ((∑ t, treeValue (gbart_bin_predictors lib x sp.splits) j (θ.1 t)) *
          ∑ t, treeValue (gbart_bin_predictors lib x sp.splits) k (θ.1 t)) := by
      intro θ; rw [hf, hf]; ring
    simp only [e]
    rw [integral_const_mul, C95_correlation hv hps]

end

/-! ### Examples -/

namespace ExQ

-- a priori distribution of the sum of the trees at a point of the training set, and correlation with another point
example : (prior ExR.args).map (fun θ => ∑ t, treeValue ExR.args.X 1 (θ.1 t)) = gaussianReal 0 1 :=
  (C95_normal ExR.args_valid args_proper _ 1).2
example := C95_correlation ExR.args_valid args_proper ExR.args.X 0 1

/-- the hypotheses of `C95_gbart` are met; the mean of the responses is 6, their range divided by `2 k` is 3 -/
example (rng : Rng ExB.FreeKey ℝ) (hrng : LawfulRng rng) : ∃ sp,
    determine_splits ExGR.lib gargs.x_train.x gargs.x_train.n gargs.usequants gargs.numcut = some sp ∧
    (prior (gbart_init_args ExGR.lib gargs sp)).map (fun θ => (gbart_settings ExGR.lib gargs).offset +
      (gbart_settings ExGR.lib gargs).scale * ∑ t, treeValue (gbart_bin_predictors ExGR.lib [[1, 6], [1, 2]] sp.splits) 1 (θ.1 t)) =
        gaussianReal 6 ((3 : ℝ) ^ 2).toNNReal := by
  obtain ⟨sp, hsp, -⟩ := determine_splits_spec ExGR.lib gargs.x_train.x gargs.x_train.n gargs.usequants
    gargs.numcut (by simp [gargs])
  obtain ⟨g, hg, h, -⟩ := C95_gbart gargs_valid gargs_proper gargs_accurate (by simp [gargs]) (by simp [gargs]) (by simp [gargs])
    hrng hsp [[1, 6], [1, 2]]
  refine ⟨sp, hsp, ?_⟩
  rw [h 1]
  obtain ⟨sp', g', h1, h2⟩ := gbart_spec hrng gargs_valid
  rw [hg, Option.some.injEq] at h1
  subst h1
  rw [h2.offset, h2.scale]
  have e1 : (gbart_settings ExGR.lib gargs).scale = (gbart_settings ExGR.lib ExGR.args).scale := rfl
  have e2 : (gbart_settings ExGR.lib gargs).offset = (gbart_settings ExGR.lib ExGR.args).offset := rfl
  rw [e1, e2, ExGR.settings.1, ExGR.settings.2]

end ExQ
end Bartz
