import Verif.Lemmas.BartTV
import Verif.Props.Convergence
/-!
# The distribution of the states converges to the posterior distribution

The distance between distributions is the total variation: the largest difference in the probability of
the same event.
-/

set_option autoImplicit false

namespace Bartz
open Jax Spec MeasureTheory ProbabilityTheory Filter Topology
open scoped ENNReal

/-! ### C74 -/

section
variable {K : Type} [KeyLike K] {a : InitArgs ℝ}

/-- C74. From any starting state, the distribution of the parameters after `n` steps converges in total
variation to the posterior distribution. The error `e` does not depend on the random number generator,
and it bounds at the same time the error on the probability of all events. -/
theorem C74_total_variation (ha : ValidArgs a) (hp : ProperSettings a)
    (hm : ∃ m, 1 ≤ m ∧ a.min_points_per_leaf = some m) {s : State ℝ}
    (hc : Consistent a s) (hs : 0 < s.sigma2) :
    ∃ e : Nat → ℝ, Tendsto e atTop (𝓝 0) ∧
      ∀ (n : Nat) (key : K) (rng : (Fin n → StepDraws a.num_trees (nodes a)) → Rng K ℝ), RunSites a key n rng →
        ∀ A, MeasurableSet A →
          |(Measure.pi fun _ => stepDraws a).real {O | paramsOf a (chain (step (rng O)) s key n) ∈ A} -
            (posterior a).real A| ≤ e n := by
  have hu := usable_of ha hp
  obtain ⟨e, he, h⟩ := step_tv hu hp.nonterminal hp.alpha hp.beta hm (possibleParams_of hc hs)
  refine ⟨e, he, fun n key rng hr A hA => ?_⟩
  rw [measureReal_def, chain_prob hu hp.alpha hp.beta hc hs hr hA]
  exact h n A hA

/-- C74. The final state of `run_mcmc`, as the total number of iterations grows. -/
theorem C74_run_mcmc (ha : ValidArgs a) (hp : ProperSettings a)
    (hm : ∃ m, 1 ≤ m ∧ a.min_points_per_leaf = some m) :
    ∃ e : Nat → ℝ, Tendsto e atTop (𝓝 0) ∧
      ∀ (n_burn n_save n_skip : Nat) (key : K)
        (rng : (Fin (n_burn + n_save * n_skip) → StepDraws a.num_trees (nodes a)) → Rng K ℝ),
        RunSites a key (n_burn + n_save * n_skip) rng → ∀ A, MeasurableSet A →
          |(Measure.pi fun _ => stepDraws a).real
            {O | paramsOf a (run_mcmc (rng O) (init a) n_burn n_save n_skip key).bart ∈ A} -
              (posterior a).real A| ≤ e (n_burn + n_save * n_skip) := by
  obtain ⟨e, he, h⟩ := C74_total_variation (K := K) ha hp hm
    ((C68_consistent (K := K) ha hp).1 _ .init) (init_sigma2_pos a)
  refine ⟨e, he, fun n_burn n_save n_skip key rng hr A hA => ?_⟩
  simp only [C42_final]
  exact h _ key rng hr A hA

end

section
variable {K P : Type} [KeyLike K] [Field P] [LinearOrder P] [IsStrictOrderedRing P] {lib : Lib ℝ P}
  {a : GbartArgs K ℝ}

theorem getD_map_range {β : Type} {n : Nat} {f : Nat → β} {i : Nat} (h : i < n) (d : β) :
    ((List.range n).map f).getD i d = f i := by simp [h]

/-- C74. The samples returned by `gbart`: the joint distribution of the predictions `yhat_test[k, :]` and of
the error standard deviation `sigma[k]` is close to the posterior distribution of the regression function at
the test points and of the standard deviation, if the number `nskip + (k + 1) * keepevery` of iterations up
to sample `k` is large. -/
theorem C74_gbart (h : ValidGbart lib a) (hp : ProperGbart lib a) (hacc : AccurateLinspace lib a)
    (hy : 0 < a.y_train.length) (hn : a.y_train.length < 2 ^ 64) (hc : a.numcut + 1 < 2 ^ 64)
    {sp : Splits P}
    (hsp : determine_splits lib a.x_train.x a.x_train.n a.usequants a.numcut = some sp)
    [IsProbabilityMeasure (stepDraws (gbart_init_args lib a sp))]
    (rng : (Nat → StepDraws (gbart_init_args lib a sp).num_trees (nodes (gbart_init_args lib a sp))) → Rng K ℝ)
    (hr : EndlessSites (gbart_init_args lib a sp) a.key rng) {x : Predictors ℝ} (hx : a.x_test = some x) :
    ∃ e : Nat → ℝ, Tendsto e atTop (𝓝 0) ∧
      ∀ nskip keepevery ndpost k, k < ndpost → ∀ B : Set ((Fin x.n → ℝ) × ℝ), MeasurableSet B →
        |(endlessDraws (gbart_init_args lib a sp)).real {O | ∃ g y,
            gbart lib (rng O) { a with nskip := nskip, keepevery := keepevery, ndpost := ndpost } = some g ∧
            g.yhat_test = some y ∧ ((fun j : Fin x.n => (y.getD k []).getD j 0), g.sigma.getD k 0) ∈ B} -
          (posterior (gbart_init_args lib a sp)).real {θ |
            ((fun j : Fin x.n => (gbart_settings lib a).offset + (gbart_settings lib a).scale *
              ∑ t, treeValue (gbart_bin_predictors lib x.x sp.splits) j (θ.1 t)),
              (gbart_settings lib a).scale * √θ.2) ∈ B}| ≤ e (nskip + (k + 1) * keepevery) := by
  have hv := gbart_args_valid h hsp
  have hps := gbart_proper h hp hsp hacc hn hc hy
  have hu := usable_of hv hps
  have hcon := (C68_consistent (K := K) hv hps).1 _ .init
  have hpos := init_sigma2_pos (gbart_init_args lib a sp)
  obtain ⟨e, he, hA⟩ := step_tv hu hps.nonterminal hps.alpha hps.beta hp.points (possibleParams_of hcon hpos)
  refine ⟨e, he, fun nskip keepevery ndpost k hk B hB => ?_⟩
  set f : Params (gbart_init_args lib a sp).num_trees (nodes (gbart_init_args lib a sp)) → (Fin x.n → ℝ) × ℝ :=
    fun θ => ((fun j => (gbart_settings lib a).offset + (gbart_settings lib a).scale *
      ∑ t, treeValue (gbart_bin_predictors lib x.x sp.splits) j (θ.1 t)), (gbart_settings lib a).scale * √θ.2) with hf
  have hfm : Measurable f := by
    refine Measurable.prodMk (measurable_pi_lambda _ fun j => ?_) (by fun_prop)
    refine measurable_const.add (measurable_const.mul (Finset.measurable_sum _ fun t _ => ?_))
    exact (measurable_treeValue _ _).comp ((measurable_pi_apply t).comp measurable_fst)
  have key := hA (nskip + (k + 1) * keepevery) (f ⁻¹' B) (hfm hB)
  rw [measureReal_def, ← endless_prob hu hps.alpha hps.beta hcon hpos hr (hfm hB), ← measureReal_def] at key
  refine le_trans (le_of_eq ?_) key
  congr 2
  refine measureReal_congr ?_
  filter_upwards [endless_ae (a := gbart_init_args lib a sp)] with O hO
  have hl := endless_lawful hr hO
  set a' : GbartArgs K ℝ := { a with nskip := nskip, keepevery := keepevery, ndpost := ndpost } with ha'
  have hv' : ValidGbart lib a' := ⟨h.depth_ge, h.depth_le, h.predictors_pos, h.predictors_lt, h.length, h.row,
    h.datapoints, h.nonterminal_pos, h.x_test, h.numcut_lt, h.overflow⟩
  obtain ⟨sp', g, hg, hs⟩ := gbart_spec hl hv'
  have es := hs.splits_eq
  have hsp' : determine_splits lib a'.x_train.x a'.x_train.n a'.usequants a'.numcut = some sp := hsp
  rw [hsp', Option.some.injEq] at es
  subst es
  have hyt : g.yhat_test = some (predictions lib (rng O) a' sp x.x x.n) := by
    rw [hs.yhat_test]
    have : a'.x_test = some x := hx
    rw [this, Option.bind_some]
    exact hs.predict_eq hv' hl x (h.x_test x hx)
  have hinv := reachable_inv hv (C42_reachable (rng O) _ a.key .init hl (nskip + (k + 1) * keepevery))
  have efun : ((fun j : Fin x.n => ((predictions lib (rng O) a' sp x.x x.n).getD k []).getD j 0),
      g.sigma.getD k 0) = f (paramsOf (gbart_init_args lib a sp) (chain (step (rng O))
        (init (gbart_init_args lib a sp)) a.key (nskip + (k + 1) * keepevery))) := by
    refine Prod.ext ?_ ?_
    · funext j
      rw [hf]
      dsimp only
      rw [← forest_sum hv hinv]
      unfold predictions
      have hk' : k < a'.ndpost := hk
      rw [getD_map_range hk', getD_map_range j.2]
      simp [forestAt, gbart_init_args, setup_args, gbartState]
      rfl
    · rw [hs.sigma]
      have hk' : k < a'.ndpost := hk
      rw [getD_map_range hk']
      rfl
  refine eq_iff_iff.2 ⟨?_, fun hB' => ⟨g, _, hg, hyt, ?_⟩⟩
  · rintro ⟨g', y, h1, h2, h3⟩
    rw [hg, Option.some.injEq] at h1
    subst h1
    rw [hyt, Option.some.injEq] at h2
    subst h2
    rw [efun] at h3
    exact h3
  · rw [efun]
    exact hB'

end

/-! ### Examples -/

namespace ExQ
open ExB (FreeKey)

/-- The probability that the first tree is `T1` and the second one is a root converges to the posterior
probability. -/
example : Tendsto (fun n => (Measure.pi fun _ => stepDraws ExR.args).real
    {O : Fin n → StepDraws ExR.args.num_trees (nodes ExR.args) |
      paramsOf ExR.args (chain (step (runRng O)) (init ExR.args) [] n) ∈ event}) atTop
    (𝓝 ((posterior ExR.args).real event)) := by
  obtain ⟨e, he, h⟩ := C74_total_variation (K := FreeKey) ExR.args_valid args_proper args_points
    ((C68_consistent (K := FreeKey) ExR.args_valid args_proper).1 _ .init) ExR.sigma2_pos
  have hA : MeasurableSet event := (posterior_config (usable_of ExR.args_valid args_proper)
    args_proper.nonterminal args_proper.alpha args_proper.beta
    (C := fun t => if t.val = 0 then T1 else rootT ExR.args)
    (fun t => by split_ifs; exacts [T1_possible, root_possible _])).1
  rw [tendsto_iff_dist_tendsto_zero]
  exact squeeze_zero (fun _ => dist_nonneg) (fun n => h n [] runRng (runRng_sites _ n) _ hA) he

example := C74_run_mcmc (K := FreeKey) ExR.args_valid args_proper args_points

/-- The hypotheses of C74 about `gbart` are met. -/
example : ∃ sp, determine_splits ExGR.lib gargs.x_train.x gargs.x_train.n gargs.usequants gargs.numcut = some sp ∧
    ∃ _ : IsProbabilityMeasure (stepDraws (gbart_init_args ExGR.lib gargs sp)),
      ∃ e : Nat → ℝ, Tendsto e atTop (𝓝 0) ∧ ∀ nskip,
        |(endlessDraws (gbart_init_args ExGR.lib gargs sp)).real {O | ∃ g y,
            gbart ExGR.lib (endlessRng O) { gargs with nskip := nskip } = some g ∧
            g.yhat_test = some y ∧ (y.getD 0 []).getD 1 0 ≤ 5 ∧ g.sigma.getD 0 0 ≤ 2} -
          (posterior (gbart_init_args ExGR.lib gargs sp)).real {θ |
            (gbart_settings ExGR.lib gargs).offset + (gbart_settings ExGR.lib gargs).scale *
              ∑ t, treeValue (gbart_bin_predictors ExGR.lib [[1, 6], [1, 2]] sp.splits) 1 (θ.1 t) ≤ 5 ∧
            (gbart_settings ExGR.lib gargs).scale * √θ.2 ≤ 2}| ≤ e (nskip + (0 + 1) * 2) := by
  obtain ⟨sp, hsp, -⟩ := determine_splits_spec ExGR.lib gargs.x_train.x gargs.x_train.n gargs.usequants
    gargs.numcut (by simp [gargs])
  have hps := gbart_proper gargs_valid gargs_proper hsp gargs_accurate (by simp [gargs]) (by simp [gargs])
    (by simp [gargs])
  have := stepDraws_prob hps.alpha
  obtain ⟨e, he, h⟩ := C74_gbart gargs_valid gargs_proper gargs_accurate (by simp [gargs]) (by simp [gargs])
    (by simp [gargs]) hsp endlessRng (endlessRng_sites _)
    (x := { x := [[1, 6], [1, 2]], n := 2, columns := none }) rfl
  refine ⟨sp, hsp, this, e, he, fun nskip => ?_⟩
  have hB : MeasurableSet {p : (Fin 2 → ℝ) × ℝ | p.1 1 ≤ 5 ∧ p.2 ≤ 2} := by
    refine .inter ?_ ?_
    · exact measurableSet_le ((measurable_pi_apply 1).comp measurable_fst) measurable_const
    · exact measurableSet_le measurable_snd measurable_const
  exact h nskip 2 2 0 (by norm_num) _ hB

end ExQ
end Bartz
