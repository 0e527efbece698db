import Verif.Lemmas.RelabelGbart
import Verif.Props.Convergence
import Verif.Props.Reorder
/-!
# Property C87: the order of the predictors does not matter

With the predictors in another order, the random choices of the variables by the MCMC are different, so the samples are
different. However, the target distribution is the same, apart from the names of the variables.
-/

set_option autoImplicit false

namespace Bartz
open Jax Spec MeasureTheory ProbabilityTheory Filter Topology

section
variable {a : InitArgs ℝ} {σ : List Nat}

/-- C87. The posterior distribution with the predictors in another order is the original one with the names of the
variables changed in the decision rules: predictor `v` becomes predictor `σ.idxOf v`. -/
theorem C87_posterior (ha : ValidArgs a) (hσ : σ.Perm (List.range a.max_split.length)) :
    posterior (reorderPredictors σ a) = (posterior a).map (relabelParams σ.idxOf) :=
  posterior_relabel (renames_reorder hσ ha.X_length rfl)

theorem treeValue_params (hσ : σ.Perm (List.range a.max_split.length)) {X : List (List Nat)}
    (hX : X.length = a.max_split.length) {θ : Params a.num_trees (nodes a)} (hθ : ∀ t, PossibleTree a (θ.1 t).1)
    (j : Nat) (t : Fin a.num_trees) :
    treeValue (reorder σ X) j ((relabelParams σ.idxOf θ).1 t) = treeValue X j (θ.1 t) :=
  treeValue_relabel (renames_reorder hσ hX rfl) (possible_below (hθ t)) j _

theorem measurable_predictions {nt N : Nat} (X : List (List Nat)) :
    Measurable fun θ : Params nt N => ((fun j : Nat => ∑ t, treeValue X j (θ.1 t)), θ.2) := by
  refine Measurable.prodMk (measurable_pi_lambda _ fun j => ?_) measurable_snd
  exact Finset.measurable_sum _ fun t _ =>
    (measurable_treeValue X j).comp ((measurable_pi_apply t).comp measurable_fst)

/-- C87. The joint posterior distribution of the regression function at any points, and of the error variance, does not
depend on the order of the predictors. -/
theorem C87_predictions (ha : ValidArgs a) (hσ : σ.Perm (List.range a.max_split.length)) {X : List (List Nat)}
    (hX : X.length = a.max_split.length) :
    (posterior (reorderPredictors σ a)).map
        (fun θ => ((fun j : Nat => ∑ t, treeValue (reorder σ X) j (θ.1 t)), θ.2)) =
      (posterior a).map (fun θ => ((fun j : Nat => ∑ t, treeValue X j (θ.1 t)), θ.2)) := by
  rw [C87_posterior ha hσ]
  refine (Measure.map_map (measurable_predictions (reorder σ X)) (measurable_relabelParams σ.idxOf)).trans ?_
  refine Measure.map_congr ?_
  filter_upwards [posterior_ae a] with θ hθ
  refine Prod.ext (funext fun j => ?_) rfl
  show ∑ t, treeValue (reorder σ X) j ((relabelParams σ.idxOf θ).1 t) = ∑ t, treeValue X j (θ.1 t)
  exact Finset.sum_congr rfl fun t _ => treeValue_params hσ hX hθ.tree j t

theorem integral_predict_reorder (ha : ValidArgs a) (hσ : σ.Perm (List.range a.max_split.length)) {X : List (List Nat)}
    (hX : X.length = a.max_split.length) (j : Nat) :
    ∫ θ, ∑ t, treeValue (reorder σ X) j (θ.1 t) ∂posterior (reorderPredictors σ a) =
      ∫ θ, ∑ t, treeValue X j (θ.1 t) ∂posterior a := by
  have hm : Measurable fun q : (Nat → ℝ) × ℝ => q.1 j := (measurable_pi_apply j).comp measurable_fst
  have h := congrArg (fun μ : Measure ((Nat → ℝ) × ℝ) => ∫ q, q.1 j ∂μ) (C87_predictions ha hσ hX)
  rw [integral_map (measurable_predictions _).aemeasurable hm.aestronglyMeasurable,
    integral_map (measurable_predictions _).aemeasurable hm.aestronglyMeasurable] at h
  exact h

theorem integral_sigma_reorder (ha : ValidArgs a) (hσ : σ.Perm (List.range a.max_split.length)) :
    ∫ θ, √θ.2 ∂posterior (reorderPredictors σ a) = ∫ θ, √θ.2 ∂posterior a := by
  have hm : Measurable fun q : (Nat → ℝ) × ℝ => √q.2 := by fun_prop
  have h := congrArg (fun μ : Measure ((Nat → ℝ) × ℝ) => ∫ q, √q.2 ∂μ) (C87_predictions ha hσ ha.X_length)
  rw [integral_map (measurable_predictions _).aemeasurable hm.aestronglyMeasurable,
    integral_map (measurable_predictions _).aemeasurable hm.aestronglyMeasurable] at h
  exact h

end

section
variable {K P : Type} [KeyLike K] [Field P] [LinearOrder P] [IsStrictOrderedRing P] {lib : Lib ℝ P}
  {a : GbartArgs K ℝ} {σ : List Nat}

/-- C87. The results of `gbart` do not depend on the order of the predictors (the same in the training and test set) in
the limit of a large number `ndpost` of iterations: almost surely, the difference of the predictions averaged over the
iterations, and of the average error standard deviation, between two runs with the predictors in different order, goes
to zero, whatever the random numbers used in the two runs. -/
theorem C87_gbart (hl : LawfulLstsq lib.lstsq) (h : ValidGbart lib a) (hp : ProperGbart lib a)
    (hacc : AccurateLinspace lib a) (hy : 0 < a.y_train.length) (hn : a.y_train.length < 2 ^ 64)
    (hc : a.numcut + 1 < 2 ^ 64) (hkeep : 1 ≤ a.keepevery) (hσ : σ.Perm (List.range a.x_train.x.length))
    {sp sp' : Splits P}
    (hsp : determine_splits lib a.x_train.x a.x_train.n a.usequants a.numcut = some sp)
    (hsp' : determine_splits lib (reorder σ a.x_train.x) a.x_train.n a.usequants a.numcut = some sp')
    [IsProbabilityMeasure (stepDraws (gbart_init_args lib a sp))]
    [IsProbabilityMeasure (stepDraws (gbart_init_args lib (reorderGbart σ a) sp'))]
    (rng : (Nat → StepDraws (gbart_init_args lib a sp).num_trees (nodes (gbart_init_args lib a sp))) → Rng K ℝ)
    (hr : EndlessSites (gbart_init_args lib a sp) a.key rng)
    (rng' : (Nat → StepDraws (gbart_init_args lib (reorderGbart σ a) sp').num_trees
      (nodes (gbart_init_args lib (reorderGbart σ a) sp'))) → Rng K ℝ)
    (hr' : EndlessSites (gbart_init_args lib (reorderGbart σ a) sp') a.key rng') :
    ∀ᵐ O ∂endlessDraws (gbart_init_args lib a sp),
    ∀ᵐ O' ∂endlessDraws (gbart_init_args lib (reorderGbart σ a) sp'), ∃ g g' : Nat → Gbart ℝ P,
      (∀ N, gbart lib (rng O) { a with ndpost := N } = some (g N)) ∧
      (∀ N, gbart lib (rng' O') { reorderGbart σ a with ndpost := N } = some (g' N)) ∧
      (∀ x, a.x_test = some x → ∃ y y' : Nat → List ℝ,
        (∀ N, (g N).yhat_test_mean = some (y N) ∧ (g' N).yhat_test_mean = some (y' N)) ∧
        ∀ j, j < x.n → Tendsto (fun N => (y' N).getD j 0 - (y N).getD j 0) atTop (𝓝 0)) ∧
      (∃ y y' : Nat → List ℝ,
        (∀ N, (g N).yhat_train_mean lib = some (y N) ∧ (g' N).yhat_train_mean lib = some (y' N)) ∧
        ∀ j, j < a.y_train.length → Tendsto (fun N => (y' N).getD j 0 - (y N).getD j 0) atTop (𝓝 0)) ∧
      Tendsto (fun N => Jax.mean (g' N).sigma - Jax.mean (g N).sigma) atTop (𝓝 0) := by
  obtain ⟨h1, hs1, hs2⟩ := splits_reorderPredictors hσ rfl _ _ _ hsp
  rw [h1, Option.some.injEq] at hsp'
  subst hsp'
  have hv := gbart_args_valid h hsp
  have hset := settings_reorderPredictors (lib := lib) hl hσ
  have harg := init_args_reorderPredictors (lib := lib) hl hσ hsp
  have hσ' : σ.Perm (List.range (gbart_init_args lib a sp).max_split.length) := by
    rw [show (gbart_init_args lib a sp).max_split.length = a.x_train.x.length from hs2]
    exact hσ
  have hlen : ∀ x : List (List ℝ), x.length = a.x_train.x.length →
      (gbart_bin_predictors lib x sp.splits).length = (gbart_init_args lib a sp).max_split.length := by
    intro x hx
    rw [show (gbart_init_args lib a sp).max_split.length = a.x_train.x.length from hs2]
    simp [gbart_bin_predictors, bin_predictors, exact_matrix, hs1, hx]
  have ecol : ∀ (x : List (List ℝ)) (j : Nat), x.length = a.x_train.x.length →
      ∫ θ, ∑ t, treeValue (gbart_bin_predictors lib (reorder σ x) (reorderSplits σ sp).splits) j (θ.1 t)
          ∂posterior (gbart_init_args lib (reorderGbart σ a) (reorderSplits σ sp)) =
        ∫ θ, ∑ t, treeValue (gbart_bin_predictors lib x sp.splits) j (θ.1 t) ∂posterior (gbart_init_args lib a sp) := by
    intro x j hx
    rw [harg, ← integral_predict_reorder hv hσ' (hlen x hx) j, ← bins_reorderPredictors hσ hx hs1]
    rfl
  have esig : ∫ θ, √θ.2 ∂posterior (gbart_init_args lib (reorderGbart σ a) (reorderSplits σ sp)) =
      ∫ θ, √θ.2 ∂posterior (gbart_init_args lib a sp) := by
    rw [harg]
    exact integral_sigma_reorder hv hσ'
  have H := C73_gbart h hp hacc hy hn hc hkeep hsp rng hr
  have H' := C73_gbart (reorderGbart_valid h hσ) (reorderGbart_proper hl hp hσ) hacc hy hn hc hkeep h1 rng' hr'
  filter_upwards [H] with O hO
  filter_upwards [H'] with O' hO'
  obtain ⟨g, hg, ht, ⟨yt, hyt, hyt'⟩, hsig⟩ := hO
  obtain ⟨g', hg', ht', ⟨yt', hyt2, hyt2'⟩, hsig'⟩ := hO'
  refine ⟨g, g', hg, hg', ?_, ?_, ?_⟩
  · intro x hx
    obtain ⟨y, hy1, hy2⟩ := ht x hx
    obtain ⟨y', hy1', hy2'⟩ := ht' (reorderMatrix σ x) (by simp [reorderGbart, hx])
    refine ⟨y, y', fun N => ⟨hy1 N, hy1' N⟩, fun j hj => ?_⟩
    have := (hy2' j hj).sub (hy2 j hj)
    rw [hset, show (reorderMatrix σ x).x = reorder σ x.x from rfl, ecol x.x j (h.x_test x hx).2, sub_self] at this
    exact this
  · refine ⟨yt, yt', fun N => ⟨hyt N, hyt2 N⟩, fun j hj => ?_⟩
    have := (hyt2' j hj).sub (hyt' j hj)
    have e : ∫ θ, ∑ t, treeValue (gbart_init_args lib (reorderGbart σ a) (reorderSplits σ sp)).X j (θ.1 t)
          ∂posterior (gbart_init_args lib (reorderGbart σ a) (reorderSplits σ sp)) =
        ∫ θ, ∑ t, treeValue (gbart_init_args lib a sp).X j (θ.1 t) ∂posterior (gbart_init_args lib a sp) :=
      ecol a.x_train.x j rfl
    rwa [hset, e, sub_self] at this
  · have := hsig'.sub hsig
    rwa [hset, esig, sub_self] at this

end

namespace ExQ
open ExGR
open scoped Ex

/-- The hypotheses of C87 are met: the two predictors are swapped. -/
example : ∃ sp sp', determine_splits ExGR.lib gargs.x_train.x gargs.x_train.n gargs.usequants gargs.numcut = some sp ∧
    determine_splits ExGR.lib [[0, 0, 3, 3], [1, 5, 2, 8]] gargs.x_train.n gargs.usequants gargs.numcut = some sp' ∧
    ∃ (_ : IsProbabilityMeasure (stepDraws (gbart_init_args ExGR.lib gargs sp)))
      (_ : IsProbabilityMeasure (stepDraws (gbart_init_args ExGR.lib (reorderGbart [1, 0] gargs) sp'))),
      ∀ᵐ O ∂endlessDraws (gbart_init_args ExGR.lib gargs sp),
      ∀ᵐ O' ∂endlessDraws (gbart_init_args ExGR.lib (reorderGbart [1, 0] gargs) sp'), ∃ y y' : Nat → List ℝ,
        (∀ N, ∃ g, gbart ExGR.lib (endlessRng O) { gargs with ndpost := N } = some g ∧
          g.yhat_test_mean = some (y N)) ∧
        (∀ N, ∃ g, gbart ExGR.lib (endlessRng O') { reorderGbart [1, 0] gargs with ndpost := N } = some g ∧
          g.yhat_test_mean = some (y' N)) ∧
        Tendsto (fun N => (y' N).getD 1 0 - (y N).getD 1 0) atTop (𝓝 0) := by
  have hσ : [1, 0].Perm (List.range gargs.x_train.x.length) := by simp [gargs]; decide
  obtain ⟨sp, hsp, -⟩ := determine_splits_spec ExGR.lib gargs.x_train.x gargs.x_train.n gargs.usequants
    gargs.numcut (by simp [gargs])
  obtain ⟨hsp', -⟩ := splits_reorderPredictors hσ rfl _ _ _ hsp
  have hps := gbart_proper gargs_valid gargs_proper hsp gargs_accurate (by simp [gargs]) (by simp [gargs])
    (by simp [gargs])
  have hps' := gbart_proper (reorderGbart_valid gargs_valid hσ) (reorderGbart_proper lstsq_lawful gargs_proper hσ) hsp'
    gargs_accurate (by simp [gargs, reorderGbart]) (by simp [gargs, reorderGbart]) (by simp [gargs, reorderGbart])
  refine ⟨sp, _, hsp, hsp', stepDraws_prob hps.alpha, stepDraws_prob hps'.alpha, ?_⟩
  have := stepDraws_prob hps.alpha
  have := stepDraws_prob hps'.alpha
  filter_upwards [C87_gbart lstsq_lawful gargs_valid gargs_proper gargs_accurate (by simp [gargs]) (by simp [gargs])
    (by simp [gargs]) (by simp [gargs]) hσ hsp hsp' endlessRng (endlessRng_sites _) endlessRng (endlessRng_sites _)]
    with O hO
  filter_upwards [hO] with O' hO'
  obtain ⟨g, g', hg, hg', ht, -⟩ := hO'
  obtain ⟨y, y', hy, hy'⟩ := ht _ rfl
  exact ⟨y, y', fun N => ⟨g N, hg N, (hy N).1⟩, fun N => ⟨g' N, hg' N, (hy N).2⟩, hy' 1 (by norm_num)⟩

/-- change of the names of the variables in a tree with 3 leaves -/
example : relabel [2, 0, 1].idxOf ⟨[0, 2, 0, 1], [0, 3, 0, 2]⟩ = ⟨[0, 0, 0, 2], [0, 3, 0, 2]⟩ := by
  have h1 : IsDecision [0, 3, 0, 2] 1 := ⟨.root, by decide⟩
  have h3 : IsDecision [0, 3, 0, 2] 3 := ⟨.right .root (by decide), by decide⟩
  have h0 : ¬ IsDecision [0, 3, 0, 2] 0 := fun h => h.2 rfl
  have h2 : ¬ IsDecision [0, 3, 0, 2] 2 := fun h => h.2 rfl
  simp [relabel, List.range_succ, h0, h1, h2, h3, at0]

end ExQ
end Bartz
