import Verif.Lemmas.ReflectPost
import Verif.Props.Reflect
import Verif.Props.Convergence
/-!
# Property C103: change of sign of the response, in the limit of many iterations
-/

set_option autoImplicit false

namespace Bartz
open Jax Spec MeasureTheory ProbabilityTheory Filter
open scoped Topology

/-- C103. The posterior distribution with the opposite response is the original one with the opposite leaves. -/
theorem C103_posterior (a : InitArgs ℝ) : posterior (reflectInit a) = (posterior a).map reflectParams := posterior_reflect

theorem integral_predict_reflect (a : InitArgs ℝ) (X : List (List Nat)) (j : Nat) :
    ∫ θ, ∑ t, treeValue X j (θ.1 t) ∂posterior (reflectInit a) = -∫ θ, ∑ t, treeValue X j (θ.1 t) ∂posterior a := by
  have hm : Measurable fun θ : Params a.num_trees (nodes a) => ∑ t, treeValue X j (θ.1 t) :=
    Finset.measurable_sum _ fun t _ => (measurable_treeValue X j).comp ((measurable_pi_apply t).comp measurable_fst)
  rw [C103_posterior, ← integral_neg]
  refine (integral_map measurable_reflectParams.aemeasurable hm.aestronglyMeasurable).trans ?_
  congr 1
  funext θ
  rw [← Finset.sum_neg_distrib]
  exact Finset.sum_congr rfl fun t _ => treeValue_reflect X j θ t

theorem integral_sigma_reflect (a : InitArgs ℝ) :
    ∫ θ, √θ.2 ∂posterior (reflectInit a) = ∫ θ, √θ.2 ∂posterior a := by
  have hm : Measurable fun θ : Params a.num_trees (nodes a) => √θ.2 := by fun_prop
  rw [C103_posterior]
  exact integral_map measurable_reflectParams.aemeasurable hm.aestronglyMeasurable

section
variable {K P : Type} [KeyLike K] [Field P] [LinearOrder P] [IsStrictOrderedRing P] {lib : Lib ℝ P} {a : GbartArgs K ℝ}

omit [KeyLike K] [Field P] [IsStrictOrderedRing P] in
theorem init_args_reflect (hl : LawfulLstsq lib.lstsq) (sp : Splits P) :
    gbart_init_args lib (reflectArgs a) sp = reflectInit (gbart_init_args lib a sp) := by
  unfold gbart_init_args
  rw [settings_neg hl]
  simp only [reflectInit, reflectArgs, setup_args, transform_input, List.map_map]
  congr 1
  refine List.map_congr_left fun v _ => ?_
  simp only [Function.comp]
  ring

omit [KeyLike K] [Field P] [LinearOrder P] [IsStrictOrderedRing P] in
theorem proper_reflect (hl : LawfulLstsq lib.lstsq) (hp : ProperGbart lib a) : ProperGbart lib (reflectArgs a) where
  trees := hp.trees
  cuts := hp.cuts
  predictors := hp.predictors
  nonterminal := hp.nonterminal
  sigdf := hp.sigdf
  scale := by rw [settings_neg hl]; exact hp.scale
  lamda := by rw [settings_neg hl]; exact hp.lamda
  points := hp.points

/-- C103. If the sign of the response is changed, the results of `gbart` change sign in the limit of a large number `ndpost` of iterations,
whatever the random numbers used in the two runs: almost surely, the sum of the predictions averaged over the iterations, and the difference
of the average error standard deviation, go to zero. -/
theorem C103_gbart (hl : LawfulLstsq lib.lstsq) (h : ValidGbart lib a) (hp : ProperGbart lib a)
    (hacc : AccurateLinspace lib a) (hy : 0 < a.y_train.length) (hn : a.y_train.length < 2 ^ 64)
    (hc : a.numcut + 1 < 2 ^ 64) (hkeep : 1 ≤ a.keepevery) {sp : Splits P}
    (hsp : determine_splits lib a.x_train.x a.x_train.n a.usequants a.numcut = some sp)
    [IsProbabilityMeasure (stepDraws (gbart_init_args lib a sp))]
    [IsProbabilityMeasure (stepDraws (gbart_init_args lib (reflectArgs a) sp))]
    (rng : (Nat → StepDraws (gbart_init_args lib a sp).num_trees (nodes (gbart_init_args lib a sp))) → Rng K ℝ)
    (hr : EndlessSites (gbart_init_args lib a sp) a.key rng)
    (rng' : (Nat → StepDraws (gbart_init_args lib (reflectArgs a) sp).num_trees
      (nodes (gbart_init_args lib (reflectArgs a) sp))) → Rng K ℝ)
    (hr' : EndlessSites (gbart_init_args lib (reflectArgs a) sp) a.key rng') :
    ∀ᵐ O ∂endlessDraws (gbart_init_args lib a sp),
    ∀ᵐ O' ∂endlessDraws (gbart_init_args lib (reflectArgs a) sp), ∃ g g' : Nat → Gbart ℝ P,
      (∀ N, gbart lib (rng O) { a with ndpost := N } = some (g N)) ∧
      (∀ N, gbart lib (rng' O') { reflectArgs a with ndpost := N } = some (g' N)) ∧
      (∀ x, a.x_test = some x → ∃ y y' : Nat → List ℝ,
        (∀ N, (g N).yhat_test_mean = some (y N) ∧ (g' N).yhat_test_mean = some (y' N)) ∧
        ∀ j, j < x.n → Tendsto (fun N => (y' N).getD j 0 + (y N).getD j 0) atTop (𝓝 0)) ∧
      (∃ y y' : Nat → List ℝ,
        (∀ N, (g N).yhat_train_mean lib = some (y N) ∧ (g' N).yhat_train_mean lib = some (y' N)) ∧
        ∀ j, j < a.y_train.length → Tendsto (fun N => (y' N).getD j 0 + (y N).getD j 0) atTop (𝓝 0)) ∧
      Tendsto (fun N => Jax.mean (g' N).sigma - Jax.mean (g N).sigma) atTop (𝓝 0) := by
  have hset := settings_neg hl a
  have harg := init_args_reflect (a := a) hl sp
  have hlen : (reflectArgs a).y_train.length = a.y_train.length := List.length_map _
  have ecol : ∀ (X : List (List Nat)) (j : Nat),
      ∫ θ, ∑ t, treeValue X j (θ.1 t) ∂posterior (gbart_init_args lib (reflectArgs a) sp) =
        -∫ θ, ∑ t, treeValue X j (θ.1 t) ∂posterior (gbart_init_args lib a sp) := by
    intro X j
    rw [harg]
    exact integral_predict_reflect _ X j
  have esig : ∫ θ, √θ.2 ∂posterior (gbart_init_args lib (reflectArgs a) sp) =
      ∫ θ, √θ.2 ∂posterior (gbart_init_args lib a sp) := by
    rw [harg]
    exact integral_sigma_reflect _
  have hacc' : AccurateLinspace lib (reflectArgs a) := fun m h1 h2 => hacc m h1 (hlen ▸ h2)
  have H := C73_gbart h hp hacc hy hn hc hkeep hsp rng hr
  have H' := C73_gbart (reflectArgs_valid h) (proper_reflect hl hp) hacc' (hlen.symm ▸ hy) (hlen.symm ▸ hn) hc hkeep hsp rng' hr'
  filter_upwards [H] with O hO
  filter_upwards [H'] with O' hO'
  obtain ⟨g, hg, ht, ⟨yt, hyt, hyt'⟩, hsig⟩ := hO
  obtain ⟨g', hg', ht', ⟨yt', hyt2, hyt2'⟩, hsig'⟩ := hO'
  have alg : ∀ o s i : ℝ, -o + s * -i + (o + s * i) = 0 := fun o s i => by ring
  refine ⟨g, g', hg, hg', ?_, ?_, ?_⟩
  · intro x hx
    obtain ⟨y, hy1, hy2⟩ := ht x hx
    obtain ⟨y', hy1', hy2'⟩ := ht' x hx
    refine ⟨y, y', fun N => ⟨hy1 N, hy1' N⟩, fun j hj => ?_⟩
    have := (hy2' j hj).add (hy2 j hj)
    rwa [hset, ecol, alg] at this
  · refine ⟨yt, yt', fun N => ⟨hyt N, hyt2 N⟩, fun j hj => ?_⟩
    have := (hyt2' j (hlen.symm ▸ hj)).add (hyt' j hj)
    have e : (gbart_init_args lib (reflectArgs a) sp).X = (gbart_init_args lib a sp).X := by rw [harg]
    rwa [hset, ecol, e, alg] at this
  · have := hsig'.sub hsig
    rwa [hset, esig, sub_self] at this

end

namespace ExR2
open ExGR ExQ
open scoped Ex

/-- The hypotheses of C103 are met. -/
example : ∃ sp, determine_splits ExGR.lib gargs.x_train.x gargs.x_train.n gargs.usequants gargs.numcut = some sp ∧
    ∃ (_ : IsProbabilityMeasure (stepDraws (gbart_init_args ExGR.lib gargs sp)))
      (_ : IsProbabilityMeasure (stepDraws (gbart_init_args ExGR.lib (reflectArgs gargs) sp))),
      ∀ᵐ O ∂endlessDraws (gbart_init_args ExGR.lib gargs sp),
      ∀ᵐ O' ∂endlessDraws (gbart_init_args ExGR.lib (reflectArgs gargs) sp), ∃ y y' : Nat → List ℝ,
        (∀ N, ∃ g, gbart ExGR.lib (endlessRng O) { gargs with ndpost := N } = some g ∧
          g.yhat_test_mean = some (y N)) ∧
        (∀ N, ∃ g, gbart ExGR.lib (endlessRng O') { reflectArgs gargs with ndpost := N } = some g ∧
          g.yhat_test_mean = some (y' N)) ∧
        Tendsto (fun N => (y' N).getD 1 0 + (y N).getD 1 0) atTop (𝓝 0) := by
  obtain ⟨sp, hsp, -⟩ := determine_splits_spec ExGR.lib gargs.x_train.x gargs.x_train.n gargs.usequants
    gargs.numcut (by simp [gargs])
  have hps := gbart_proper gargs_valid gargs_proper hsp gargs_accurate (by simp [gargs]) (by simp [gargs])
    (by simp [gargs])
  have ha : 0 < (gbart_init_args ExGR.lib (reflectArgs gargs) sp).sigma2_alpha := by
    rw [init_args_reflect lstsq_lawful]
    exact hps.alpha
  refine ⟨sp, hsp, stepDraws_prob hps.alpha, stepDraws_prob ha, ?_⟩
  have := stepDraws_prob hps.alpha
  have := stepDraws_prob ha
  filter_upwards [C103_gbart lstsq_lawful gargs_valid gargs_proper gargs_accurate (by simp [gargs]) (by simp [gargs])
    (by simp [gargs]) (by simp [gargs]) hsp endlessRng (endlessRng_sites _) endlessRng (endlessRng_sites _)]
    with O hO
  filter_upwards [hO] with O' hO'
  obtain ⟨g, g', hg, hg', ht, -⟩ := hO'
  obtain ⟨y, y', hy, hy'⟩ := ht _ rfl
  exact ⟨y, y', fun N => ⟨g N, hg N, (hy N).1⟩, fun N => ⟨g' N, hg' N, (hy N).2⟩, hy' 1 (by norm_num)⟩

end ExR2
end Bartz
