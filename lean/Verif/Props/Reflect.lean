import Verif.Lemmas.ReflectGbart
import Verif.Props.Gbart
import Verif.Props.GbartExact
/-!
# Property C103: change of sign of the response
-/

set_option autoImplicit false

namespace Bartz
open Jax Spec

section
variable {K P : Type} [KeyLike K] [Field P] [LinearOrder P] {lib : Lib ℝ P} {rng : Rng K ℝ} {a : GbartArgs K ℝ}

omit [KeyLike K] [Field P] [LinearOrder P] in
theorem meanAxis0_neg {n : Nat} {m : List (List ℝ)} :
    meanAxis0 n (m.map fun row => row.map (-·)) = (meanAxis0 n m).map (-·) := by
  unfold meanAxis0
  rw [map_vmap]
  refine vmap_congr fun j _ => ?_
  rw [← mean_neg, List.map_map, List.map_map]
  congr 1
  refine List.map_congr_left fun row _ => ?_
  simp only [Function.comp]
  rw [List.getD_eq_getElem?_getD, List.getD_eq_getElem?_getD, List.getElem?_map]
  cases row[j]? with
  | some v => rfl
  | none => exact neg_zero.symm

omit [Field P] in
theorem predictions_neg (hl : LawfulLstsq lib.lstsq) (sp : Splits P) (x : List (List ℝ)) (n : Nat) :
    predictions lib (reflectRng rng) (reflectArgs a) sp x n = (predictions lib rng a sp x n).map fun row => row.map (-·) := by
  unfold predictions
  rw [settings_neg hl, List.map_map]
  refine List.map_congr_left fun k _ => ?_
  simp only [Function.comp, List.map_map]
  refine List.map_congr_left fun j _ => ?_
  simp only [Function.comp]
  have e : gbartState lib (reflectRng rng) (reflectArgs a) sp ((reflectArgs a).nskip + (k + 1) * (reflectArgs a).keepevery) =
    reflectState (gbartState lib rng a sp (a.nskip + (k + 1) * a.keepevery)) := gbartState_reflect hl _
  rw [e, forestAt_neg]
  change -(gbart_settings lib a).offset + (gbart_settings lib a).scale * -forestAt (a.maxdepth - 1) a.ntree _ _ = _
  ring

/-- C103. If the sign of the response is changed, the results of `gbart` in exact arithmetic are the same apart from the sign: if the
normal variates used to draw the leaves are changed of sign as well, which does not change their distribution, the trees, the error variance,
and everything else are the same, and the leaves and the predictions change sign. -/
theorem C103_reflect (hl : LawfulLstsq lib.lstsq) (h : ValidGbart lib a) (hrng : LawfulRng rng) :
    ∃ g g', gbart lib rng a = some g ∧ gbart lib (reflectRng rng) (reflectArgs a) = some g' ∧ ReflectedFit lib g g' := by
  obtain ⟨sp, g, hg, hs⟩ := gbart_spec hrng h
  have h' := reflectArgs_valid h
  have hrng' := lawful_reflect hrng
  obtain ⟨sp', g', hg', hs'⟩ := gbart_spec hrng' h'
  have esp : sp' = sp := Option.some.inj (hs'.splits_eq.symm.trans hs.splits_eq)
  subst esp
  have hset := settings_neg hl a
  have hst := gbartState_reflect (rng := rng) (a := a) (sp := sp') hl
  have hfmt : g'.x_train_fmt = g.x_train_fmt := by rw [hs.fmt, hs'.fmt]; rfl
  have hpred : ∀ x, g'.predict lib x = (g.predict lib x).map fun y => y.map fun row => row.map (-·) := by
    intro x
    cases hc : check_compatible_formats (predictor_format x) (predictor_format a.x_train) with
    | none =>
      unfold Gbart.predict
      rw [hfmt, hs.fmt, hc]
      rfl
    | some u =>
      rw [hs.predict_eq_of_check h hrng x hc, hs'.predict_eq_of_check h' hrng' x hc, predictions_neg hl]
      rfl
  have hy : g'.yhat_train lib = (g.yhat_train lib).map fun y => y.map fun row => row.map (-·) := by
    rw [hs.yhat_train_eq h hrng, hs'.yhat_train_eq h' hrng', predictions_neg hl]
    rfl
  have htrace : g'.main_trace = g.main_trace.map fun kv => (kv.1, kv.2.map reflectValue) := by
    rw [hs.trace, hs'.trace, run_mcmc_eq, run_mcmc_eq]
    change (if a.ndpost > 0 then stack_outputs ((List.range a.ndpost).map fun j =>
        select_fields (gbartState lib (reflectRng rng) (reflectArgs a) sp' (a.nskip + (j + 1) * a.keepevery)) tracelist_main)
        else empty_trace (gbartState lib (reflectRng rng) (reflectArgs a) sp' a.nskip) tracelist_main) = _
    simp only [hst, select_reflect, empty_reflect]
    split
    · rw [← stack_reflect, List.map_map]
      rfl
    · rfl
  have e10 : g'.mcmc_state = reflectState g.mcmc_state := by rw [hs.state, hs'.state, ← hst]; rfl
  refine ⟨g, g', hg, hg', ?_, hy, ?_, hpred⟩
  · have e1 : g'.offset = -g.offset := by rw [hs.offset, hs'.offset, hset]
    have e2 : g'.scale = g.scale := by rw [hs.scale, hs'.scale, hset]
    have e3 : g'.lamda = g.lamda := by rw [hs.lamda, hs'.lamda, hset]
    have e4 : g'.sigest = g.sigest := by rw [hs.sigest, hs'.sigest, hset]
    have e5 : g'.ntree = g.ntree := by rw [hs.ntree, hs'.ntree]; rfl
    have e6 : g'.maxdepth = g.maxdepth := by rw [hs.maxdepth, hs'.maxdepth]; rfl
    have e7 : g'.sigma = g.sigma := by
      rw [hs.sigma, hs'.sigma, hset]
      simp only [hst]
      rfl
    have e8 : g'.first_sigma = g.first_sigma := by
      rw [hs.first_sigma, hs'.first_sigma, hset]
      simp only [hst]
      rfl
    have e9 : g'.splits = g.splits := by rw [hs.splits, hs'.splits]
    have e11 : g'.yhat_test = g.yhat_test.map fun y => y.map fun row => row.map (-·) := by
      rw [hs.yhat_test, hs'.yhat_test]
      simp only [hpred]
      change a.x_test.bind _ = _
      cases a.x_test <;> rfl
    have e12 : g'.yhat_test_mean = g.yhat_test_mean.map fun row => row.map (-·) := by
      rw [hs.yhat_test_mean, hs'.yhat_test_mean]
      simp only [hpred]
      change a.x_test.bind _ = _
      cases a.x_test with
      | none => rfl
      | some x =>
        simp only [Option.bind_some, Option.map_map]
        congr 1
        funext y
        exact meanAxis0_neg
    cases g
    cases g'
    simp only [Gbart.mk.injEq]
    exact ⟨e1, e2, e3, e4, e5, e6, e7, e8, hfmt, e9, htrace, e10, e11, e12⟩
  · unfold Gbart.yhat_train_mean
    rw [hy, e10]
    simp only [Option.map_map]
    congr 1
    funext y
    simp only [Function.comp, reflectState, List.length_map]
    exact meanAxis0_neg

end

namespace ExR2
open ExGR
open scoped Ex

example (rng : Rng Unit ℝ) (hrng : LawfulRng rng) :
    ∃ g g', gbart lib rng args = some g ∧ gbart lib (reflectRng rng) (reflectArgs args) = some g' ∧ ReflectedFit lib g g' :=
  C103_reflect lstsq_lawful args_valid hrng

end ExR2

end Bartz
