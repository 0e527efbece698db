import Verif.Lemmas.ReorderGbart
import Verif.Props.Gbart
import Verif.Props.GbartExact
/-!
# Property C78: the order of the datapoints does not matter
-/

set_option autoImplicit false

namespace Bartz
open Jax Spec

section
variable {F : Type} [Inhabited F]

theorem select_reorder (σ : List Nat) (s : State F) :
    select_fields (reorderState σ s) tracelist_main = select_fields s tracelist_main := by
  rfl

theorem empty_reorder (σ : List Nat) (s : State F) :
    empty_trace (reorderState σ s) tracelist_main = empty_trace s tracelist_main := by
  rfl

end

section
variable {K P : Type} [KeyLike K] [Field P] [LinearOrder P]
  {lib : Lib ℝ P} {rng : Rng K ℝ} {a : GbartArgs K ℝ} {σ : List Nat}

omit [KeyLike K] [Field P] [LinearOrder P] in
theorem meanAxis0_reorder {n : Nat} (hσ : σ.Perm (List.range n)) {m : List (List ℝ)}
    (hm : ∀ row ∈ m, row.length = n) : meanAxis0 n (m.map (reorder σ)) = reorder σ (meanAxis0 n m) := by
  have hl : (meanAxis0 n m).length = n := length_vmap _ _
  have hσl : σ.length = n := by simpa using hσ.length_eq
  apply List.ext_getElem
  · rw [length_reorder, hσl]
    exact length_vmap _ _
  · intro j h1 h2
    have hj : j < n := by rwa [length_reorder, hσl] at h2
    have hlt : σ.getD j 0 < n := by
      rw [List.getD_eq_getElem _ _ (by omega)]
      exact mem_of_perm hσ (List.getElem_mem _)
    have e := getD_reorder (0 : ℝ) 0 hσ hl hj
    rw [List.getD_eq_getElem _ _ h2] at e
    rw [e, ← List.getD_eq_getElem _ 0 h1]
    unfold meanAxis0
    rw [getD_vmap hlt, getD_vmap hj, List.map_map]
    congr 1
    refine List.map_congr_left fun row hr => ?_
    exact getD_reorder _ _ hσ (hm row hr) hj

/-- C78. In exact arithmetic, the results of `gbart` do not depend on the order of the datapoints in the training set:
with the same seed, the settings, the cutpoints, the samples of trees and error variance, and the predictions on the
test set are the same, and the predictions on the training set are reordered. -/
theorem C78_reorder (hl : LawfulLstsq lib.lstsq) (h : ValidGbart lib a) (hrng : LawfulRng rng)
    (hσ : σ.Perm (List.range a.y_train.length)) :
    ∃ g g', gbart lib rng a = some g ∧ gbart lib rng (reorderArgs σ a) = some g' ∧ ReorderedFit lib σ g g' := by
  obtain ⟨sp, g, hg, hs⟩ := gbart_spec hrng h
  have h' := reorderArgs_valid h hσ
  obtain ⟨sp', g', hg', hs'⟩ := gbart_spec hrng h'
  have hset := settings_reorder (lib := lib) hl hσ h.row
  have hspl : sp' = sp := by
    have e := hs'.splits_eq
    simp only [reorderArgs] at e
    rw [splits_reorder hσ h.row, hs.splits_eq, Option.some.injEq] at e
    exact e.symm
  subst hspl
  have hst := gbartState_reorder hl h hrng hσ hs.splits_eq
  have htrace : g'.main_trace = g.main_trace := by
    rw [hs.trace, hs'.trace, run_mcmc_eq, run_mcmc_eq]
    change (if a.ndpost > 0 then stack_outputs ((List.range a.ndpost).map fun j =>
        select_fields (gbartState lib rng (reorderArgs σ a) sp' (a.nskip + (j + 1) * a.keepevery)) tracelist_main)
        else empty_trace (gbartState lib rng (reorderArgs σ a) sp' a.nskip) tracelist_main) = _
    simp only [hst, select_reorder, empty_reorder]
    rfl
  have hfmt : g'.x_train_fmt = g.x_train_fmt := by
    rw [hs.fmt, hs'.fmt]
    simp [predictor_format, reorderArgs]
  have hpred : ∀ x, g'.predict lib x = g.predict lib x := by
    intro x
    unfold Gbart.predict
    rw [hfmt, htrace, hs.splits, hs'.splits, hs.offset, hs.scale, hs'.offset, hs'.scale, hset]
  have hattr : g' = { g with mcmc_state := reorderState σ g.mcmc_state } := by
    have e1 : g'.offset = g.offset := by rw [hs.offset, hs'.offset, hset]
    have e2 : g'.scale = g.scale := by rw [hs.scale, hs'.scale, hset]
    have e3 : g'.lamda = g.lamda := by rw [hs.lamda, hs'.lamda, hset]
    have e4 : g'.sigest = g.sigest := by rw [hs.sigest, hs'.sigest, hset]
    have e5 : g'.ntree = g.ntree := by rw [hs.ntree, hs'.ntree]; rfl
    have e6 : g'.maxdepth = g.maxdepth := by rw [hs.maxdepth, hs'.maxdepth]; rfl
    have e7 : g'.sigma = g.sigma := by
      rw [hs.sigma, hs'.sigma, hset]
      simp only [hst]
      rfl
    have e8 : g'.first_sigma = g.first_sigma := by
      rw [hs.first_sigma, hs'.first_sigma, hset]
      simp only [hst]
      rfl
    have e9 : g'.splits = g.splits := by rw [hs.splits, hs'.splits]
    have e10 : g'.mcmc_state = reorderState σ g.mcmc_state := by rw [hs.state, hs'.state, hst]; rfl
    have e11 : g'.yhat_test = g.yhat_test := by
      rw [hs.yhat_test, hs'.yhat_test]
      simp only [hpred]
      rfl
    have e12 : g'.yhat_test_mean = g.yhat_test_mean := by
      rw [hs.yhat_test_mean, hs'.yhat_test_mean]
      simp only [hpred]
      rfl
    cases g
    cases g'
    simp only [Gbart.mk.injEq]
    exact ⟨e1, e2, e3, e4, e5, e6, e7, e8, hfmt, e9, htrace, e10, e11, e12⟩
  have hlen : ∀ j, j < a.y_train.length → σ.getD j 0 < a.y_train.length := by
    intro j hj
    have := hσ.length_eq
    simp only [List.length_range] at this
    rw [List.getD_eq_getElem _ _ (by omega)]
    exact mem_of_perm hσ (List.getElem_mem _)
  have hy : predictions lib rng (reorderArgs σ a) sp' (reorderArgs σ a).x_train.x (reorderArgs σ a).x_train.n =
      (predictions lib rng a sp' a.x_train.x a.x_train.n).map (reorder σ) := by
    unfold predictions
    rw [hset]
    simp only [hst, List.map_map]
    refine List.map_congr_left fun k _ => ?_
    simp only [Function.comp]
    generalize hsv : gbartState lib rng a sp' (a.nskip + (k + 1) * a.keepevery) = s
    have hσl : σ.length = a.y_train.length := by simpa using hσ.length_eq
    apply List.ext_getElem
    · simp [reorderArgs, h.length, hσl]
    · intro j h1 h2
      simp only [reorderArgs, List.length_map, List.length_range, h.length] at h1
      have hj := hlen j h1
      have e1 := getD_reorder (α := ℝ) default default hσ
        (l := (List.range a.x_train.n).map fun j => (gbart_settings lib a).offset + (gbart_settings lib a).scale *
          forestAt (a.maxdepth - 1) a.ntree s
            ((gbart_bin_predictors lib a.x_train.x sp'.splits).map fun row => row.getD j 0)) (by simp [h.length]) h1
      rw [List.getD_eq_getElem _ _ h2, List.getD_eq_getElem _ _ (by simpa [h.length] using hj)] at e1
      rw [e1]
      simp only [List.getElem_map, List.getElem_range]
      have e2 : ((gbart_bin_predictors lib (reorderArgs σ a).x_train.x sp'.splits).map fun row => row.getD j 0) =
          (gbart_bin_predictors lib a.x_train.x sp'.splits).map fun row => row.getD (σ.getD j 0) 0 := by
        simp only [reorderArgs]
        rw [bins_reorder hσ h.row, List.map_map]
        refine List.map_congr_left fun row hr => ?_
        have hrow : row.length = a.y_train.length := by
          have := (gbart_args_valid h hs.splits_eq).X_row row hr
          simpa [gbart_init_args, setup_args, transform_input] using this
        exact getD_reorder 0 0 hσ hrow h1
      rw [e2, ← hsv]
      rfl
  refine ⟨g, g', hg, hg', hattr, ?_, ?_⟩
  · rw [hs.yhat_train_eq h hrng, hs'.yhat_train_eq h' hrng, hy]
    rfl
  · unfold Gbart.yhat_train_mean
    rw [hs.yhat_train_eq h hrng, hs'.yhat_train_eq h' hrng, hy]
    have hn : g.mcmc_state.y.length = a.y_train.length := by
      rw [hs.state, (reachable_inv (gbart_args_valid h hs.splits_eq) (gbartState_reachable hrng _ _ _)).cfg.y]
      simp [gbart_init_args, setup_args, transform_input]
    have hn' : g'.mcmc_state.y.length = a.y_train.length := by
      rw [hattr]
      simpa [reorderState] using hσ.length_eq
    simp only [Option.map_some, Option.some.injEq]
    rw [hn, hn']
    refine meanAxis0_reorder hσ ?_
    intro row hr
    simp only [predictions, List.mem_map] at hr
    obtain ⟨k, -, rfl⟩ := hr
    simp [h.length]

end

namespace ExO
open ExGR
open scoped Ex

/-- the datapoints in the order 2, 0, 3, 1 -/
example (rng : Rng Unit ℝ) (hrng : LawfulRng rng) :
    ∃ g g', gbart lib rng args = some g ∧ gbart lib rng (reorderArgs [2, 0, 3, 1] args) = some g' ∧
      ReorderedFit lib [2, 0, 3, 1] g g' :=
  C78_reorder lstsq_lawful args_valid hrng (by simp [args]; decide)

example : (reorderArgs [2, 0, 3, 1] args).x_train.x = [[2, 1, 8, 5], [3, 0, 3, 0]] ∧
    (reorderArgs [2, 0, 3, 1] args).y_train = [8, 0, 12, 4] := by
  simp [reorderArgs, args, reorder]

end ExO

end Bartz
