import Verif.Lemmas.OppositeTrace
/-! # `gbart` with opposite data, given the settings -/

set_option autoImplicit false
set_option linter.unusedSectionVars false

namespace Bartz
open Jax Spec

section
variable {F P : Type} [Inhabited F] [Zero F] [One F] [Add F] [Sub F] [Mul F] [Div F] [Neg F] [NatCast F] [FltFun F]
variable [Field P] [LinearOrder P] {lib : Lib F P}
variable {R : F → F → Prop} {K : Type} [KeyLike K] {rng : Rng K F}

/-- the settings with opposite data -/
structure OppositeSettings (R : F → F → Prop) (s s' : Settings F) : Prop where
  offset : R s.offset s'.offset
  same : s' = { s with offset := s'.offset }

theorem output_rel (h : SignRel R) {y y' : List (List F)} (hy : List.Forall₂ (List.Forall₂ R) y y') {o o' : F} (ho : R o o') (scale : F) :
    List.Forall₂ (List.Forall₂ R) (transform_output y o scale) (transform_output y' o' scale) :=
  forall2_map (fun _ _ hr => forall2_map (fun _ _ hv => h.add _ _ _ _ ho (h.mul_left _ _ _ hv)) hr) hy

theorem mean_rel (h : SignRel R) {y y' : List F} (hy : List.Forall₂ R y y') : R (mean y) (mean y') := by
  unfold mean
  rw [← hy.length_eq]
  exact h.div _ _ _ (h.sum hy)

theorem meanAxis0_rel (h : SignRel R) {y y' : List (List F)} (hy : List.Forall₂ (List.Forall₂ R) y y') (n : Nat) :
    List.Forall₂ R (meanAxis0 n y) (meanAxis0 n y') :=
  forall2_vmap fun j _ => mean_rel h (forall2_map (fun _ _ hr => forall2_getD hr h.default_ j) hy)

theorem predict_rel (h : SignRel R) {g g' : Gbart F P} (ho : R g.offset g'.offset) (ht : OppositeTrace R g.main_trace g'.main_trace)
    (h1 : g'.scale = g.scale) (h2 : g'.x_train_fmt = g.x_train_fmt) (h3 : g'.splits = g.splits) (x : Predictors F) :
    Option.Rel (List.Forall₂ (List.Forall₂ R)) (g.predict lib x) (g'.predict lib x) := by
  unfold Gbart.predict
  rw [h1, h2, h3]
  cases check_compatible_formats (predictor_format x) g.x_train_fmt with
  | none => exact .none
  | some u =>
    have := evaluate_trace_rel h lib.isqrt (lib.nbytes x.n) x.n (gbart_bin_predictors lib x.x g.splits) ht
    revert this
    simp only [Option.bind_eq_bind, Option.bind_some]
    generalize evaluate_trace lib.isqrt (lib.nbytes x.n) x.n g.main_trace (gbart_bin_predictors lib x.x g.splits) = o
    generalize evaluate_trace lib.isqrt (lib.nbytes x.n) x.n g'.main_trace (gbart_bin_predictors lib x.x g.splits) = o'
    intro hr
    cases hr with
    | none => exact .none
    | some hr => exact .some (output_rel h hr ho _)

theorem yhat_train_rel (h : SignRel R) {g g' : Gbart F P} (ho : R g.offset g'.offset) (ht : OppositeTrace R g.main_trace g'.main_trace)
    (h1 : g'.scale = g.scale) (hs : OppositeState R g.mcmc_state g'.mcmc_state) :
    Option.Rel (List.Forall₂ (List.Forall₂ R)) (g.yhat_train lib) (g'.yhat_train lib) := by
  unfold Gbart.yhat_train
  have hX : g'.mcmc_state.X = g.mcmc_state.X := by rw [hs.same]
  rw [h1, hX, ← hs.y.length_eq]
  dsimp only
  have := evaluate_trace_rel h lib.isqrt (lib.nbytes g.mcmc_state.y.length) g.mcmc_state.y.length g.mcmc_state.X ht
  revert this
  generalize evaluate_trace lib.isqrt (lib.nbytes g.mcmc_state.y.length) g.mcmc_state.y.length g.main_trace g.mcmc_state.X = o
  generalize evaluate_trace lib.isqrt (lib.nbytes g.mcmc_state.y.length) g.mcmc_state.y.length g'.main_trace g.mcmc_state.X = o'
  intro hr
  cases hr with
  | none => exact .none
  | some hr => exact .some (output_rel h hr ho _)

theorem fit_rel (h : SignRel R) {g g' : Gbart F P} (ho : R g.offset g'.offset) (ht : OppositeTrace R g.main_trace g'.main_trace)
    (hs : OppositeState R g.mcmc_state g'.mcmc_state) (h1 : Option.Rel (List.Forall₂ (List.Forall₂ R)) g.yhat_test g'.yhat_test)
    (h2 : Option.Rel (List.Forall₂ R) g.yhat_test_mean g'.yhat_test_mean)
    (same : g' = { g with
      offset := g'.offset, main_trace := g'.main_trace, mcmc_state := g'.mcmc_state, yhat_test := g'.yhat_test
      yhat_test_mean := g'.yhat_test_mean }) : OppositeFit R lib g g' := by
  have e1 : g'.scale = g.scale := by rw [same]
  have e2 : g'.x_train_fmt = g.x_train_fmt := by rw [same]
  have e3 : g'.splits = g.splits := by rw [same]
  refine ⟨ho, ht, hs, h1, h2, same, yhat_train_rel h ho ht e1 hs, ?_, predict_rel h ho ht e1 e2 e3⟩
  unfold Gbart.yhat_train_mean
  rw [← hs.y.length_eq]
  exact rel_map (S := List.Forall₂ (List.Forall₂ R)) (fun _ _ hy => meanAxis0_rel h hy _) (yhat_train_rel h ho ht e1 hs)

/-- the predictions at the test points in `gbart` -/
def addTest (lib : Lib F P) (x_test : Option (Predictors F)) (g : Gbart F P) : Option (Gbart F P) :=
  match x_test with
  | none => some g
  | some x_test => (g.predict lib x_test).bind fun y => some { g with yhat_test := some y, yhat_test_mean := some (meanAxis0 x_test.n y) }

theorem gbart_eq (a : GbartArgs K F) : gbart lib rng a =
    if a.x_train.n = a.y_train.length then
      (determine_splits lib a.x_train.x a.x_train.n a.usequants a.numcut).bind fun sp =>
        let run := run_mcmc rng (init (gbart_init_args lib a sp)) a.nskip a.ndpost a.keepevery a.key
        (extract_sigma run.main_trace (gbart_settings lib a).scale).bind fun sigma =>
          (extract_sigma run.burnin_trace (gbart_settings lib a).scale).bind fun first_sigma =>
            addTest lib a.x_test
              { offset := (gbart_settings lib a).offset, scale := (gbart_settings lib a).scale, lamda := (gbart_settings lib a).lamda
                sigest := (gbart_settings lib a).sigest, ntree := a.ntree
                maxdepth := a.maxdepth, sigma := sigma, first_sigma := first_sigma, x_train_fmt := predictor_format a.x_train
                splits := sp.splits, main_trace := run.main_trace, mcmc_state := run.bart
                yhat_test := none, yhat_test_mean := none }
    else none := by
  unfold gbart guard
  by_cases h : a.x_train.n = a.y_train.length
  · rw [if_pos h, if_pos h]
    rfl
  · rw [if_neg h, if_neg h]
    rfl

theorem addTest_rel (h : SignRel R) (x : Option (Predictors F)) {g g' : Gbart F P} (hg : OppositeFit R lib g g') :
    Option.Rel (OppositeFit R lib) (addTest lib x g) (addTest lib x g') := by
  cases x with
  | none => exact .some hg
  | some x =>
    have := hg.predict x
    unfold addTest
    dsimp only
    revert this
    generalize g.predict lib x = o
    generalize g'.predict lib x = o'
    intro hr
    cases hr with
    | none => exact .none
    | some hr =>
      refine .some (fit_rel h hg.offset hg.main_trace hg.mcmc_state (.some hr) (.some (meanAxis0_rel h hr _)) ?_)
      conv_lhs => rw [hg.same]

theorem init_args_rel (h : SignRel R) {a a' : GbartArgs K F} (ha : OppositeArgs R a a')
    (hset : OppositeSettings R (gbart_settings lib a) (gbart_settings lib a')) (sp : Splits P) :
    OppositeState R (init (gbart_init_args lib a sp)) (init (gbart_init_args lib a' sp)) := by
  have e1 : (gbart_settings lib a').scale = (gbart_settings lib a).scale := by rw [hset.same]
  have e2 : (gbart_settings lib a').lamda_scaled = (gbart_settings lib a).lamda_scaled := by rw [hset.same]
  refine init_rel h ?_ ?_
  · change List.Forall₂ R (transform_input a.y_train _ _) (transform_input a'.y_train _ _)
    rw [e1]
    exact forall2_map (fun _ _ hv => h.div _ _ _ (h.sub _ _ _ _ hv hset.offset)) ha.y_train
  · unfold gbart_init_args
    have f1 : a'.x_train = a.x_train := by rw [ha.same]
    have f2 : a'.sigdf = a.sigdf := by rw [ha.same]
    have f3 : a'.power = a.power := by rw [ha.same]
    have f4 : a'.base = a.base := by rw [ha.same]
    have f5 : a'.maxdepth = a.maxdepth := by rw [ha.same]
    have f6 : a'.ntree = a.ntree := by rw [ha.same]
    have f7 : a'.initkw = a.initkw := by rw [ha.same]
    simp only [e1, e2, f1, f2, f3, f4, f5, f6, f7]
    rfl

/-- `gbart` with the opposite data and normal variates -/
theorem gbart_rel (h : SignRel R) {a a' : GbartArgs K F} (ha : OppositeArgs R a a')
    (hset : OppositeSettings R (gbart_settings lib a) (gbart_settings lib a')) :
    Option.Rel (OppositeFit R lib) (gbart lib rng a) (gbart lib (reflectRng rng) a') := by
  have hinit := init_args_rel (lib := lib) h ha hset
  have e1 : (gbart_settings lib a').scale = (gbart_settings lib a).scale := by rw [hset.same]
  have e2 : (gbart_settings lib a').lamda = (gbart_settings lib a).lamda := by rw [hset.same]
  have e3 : (gbart_settings lib a').sigest = (gbart_settings lib a).sigest := by rw [hset.same]
  have ho := hset.offset
  have f1 : a'.x_train = a.x_train := by rw [ha.same]
  have f2 : a'.usequants = a.usequants := by rw [ha.same]
  have f3 : a'.numcut = a.numcut := by rw [ha.same]
  have f4 : a'.nskip = a.nskip := by rw [ha.same]
  have f5 : a'.ndpost = a.ndpost := by rw [ha.same]
  have f6 : a'.keepevery = a.keepevery := by rw [ha.same]
  have f7 : a'.key = a.key := by rw [ha.same]
  have f8 : a'.x_test = a.x_test := by rw [ha.same]
  have f9 : a'.ntree = a.ntree := by rw [ha.same]
  have f10 : a'.maxdepth = a.maxdepth := by rw [ha.same]
  rw [gbart_eq, gbart_eq, e1, e2, e3, f1, f2, f3, f4, f5, f6, f7, f8, f9, f10, ← ha.y_train.length_eq]
  split
  · cases determine_splits lib a.x_train.x a.x_train.n a.usequants a.numcut with
    | none => exact .none
    | some sp =>
      have hrun := run_rel (rng := rng) (key := a.key) h (hinit sp) a.nskip a.ndpost a.keepevery
      revert hrun
      simp only [Option.bind_some]
      generalize run_mcmc rng (init (gbart_init_args lib a sp)) a.nskip a.ndpost a.keepevery a.key = run
      generalize run_mcmc (reflectRng rng) (init (gbart_init_args lib a' sp)) a.nskip a.ndpost a.keepevery a.key = run'
      rintro ⟨h1, h2, h3⟩
      rw [extract_rel h2, extract_rel h3]
      cases extract_sigma run.main_trace (gbart_settings lib a).scale with
      | none => exact .none
      | some sigma =>
        cases extract_sigma run.burnin_trace (gbart_settings lib a).scale with
        | none => exact .none
        | some first_sigma => exact addTest_rel h _ (fit_rel h ho h3 h1 .none .none rfl)
  · exact .none

end
end Bartz
