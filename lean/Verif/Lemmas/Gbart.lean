import Verif.Lemmas.GbartSplits
import Verif.Spec.Trace
import Verif.Props.Mcmcloop
import Verif.Props.Prepcovars
/-! # The construction of a `gbart` object in terms of the Markov chain -/

set_option autoImplicit false

namespace Bartz
open Jax Spec

section
variable {K F P : Type} [KeyLike K] [Inhabited F] [Zero F] [One F] [Add F] [Sub F] [Mul F] [Div F]
  [Neg F] [NatCast F] [FltFun F] [Field P] [LinearOrder P]

omit [KeyLike K] [Inhabited F] [Zero F] [One F] [Add F] [Sub F] [Mul F] [Div F] [Neg F] [NatCast F]
  [FltFun F] in
theorem check_formats_eq {x x' : Predictors F} (h : Compatible x x') :
    check_compatible_formats (predictor_format x') (predictor_format x) = some () := by
  unfold predictor_format
  rw [h.1, h.2]
  cases x.columns with
  | none => simp [check_compatible_formats, guard]
  | some c => cases c <;> simp [check_compatible_formats, Columns.eq, guard]

omit [KeyLike K] [Inhabited F] [Zero F] [One F] [Add F] [Sub F] [Mul F] [Div F] [Neg F] [NatCast F]
  [FltFun F] [Field P] [LinearOrder P] in
theorem mapM_exists {α β : Type} (f : α → Option β) (p : β → Prop) (l : List α)
    (h : ∀ x ∈ l, ∃ y, f x = some y ∧ p y) :
    ∃ out, l.mapM f = some out ∧ out.length = l.length ∧ ∀ y ∈ out, p y := by
  induction l with
  | nil => exact ⟨[], rfl, rfl, by simp⟩
  | cons x l ih =>
    obtain ⟨y, hy, hp⟩ := h x (List.mem_cons_self ..)
    obtain ⟨out, ho, hl, hq⟩ := ih fun z hz => h z (List.mem_cons_of_mem _ hz)
    refine ⟨y :: out, ?_, by simp [hl], ?_⟩
    · rw [List.mapM_cons, hy, ho]; rfl
    · intro z hz
      rcases List.mem_cons.1 hz with rfl | hz
      · exact hp
      · exact hq z hz

omit [KeyLike K] [Inhabited F] [Zero F] [One F] [Add F] [Sub F] [Mul F] [Div F] [Neg F] [NatCast F]
  [FltFun F] in
/-- What is needed about the cutpoints. -/
theorem determine_splits_spec (lib : Lib F P) (x : List (List F)) (n : Nat) (usequants : Bool)
    (numcut : Nat) (h : usequants = false → ∀ row ∈ x, row ≠ []) :
    ∃ sp, determine_splits lib x n usequants numcut = some sp ∧ sp.splits.length = x.length ∧
      sp.max_split.length = x.length ∧ 8 ≤ sp.bits ∧ ∀ m ∈ sp.max_split, m < 2 ^ sp.bits := by
  unfold determine_splits
  cases usequants with
  | true =>
    simp only [if_true]
    refine ⟨_, rfl, ?_, ?_, minimal_ge_8 _, ?_⟩
    · simp [quantilized_splits_from_matrix, exact_matrix]
    · simp [quantilized_splits_from_matrix, exact_matrix]
    · intro m hm
      simp only [quantilized_splits_from_matrix, List.unzip_snd, List.mem_map] at hm
      obtain ⟨r, ⟨row, -, rfl⟩, rfl⟩ := hm
      simp only [quantilized_row, wrap_int, Bool.false_eq_true, if_false]
      generalize minimal_unsigned_dtype _ = b
      generalize min (_ : Int) _ = v
      have h1 : (0 : Int) < 2 ^ b := by positivity
      have h2 := Int.emod_lt_of_pos v h1
      have h3 := Int.emod_nonneg v h1.ne'
      zify
      rw [Int.toNat_of_nonneg h3]
      exact h2
  | false =>
    simp only [Bool.false_eq_true, if_false]
    have hrow : ∀ row ∈ x.map (fun row => row.map lib.exact), ∃ r, uniform_row row (numcut + 1) = some r ∧
        r.2 < 2 ^ minimal_unsigned_dtype (((numcut + 1 : Nat) : Int) - 1) := by
      intro row hr
      obtain ⟨r, hrx, rfl⟩ := List.mem_map.1 hr
      have hne : uniform_row (r.map lib.exact) (numcut + 1) ≠ none := by
        rw [ne_eq, C16_error]
        have := h rfl r hrx
        simp [this]
      obtain ⟨o, ho⟩ := Option.ne_none_iff_exists'.1 hne
      refine ⟨o, ho, ?_⟩
      unfold uniform_row at ho
      simp only [Option.bind_eq_bind, Option.bind_eq_some_iff, Option.pure_def, Option.some.injEq] at ho
      obtain ⟨_, _, _, _, _, _, rfl⟩ := ho
      exact Nat.mod_lt _ (Nat.two_pow_pos _)
    have hlen : (x.map fun row => row.map lib.exact).length = x.length := by simp
    generalize x.map (fun row => row.map lib.exact) = X at hrow hlen
    obtain ⟨out, ho, hol, hop⟩ := mapM_exists _ _ X hrow
    refine ⟨{ splits := out.unzip.1.map fun row => row.map fun v : P => ((v : P) : WithTop P)
              max_split := out.unzip.2
              bits := minimal_unsigned_dtype (((numcut + 1 : Nat) : Int) - 1) },
      ?_, ?_, ?_, minimal_ge_8 (((numcut + 1 : Nat) : Int) - 1), ?_⟩
    · simp [uniform_splits_from_matrix, ho]
    · simp [hol, hlen]
    · simp [hol, hlen]
    · intro m hm
      simp only [List.unzip_snd, List.mem_map] at hm
      obtain ⟨r, hr, rfl⟩ := hm
      exact hop r hr

omit [KeyLike K] [Neg F] in
theorem gbart_args_valid {lib : Lib F P} {a : GbartArgs K F} (h : ValidGbart lib a) {sp : Splits P}
    (hsp : determine_splits lib a.x_train.x a.x_train.n a.usequants a.numcut = some sp) :
    ValidArgs (gbart_init_args lib a sp) := by
  obtain ⟨sp', h1, h2, h3, h4, h5⟩ := determine_splits_spec lib a.x_train.x a.x_train.n a.usequants
    a.numcut (by
      intro hu row hr hc
      have := h.row row hr
      have := h.datapoints hu
      subst hc
      simp at *
      omega)
  rw [hsp] at h1
  cases h1
  have hg := h.depth_ge
  have hle := h.depth_le
  have hrow := h.row
  exact
    { depth_pos := by simp only [gbart_init_args, setup_args, List.length_map, List.length_range]; omega
      depth_lt := by simp only [gbart_init_args, setup_args, List.length_map, List.length_range]; omega
      predictors_pos := by
        simp only [gbart_init_args, setup_args, h3]; exact h.predictors_pos
      predictors_lt := by
        simp only [gbart_init_args, setup_args, h3]; exact h.predictors_lt
      X_length := by
        simp only [gbart_init_args, setup_args, gbart_bin_predictors, bin_predictors, exact_matrix,
          List.length_zipWith, List.length_map, h2, h3, Nat.min_self]
      X_row := by
        simp only [gbart_init_args, setup_args, gbart_bin_predictors, bin_predictors, exact_matrix,
          transform_input, List.length_map]
        intro row hr
        rw [List.zipWith_map_left] at hr
        obtain ⟨i, hi, rfl⟩ := List.getElem_of_mem hr
        rw [List.getElem_zipWith]
        simp only [bin_row, List.length_map]
        exact hrow _ (List.getElem_mem _)
      max_split_fits := h5
      split_bits := h4
      nonterminal_pos := by
        intro x hx
        simp only [gbart_init_args, setup_args, List.mem_map, List.mem_range] at hx
        obtain ⟨d, hd, rfl⟩ := hx
        exact h.nonterminal_pos d hd
      overflow := by
        rcases h.overflow with hm | ⟨hn, hb⟩
        · right
          refine ⟨fun v j hv hj => ?_, hm⟩
          refine determine_splits_bins lib hsp (n := a.x_train.n) (fun row hr => by rw [hrow row hr, h.length])
            h.numcut_lt (lt_of_lt_of_eq hv h3) ?_
          rw [h.length]
          simpa [gbart_init_args, setup_args, transform_input] using hj
        · left
          exact determine_splits_fits lib hsp (fun row hr => by rw [hrow row hr, h.length]) (h.length ▸ hn)
            h.numcut_lt (h.length ▸ hb) }

/-- the state after `t` iterations -/
def gbartState (lib : Lib F P) (rng : Rng K F) (a : GbartArgs K F) (sp : Splits P) (t : Nat) : State F :=
  chain (step rng) (init (gbart_init_args lib a sp)) a.key t

omit [Inhabited F] [Zero F] [One F] [Add F] [Sub F] [Div F] [Neg F] [NatCast F] in
theorem extract_sigma_eq (trace : Trace F) (scale : F) (l : List F)
    (h : trace.lookup "sigma2" = some (l.map .float)) :
    extract_sigma trace scale = some (l.map fun v => scale * FltFun.sqrt v) := by
  unfold extract_sigma
  rw [h]
  simp only [Option.bind_eq_bind, Option.bind_some]
  rw [List.mapM_map, mapM_eq_some_map (Value.float? ∘ Value.float) id l fun x _ => rfl, List.map_id]
  rfl

/-- value of the forest in the state `s` -/
def forestAt (h ntree : Nat) (s : State F) (x : List Nat) : F :=
  ((List.range ntree).map fun t =>
    (readTree default (s.leaf_trees.getD t []) (s.var_trees.getD t []) (s.split_trees.getD t []) h 1).eval
      x).foldl (· + ·) 0

/-- what is known about the result of `gbart` -/
structure GbartSpec (lib : Lib F P) (rng : Rng K F) (a : GbartArgs K F) (sp : Splits P) (g : Gbart F P) :
    Prop where
  splits_eq : determine_splits lib a.x_train.x a.x_train.n a.usequants a.numcut = some sp
  offset : g.offset = (gbart_settings lib a).offset
  scale : g.scale = (gbart_settings lib a).scale
  lamda : g.lamda = (gbart_settings lib a).lamda
  sigest : g.sigest = (gbart_settings lib a).sigest
  ntree : g.ntree = a.ntree
  maxdepth : g.maxdepth = a.maxdepth
  fmt : g.x_train_fmt = predictor_format a.x_train
  splits : g.splits = sp.splits
  trace : g.main_trace = (run_mcmc rng (init (gbart_init_args lib a sp)) a.nskip a.ndpost a.keepevery
    a.key).main_trace
  state : g.mcmc_state = gbartState lib rng a sp (a.nskip + a.ndpost * a.keepevery)
  sigma : g.sigma = (List.range a.ndpost).map fun k => (gbart_settings lib a).scale *
    FltFun.sqrt (gbartState lib rng a sp (a.nskip + (k + 1) * a.keepevery)).sigma2
  first_sigma : g.first_sigma = (List.range a.nskip).map fun k => (gbart_settings lib a).scale *
    FltFun.sqrt (gbartState lib rng a sp (k + 1)).sigma2
  yhat_test : g.yhat_test = a.x_test.bind fun x => g.predict lib x
  yhat_test_mean : g.yhat_test_mean = a.x_test.bind fun x => (g.predict lib x).map fun y =>
    meanAxis0 x.n y

variable [FloatLaws F]

theorem gbartState_reachable {lib : Lib F P} {rng : Rng K F} (hrng : LawfulRng rng) (a : GbartArgs K F)
    (sp : Splits P) (t : Nat) :
    Reachable K (gbart_init_args lib a sp) (gbartState lib rng a sp t) :=
  C42_reachable rng _ a.key .init hrng t

/-- predictions in terms of the states of the chain -/
def predictions (lib : Lib F P) (rng : Rng K F) (a : GbartArgs K F) (sp : Splits P) (x : List (List F))
    (n : Nat) : List (List F) :=
  (List.range a.ndpost).map fun k => (List.range n).map fun j =>
    (gbart_settings lib a).offset + (gbart_settings lib a).scale *
      forestAt (a.maxdepth - 1) a.ntree (gbartState lib rng a sp (a.nskip + (k + 1) * a.keepevery))
        ((gbart_bin_predictors lib x sp.splits).map fun row => row.getD j 0)

theorem GbartSpec.evaluate {lib : Lib F P} {rng : Rng K F} {a : GbartArgs K F} {sp : Splits P}
    {g : Gbart F P} (hg : GbartSpec lib rng a sp g) (h : ValidGbart lib a) (hrng : LawfulRng rng)
    (isqrt : Nat → Nat) (nbytes n : Nat) (X : List (List Nat)) :
    evaluate_trace isqrt nbytes n g.main_trace X = some ((List.range a.ndpost).map fun k =>
      (List.range n).map fun j =>
      forestAt (a.maxdepth - 1) a.ntree (gbartState lib rng a sp (a.nskip + (k + 1) * a.keepevery))
        (X.map fun row => row.getD j 0)) := by
  rw [hg.trace, C45_run (gbart_args_valid h hg.splits_eq) .init rng hrng]
  simp only [forestAt, gbartState, gbart_init_args, setup_args, List.length_map, List.length_range]

theorem GbartSpec.predict_eq_of_check {lib : Lib F P} {rng : Rng K F} {a : GbartArgs K F} {sp : Splits P}
    {g : Gbart F P} (hg : GbartSpec lib rng a sp g) (h : ValidGbart lib a) (hrng : LawfulRng rng)
    (x : Predictors F)
    (hx : check_compatible_formats (predictor_format x) (predictor_format a.x_train) = some ()) :
    g.predict lib x = some (predictions lib rng a sp x.x x.n) := by
  unfold Gbart.predict
  rw [hg.fmt, hx, hg.splits]
  simp only [hg.evaluate h hrng, Option.bind_eq_bind, Option.bind_some, Option.pure_def, transform_output,
    predictions, List.map_map, hg.offset, hg.scale, Function.comp_def]

theorem GbartSpec.predict_eq {lib : Lib F P} {rng : Rng K F} {a : GbartArgs K F} {sp : Splits P}
    {g : Gbart F P} (hg : GbartSpec lib rng a sp g) (h : ValidGbart lib a) (hrng : LawfulRng rng)
    (x : Predictors F) (hx : Compatible a.x_train x) :
    g.predict lib x = some (predictions lib rng a sp x.x x.n) :=
  hg.predict_eq_of_check h hrng x (check_formats_eq hx)

theorem GbartSpec.yhat_train_eq {lib : Lib F P} {rng : Rng K F} {a : GbartArgs K F} {sp : Splits P}
    {g : Gbart F P} (hg : GbartSpec lib rng a sp g) (h : ValidGbart lib a) (hrng : LawfulRng rng) :
    g.yhat_train lib = some (predictions lib rng a sp a.x_train.x a.x_train.n) := by
  have hinv := reachable_inv (gbart_args_valid h hg.splits_eq)
    (gbartState_reachable (lib := lib) hrng a sp (a.nskip + a.ndpost * a.keepevery))
  unfold Gbart.yhat_train
  rw [hg.state, hinv.cfg.X, hinv.cfg.y]
  have hy : (gbart_init_args lib a sp).y.length = a.x_train.n := by
    simp [gbart_init_args, setup_args, transform_input, h.length]
  simp only [hy]
  rw [hg.evaluate h hrng]
  simp only [Option.bind_eq_bind, Option.bind_some, Option.pure_def, transform_output,
    predictions, List.map_map, hg.offset, hg.scale, Function.comp_def, gbart_init_args, setup_args]

theorem gbart_spec {lib : Lib F P} {rng : Rng K F} (hrng : LawfulRng rng) {a : GbartArgs K F}
    (h : ValidGbart lib a) : ∃ sp g, gbart lib rng a = some g ∧ GbartSpec lib rng a sp g := by
  obtain ⟨sp, h1, -⟩ := determine_splits_spec lib a.x_train.x a.x_train.n a.usequants
    a.numcut (by
      intro hu row hr hc
      have := h.row row hr
      have := h.datapoints hu
      subst hc
      simp at *
      omega)
  have hs1 := extract_sigma_eq (run_mcmc rng (init (gbart_init_args lib a sp)) a.nskip a.ndpost a.keepevery
    a.key).main_trace (gbart_settings lib a).scale ((List.range a.ndpost).map fun k =>
      (gbartState lib rng a sp (a.nskip + (k + 1) * a.keepevery)).sigma2) (by
    have := (C42_trace rng (init (gbart_init_args lib a sp)) a.key a.nskip a.ndpost a.keepevery).2
      ("sigma2", fun s => .float s.sigma2) (by simp [burninFields])
    simp only at this
    rw [this, List.map_map]
    rfl)
  have hs2 := extract_sigma_eq (run_mcmc rng (init (gbart_init_args lib a sp)) a.nskip a.ndpost a.keepevery
    a.key).burnin_trace (gbart_settings lib a).scale ((List.range a.nskip).map fun k =>
      (gbartState lib rng a sp (k + 1)).sigma2) (by
    have := (C42_trace rng (init (gbart_init_args lib a sp)) a.key a.nskip a.ndpost a.keepevery).1
      ("sigma2", fun s => .float s.sigma2) (by simp [burninFields])
    simp only at this
    rw [this, List.map_map]
    rfl)
  rw [List.map_map] at hs1 hs2
  let g : Gbart F P :=
    { offset := (gbart_settings lib a).offset, scale := (gbart_settings lib a).scale
      lamda := (gbart_settings lib a).lamda, sigest := (gbart_settings lib a).sigest, ntree := a.ntree
      maxdepth := a.maxdepth
      sigma := (List.range a.ndpost).map fun k => (gbart_settings lib a).scale *
        FltFun.sqrt (gbartState lib rng a sp (a.nskip + (k + 1) * a.keepevery)).sigma2
      first_sigma := (List.range a.nskip).map fun k => (gbart_settings lib a).scale *
        FltFun.sqrt (gbartState lib rng a sp (k + 1)).sigma2
      x_train_fmt := predictor_format a.x_train
      splits := sp.splits
      main_trace := (run_mcmc rng (init (gbart_init_args lib a sp)) a.nskip a.ndpost a.keepevery
        a.key).main_trace
      mcmc_state := (run_mcmc rng (init (gbart_init_args lib a sp)) a.nskip a.ndpost a.keepevery a.key).bart
      yhat_test := none, yhat_test_mean := none }
  have hgen : ∀ (yt : Option (List (List F))) (ytm : Option (List F)),
      yt = a.x_test.bind (fun x => g.predict lib x) →
      ytm = a.x_test.bind (fun x => (g.predict lib x).map fun y => meanAxis0 x.n y) →
      GbartSpec lib rng a sp { g with yhat_test := yt, yhat_test_mean := ytm } := by
    intro yt ytm e1 e2
    exact
      { splits_eq := h1, offset := rfl, scale := rfl, lamda := rfl, sigest := rfl, ntree := rfl,
        maxdepth := rfl, fmt := rfl, splits := rfl, trace := rfl
        state := C42_final rng _ a.key a.nskip a.ndpost a.keepevery
        sigma := rfl, first_sigma := rfl, yhat_test := e1, yhat_test_mean := e2 }
  have hg' := hgen _ _ rfl rfl
  refine ⟨sp, _, ?_, hg'⟩
  have hfmt : a.x_train.n = a.y_train.length ↔ True := by simp [h.length]
  unfold gbart
  simp only [hfmt, guard, if_true, h1, hs1, hs2, Option.bind_eq_bind, Option.bind_some, Option.pure_def]
  cases hx : a.x_test with
  | none => rfl
  | some x =>
    have hp := hg'.predict_eq h hrng x (h.x_test x hx)
    have hp' : g.predict lib x = some (predictions lib rng a sp x.x x.n) := hp
    show (g.predict lib x).bind _ = _
    simp only [hp', Option.bind_some, Option.map_some]
    rfl

end

end Bartz
