import Verif.Lemmas.PredictorMap
import Verif.Props.Gbart
import Verif.Props.GbartExact
/-!
# Property C77: transformations of the predictors
-/

set_option autoImplicit false

namespace Bartz
open Jax Spec

section
variable {K F P : Type} [KeyLike K] [Inhabited F] [Zero F] [One F] [Add F] [Sub F] [Mul F] [Div F] [Neg F]
  [NatCast F] [FltFun F] [FloatLaws F] [Field P] [LinearOrder P]
  {lib : Lib F P} {rng : Rng K F} {a : GbartArgs K F} {φ : Nat → F → F} {f : Nat → P → P}

omit [KeyLike K] [Inhabited F] [Add F] [Sub F] [Mul F] [Neg F] [FloatLaws F] [Field P] [LinearOrder P] in
theorem mapArgs_valid (h : ValidGbart lib a) (φ : Nat → F → F) : ValidGbart lib (mapArgs φ a) where
  depth_ge := h.depth_ge
  depth_le := h.depth_le
  predictors_pos := by simpa [mapArgs, mapPredictors] using h.predictors_pos
  predictors_lt := by simpa [mapArgs, mapPredictors] using h.predictors_lt
  length := h.length
  row := by
    intro row hr
    simp only [mapArgs, mapPredictors, List.mem_mapIdx] at hr
    obtain ⟨i, hi, rfl⟩ := hr
    rw [List.length_map]
    exact h.row _ (List.getElem_mem hi)
  datapoints := h.datapoints
  nonterminal_pos := h.nonterminal_pos
  x_test := by
    intro x hx
    simp only [mapArgs, Option.map_eq_some_iff] at hx
    obtain ⟨x', hx', rfl⟩ := hx
    obtain ⟨h1, h2⟩ := h.x_test x' hx'
    exact ⟨h1, by simpa [mapArgs, mapPredictors] using h2⟩
  numcut_lt := h.numcut_lt
  overflow := h.overflow

theorem sameFit_of_init {a' : GbartArgs K F} {sp sp' : Splits P} {g g' : Gbart F P} (h : ValidGbart lib a)
    (h' : ValidGbart lib a') (hrng : LawfulRng rng) (hs : GbartSpec lib rng a sp g)
    (hs' : GbartSpec lib rng a' sp' g') (hset : gbart_settings lib a' = gbart_settings lib a)
    (hinit : gbart_init_args lib a' sp' = gbart_init_args lib a sp)
    (e1 : a'.nskip = a.nskip) (e2 : a'.ndpost = a.ndpost) (e3 : a'.keepevery = a.keepevery) (e4 : a'.key = a.key)
    (e5 : a'.ntree = a.ntree) (e6 : a'.maxdepth = a.maxdepth) (e7 : a'.x_train.n = a.x_train.n)
    (hbin : gbart_bin_predictors lib a'.x_train.x sp'.splits = gbart_bin_predictors lib a.x_train.x sp.splits) :
    SameFit lib g g' ∧ ∀ x x' n,
      gbart_bin_predictors lib x' sp'.splits = gbart_bin_predictors lib x sp.splits →
      predictions lib rng a' sp' x' n = predictions lib rng a sp x n := by
  have hst : ∀ t, gbartState lib rng a' sp' t = gbartState lib rng a sp t := by
    intro t
    unfold gbartState
    rw [hinit, e4]
  have hpred : ∀ x x' n, gbart_bin_predictors lib x' sp'.splits = gbart_bin_predictors lib x sp.splits →
      predictions lib rng a' sp' x' n = predictions lib rng a sp x n := by
    intro x x' n hb
    simp only [predictions, hset, hst, e1, e2, e3, e5, e6, hb]
  refine ⟨⟨?_, ?_, ?_, ?_, ?_, ?_, ?_, ?_, ?_, ?_, ?_⟩, hpred⟩
  · rw [hs.offset, hs'.offset, hset]
  · rw [hs.scale, hs'.scale, hset]
  · rw [hs.lamda, hs'.lamda, hset]
  · rw [hs.sigest, hs'.sigest, hset]
  · rw [hs.ntree, hs'.ntree, e5]
  · rw [hs.maxdepth, hs'.maxdepth, e6]
  · rw [hs.sigma, hs'.sigma]
    simp only [hset, hst, e1, e2, e3]
  · rw [hs.first_sigma, hs'.first_sigma]
    simp only [hset, hst, e1]
  · rw [hs.trace, hs'.trace, hinit, e1, e2, e3, e4]
  · rw [hs.state, hs'.state, hst, e1, e2, e3]
  · rw [hs.yhat_train_eq h hrng, hs'.yhat_train_eq h' hrng, hpred _ _ _ hbin, e7]

omit [KeyLike K] [FloatLaws F] [Field P] [LinearOrder P] [Inhabited F] in
theorem settings_noRegression [Inhabited F] (hn : NoRegression a) :
    gbart_settings lib (mapArgs φ a) = gbart_settings lib a := by
  unfold gbart_settings process_noise_variance_settings
  simp only [mapArgs, mapPredictors]
  cases hl : a.lamda with
  | some l => rfl
  | none =>
    have e : ∀ o, process_sigest2 lib (a.x_train.x.mapIdx fun j row => row.map (φ j)) a.y_train a.sigest o =
        process_sigest2 lib a.x_train.x a.y_train a.sigest o := by
      intro o
      unfold process_sigest2
      cases hs : a.sigest with
      | some v => rfl
      | none =>
        simp only [List.length_mapIdx]
        split
        · rfl
        · rw [if_pos, if_pos]
          all_goals
          · rcases hn with h | h | h | h
            · exact absurd hl h
            · exact absurd hs h
            · contradiction
            · exact h
    simp only [e]

/-- C77. If the cutpoints are quantiles, and the settings do not depend on the values of the predictors
(`NoRegression`), then the results on the training set depend only on the order of the values of each predictor: they do
not change if each predictor goes through a strictly increasing function. The same holds for the predictions, if they are
computed at values that appear in the training set. -/
theorem C77_monotone [IsStrictOrderedRing P] (h : ValidGbart lib a) (hrng : LawfulRng rng)
    (hq : a.usequants = true) (hn : NoRegression a)
    (hφ : ∀ j v, lib.exact (φ j v) = f j (lib.exact v)) (hf : ∀ j, StrictMono (f j)) :
    ∃ g g', gbart lib rng a = some g ∧ gbart lib rng (mapArgs φ a) = some g' ∧ SameFit lib g g' ∧
      ∀ x, Compatible a.x_train x → ValuesIn a.x_train x → ∃ yhat, g.predict lib x = some yhat ∧
        g'.predict lib (mapPredictors φ x) = some yhat := by
  obtain ⟨sp, g, hg, hs⟩ := gbart_spec hrng h
  have h' := mapArgs_valid h φ
  obtain ⟨sp', g', hg', hs'⟩ := gbart_spec hrng h'
  have e := hs.splits_eq
  have e' := hs'.splits_eq
  simp only [mapArgs, mapPredictors] at e'
  rw [hq] at e e'
  have hrel := splits_monotone hφ hf a.x_train.x a.x_train.n a.numcut e e'
  have hself : ValuesIn a.x_train a.x_train := fun j row hr => ⟨row, hr, fun v hv => hv⟩
  have hbin : gbart_bin_predictors lib (mapArgs φ a).x_train.x sp'.splits =
      gbart_bin_predictors lib a.x_train.x sp.splits := bin_predictors_rel hφ hrel hself
  have hset : gbart_settings lib (mapArgs φ a) = gbart_settings lib a := settings_noRegression hn
  have hinit : gbart_init_args lib (mapArgs φ a) sp' = gbart_init_args lib a sp := by
    unfold gbart_init_args
    rw [hset, hbin, hrel.1, hrel.2.1]
    rfl
  obtain ⟨hfit, hpred⟩ := sameFit_of_init h h' hrng hs hs' hset hinit rfl rfl rfl rfl rfl rfl rfl hbin
  refine ⟨g, g', hg, hg', hfit, ?_⟩
  intro x hx hv
  refine ⟨_, hs.predict_eq h hrng x hx, ?_⟩
  rw [hs'.predict_eq h' hrng (mapPredictors φ x) ⟨hx.1, by simpa [mapArgs, mapPredictors] using hx.2⟩]
  rw [hpred x.x _ _ (bin_predictors_rel hφ hrel hv)]
  rfl

end

section
variable {K P : Type} [KeyLike K] [Field P] [LinearOrder P] [IsStrictOrderedRing P]
  {lib : Lib ℝ P} {rng : Rng K ℝ} {a : GbartArgs K ℝ}

/-- C77. A change of the unit and of the origin of each predictor, with the same direction, does not have any effect on
the results; the cutpoints are converted. -/
theorem C77_affine (hl : LawfulLstsq lib.lstsq) (h : ValidGbart lib a) (hrng : LawfulRng rng) {c d : Nat → ℝ}
    (hc : ∀ j, 0 < c j) {c' d' : Nat → P} (hc' : ∀ j, 0 < c' j)
    (hexact : ∀ j v, lib.exact (c j * v + d j) = c' j * lib.exact v + d' j) :
    ∃ g g', gbart lib rng a = some g ∧ gbart lib rng (mapArgs (fun j v => c j * v + d j) a) = some g' ∧
      SameFit lib g g' ∧ g'.yhat_test = g.yhat_test ∧ g'.yhat_test_mean = g.yhat_test_mean ∧
      g'.splits = g.splits.mapIdx (fun j r => r.map (WithTop.map fun v => c' j * v + d' j)) ∧
      ∀ x, Compatible a.x_train x → ∃ yhat, g.predict lib x = some yhat ∧
        g'.predict lib (mapPredictors (fun j v => c j * v + d j) x) = some yhat := by
  obtain ⟨sp, g, hg, hs⟩ := gbart_spec hrng h
  have h' := mapArgs_valid h fun j v => c j * v + d j
  obtain ⟨sp', g', hg', hs'⟩ := gbart_spec hrng h'
  have hm : ∀ j, StrictMono fun v => c' j * v + d' j := by
    intro j v w hvw
    have := mul_lt_mul_of_pos_left hvw (hc' j)
    simpa using this
  have e := hs'.splits_eq
  simp only [mapArgs, mapPredictors] at e
  rw [splits_affine (lib := lib) (f := fun j v => c' j * v + d' j) hexact (fun j v => rfl) hm, hs.splits_eq,
    Option.map_some, Option.some.injEq] at e
  subst e
  have hbin := bin_predictors_affine (lib := lib) (φ := fun j v => c j * v + d j) hexact hm
  have hset : gbart_settings lib (mapArgs (fun j v => c j * v + d j) a) = gbart_settings lib a := by
    unfold gbart_settings process_noise_variance_settings
    simp only [mapArgs, mapPredictors]
    cases a.lamda with
    | some l => rfl
    | none => simp only [sigest2_predictors lib hl (fun j => (hc j).ne') a.x_train.x h.row]
  have hinit : gbart_init_args lib (mapArgs (fun j v => c j * v + d j) a) 
      (mapSplits (fun j v => c' j * v + d' j) sp) =
      gbart_init_args lib a sp := by
    unfold gbart_init_args
    rw [hset]
    simp only [mapArgs]
    rw [hbin]
    rfl
  obtain ⟨hfit, hpred⟩ := sameFit_of_init h h' hrng hs hs' hset hinit rfl rfl rfl rfl rfl rfl rfl (hbin _ _)
  have hp : ∀ x, Compatible a.x_train x →
      g'.predict lib (mapPredictors (fun j v => c j * v + d j) x) = g.predict lib x := by
    intro x hx
    rw [hs.predict_eq h hrng x hx,
      hs'.predict_eq h' hrng (mapPredictors (fun j v => c j * v + d j) x) ⟨hx.1, by simpa [mapArgs, mapPredictors] using hx.2⟩]
    rw [hpred x.x _ _ (hbin x sp)]
    rfl
  refine ⟨g, g', hg, hg', hfit, ?_, ?_, ?_, ?_⟩
  · rw [hs.yhat_test, hs'.yhat_test]
    simp only [mapArgs]
    cases hx : a.x_test with
    | none => rfl
    | some x => exact hp x (h.x_test x hx)
  · rw [hs.yhat_test_mean, hs'.yhat_test_mean]
    simp only [mapArgs]
    cases hx : a.x_test with
    | none => rfl
    | some x =>
      simp only [Option.map_some, Option.bind_some]
      rw [hp x (h.x_test x hx)]
      rfl
  · rw [hs.splits, hs'.splits]
    rfl
  · intro x hx
    exact ⟨_, hs.predict_eq h hrng x hx, (hp x hx).trans (hs.predict_eq h hrng x hx)⟩

end

namespace ExP
open ExGR
open scoped Ex

theorem cube_mono : StrictMono fun v : ℝ => v ^ 3 := Odd.strictMono_pow ⟨1, rfl⟩

noncomputable def qargs : GbartArgs Unit ℝ := { ExGR.args with usequants := true, sigest := some 1 }

theorem qargs_valid : ValidGbart lib qargs :=
  { args_valid with datapoints := by simp [qargs], overflow := Or.inl ⟨1, le_rfl, rfl⟩ }

/-- cube of each predictor -/
example (rng : Rng Unit ℝ) (hrng : LawfulRng rng) :
    ∃ g g', gbart lib rng qargs = some g ∧ gbart lib rng (mapArgs (fun _ v => v ^ 3) qargs) = some g' ∧
      SameFit lib g g' := by
  obtain ⟨g, g', h1, h2, h3, -⟩ := C77_monotone (φ := fun _ v => v ^ 3) (f := fun _ v => v ^ 3) qargs_valid hrng
    rfl (Or.inr (Or.inl (by simp [qargs]))) (fun _ _ => rfl) (fun _ => cube_mono)
  exact ⟨g, g', h1, h2, h3⟩

/-- change of unit -/
example (rng : Rng Unit ℝ) (hrng : LawfulRng rng) :
    ∃ g g', gbart lib rng args = some g ∧
      gbart lib rng (mapArgs (fun j v => ((j : ℝ) + 1) * v + 32) args) = some g' ∧ SameFit lib g g' := by
  obtain ⟨g, g', h1, h2, h3, -⟩ := C77_affine (c := fun j => (j : ℝ) + 1) (d := fun _ => 32)
    (c' := fun j => (j : ℝ) + 1) (d' := fun _ => 32) lstsq_lawful args_valid hrng
    (fun j => by positivity) (fun j => by positivity) (fun _ _ => rfl)
  exact ⟨g, g', h1, h2, h3⟩

/-- one predictor, 3 datapoints, one cutpoint -/
noncomputable def uargs : GbartArgs Unit ℝ :=
  { ExGR.args with
    x_train := { x := [[0, 2, 3]], n := 3, columns := none }, y_train := [0, 4, 8], sigest := some 1, numcut := 1 }

theorem uargs_valid : ValidGbart lib uargs :=
  { args_valid with
    predictors_pos := by simp [uargs]
    predictors_lt := by simp [uargs]
    length := by simp [uargs]
    row := by simp [uargs]
    datapoints := by simp [uargs]
    x_test := by simp [uargs, args]
    numcut_lt := by simp [uargs]
    overflow := Or.inl ⟨1, le_rfl, rfl⟩ }

theorem uargs_bins (f : ℝ → ℝ) (hf : StrictMono f) {sp : Splits ℝ}
    (h : determine_splits lib [[f 0, f 2, f 3]] 3 false 1 = some sp) :
    gbart_bin_predictors lib [[f 0, f 2, f 3]] sp.splits =
      [[if (f 0 + f 3) / 2 < f 0 then 1 else 0, if (f 0 + f 3) / 2 < f 2 then 1 else 0,
        if (f 0 + f 3) / 2 < f 3 then 1 else 0]] := by
  have h02 : f 0 < f 2 := hf (by norm_num)
  have h23 : f 2 < f 3 := hf (by norm_num)
  have hmin : ([f 0, f 2, f 3] : List ℝ).min? = some (f 0) := by
    simp only [List.min?_cons', List.foldl_cons, List.foldl_nil]
    rw [min_eq_left h02.le, min_eq_left (h02.trans h23).le]
  have hmax : ([f 0, f 2, f 3] : List ℝ).max? = some (f 3) := by
    simp only [List.max?_cons', List.foldl_cons, List.foldl_nil]
    rw [max_eq_right h02.le, max_eq_right h23.le]
  have hrow : uniform_row [f 0, f 2, f 3] 2 = some ([(f 0 + f 3) / 2], 1) := by
    unfold uniform_row
    rw [hmin, hmax]
    have e : f 0 + (f 3 - f 0) / 2 = (f 0 + f 3) / 2 := by ring
    simp [List.range_succ, guard, e, astype, minimal_unsigned_dtype]
  unfold determine_splits uniform_splits_from_matrix at h
  simp only [Bool.false_eq_true, if_false, lib, List.map_cons, List.map_nil, id, List.mapM_cons, List.mapM_nil,
    hrow, Option.bind_eq_bind, Option.bind_some, Option.pure_def, Option.map_some, List.unzip_cons,
    List.unzip_nil, Option.some.injEq] at h
  subst h
  have hcoe : ∀ u v : ℝ, (decide ((u : WithTop ℝ) < (v : WithTop ℝ))) = decide (u < v) := fun u v =>
    decide_eq_decide.2 WithTop.coe_lt_coe
  simp only [gbart_bin_predictors, bin_predictors, exact_matrix, lib, id, List.map_cons, List.map_nil,
    List.zipWith_cons_cons, List.zipWith_nil_left, bin_row, searchsortedLeft_singleton,
    hcoe, decide_eq_true_eq, List.length_singleton]
  have hast : astype (minimal_unsigned_dtype ((1 : Nat) : Int)) 0 = 0 ∧
      astype (minimal_unsigned_dtype ((1 : Nat) : Int)) 1 = 1 := by decide
  split_ifs <;> simp_all

/-- C77 does not hold for increasing functions in general if the cutpoints are on a uniform grid. -/
theorem C77_not_uniform (rng : Rng Unit ℝ) (hrng : LawfulRng rng) :
    ∃ g g', gbart lib rng uargs = some g ∧ gbart lib rng (mapArgs (fun _ v => v ^ 3) uargs) = some g' ∧
      g.mcmc_state.X = [[0, 1, 1]] ∧ g'.mcmc_state.X = [[0, 0, 1]] := by
  obtain ⟨sp, g, hg, hs⟩ := gbart_spec hrng uargs_valid
  have h' := mapArgs_valid uargs_valid fun _ v => v ^ 3
  obtain ⟨sp', g', hg', hs'⟩ := gbart_spec hrng h'
  refine ⟨g, g', hg, hg', ?_, ?_⟩
  · rw [hs.state, (reachable_inv (gbart_args_valid uargs_valid hs.splits_eq)
      (gbartState_reachable hrng _ _ _)).cfg.X]
    have e := uargs_bins id strictMono_id hs.splits_eq
    exact e.trans (by norm_num)
  · rw [hs'.state, (reachable_inv (gbart_args_valid h' hs'.splits_eq)
      (gbartState_reachable hrng _ _ _)).cfg.X]
    have e := uargs_bins (fun v => v ^ 3) cube_mono hs'.splits_eq
    exact e.trans (by norm_num)

end ExP

end Bartz
