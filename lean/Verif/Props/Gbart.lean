import Verif.Lemmas.Gbart
import Verif.Props.Debug
/-!
# Properties C46, C49, C57–C61: the class `gbart`

Theorems that hold for any floating point arithmetic.
-/

set_option autoImplicit false

namespace Bartz
open Jax Spec

section
variable {K F P : Type} [KeyLike K] [Inhabited F] [Zero F] [One F] [Add F] [Sub F] [Mul F] [Div F]
  [Neg F] [NatCast F] [FltFun F] [FloatLaws F] [Field P] [LinearOrder P]
  {lib : Lib F P} {rng : Rng K F} {a : GbartArgs K F}

/-! ### C49 -/

omit [FloatLaws F] [One F] [Sub F] [Mul F] [Neg F] [FltFun F] in
theorem length_meanAxis0 (n : Nat) (m : List (List F)) : (meanAxis0 n m).length = n := by
  simp [meanAxis0, length_vmap]

omit [FloatLaws F] in
theorem predictions_length (lib : Lib F P) (rng : Rng K F) (a : GbartArgs K F) (sp : Splits P)
    (x : List (List F)) (n : Nat) :
    (predictions lib rng a sp x n).length = a.ndpost ∧
    ∀ row ∈ predictions lib rng a sp x n, row.length = n := by
  constructor
  · simp [predictions]
  · intro row hr
    simp only [predictions, List.mem_map] at hr
    obtain ⟨k, -, rfl⟩ := hr
    simp

/-- C49. The model can be fitted, and the outputs have the documented shapes, for any number of
iterations, datapoints, test points, and trees, including zero, but for zero datapoints if the
cutpoints are not quantiles (`ValidGbart.datapoints`). -/
theorem C49_shapes_partial (h : ValidGbart lib a) (hrng : LawfulRng rng) :
    ∃ g yhat_train yhat_train_mean, gbart lib rng a = some g ∧
      g.yhat_train lib = some yhat_train ∧ yhat_train.length = a.ndpost ∧
      (∀ row ∈ yhat_train, row.length = a.y_train.length) ∧
      g.yhat_train_mean lib = some yhat_train_mean ∧ yhat_train_mean.length = a.y_train.length ∧
      g.sigma.length = a.ndpost ∧ g.first_sigma.length = a.nskip ∧
      (a.x_test = none → g.yhat_test = none ∧ g.yhat_test_mean = none) ∧
      (∀ x, a.x_test = some x → ∃ yhat_test yhat_test_mean,
        g.yhat_test = some yhat_test ∧ yhat_test.length = a.ndpost ∧
        (∀ row ∈ yhat_test, row.length = x.n) ∧
        g.yhat_test_mean = some yhat_test_mean ∧ yhat_test_mean.length = x.n) ∧
      ∀ x, Compatible a.x_train x → ∃ yhat, g.predict lib x = some yhat ∧ yhat.length = a.ndpost ∧
        ∀ row ∈ yhat, row.length = x.n := by
  obtain ⟨sp, g, h1, hg⟩ := gbart_spec hrng h
  have hyt := hg.yhat_train_eq h hrng
  have hlen : g.mcmc_state.y.length = a.y_train.length := by
    rw [hg.state, (reachable_inv (gbart_args_valid h hg.splits_eq)
      (gbartState_reachable (lib := lib) hrng a sp _)).cfg.y]
    simp [gbart_init_args, setup_args, transform_input]
  refine ⟨g, _, meanAxis0 g.mcmc_state.y.length (predictions lib rng a sp a.x_train.x a.x_train.n), h1, hyt, (predictions_length ..).1, ?_, ?_, ?_, ?_, ?_,
    ?_, ?_, ?_⟩
  · rw [← h.length]; exact (predictions_length ..).2
  · unfold Gbart.yhat_train_mean; rw [hyt]; rfl
  · rw [length_meanAxis0, hlen]
  · rw [hg.sigma]; simp
  · rw [hg.first_sigma]; simp
  · intro e; rw [hg.yhat_test, hg.yhat_test_mean, e]; exact ⟨rfl, rfl⟩
  · intro x hx
    rw [hg.yhat_test, hg.yhat_test_mean, hx]
    simp only [Option.bind_some, hg.predict_eq h hrng x (h.x_test x hx), Option.map_some]
    exact ⟨_, _, rfl, (predictions_length ..).1, (predictions_length ..).2, rfl, length_meanAxis0 ..⟩
  · intro x hx
    exact ⟨_, hg.predict_eq h hrng x hx, (predictions_length ..).1, (predictions_length ..).2⟩

omit [FloatLaws F] in
/-- C49 is false without datapoints: with the default `usequants=False` the initialization fails,
although the offset, scale and error variance for this case are documented. -/
theorem C49_not (hp : 0 < a.x_train.x.length) (h0 : ∀ row ∈ a.x_train.x, row = [])
    (hu : a.usequants = false) : gbart lib rng a = none := by
  have hd : determine_splits lib a.x_train.x a.x_train.n a.usequants a.numcut = none := by
    unfold determine_splits
    rw [hu]
    cases hx : a.x_train.x with
    | nil => rw [hx] at hp; simp at hp
    | cons row x =>
      have := h0 row (by rw [hx]; exact List.mem_cons_self ..)
      subst this
      have hu' : uniform_row ([] : List P) (a.numcut + 1) = none := (C16_error _ _).2 (.inl rfl)
      simp [uniform_splits_from_matrix, List.mapM_cons, hu']
  unfold gbart
  simp only [hd, Option.bind_eq_bind, Option.bind_none, Option.bind_fun_none]

/-! ### C46 -/

/-- C46. Predicting at the training points gives `yhat_train`; `yhat_test` is what would be obtained with
`predict`. -/
theorem C46_predict_train (h : ValidGbart lib a) (hrng : LawfulRng rng) :
    ∃ g, gbart lib rng a = some g ∧
      (∃ yhat, g.yhat_train lib = some yhat ∧ g.predict lib a.x_train = some yhat) ∧
      ∀ x, a.x_test = some x → ∃ yhat, g.yhat_test = some yhat ∧ g.predict lib x = some yhat := by
  obtain ⟨sp, g, h1, hg⟩ := gbart_spec hrng h
  refine ⟨g, h1, ⟨_, hg.yhat_train_eq h hrng, hg.predict_eq h hrng _ ⟨rfl, rfl⟩⟩, ?_⟩
  intro x hx
  rw [hg.yhat_test, hx]
  have := hg.predict_eq h hrng x (h.x_test x hx)
  exact ⟨_, this, this⟩

/-! ### C57 -/

/-- the names of the columns, if any -/
def columnNames (x : Predictors F) : Option (List String) := x.columns.map Columns.names

/-- C57. `predict` fails if the number of predictors differs from the one of the training set, or if only one
of the two is a dataframe, or if the names of the columns of the dataframe differ. -/
theorem C57_format (h : ValidGbart lib a) (hrng : LawfulRng rng) (x : Predictors F)
    (hx : columnNames x ≠ columnNames a.x_train ∨
      a.x_train.columns = none ∧ x.x.length ≠ a.x_train.x.length)
    (hid : ∀ id names names', x.columns = some (.index id names) →
      a.x_train.columns = some (.index id names') → names = names') :
    ∃ g, gbart lib rng a = some g ∧ g.predict lib x = none := by
  obtain ⟨sp, g, h1, hg⟩ := gbart_spec hrng h
  refine ⟨g, h1, ?_⟩
  have hne : check_compatible_formats (predictor_format x) g.x_train_fmt = none := by
    rw [hg.fmt]
    unfold columnNames at hx
    unfold predictor_format
    cases hc : x.columns with
    | none =>
      cases hc' : a.x_train.columns with
      | none =>
        rw [hc, hc'] at hx
        simpa [check_compatible_formats, guard] using hx
      | some c' => rfl
    | some c =>
      cases hc' : a.x_train.columns with
      | none => rfl
      | some c' =>
        rw [hc, hc'] at hx
        have hn : c.names ≠ c'.names := by simpa using hx
        have harr : ∀ l l' : List String, l ≠ l' →
            (Columns.eq.array_eq l l' = none ∨ Columns.eq.array_eq l l' = some false) := by
          intro l l' hl
          unfold Columns.eq.array_eq
          split
          · right
            simpa using hl
          · exact .inl rfl
        have heq : c.eq c' = none ∨ c.eq c' = some false := by
          cases c with
          | list l =>
            cases c' with
            | list l' =>
              right
              simpa [Columns.eq, Columns.names] using hn
            | index i l' => exact harr _ _ hn
          | index i l =>
            cases c' with
            | list l' => exact harr _ _ hn
            | index i' l' =>
              have hii : i ≠ i' := by
                rintro rfl
                exact hn (hid i l l' hc hc')
              simp only [Columns.eq, if_neg hii]
              exact harr _ _ hn
        rcases heq with heq | heq <;> simp [check_compatible_formats, heq, guard]
  unfold Gbart.predict
  simp [hne]

/-! ### C65 -/

/-- C65, what holds. Full statement: `predict` accepts any predictors with the same columns as the training set: an
array with the same number of predictors, or a dataframe with the same names of the columns. This is proved for
arrays, for dataframes with names in a list (polars), for pandas dataframes that share the `Index` object, and for
those with only one column. It does not hold for the other pandas dataframes, see `C65_not`. -/
theorem C65_same_columns_partial (h : ValidGbart lib a) (hrng : LawfulRng rng) (x : Predictors F)
    (hlen : x.x.length = a.x_train.x.length)
    (hx : (x.columns = none ∧ a.x_train.columns = none) ∨
      (∃ names, x.columns = some (.list names) ∧ a.x_train.columns = some (.list names)) ∨
      (∃ id names, x.columns = some (.index id names) ∧ a.x_train.columns = some (.index id names)) ∨
      (∃ c c' name, x.columns = some c ∧ a.x_train.columns = some c' ∧ c.names = [name] ∧ c'.names = [name])) :
    ∃ g yhat, gbart lib rng a = some g ∧ g.predict lib x = some yhat ∧ yhat.length = a.ndpost ∧
      ∀ row ∈ yhat, row.length = x.n := by
  obtain ⟨sp, g, h1, hg⟩ := gbart_spec hrng h
  have hchk : check_compatible_formats (predictor_format x) (predictor_format a.x_train) = some () := by
    rcases hx with ⟨h1, h2⟩ | ⟨l, h1, h2⟩ | ⟨i, l, h1, h2⟩ | ⟨c, c', name, h1, h2, h3, h4⟩
    · exact check_formats_eq ⟨h1.trans h2.symm, hlen⟩
    · exact check_formats_eq ⟨h1.trans h2.symm, hlen⟩
    · exact check_formats_eq ⟨h1.trans h2.symm, hlen⟩
    · unfold predictor_format
      rw [h1, h2]
      cases c <;> cases c' <;> simp only [Columns.names] at h3 h4 <;> subst h3 <;> subst h4 <;>
        simp [check_compatible_formats, Columns.eq, Columns.eq.array_eq, Columns.names, guard]
  refine ⟨g, _, h1, hg.predict_eq_of_check h hrng x hchk, ?_, ?_⟩
  · simp [predictions]
  · intro row hrow
    simp only [predictions, List.mem_map] at hrow
    obtain ⟨i, -, rfl⟩ := hrow
    simp

/-- C65, what fails. If the training set is a pandas dataframe with two or more columns, then `predict` fails with
any dataframe whose columns are another `Index` object, even if the names are the same. -/
theorem C65_not (h : ValidGbart lib a) (hrng : LawfulRng rng) (x : Predictors F) (id id' : Nat)
    (names names' : List String) (hid : id ≠ id') (hlen : 2 ≤ names.length)
    (ha : a.x_train.columns = some (.index id names)) (hx : x.columns = some (.index id' names')) :
    ∃ g, gbart lib rng a = some g ∧ g.predict lib x = none := by
  obtain ⟨sp, g, h1, hg⟩ := gbart_spec hrng h
  refine ⟨g, h1, ?_⟩
  unfold Gbart.predict
  rw [hg.fmt]
  unfold predictor_format
  rw [ha, hx]
  have : Columns.eq.array_eq names' names = none := by
    match names, names', hlen with
    | _ :: _ :: _, [], _ => rfl
    | _ :: _ :: _, [_], _ => rfl
    | _ :: _ :: _, _ :: _ :: _, _ => rfl
  simp [check_compatible_formats, Columns.eq, hid.symm, this]

/-! ### C58 -/

/-- C58. The sequential guarantee: changing the number of burn-in, saved, and skipped iterations, the results
for the iterations in common do not change. -/
theorem C58_sequential (h : ValidGbart lib a) (hrng : LawfulRng rng) (nskip ndpost keepevery : Nat) :
    ∃ g g', gbart lib rng a = some g ∧
      gbart lib rng { a with nskip := nskip, ndpost := ndpost, keepevery := keepevery } = some g' ∧
      (∀ k k', k < a.ndpost → k' < ndpost →
        a.nskip + (k + 1) * a.keepevery = nskip + (k' + 1) * keepevery →
        (∃ v, g.sigma[k]? = some v ∧ g'.sigma[k']? = some v) ∧
        (∀ x, Compatible a.x_train x → ∃ yhat yhat' row, g.predict lib x = some yhat ∧
          g'.predict lib x = some yhat' ∧ yhat[k]? = some row ∧ yhat'[k']? = some row) ∧
        ∃ yhat yhat' row, g.yhat_train lib = some yhat ∧ g'.yhat_train lib = some yhat' ∧
          yhat[k]? = some row ∧ yhat'[k']? = some row) ∧
      (∀ k k', k < a.nskip → k' < ndpost → k + 1 = nskip + (k' + 1) * keepevery →
        ∃ v, g.first_sigma[k]? = some v ∧ g'.sigma[k']? = some v) ∧
      ∀ k, k < a.nskip → k < nskip → ∃ v, g.first_sigma[k]? = some v ∧ g'.first_sigma[k]? = some v := by
  obtain ⟨sp, g, h1, hg⟩ := gbart_spec hrng h
  have h' : ValidGbart lib { a with nskip := nskip, ndpost := ndpost, keepevery := keepevery } :=
    ⟨h.1, h.2, h.3, h.4, h.5, h.6, h.7, h.8, h.9, h.10, h.11⟩
  obtain ⟨sp', g', h1', hg'⟩ := gbart_spec hrng h'
  have hsp : sp' = sp := Option.some.inj (hg'.splits_eq.symm.trans hg.splits_eq)
  subst hsp
  have hst : ∀ t, gbartState lib rng { a with nskip := nskip, ndpost := ndpost, keepevery := keepevery } sp' t =
      gbartState lib rng a sp' t := fun t => rfl
  have hse : gbart_settings lib { a with nskip := nskip, ndpost := ndpost, keepevery := keepevery } =
      gbart_settings lib a := rfl
  have hpred : ∀ (x : List (List F)) (n k k' : Nat), k < a.ndpost → k' < ndpost →
      a.nskip + (k + 1) * a.keepevery = nskip + (k' + 1) * keepevery →
      ∃ row, (predictions lib rng a sp' x n)[k]? = some row ∧ (predictions lib rng
        { a with nskip := nskip, ndpost := ndpost, keepevery := keepevery } sp' x n)[k']? = some row := by
    intro x n k k' hk hk' e
    simp only [predictions, hst, hse, List.getElem?_map, List.getElem?_range hk, List.getElem?_range hk',
      Option.map_some, e]
    exact ⟨_, rfl, rfl⟩
  refine ⟨g, g', h1, h1', ?_, ?_, ?_⟩
  · intro k k' hk hk' e
    refine ⟨?_, ?_, ?_⟩
    · rw [hg.sigma, hg'.sigma]
      simp only [hst, hse, List.getElem?_map, List.getElem?_range hk, List.getElem?_range hk',
        Option.map_some, e]
      exact ⟨_, rfl, rfl⟩
    · intro x hx
      obtain ⟨row, r1, r2⟩ := hpred x.x x.n k k' hk hk' e
      exact ⟨_, _, row, hg.predict_eq h hrng x hx, hg'.predict_eq h' hrng x hx, r1, r2⟩
    · obtain ⟨row, r1, r2⟩ := hpred a.x_train.x a.x_train.n k k' hk hk' e
      exact ⟨_, _, row, hg.yhat_train_eq h hrng, hg'.yhat_train_eq h' hrng, r1, r2⟩
  · intro k k' hk hk' e
    rw [hg.first_sigma, hg'.sigma]
    simp only [hst, hse, List.getElem?_map, List.getElem?_range hk, List.getElem?_range hk',
      Option.map_some, e]
    exact ⟨_, rfl, rfl⟩
  · intro k hk hk'
    rw [hg.first_sigma, hg'.first_sigma]
    simp only [hst, hse, List.getElem?_map, List.getElem?_range hk, List.getElem?_range hk',
      Option.map_some]
    exact ⟨_, rfl, rfl⟩

/-! ### C59 -/

/-- the minimum number of datapoints per leaf is the one specified by the user, by default 5 -/
def MinPoints (a : GbartArgs K F) (m : Nat) : Prop :=
  a.initkw.min_points_per_leaf = some (some m) ∨ a.initkw.min_points_per_leaf = none ∧ m = 5

omit [KeyLike K] [Neg F] [FloatLaws F] in
theorem min_points_eq {m : Nat} (hm : MinPoints a m) (sp : Splits P) :
    (gbart_init_args lib a sp).min_points_per_leaf = some m := by
  rcases hm with e | ⟨e, rfl⟩ <;> simp [gbart_init_args, setup_args, e]

/-- C59. With less than twice the minimum number of datapoints per leaf (10 datapoints with default options),
the predictions are the same at all points, training or test. -/
theorem C59_few_points (h : ValidGbart lib a) (hrng : LawfulRng rng) {m : Nat} (hm : MinPoints a m)
    (hn : a.y_train.length < 2 * m) :
    ∃ g, gbart lib rng a = some g ∧ ∀ x x', Compatible a.x_train x → Compatible a.x_train x' →
      ∃ yhat yhat', g.predict lib x = some yhat ∧ g.predict lib x' = some yhat' ∧
      ∀ k, k < a.ndpost → ∃ c : F, yhat[k]? = some (List.replicate x.n c) ∧
        yhat'[k]? = some (List.replicate x'.n c) := by
  obtain ⟨sp, g, h1, hg⟩ := gbart_spec hrng h
  refine ⟨g, h1, fun x x' hx hx' => ⟨_, _, hg.predict_eq h hrng x hx, hg.predict_eq h hrng x' hx', ?_⟩⟩
  intro k hk
  have hc : ∀ y y', forestAt (a.maxdepth - 1) a.ntree
      (gbartState lib rng a sp (a.nskip + (k + 1) * a.keepevery)) y =
      forestAt (a.maxdepth - 1) a.ntree
      (gbartState lib rng a sp (a.nskip + (k + 1) * a.keepevery)) y' := by
    intro y y'
    have hr := (C39_few_points (gbart_args_valid h hg.splits_eq)
      (gbartState_reachable (lib := lib) hrng a sp (a.nskip + (k + 1) * a.keepevery)) m
      (min_points_eq hm sp) (by simpa [gbart_init_args, setup_args, transform_input] using hn)).1
    unfold forestAt
    refine congrArg (fun l => List.foldl (· + ·) 0 l) (List.map_congr_left fun t ht => ?_)
    rw [List.mem_range] at ht
    have hroot : at0 ((gbartState lib rng a sp
        (a.nskip + (k + 1) * a.keepevery)).split_trees.getD t []) 1 = 0 := by
      by_contra hc
      have := (hr t ht 2).1 (.left .root hc)
      omega
    obtain ⟨l, hl⟩ : ∃ l, a.maxdepth - 1 = l + 1 := ⟨a.maxdepth - 2, by have := h.depth_ge; omega⟩
    rw [hl, readTree, if_pos hroot]
    rfl
  refine ⟨(gbart_settings lib a).offset + (gbart_settings lib a).scale *
    forestAt (a.maxdepth - 1) a.ntree (gbartState lib rng a sp (a.nskip + (k + 1) * a.keepevery)) [], ?_, ?_⟩
  · simp only [predictions, List.getElem?_map, List.getElem?_range hk, Option.map_some, hc _ [],
      List.map_const', List.length_range]
  · simp only [predictions, List.getElem?_map, List.getElem?_range hk, Option.map_some, hc _ [],
      List.map_const', List.length_range]

/-! ### C60 -/

theorem mapM_map_some {α β γ : Type} (f : β → Option γ) (w : α → β) (u : α → γ) (h : ∀ k, f (w k) = some (u k))
    (l : List α) : (l.map w).mapM f = some (l.map u) := by
  rw [List.mapM_map]
  exact mapM_eq_some_map _ _ _ fun k _ => h k

omit [FloatLaws F] in
theorem GbartSpec.trace_forests_eq {sp : Splits P} {g : Gbart F P} (hg : GbartSpec lib rng a sp g) :
    trace_forests g.main_trace =
      let s := fun k => gbartState lib rng a sp (a.nskip + (k + 1) * a.keepevery)
      some ((List.range a.ndpost).map fun k => (s k).leaf_trees,
        (List.range a.ndpost).map fun k => (s k).var_trees,
        (List.range a.ndpost).map fun k => (s k).split_trees) := by
  have h := (C42_trace rng (init (gbart_init_args lib a sp)) a.key a.nskip a.ndpost a.keepevery).2
  rw [← hg.trace] at h
  have e1 := h ("leaf_trees", fun s => .floatTrees s.leaf_trees) (by simp [treeFields])
  have e2 := h ("var_trees", fun s => .intTrees s.var_trees) (by simp [treeFields])
  have e3 := h ("split_trees", fun s => .intTrees s.split_trees) (by simp [treeFields])
  simp only at e1 e2 e3
  unfold trace_forests
  simp only [e1, e2, e3, Option.bind_eq_bind, Option.bind_some, Option.pure_def]
  rw [mapM_map_some Value.floatTrees? _ (fun k => (gbartState lib rng a sp (a.nskip + (k + 1) * a.keepevery)).leaf_trees)
      (fun k => rfl) _,
    mapM_map_some Value.intTrees? _ (fun k => (gbartState lib rng a sp (a.nskip + (k + 1) * a.keepevery)).var_trees)
      (fun k => rfl) _,
    mapM_map_some Value.intTrees? _ (fun k => (gbartState lib rng a sp (a.nskip + (k + 1) * a.keepevery)).split_trees)
      (fun k => rfl) _]
  rfl

omit [FloatLaws F] in
theorem GbartSpec.trace_ints_eq {sp : Splits P} {g : Gbart F P} (hg : GbartSpec lib rng a sp g)
    (field : String) (f : State F → Nat)
    (hf : (field, fun s => Value.int (f s)) ∈ (burninFields ++ treeFields : List (String × (State F → Value F)))) :
    trace_ints g.main_trace field = some ((List.range a.ndpost).map fun k =>
      f (gbartState lib rng a sp (a.nskip + (k + 1) * a.keepevery))) := by
  have h := (C42_trace rng (init (gbart_init_args lib a sp)) a.key a.nskip a.ndpost a.keepevery).2 _ hf
  rw [← hg.trace] at h
  simp only at h
  unfold trace_ints
  simp only [h, Option.bind_eq_bind, Option.bind_some]
  rw [List.mapM_map]
  exact mapM_eq_some_map _ _ _ fun k _ => rfl

theorem forall_vmap {α : Type} {n : Nat} {f : Nat → α} {p : α → Prop} (h : ∀ k, k < n → p (f k)) :
    ∀ x ∈ vmap n f, p x := by
  intro x hx
  obtain ⟨i, hi, rfl⟩ := List.mem_map.1 hx
  exact h i (List.mem_range.1 hi)

open Classical in
/-- C60. The inspection method `_depth_distr` counts the trees by depth in each saved iteration. -/
theorem C60_depth_distr (h : ValidGbart lib a) (hrng : LawfulRng rng) :
    ∃ g leaf var split distr, gbart lib rng a = some g ∧
      trace_forests g.main_trace = some (leaf, var, split) ∧
      g.depth_distr = some distr ∧ distr.length = a.ndpost ∧
      ∀ k, k < a.ndpost → ∃ row, distr[k]? = some row ∧ row.length = a.maxdepth ∧ row.sum = a.ntree ∧
        ∀ d, d < a.maxdepth → row.getD d 0 =
          (split.getD k []).countP fun tree => decide (IsTreeDepth tree d) := by
  obtain ⟨sp, g, h1, hg⟩ := gbart_spec hrng h
  have ha := gbart_args_valid h hg.splits_eq
  have hpn : (gbart_init_args lib a sp).p_nonterminal.length = a.maxdepth - 1 := by
    simp [gbart_init_args, setup_args]
  have hd := h.depth_ge
  have hd' := h.depth_le
  refine ⟨g, _, _, _, _, h1, hg.trace_forests_eq,
    by unfold Gbart.depth_distr; rw [hg.trace_forests_eq]; rfl, ?_, ?_⟩
  · unfold trace_depth_distr; rw [length_vmap, List.length_map, List.length_range]
  · unfold trace_depth_distr
    intro k hk
    have hk' : k < ((List.range a.ndpost).map fun k => (gbartState lib rng a sp
      (a.nskip + (k + 1) * a.keepevery)).split_trees).length := by simpa using hk
    refine ⟨_, by unfold vmap; rw [List.getElem?_map, List.getElem?_range hk', Option.map_some], ?_⟩
    rw [getD_map_lt (d := 0) (by simpa using hk), List.getD_eq_getElem _ _ (by simpa using hk),
      List.getElem_range, hg.maxdepth]
    have hr := gbartState_reachable (lib := lib) hrng a sp (a.nskip + (k + 1) * a.keepevery)
    obtain ⟨-, -, hlen, hv⟩ := C19_valid_trees ha hr
    obtain ⟨e1, e2, e3⟩ := C51_forest_depth
      (gbartState lib rng a sp (a.nskip + (k + 1) * a.keepevery)).split_trees
      (a.maxdepth - 1) (by omega) (by omega) (by
        intro split hs
        obtain ⟨t, ht, rfl⟩ := List.getElem_of_mem hs
        rw [hlen] at ht
        have := (hv t ht).2.2.2
        rwa [hpn, List.getD_eq_getElem _ _ (by rw [hlen]; exact ht)] at this)
    refine ⟨by rw [e1]; omega, by rw [e3, hlen]; rfl, fun d hd => e2 d (by omega)⟩

theorem isNode_root {split : List Nat} (h : at0 split 1 = 0) {i : Nat} (hi : IsNode split i) : i = 1 := by
  induction hi with
  | root => rfl
  | left _ hne ih => subst ih; exact absurd h hne
  | right _ hne ih => subst ih; exact absurd h hne

theorem pointsIn_root {split : List Nat} (h : at0 split 1 = 0) (X : List (List Nat)) (n : Nat)
    (var : List Nat) : pointsIn X n var split 1 = n := by
  unfold pointsIn
  have : {j | j < n ∧ FallsInto (point X j) var split 1} = ↑(Finset.range n) := by
    ext j
    simp only [Set.mem_ofPred_eq, Finset.coe_range, Set.mem_Iio]
    exact ⟨And.left, fun hj => ⟨hj, ⟨.root, h⟩, .root⟩⟩
  rw [this, Set.ncard_coe_finset, Finset.card_range]

theorem trace_points_eq (n : Nat) (trace : List (List (List Nat) × List (List Nat))) (X : List (List Nat)) :
    trace_points_per_leaf_distr n trace X =
      trace.map fun bart => forest_points_per_leaf_distr n bart.1 bart.2 X := by
  unfold trace_points_per_leaf_distr
  induction trace with
  | nil => rfl
  | cons x trace ih => rw [scan_cons, List.map_cons, ← ih]

theorem length_forest_points (n : Nat) (X : List (List Nat)) (trees : List (List Nat × List Nat))
    (hT : ∀ t ∈ trees, (points_per_leaf_distr n t.1 t.2 X).length = n + 1) (init : List Nat)
    (hi : init.length = n + 1) :
    ((scan (fun distr (tree : List Nat × List Nat) =>
      (List.zipWith (· + ·) distr (points_per_leaf_distr n tree.1 tree.2 X), ())) init trees).1).length =
      n + 1 := by
  induction trees generalizing init with
  | nil => exact hi
  | cons t trees ih =>
    rw [scan_cons]
    refine ih (fun t' h' => hT t' (List.mem_cons_of_mem _ h')) _ ?_
    rw [List.length_zipWith, hi, hT t (List.mem_cons_self ..), Nat.min_self]

/-- C60. The inspection method `_points_per_leaf_distr` finds no leaf with less than the minimum number of
datapoints, and no leaf that leaves out less than the minimum but not all of the datapoints, in all the saved
iterations, for any number of trees and depth (so the wrap-around of C51 does not matter). -/
theorem C60_min_points (h : ValidGbart lib a) (hrng : LawfulRng rng) {m : Nat} (hm : MinPoints a m)
    (hn64 : a.y_train.length < 2 ^ 64) :
    ∃ g distr, gbart lib rng a = some g ∧ g.points_per_leaf_distr = some distr ∧
      distr.length = a.ndpost ∧ ∀ row ∈ distr, row.length = a.y_train.length + 1 ∧
        ∀ c, c < a.y_train.length → c < m ∨ a.y_train.length < c + m → row.getD c 0 = 0 := by
  obtain ⟨sp, g, h1, hg⟩ := gbart_spec hrng h
  have ha := gbart_args_valid h hg.splits_eq
  have hpn : (gbart_init_args lib a sp).p_nonterminal.length = a.maxdepth - 1 := by
    simp [gbart_init_args, setup_args]
  have hy : (gbart_init_args lib a sp).y.length = a.y_train.length := by
    simp [gbart_init_args, setup_args, transform_input]
  have hcfg := (reachable_inv ha (gbartState_reachable (lib := lib) hrng a sp
    (a.nskip + a.ndpost * a.keepevery))).cfg
  have hd := h.depth_ge
  have hd' := h.depth_le
  refine ⟨g, _, h1, by unfold Gbart.points_per_leaf_distr; rw [hg.trace_forests_eq]; rfl, ?_, ?_⟩
  · rw [trace_points_eq]; simp
  · rw [trace_points_eq, hg.state, hcfg.X, hcfg.y, hy]
    intro row hrow
    obtain ⟨bart, hb, rfl⟩ := List.mem_map.1 hrow
    rw [List.zip_map, List.mem_map] at hb
    obtain ⟨⟨k, k'⟩, hkk, rfl⟩ := hb
    have hk : k = k' := by
      rw [List.mem_iff_getElem] at hkk
      obtain ⟨i, hi, e⟩ := hkk
      simp at e
      omega
    subst hk
    have hr := gbartState_reachable (lib := lib) hrng a sp (a.nskip + (k + 1) * a.keepevery)
    obtain ⟨-, hlenv, hlens, hv⟩ := C19_valid_trees ha hr
    simp only [Prod.map_apply]
    generalize gbartState lib rng a sp (a.nskip + (k + 1) * a.keepevery) = s at hr hlenv hlens hv
    have hT : ∀ t ∈ s.var_trees.zip s.split_trees,
        (points_per_leaf_distr a.y_train.length t.1 t.2 (gbart_init_args lib a sp).X).length =
          a.y_train.length + 1 ∧
        ∀ c, c < a.y_train.length → c < m ∨ a.y_train.length < c + m →
          (points_per_leaf_distr a.y_train.length t.1 t.2 (gbart_init_args lib a sp).X).getD c 0 = 0 := by
      intro tr htr
      rw [List.mem_iff_getElem] at htr
      obtain ⟨t, ht, rfl⟩ := htr
      have ht' : t < (gbart_init_args lib a sp).num_trees := by
        rw [List.length_zip, hlenv, hlens] at ht; omega
      obtain ⟨-, hvl, -, hvs⟩ := hv t ht'
      have e1 : (s.var_trees.zip s.split_trees)[t] = (s.var_trees.getD t [], s.split_trees.getD t []) := by
        rw [List.getElem_zip, List.getD_eq_getElem _ _ (by omega), List.getD_eq_getElem _ _ (by omega)]
      rw [e1]
      rw [hpn] at hvl hvs
      obtain ⟨p1, p2⟩ := C51_points_per_leaf_partial a.y_train.length (gbart_init_args lib a sp).X
        (s.var_trees.getD t []) (s.split_trees.getD t []) (a.maxdepth - 1) (by omega) (by omega) hn64 hvl hvs
      refine ⟨p1, fun c hc hcm => ?_⟩
      rw [p2 c hc.le]
      have hz : leavesWith (gbart_init_args lib a sp).X a.y_train.length (s.var_trees.getD t [])
          (s.split_trees.getD t []) c = 0 := by
        unfold leavesWith
        rw [Set.ncard_eq_zero ((leaves_finite hvs.length).subset fun _ hi => hi.1)]
        rw [Set.eq_empty_iff_forall_notMem]
        rintro i ⟨hi, hpi⟩
        by_cases hroot : at0 (s.split_trees.getD t []) 1 = 0
        · have := isNode_root hroot hi.1
          subst this
          rw [pointsIn_root hroot] at hpi
          omega
        · have := C22_min_points ha hr m (min_points_eq hm sp) t ht' i hi (fun hc => hroot hc.2)
          rw [hy, hpi] at this
          omega
      rw [hz]
      rfl
    unfold forest_points_per_leaf_distr
    refine ⟨length_forest_points _ _ _ (fun t ht => (hT t ht).1) _ (by simp), fun c hc hcm => ?_⟩
    rw [scan_distr _ (fun t ht => (hT t ht).1) _ (by simp)]
    have hz : (List.replicate (a.y_train.length + 1) 0).getD c 0 = 0 := by
      rw [List.getD_eq_getElem _ _ (by simp; omega)]; simp
    rw [hz, zero_add, List.sum_eq_zero]
    intro x hx
    obtain ⟨t, ht, rfl⟩ := List.mem_map.1 hx
    exact (hT t ht).2 c hc hcm

/-! ### C61 -/

theorem GbartSpec.check_trees_eq {sp : Splits P} {g : Gbart F P} (hg : GbartSpec lib rng a sp g)
    (h : ValidGbart lib a) (hrng : LawfulRng rng) :
    g.check_trees = some ((List.range a.ndpost).map fun k =>
      let s := gbartState lib rng a sp (a.nskip + (k + 1) * a.keepevery)
      check_forest ((List.range a.ntree).map (treeArrays s)) ⟨s.max_split, s.split_bits⟩) := by
  have ha := gbart_args_valid h hg.splits_eq
  have hcfg := (reachable_inv ha (gbartState_reachable (lib := lib) hrng a sp
    (a.nskip + a.ndpost * a.keepevery))).cfg
  unfold Gbart.check_trees
  rw [hg.trace_forests_eq]
  simp only [Option.bind_eq_bind, Option.bind_some, Option.pure_def, check_trace, length_vmap, List.length_map,
    List.length_range]
  refine congrArg some (List.map_congr_left fun k hk => ?_)
  rw [List.mem_range] at hk
  rw [getD_vmap hk, getD_map_lt (d := 0) (by simpa using hk), getD_map_lt (d := 0) (by simpa using hk),
    getD_map_lt (d := 0) (by simpa using hk), List.getD_eq_getElem _ _ (by simpa using hk), List.getElem_range]
  have hinv := reachable_inv ha (gbartState_reachable (lib := lib) hrng a sp
    (a.nskip + (k + 1) * a.keepevery))
  rw [hg.state, hcfg.max_split, hcfg.split_bits, hcfg.var_bits, hinv.cfg.max_split, hinv.cfg.split_bits]
  unfold forest_arrays treeArrays
  rw [hinv.leaf_length, hinv.cfg.var_bits, hinv.cfg.split_bits]
  rfl

/-- C61. The inspection method `_check_trees` returns zero for all the trees in all saved iterations, if the
leaf values are finite numbers, and otherwise it may only report leaf values that are not finite. If all leaves
are finite, `_tree_goes_bad` never says that a tree goes bad. -/
theorem C61_check_trees (h : ValidGbart lib a) (hrng : LawfulRng rng) :
    ∃ g leaf var split check goes_bad, gbart lib rng a = some g ∧
      trace_forests g.main_trace = some (leaf, var, split) ∧
      g.check_trees = some check ∧ g.tree_goes_bad = some goes_bad ∧
      check.length = a.ndpost ∧ goes_bad.length = a.ndpost ∧
      (∀ row ∈ check, row.length = a.ntree) ∧ (∀ row ∈ goes_bad, row.length = a.ntree) ∧
      (∀ k, k < a.ndpost → ∀ t, t < a.ntree → (check.getD k []).getD t 0 =
        if ((leaf.getD k []).getD t []).all FltFun.isFinite then 0 else 8) ∧
      ((∀ k, k < a.ndpost → ∀ t, t < a.ntree → ((leaf.getD k []).getD t []).all FltFun.isFinite) →
        ∀ row ∈ goes_bad, ∀ b ∈ row, b = false) := by
  obtain ⟨sp, g, h1, hg⟩ := gbart_spec hrng h
  have ha := gbart_args_valid h hg.splits_eq
  have hc := hg.check_trees_eq h hrng
  set check := (List.range a.ndpost).map fun k =>
      let s := gbartState lib rng a sp (a.nskip + (k + 1) * a.keepevery)
      check_forest ((List.range a.ntree).map (treeArrays s)) ⟨s.max_split, s.split_bits⟩ with hcheck
  have hrows : ∀ row ∈ check, row.length = a.ntree := by
    intro row hr
    obtain ⟨k, -, rfl⟩ := List.mem_map.1 hr
    exact (C55_checks ha (gbartState_reachable (lib := lib) hrng a sp (a.nskip + (k + 1) * a.keepevery))).1
  have hlen : check.length = a.ndpost := by simp [hcheck]
  have hval : ∀ k, k < a.ndpost → ∀ t, t < a.ntree → (check.getD k []).getD t 0 =
      if ((((List.range a.ndpost).map fun k => (gbartState lib rng a sp
        (a.nskip + (k + 1) * a.keepevery)).leaf_trees).getD k []).getD t []).all FltFun.isFinite
      then 0 else 8 := by
    intro k hk t ht
    have hk1 : k < (List.range a.ndpost).length := by simpa using hk
    rw [hcheck, getD_map_lt (d := 0) hk1 [], getD_map_lt (d := 0) hk1 [],
      List.getD_eq_getElem _ _ hk1, List.getElem_range]
    exact (C55_checks ha (gbartState_reachable (lib := lib) hrng a sp
      (a.nskip + (k + 1) * a.keepevery))).2 t ht
  set bad : List (List Bool) := check.map fun row => row.map fun e => e != 0 with hbd
  have hbl : bad.length = a.ndpost := by rw [hbd, List.length_map, hlen]
  have hbad : ∀ row ∈ bad, row.length = a.ntree := by
    intro row hr
    obtain ⟨r, hr', rfl⟩ := List.mem_map.1 hr
    rw [List.length_map]; exact hrows r hr'
  have hbefore : ∀ row ∈ (List.replicate a.ntree false) :: bad.dropLast, row.length = a.ntree := by
    intro row hr
    rcases List.mem_cons.1 hr with rfl | hr
    · simp
    · exact hbad _ (List.mem_of_mem_dropLast hr)
  refine ⟨g, _, _, _, check, List.zipWith (fun r r' => List.zipWith (fun b b' => b && !b') r r') bad
      ((List.replicate a.ntree false) :: bad.dropLast), h1, hg.trace_forests_eq, hc,
    by unfold Gbart.tree_goes_bad; rw [hc, hg.ntree]; rfl, hlen, ?_, hrows, ?_, hval, ?_⟩
  · rw [List.length_zipWith, List.length_cons, List.length_dropLast, hbl]; omega
  · intro row hr
    obtain ⟨k, hk, rfl⟩ := List.getElem_of_mem hr
    rw [List.getElem_zipWith, List.length_zipWith, hbad _ (List.getElem_mem _),
      hbefore _ (List.getElem_mem _), Nat.min_self]
  · intro hfin row hr b hb
    obtain ⟨k, hk, rfl⟩ := List.getElem_of_mem hr
    rw [List.getElem_zipWith] at hb
    obtain ⟨t, ht, rfl⟩ := List.getElem_of_mem hb
    rw [List.getElem_zipWith, Bool.and_eq_false_iff]
    left
    have ht := ht
    rw [List.length_zipWith, hbad _ (List.getElem_mem _)] at ht
    have hk' : k < a.ndpost := by
      have := hk
      rw [List.length_zipWith, hbl] at this
      omega
    have ht' : t < a.ntree := by omega
    have := hval k hk' t ht'
    have hk2 : k < check.length := by rw [hlen]; exact hk'
    rw [if_pos (hfin k hk' t ht'), List.getD_eq_getElem _ _ hk2, List.getD_eq_getElem _ _ (by
      rw [hrows _ (List.getElem_mem _)]; exact ht')] at this
    simp [hbd, this]

/-! ### C62 -/

/-- C62. The acceptance and proposal statistics: the accepted moves are not more than the proposed ones, and
`_avg_prop` returns two fractions with sum 1, out of at most one move per tree per iteration. -/
theorem C62_averages (h : ValidGbart lib a) (hrng : LawfulRng rng) (hk : 1 ≤ a.keepevery) :
    ∃ g ga gp pa pp total, gbart lib rng a = some g ∧ g.avg_acc = some ((ga, gp), (pa, pp)) ∧
      g.avg_prop = some ((gp, total), (pp, total)) ∧ ga ≤ gp ∧ pa ≤ pp ∧ gp + pp = total ∧
      total ≤ a.ndpost * a.ntree := by
  obtain ⟨sp, g, h1, hg⟩ := gbart_spec hrng h
  have ha := gbart_args_valid h hg.splits_eq
  have e1 := hg.trace_ints_eq "grow_prop_count" (fun s => s.grow_prop_count) (by simp [burninFields])
  have e2 := hg.trace_ints_eq "grow_acc_count" (fun s => s.grow_acc_count) (by simp [burninFields])
  have e3 := hg.trace_ints_eq "prune_prop_count" (fun s => s.prune_prop_count) (by simp [burninFields])
  have e4 := hg.trace_ints_eq "prune_acc_count" (fun s => s.prune_acc_count) (by simp [burninFields])
  have hst : ∀ k, ∃ s key, Reachable K (gbart_init_args lib a sp) s ∧
      gbartState lib rng a sp (a.nskip + (k + 1) * a.keepevery) = step rng s key := by
    intro k
    obtain ⟨t, ht⟩ : ∃ t, a.nskip + (k + 1) * a.keepevery = t + 1 :=
      ⟨a.nskip + (k + 1) * a.keepevery - 1, by
        have : 1 ≤ (k + 1) * a.keepevery := Nat.mul_pos (by omega) hk
        omega⟩
    rw [ht]
    exact ⟨gbartState lib rng a sp t, _, gbartState_reachable hrng a sp t, rfl⟩
  have hcnt : ∀ k, (gbartState lib rng a sp (a.nskip + (k + 1) * a.keepevery)).grow_acc_count ≤
        (gbartState lib rng a sp (a.nskip + (k + 1) * a.keepevery)).grow_prop_count ∧
      (gbartState lib rng a sp (a.nskip + (k + 1) * a.keepevery)).prune_acc_count ≤
        (gbartState lib rng a sp (a.nskip + (k + 1) * a.keepevery)).prune_prop_count ∧
      (gbartState lib rng a sp (a.nskip + (k + 1) * a.keepevery)).grow_prop_count +
        (gbartState lib rng a sp (a.nskip + (k + 1) * a.keepevery)).prune_prop_count ≤ a.ntree := by
    intro k
    obtain ⟨s, key, hs, e⟩ := hst k
    rw [e]
    obtain ⟨c1, c2, c3, -⟩ := C34_counters ha hs rng hrng key
    exact ⟨c1, c2, c3⟩
  refine ⟨g, _, _, _, _, _, h1, by unfold Gbart.avg_acc; rw [e1, e2, e3, e4]; rfl,
    by unfold Gbart.avg_prop; rw [e1, e3]; rfl, ?_, ?_, rfl, ?_⟩
  · exact List.sum_le_sum fun k _ => (hcnt k).1
  · exact List.sum_le_sum fun k _ => (hcnt k).2.1
  · rw [← List.sum_map_add]
    calc _ ≤ ((List.range a.ndpost).map fun _ => a.ntree).sum :=
          List.sum_le_sum fun k _ => (hcnt k).2.2
      _ = a.ndpost * a.ntree := by simp

/-- C62. `_avg_move` returns the fractions of accepted grow and prune moves out of all the proposed moves, if there are
proposals of both types. If a type of move is never proposed, its fraction is not zero but nan (0 / 0). -/
theorem C62_move (h : ValidGbart lib a) (hrng : LawfulRng rng) (hk : 1 ≤ a.keepevery) :
    ∃ g ga gp pa pp n d n' d', gbart lib rng a = some g ∧ g.avg_acc = some ((ga, gp), (pa, pp)) ∧
      g.avg_move = some ((n, d), (n', d')) ∧
      (0 < gp → 0 < d ∧ (n : ℚ) / d = ga / (gp + pp)) ∧ (gp = 0 → n = 0 ∧ d = 0) ∧
      (0 < pp → 0 < d' ∧ (n' : ℚ) / d' = pa / (gp + pp)) ∧ (pp = 0 → n' = 0 ∧ d' = 0) ∧
      (0 < gp → 0 < pp → (n : ℚ) / d + n' / d' ≤ 1) := by
  obtain ⟨g, ga, gp, pa, pp, total, h1, h2, h3, h4, h5, h6, -⟩ := C62_averages h hrng hk
  have hf : ∀ x y : Nat, 0 < y → y ≤ total → 0 < y * total ∧ ((x * y : Nat) : ℚ) / (y * total : Nat) = x / (gp + pp) := by
    intro x y hy hyt
    refine ⟨Nat.mul_pos hy (by omega), ?_⟩
    have e1 : (y : ℚ) ≠ 0 := by exact_mod_cast hy.ne'
    have e2 : (gp : ℚ) + pp = total := by exact_mod_cast h6
    rw [e2, Nat.cast_mul, Nat.cast_mul, mul_comm (x : ℚ), mul_div_mul_left _ _ e1]
  refine ⟨g, ga, gp, pa, pp, _, _, _, _, h1, h2, by unfold Gbart.avg_move; rw [h2, h3]; rfl,
    fun hg => hf ga gp hg (by omega), fun hg => ?_, fun hp => hf pa pp hp (by omega), fun hp => ?_, fun hg hp => ?_⟩
  · subst hg; simp
  · subst hp; simp
  · rw [(hf ga gp hg (by omega)).2, (hf pa pp hp (by omega)).2, ← add_div]
    have e3 : (0 : ℚ) < gp + pp := by
      have : (0 : ℚ) < gp := by exact_mod_cast hg
      have : (0 : ℚ) ≤ pp := by positivity
      linarith
    rw [div_le_one e3]
    exact_mod_cast Nat.add_le_add h4 h5

/-! ### C53 -/

/-- C53, for the trees of a run: `_show_tree` prints the nodes of any tree in the saved iterations, each once, parents before children
and left before right, with their rules and values. -/
theorem C53_show_tree (h : ValidGbart lib a) (hrng : LawfulRng rng) :
    ∃ g leaf var split, gbart lib rng a = some g ∧ trace_forests g.main_trace = some (leaf, var, split) ∧
      ∀ k, k < a.ndpost → ∀ t, t < a.ntree → ∃ lines, g.show_tree k t false = some lines ∧
        (lines.map (·.index)).Pairwise Before ∧ (lines.map (·.index)).Nodup ∧
        (∀ i, i ∈ lines.map (·.index) ↔ IsNode ((split.getD k []).getD t []) i) ∧
        ∀ l ∈ lines, l.indent = branch l.index ∧
          (IsLeaf ((split.getD k []).getD t []) l.index →
            l.text = .value (((leaf.getD k []).getD t []).getD l.index default)) ∧
          (IsDecision ((split.getD k []).getD t []) l.index →
            l.text = .rule (at0 ((var.getD k []).getD t []) l.index) (at0 ((split.getD k []).getD t []) l.index)) := by
  obtain ⟨sp, g, h1, hg⟩ := gbart_spec hrng h
  have ha := gbart_args_valid h hg.splits_eq
  refine ⟨g, _, _, _, h1, hg.trace_forests_eq, fun k hk t ht => ?_⟩
  have hr := gbartState_reachable (lib := lib) hrng a sp (a.nskip + (k + 1) * a.keepevery)
  obtain ⟨l1, l2, l3, hv⟩ := C19_valid_trees ha hr
  have hk1 : k < (List.range a.ndpost).length := by simpa using hk
  have hget : ∀ {α : Type} [Inhabited α] (f : Nat → List (List α)), (f k).length = a.ntree →
      gather (gather ((List.range a.ndpost).map f) k) t = (f k).getD t [] ∧
      (((List.range a.ndpost).map f).getD k []).getD t [] = (f k).getD t [] := by
    intro α _ f hf
    have e : ((List.range a.ndpost).map f).getD k [] = f k := by
      rw [getD_map_lt (d := 0) hk1, List.getD_eq_getElem _ _ hk1, List.getElem_range]
    rw [gather_eq_getD (a := (List.range a.ndpost).map f) (by simpa using hk) [], e]
    exact ⟨gather_eq_getD (by rw [hf]; exact ht) [], rfl⟩
  have g1 := hget (fun k => (gbartState lib rng a sp (a.nskip + (k + 1) * a.keepevery)).leaf_trees) l1
  have g2 := hget (fun k => (gbartState lib rng a sp (a.nskip + (k + 1) * a.keepevery)).var_trees) l2
  have g3 := hget (fun k => (gbartState lib rng a sp (a.nskip + (k + 1) * a.keepevery)).split_trees) l3
  obtain ⟨v1, -, -, v4⟩ := hv t ht
  obtain ⟨lines, p1, p2, p3, p4, p5⟩ := C53_print_tree
    ((gbartState lib rng a sp (a.nskip + (k + 1) * a.keepevery)).leaf_trees.getD t [])
    ((gbartState lib rng a sp (a.nskip + (k + 1) * a.keepevery)).var_trees.getD t [])
    ((gbartState lib rng a sp (a.nskip + (k + 1) * a.keepevery)).split_trees.getD t [])
    (by rw [v1, v4.1, pow_succ, Nat.mul_comm]) (by rw [v4.1]; positivity)
  refine ⟨lines, ?_, p2, p3, ?_, ?_⟩
  · unfold Gbart.show_tree
    rw [hg.trace_forests_eq]
    simp only [Option.bind_eq_bind, Option.bind_some]
    rw [g1.1, g2.1, g3.1]
    exact p1
  · rw [g3.2]; exact p4
  · intro l hl
    rw [g1.2, g2.2, g3.2]
    obtain ⟨q1, q2, q3⟩ := p5 l hl
    exact ⟨q1, fun h => (q2 h).1, fun h => (q3 h).1⟩

end

/-! ### A concrete example -/

namespace ExG
open Ex (rng rng_lawful)
open scoped Ex

/-- integers in place of floating point numbers, with placeholders for the external functions -/
def lib : Lib Int ℚ :=
  { exact := fun v => (v : ℚ), fl := id, lstsq := fun _ _ => (8, 2), gammainccinv := fun _ _ => 1,
    pow := fun _ _ => 1, isqrt := Nat.sqrt, nbytes := fun n => n, nan := 0 }

/-- 2 predictors, 4 datapoints, 2 test points -/
def args : GbartArgs Unit Int :=
  { x_train := { x := [[1, 5, 2, 8], [0, 0, 3, 3]], n := 4, columns := none }
    y_train := [0, 4, 8, 12]
    x_test := some { x := [[1, 9], [1, 1]], n := 2, columns := none }
    usequants := false, sigest := none, sigdf := 4, sigquant := 1, k := 2, power := 2, base := 1
    maxdepth := 3, lamda := none, offset := none, ntree := 2, numcut := 3, ndpost := 2, nskip := 1
    keepevery := 2, key := ()
    initkw := { min_points_per_leaf := some (some 1), resid_batch_size := none, count_batch_size := none
                save_ratios := false } }

theorem args_valid : ValidGbart lib args where
  depth_ge := by decide
  depth_le := by decide
  predictors_pos := by decide
  predictors_lt := by decide
  length := rfl
  row := by decide
  datapoints := by decide
  nonterminal_pos := by decide
  x_test := by
    intro x hx
    have : x = { x := [[1, 9], [1, 1]], n := 2, columns := none } := (Option.some.inj hx).symm
    subst this
    exact ⟨rfl, rfl⟩
  numcut_lt := by decide
  overflow := Or.inl ⟨1, le_rfl, rfl⟩

-- the bins of the predictors; the trees split the first predictor at the first cutpoint
example : (gbart lib rng args).map (·.mcmc_state.X) = some [[0, 2, 0, 3], [0, 0, 3, 3]] := by decide +kernel
example : (gbart lib rng args).map (·.mcmc_state.split_trees) = some [[0, 1, 0, 0], [0, 1, 0, 0]] := by
  decide +kernel
example : (gbart lib rng args).map (fun g => (g.offset, g.scale)) = some (6, 3) := by decide +kernel
example : (gbart lib rng args).bind (fun g => g.yhat_train lib) =
    some [[12, 12, 12, 12], [12, 12, 12, 12]] := by decide +kernel
-- C46
example : ∃ g, gbart lib rng args = some g ∧
    (∃ yhat, g.yhat_train lib = some yhat ∧ g.predict lib args.x_train = some yhat) ∧
    ∀ x, args.x_test = some x → ∃ yhat, g.yhat_test = some yhat ∧ g.predict lib x = some yhat :=
  C46_predict_train args_valid rng_lawful
-- C49, with quantiles: no datapoints, no trees, and no iterations
example : ∃ g, gbart lib rng { args with usequants := true, ntree := 0, ndpost := 0, nskip := 0, y_train := []
                                         x_train := { x := [[], []], n := 0, columns := none } } = some g := by
  obtain ⟨g, -, -, h, -⟩ := C49_shapes_partial (lib := lib) (rng := rng) (a := { args with
    usequants := true, ntree := 0, ndpost := 0, nskip := 0, y_train := []
    x_train := { x := [[], []], n := 0, columns := none } })
    ⟨by decide, by decide, by decide, by decide, rfl, by decide, by decide, by decide, by
      intro x hx
      have : x = { x := [[1, 9], [1, 1]], n := 2, columns := none } := (Option.some.inj hx).symm
      subst this
      exact ⟨rfl, rfl⟩, by decide, Or.inl ⟨1, le_rfl, rfl⟩⟩ rng_lawful
  exact ⟨g, h⟩
-- without quantiles it fails
example : gbart lib rng { args with x_train := { x := [[], []], n := 0, columns := none }, y_train := [] } =
    none :=
  C49_not (by decide) (by decide) rfl
-- C57: too many predictors, or names
example : ∃ g, gbart lib rng args = some g ∧
    g.predict lib { x := [[1], [1], [1]], n := 1, columns := none } = none :=
  C57_format args_valid rng_lawful _ (.inr ⟨rfl, by decide⟩) (by simp)
example : ∃ g, gbart lib rng args = some g ∧
    g.predict lib { x := [[1], [1]], n := 1, columns := some (.list ["a", "b"]) } = none :=
  C57_format args_valid rng_lawful _ (.inl (by decide)) (by simp [args])
-- C65: the training set is a pandas dataframe with two columns. The test set is another dataframe with the same
-- columns.
def pandasArgs : GbartArgs Unit Int :=
  { args with
    x_train := { x := [[1, 5, 2, 8], [0, 0, 3, 3]], n := 4, columns := some (.index 0 ["a", "b"]) }
    x_test := none }
theorem pandasArgs_valid : ValidGbart lib pandasArgs :=
  { args_valid with
    x_test := by
      intro x hx
      exact absurd hx (by simp [pandasArgs]) }
example : ∃ g, gbart lib rng pandasArgs = some g ∧
    g.predict lib { x := [[1], [1]], n := 1, columns := some (.index 1 ["a", "b"]) } = none :=
  C65_not pandasArgs_valid rng_lawful _ 0 1 _ ["a", "b"] (by decide) (by decide) rfl rfl
-- The same object is accepted.
example : ∃ g yhat, gbart lib rng pandasArgs = some g ∧
    g.predict lib { x := [[1], [1]], n := 1, columns := some (.index 0 ["a", "b"]) } = some yhat ∧
      yhat.length = pandasArgs.ndpost ∧ ∀ row ∈ yhat, row.length = 1 :=
  C65_same_columns_partial pandasArgs_valid rng_lawful _ rfl (.inr (.inr (.inl ⟨0, ["a", "b"], rfl, rfl⟩)))
-- C59: three datapoints are not enough with at least two per leaf
example : (gbart lib rng { args with
      x_train := { x := [[1, 5, 2], [0, 0, 3]], n := 3, columns := none }, y_train := [0, 4, 8]
      initkw := { args.initkw with min_points_per_leaf := some (some 2) } }).map (·.mcmc_state.split_trees) =
    some [[0, 0, 0, 0], [0, 0, 0, 0]] := by
  decide +kernel
-- C60
example : (gbart lib rng args).bind (·.points_per_leaf_distr) =
    some [[0, 0, 4, 0, 0], [0, 0, 4, 0, 0]] := by
  decide +kernel
-- C61
example : (gbart lib rng args).bind (·.check_trees) = some [[0, 0], [0, 0]] := by decide +kernel
-- C62
example : (gbart lib rng args).bind (·.avg_prop) = some ((4, 4), (0, 4)) := by decide +kernel
-- no prune moves are proposed, so the second average is 0 / 0
example : (gbart lib rng args).bind (·.avg_move) = some ((16, 16), (0, 0)) := by decide +kernel
-- C53
example : (gbart lib rng args).bind (fun g => (g.show_tree 1 0 false).map (·.map (·.index))) = some [1, 2, 3] := by decide +kernel

end ExG

end Bartz
