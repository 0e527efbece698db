import Verif.Spec.ExtendedGbart
import Verif.Lemmas.ExtendedStep
import Verif.Lemmas.Gbart
import Verif.Lemmas.GbartExact
/-! # `gbart` with real numbers, infinities and NaN -/

set_option autoImplicit false

namespace Bartz
open Jax Spec XReal

theorem mean_lift {y : List ℝ} (hy : 0 < y.length) : mean (lift y) = num (mean y) := by
  unfold mean
  rw [sum_lift, List.length_map, XReal.cast_eq, div_num _ (by exact_mod_cast hy.ne')]

theorem var_lift {y : List ℝ} (hy : 0 < y.length) : Jax.var (lift y) = num (Jax.var y) := by
  unfold Jax.var
  dsimp only
  have e : (lift y).map (fun v => (v - num (mean y)) * (v - num (mean y))) =
      lift (y.map fun v => (v - mean y) * (v - mean y)) := by
    simp only [lift, List.map_map]
    exact List.map_congr_left fun v _ => by simp
  rw [mean_lift hy, e, mean_lift (by simpa using hy)]

theorem maxF_lift (y : List ℝ) : maxF (lift y) = num (maxF y) := by
  cases y with
  | nil => rfl
  | cons x y =>
    simp only [lift, List.map_cons, maxF]
    induction y generalizing x with
    | nil => rfl
    | cons z y ih =>
      simp only [List.map_cons, List.foldl_cons]
      rw [leb_num, ite_lift, ih]

theorem minF_lift (y : List ℝ) : minF (lift y) = num (minF y) := by
  cases y with
  | nil => rfl
  | cons x y =>
    simp only [lift, List.map_cons, minF]
    induction y generalizing x with
    | nil => rfl
    | cons z y ih =>
      simp only [List.map_cons, List.foldl_cons]
      rw [leb_num, ite_lift, ih]

section
variable {P : Type} [Field P] [LinearOrder P] {libX : Lib XReal P} {lib : Lib ℝ P}

omit [Field P] [LinearOrder P] in
theorem exact_matrix_lift (hL : ExtendsLib libX lib) (x : List (List ℝ)) :
    exact_matrix libX (lift2 x) = exact_matrix lib x := by
  unfold exact_matrix
  simp only [lift2, List.map_map]
  refine List.map_congr_left fun row _ => ?_
  simp only [Function.comp, List.map_map]
  refine List.map_congr_left fun v _ => ?_
  simp [hL.exact]

omit [Field P] in
theorem bin_predictors_lift (hL : ExtendsLib libX lib) (x : List (List ℝ)) (sp : List (List (WithTop P))) :
    gbart_bin_predictors libX (lift2 x) sp = gbart_bin_predictors lib x sp := by
  unfold gbart_bin_predictors
  rw [exact_matrix_lift hL]

theorem determine_splits_lift (hL : ExtendsLib libX lib) (x : List (List ℝ)) (n : Nat) (b : Bool) (c : Nat) :
    determine_splits libX (lift2 x) n b c = determine_splits lib x n b c := by
  unfold determine_splits
  have e : (lift2 x).map (fun row => row.map libX.exact) = x.map fun row => row.map lib.exact := by
    simp only [lift2, List.map_map]
    refine List.map_congr_left fun row _ => ?_
    simp only [Function.comp, List.map_map]
    refine List.map_congr_left fun v _ => ?_
    simp [hL.exact]
  rw [exact_matrix_lift hL, hL.fl, e]

theorem offset_lift (y : List ℝ) (o : Option ℝ) :
    process_offset_settings (lift y) (o.map num) = num (process_offset_settings y o) := by
  cases o with
  | some o => rfl
  | none =>
    unfold process_offset_settings
    simp only [Option.map_none, List.length_map]
    split_ifs with h
    · rfl
    · exact mean_lift (by omega)

theorem scale_lift (y : List ℝ) {k : ℝ} (hk : 0 < k) :
    process_scale_settings (lift y) (num k) = num (process_scale_settings y k) := by
  unfold process_scale_settings
  rw [List.length_map, maxF_lift, minF_lift, sub_num, XReal.cast_eq, mul_num]
  split_ifs with h
  · rfl
  · rw [div_num _ (by positivity)]

theorem center_lift (x : List (List ℝ)) {n : Nat} (hn : 0 < n) (hx : ∀ row ∈ x, row.length = n) :
    center_predictors (lift2 x) n = lift2 (center_predictors x n) := by
  unfold center_predictors
  rw [lift2, lift2, map_vmap]
  congr 1
  funext i
  simp only [lift, List.map_map]
  refine List.map_congr_left fun row hrow => ?_
  simp only [Function.comp]
  have := mean_lift (y := row) (by rw [hx row hrow]; exact hn)
  rw [lift] at this
  rw [this, default_eq, List.getD_map, sub_num]

omit [Field P] [LinearOrder P] in
theorem sigest2_lift (hL : ExtendsLib libX lib) (hl : LawfulLstsq lib.lstsq) (x : List (List ℝ)) (y : List ℝ)
    (hx : ∀ row ∈ x, row.length = y.length) (s : Option ℝ) (o : ℝ) :
    process_sigest2 libX (lift2 x) (lift y) (s.map num) (num o) = num (process_sigest2 lib x y s o) ∧
      0 ≤ process_sigest2 lib x y s o := by
  unfold process_sigest2
  cases s with
  | some s => exact ⟨mul_num s s, mul_self_nonneg s⟩
  | none =>
    simp only [Option.map_none, List.length_map]
    by_cases h2 : y.length < 2
    · rw [if_pos h2, if_pos h2]; exact ⟨rfl, zero_le_one⟩
    · rw [if_neg h2, if_neg h2]
      by_cases hp : y.length ≤ x.length
      · rw [if_pos hp, if_pos hp]
        have e : (lift y).map (fun v => v - num o) = lift (y.map fun v => v - o) := by
          simp only [lift, List.map_map]
          exact List.map_congr_left fun v _ => by simp
        rw [e, var_lift (by simp; omega)]
        refine ⟨rfl, ?_⟩
        unfold Jax.var mean
        dsimp only
        rw [jaxSum_eq]
        refine div_nonneg (List.sum_nonneg ?_) (Nat.cast_nonneg _)
        intro z hz
        obtain ⟨w, -, rfl⟩ := List.mem_map.1 hz
        exact mul_self_nonneg _
      · rw [if_neg hp, if_neg hp]
        rw [center_lift x (by omega) hx, mean_lift (by omega)]
        have e : (lift y).map (fun v => v - num (mean y)) = lift (y.map fun v => v - mean y) := by
          simp only [lift, List.map_map]
          exact List.map_congr_left fun v _ => by simp
        have hls := hL.lstsq (center_predictors x y.length) (y.map fun v => v - mean y)
        rw [e]
        change (libX.lstsq (lift2 (center_predictors x y.length)) (lift (y.map fun v => v - mean y))) = _ at hls
        change (libX.lstsq (lift2 (center_predictors x y.length)) (lift (y.map fun v => v - mean y))).1 /
            ((y.length - (libX.lstsq (lift2 (center_predictors x y.length)) (lift (y.map fun v => v - mean y))).2 :
              Nat) : XReal) =
          num ((lib.lstsq (center_predictors x y.length) (y.map fun v => v - mean y)).1 /
            ((y.length - (lib.lstsq (center_predictors x y.length) (y.map fun v => v - mean y)).2 : Nat) : ℝ)) ∧
          0 ≤ (lib.lstsq (center_predictors x y.length) (y.map fun v => v - mean y)).1 /
            ((y.length - (lib.lstsq (center_predictors x y.length) (y.map fun v => v - mean y)).2 : Nat) : ℝ)
        rw [hls]
        have hA : (center_predictors x y.length).length = y.length := by simp [center_predictors]
        have hb : (y.map fun v => v - mean y).length = y.length := by simp
        have hrow : ∀ row ∈ center_predictors x y.length, row.length = x.length := by
          intro row hr
          unfold center_predictors vmap at hr
          obtain ⟨i, -, rfl⟩ := List.mem_map.1 hr
          simp
        obtain ⟨g1, g2⟩ := hl y.length x.length _ _ hA hb hrow
        have hrank : (lib.lstsq (center_predictors x y.length) (y.map fun v => v - mean y)).2 < y.length := by
          rw [g2]
          have := Matrix.rank_le_width
            (Matrix.of fun (i : Fin y.length) (j : Fin x.length) => entry (center_predictors x y.length) i j)
          omega
        have hnn : 0 ≤ (lib.lstsq (center_predictors x y.length) (y.map fun v => v - mean y)).1 := by
          apply g1.2
          rintro _ ⟨β, rfl⟩
          exact Finset.sum_nonneg fun i _ => sq_nonneg _
        have hdof : ((y.length - (lib.lstsq (center_predictors x y.length) (y.map fun v => v - mean y)).2 : Nat) : ℝ)
            ≠ 0 := by
          have : 0 < y.length - (lib.lstsq (center_predictors x y.length) (y.map fun v => v - mean y)).2 := by omega
          exact_mod_cast this.ne'
        dsimp only
        rw [XReal.cast_eq, div_num _ hdof]
        exact ⟨rfl, div_nonneg hnn (Nat.cast_nonneg _)⟩

theorem noise_lift (hL : ExtendsLib libX lib) (hl : LawfulLib lib) (x : List (List ℝ)) (y : List ℝ)
    (hx : ∀ row ∈ x, row.length = y.length) (s : Option ℝ) {sigdf sigquant : ℝ} (hdf : 0 < sigdf)
    (hq : 0 < sigquant ∧ sigquant < 1) (lamda : Option ℝ) (o : ℝ) :
    process_noise_variance_settings libX (lift2 x) (lift y) (s.map num) (num sigdf) (num sigquant) (lamda.map num)
      (num o) =
    (num (process_noise_variance_settings lib x y s sigdf sigquant lamda o).1,
      (process_noise_variance_settings lib x y s sigdf sigquant lamda o).2.map num) := by
  unfold process_noise_variance_settings
  cases lamda with
  | some v => rfl
  | none =>
    obtain ⟨h1, h2⟩ := sigest2_lift hL hl.lstsq x y hx s o
    have hg := hl.gammainccinv (sigdf / 2) sigquant (by positivity) hq.1 hq.2
    simp only [Option.map_none, Option.map_some, invgamma_ppf]
    rw [h1, sqrt_num h2, XReal.cast_eq, div_num _ (by norm_num)]
    push_cast
    rw [hL.gammainccinv _ _ (by positivity) hq.1 hq.2, one_eq, div_num _ hg.ne', div_num _ (by norm_num), mul_num,
      div_num _ (by positivity)]

variable {K : Type} {a : GbartArgs K ℝ}

theorem settings_lift (hL : ExtendsLib libX lib) (hl : LawfulLib lib) (hv : ValidGbart lib a)
    (hr : RegularGbart lib a) (hsc : (gbart_settings lib a).scale ≠ 0) :
    gbart_settings libX (XReal.args a) =
      { offset := num (gbart_settings lib a).offset
        scale := num (gbart_settings lib a).scale
        lamda := num (gbart_settings lib a).lamda
        sigest := (gbart_settings lib a).sigest.map num
        lamda_scaled := num (gbart_settings lib a).lamda_scaled } := by
  have h1 := offset_lift a.y_train a.offset
  have h2 := scale_lift a.y_train hr.k
  have h3 := noise_lift hL hl a.x_train.x a.y_train hv.row a.sigest hr.sigdf hr.sigquant a.lamda
    (process_offset_settings a.y_train a.offset)
  have hsc' : process_scale_settings a.y_train a.k ≠ 0 := hsc
  unfold gbart_settings
  simp only [XReal.args, XReal.predictors]
  rw [h1, h2, h3]
  simp only [mul_num]
  rw [div_num _ (mul_ne_zero hsc' hsc')]

/-! ### The chain -/

variable [KeyLike K] {rngX : Rng K XReal} {rng : Rng K ℝ}

theorem init_args_lift (hL : ExtendsLib libX lib) (hl : LawfulLib lib) (hv : ValidGbart lib a)
    (hr : RegularGbart lib a) (hsc : (gbart_settings lib a).scale ≠ 0) (sp : Splits P) :
    gbart_init_args libX (XReal.args a) sp =
      { X := (gbart_init_args lib a sp).X
        y := lift (gbart_init_args lib a sp).y
        max_split := (gbart_init_args lib a sp).max_split
        split_bits := (gbart_init_args lib a sp).split_bits
        num_trees := (gbart_init_args lib a sp).num_trees
        p_nonterminal := lift (gbart_init_args lib a sp).p_nonterminal
        sigma2_alpha := num (gbart_init_args lib a sp).sigma2_alpha
        sigma2_beta := num (gbart_init_args lib a sp).sigma2_beta
        min_points_per_leaf := (gbart_init_args lib a sp).min_points_per_leaf
        resid_batch_size := (gbart_init_args lib a sp).resid_batch_size
        count_batch_size := (gbart_init_args lib a sp).count_batch_size
        save_ratios := (gbart_init_args lib a sp).save_ratios
        nan := libX.nan } := by
  unfold gbart_init_args
  dsimp only
  rw [settings_lift hL hl hv hr hsc]
  unfold setup_args
  dsimp only
  have h1 : gbart_bin_predictors libX (XReal.args a).x_train.x sp.splits =
      gbart_bin_predictors lib a.x_train.x sp.splits := bin_predictors_lift hL _ _
  have h2 : transform_input (XReal.args a).y_train (num (gbart_settings lib a).offset)
      (num (gbart_settings lib a).scale) =
      lift (transform_input a.y_train (gbart_settings lib a).offset (gbart_settings lib a).scale) := by
    unfold transform_input
    simp only [XReal.args, lift, List.map_map]
    refine List.map_congr_left fun v _ => ?_
    simp only [Function.comp, sub_num]
    rw [div_num _ hsc]
  have h3 : (List.range ((XReal.args a).maxdepth - 1)).map (fun depth =>
      (XReal.args a).base / libX.pow ((1 + depth : Nat) : XReal) (XReal.args a).power) =
      lift ((List.range (a.maxdepth - 1)).map fun depth => a.base / lib.pow ((1 + depth : Nat) : ℝ) a.power) := by
    simp only [lift, List.map_map]
    refine List.map_congr_left fun d _ => ?_
    have hpos : (0 : ℝ) < ((1 + d : Nat) : ℝ) := by positivity
    simp only [Function.comp, XReal.args, XReal.cast_eq]
    rw [hL.pow _ _ hpos, div_num _ (hl.pow _ _ hpos).ne']
  have h4 : (XReal.args a).sigdf / ((2 : Nat) : XReal) = num (a.sigdf / ((2 : Nat) : ℝ)) :=
    div_num _ (by norm_num)
  rw [h1, h2, h3, h4, mul_num]
  rfl

omit [KeyLike K] [Field P] [LinearOrder P] in
theorem scale_ne (hr : RegularGbart lib a) : (gbart_settings lib a).scale ≠ 0 := by
  by_cases h : 2 ≤ a.y_train.length
  · obtain ⟨v, hv, w, hw, hvw⟩ := hr.responses h
    have hy : a.y_train ≠ [] := by rintro h0; rw [h0] at hv; simp at hv
    have h1 := maxF_spec hy
    have h2 := minF_spec hy
    have h3 := h1.2 hv
    have h4 := h1.2 hw
    have h5 := h2.2 hv
    have h6 := h2.2 hw
    have hk := hr.k
    show process_scale_settings a.y_train a.k ≠ 0
    unfold process_scale_settings
    rw [if_neg (by omega)]
    have : 0 < Jax.maxF a.y_train - Jax.minF a.y_train := by
      rcases lt_or_gt_of_ne hvw with h | h <;> linarith
    push_cast
    positivity
  · show process_scale_settings a.y_train a.k ≠ 0
    unfold process_scale_settings
    rw [if_pos (by omega)]
    exact one_ne_zero

/-- properties of the arguments of the initial state -/
theorem init_args_pos (hr : RegularGbart lib a) (sp : Splits P) :
    0 < (gbart_init_args lib a sp).sigma2_alpha ∧ 0 < (gbart_init_args lib a sp).sigma2_beta ∧
      ∀ x ∈ (gbart_init_args lib a sp).p_nonterminal, x < 1 := by
  have hdf := hr.sigdf
  have hal : 0 < (gbart_init_args lib a sp).sigma2_alpha := by
    show 0 < a.sigdf / ((2 : Nat) : ℝ)
    positivity
  refine ⟨hal, ?_, ?_⟩
  · show 0 < (gbart_settings lib a).lamda_scaled * (gbart_init_args lib a sp).sigma2_alpha
    refine mul_pos ?_ hal
    show 0 < (gbart_settings lib a).lamda / ((gbart_settings lib a).scale * (gbart_settings lib a).scale)
    exact div_pos hr.lamda (mul_self_pos.2 (scale_ne hr))
  · intro x hx
    obtain ⟨d, hd, rfl⟩ := List.mem_map.1 hx
    exact hr.nonterminal d (List.mem_range.1 hd)

omit [KeyLike K] in
theorem init_lift {A : InitArgs ℝ} {B : InitArgs XReal} {v : XReal} (halpha : 0 < A.sigma2_alpha)
    (h : B = { X := A.X, y := lift A.y, max_split := A.max_split, split_bits := A.split_bits
               num_trees := A.num_trees, p_nonterminal := lift A.p_nonterminal
               sigma2_alpha := num A.sigma2_alpha, sigma2_beta := num A.sigma2_beta
               min_points_per_leaf := A.min_points_per_leaf, resid_batch_size := A.resid_batch_size
               count_batch_size := A.count_batch_size, save_ratios := A.save_ratios, nan := v }) :
    init B = liftState (init B).ratios (init A) := by
  subst h
  have hp : (lift A.p_nonterminal ++ [0] : List XReal) = lift (A.p_nonterminal ++ [0]) := by
    simp [lift]
  refine eq_liftState ?_ ?_ ?_ rfl ?_ rfl rfl rfl rfl hp ?_ rfl rfl rfl rfl rfl ?_ rfl ?_ rfl rfl rfl rfl ?_
  · simp [init, make_forest, make_tree, lift2, lift, vmap]
  · simp [init]
  · simp [init]
  · simp only [init]
    rw [div_num _ halpha.ne', isFinite_num, zero_eq, ltb_num, one_eq, ite_lift]
    rfl
  · simp only [init, hp, List.length_map, lift, List.map_map]
    exact List.map_congr_left fun d _ => gather_lift _ _
  · simp [init]
  · simp [init]
  · simp [init]

theorem chain_lift (hd : ∀ k, ExtendsDraws (rngX k) (rng k)) (hrng : LawfulRng rng)
    (hg : ∀ k x, 0 < x → 0 < (rng k).gamma x) (hL : ExtendsLib libX lib) (hl : LawfulLib lib)
    (hv : ValidGbart lib a) (hr : RegularGbart lib a) {sp : Splits P}
    (hsp : determine_splits lib a.x_train.x a.x_train.n a.usequants a.numcut = some sp) (t : Nat) :
    0 < (gbartState lib rng a sp t).sigma2 ∧
    ∃ r, gbartState libX rngX (XReal.args a) sp t = liftState r (gbartState lib rng a sp t) := by
  have ha := gbart_args_valid hv hsp
  obtain ⟨hal, hbe, hp⟩ := init_args_pos hr sp
  induction t with
  | zero =>
    refine ⟨?_, _, init_lift hal (init_args_lift hL hl hv hr (scale_ne hr) sp)⟩
    show 0 < (init (gbart_init_args lib a sp)).sigma2
    simp only [init]
    split_ifs with h
    · simpa using h
    · exact one_pos
  | succ t ih =>
    obtain ⟨hsig, r, e⟩ := ih
    have hs := reachable_inv ha (gbartState_reachable (lib := lib) hrng a sp t)
    have e1 : gbartState libX rngX (XReal.args a) sp (t + 1) = step rngX (gbartState libX rngX (XReal.args a) sp t)
      (KeyLike.split (chainKey a.key t) 2 1) := rfl
    have e2 : gbartState lib rng a sp (t + 1) = step rng (gbartState lib rng a sp t)
      (KeyLike.split (chainKey a.key t) 2 1) := rfl
    have hs' := reachable_inv ha (gbartState_reachable (lib := lib) hrng a sp (t + 1))
    refine ⟨?_, ?_⟩
    · rw [e2]
      rw [e2] at hs'
      have e3 : (step rng (gbartState lib rng a sp t) (KeyLike.split (chainKey a.key t) 2 1)).sigma2 =
          ((gbartState lib rng a sp t).sigma2_beta + Jax.sum ((step rng (gbartState lib rng a sp t)
            (KeyLike.split (chainKey a.key t) 2 1)).resid.map fun r => r * r) / ((2 : Nat) : ℝ)) /
          (rng (KeyLike.split (KeyLike.split (chainKey a.key t) 2 1) 2 0)).gamma
          ((gbartState lib rng a sp t).sigma2_alpha + ((step rng (gbartState lib rng a sp t)
            (KeyLike.split (chainKey a.key t) 2 1)).resid.length : ℝ) / ((2 : Nat) : ℝ)) := rfl
      have hal' : 0 < (gbartState lib rng a sp t).sigma2_alpha := by rw [hs.cfg.sigma2_alpha]; exact hal
      have hbe' : 0 < (gbartState lib rng a sp t).sigma2_beta := by rw [hs.cfg.sigma2_beta]; exact hbe
      rw [e3, jaxSum_eq]
      refine div_pos (add_pos_of_pos_of_nonneg hbe' (div_nonneg (List.sum_nonneg ?_) (by norm_num))) (hg _ _ ?_)
      · intro z hz
        obtain ⟨w, -, rfl⟩ := List.mem_map.1 hz
        exact mul_self_nonneg _
      · positivity
    · obtain ⟨r', h⟩ := step_lift (r := r) (key := KeyLike.split (chainKey a.key t) 2 1) hd hrng ha hp hs hsig hg hal
      exact ⟨r', by rw [e1, e2, e, h]⟩

theorem forestAt_lift (h n : Nat) (r : Option (List XReal × List XReal)) (s : State ℝ) (x : List Nat) :
    forestAt h n (liftState r s) x = num (forestAt h n s x) := by
  have hread : ∀ (l : List ℝ) (var split : List Nat) (k i : Nat),
      (readTree default (lift l) var split k i).eval x = num ((readTree default l var split k i).eval x) := by
    intro l var split k
    induction k with
    | zero =>
      intro i
      simp only [readTree, DTree.eval, default_eq]
      exact List.getD_map (f := num) ..
    | succ k ih =>
      intro i
      simp only [readTree]
      split_ifs with h0
      · simp only [DTree.eval, default_eq]
        exact List.getD_map (f := num) ..
      · simp only [DTree.eval]
        split_ifs
        · exact ih _
        · exact ih _
  unfold forestAt
  have e : (List.range n).map (fun t => (readTree default ((liftState r s).leaf_trees.getD t [])
      ((liftState r s).var_trees.getD t []) ((liftState r s).split_trees.getD t []) h 1).eval x) =
      lift ((List.range n).map fun t => (readTree default (s.leaf_trees.getD t []) (s.var_trees.getD t [])
        (s.split_trees.getD t []) h 1).eval x) := by
    simp only [lift, List.map_map]
    refine List.map_congr_left fun t _ => ?_
    have : (liftState r s).leaf_trees.getD t [] = lift (s.leaf_trees.getD t []) :=
      List.getD_map (d := []) (f := lift) ..
    rw [this]
    exact hread _ _ _ _ _
  rw [e]
  exact sum_lift _

end
end Bartz
