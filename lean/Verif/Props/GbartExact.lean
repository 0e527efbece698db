import Verif.Lemmas.GbartExact
import Verif.Lemmas.InvGamma
import Verif.Props.Gbart
import Verif.Props.Exact
import Mathlib.Probability.Distributions.Exponential
/-!
# Properties C46–C48, C56, C63, C64: the class `gbart` in exact arithmetic
-/

set_option autoImplicit false

namespace Bartz
open Jax Spec

/-! ### C46, C63: relation between predictions and residuals -/

section
variable {K F P : Type} [KeyLike K] [Inhabited F] [Field F] [FltFun F] [FloatLaws F] [Field P] [LinearOrder P]
  {lib : Lib F P} {rng : Rng K F} {a : GbartArgs K F}

/-- C63. The inspection method `_compare_resid` returns two equal arrays. -/
theorem C63_compare_resid (h : ValidGbart lib a) (hrng : LawfulRng rng) :
    ∃ g, gbart lib rng a = some g ∧ g.compare_resid.1 = g.compare_resid.2 ∧
      g.compare_resid.1.length = a.y_train.length := by
  obtain ⟨sp, g, hg, hs⟩ := gbart_spec hrng h
  have ha := gbart_args_valid h hs.splits_eq
  have hr := gbartState_reachable (lib := lib) hrng a sp (a.nskip + a.ndpost * a.keepevery)
  refine ⟨g, hg, ?_, ?_⟩
  · unfold Gbart.compare_resid
    simp only
    rw [hs.state]
    exact C21_residuals ha hr
  · unfold Gbart.compare_resid
    simp only
    rw [hs.state, (reachable_inv ha hr).resid_length]
    simp [gbart_init_args, setup_args, transform_input]

/-- C46. The last row of `yhat_train` is the response minus the residuals of the final state of the MCMC,
taken back to the original units, if the scale is not zero, i.e., if the responses are not all equal. -/
theorem C46_residuals (h : ValidGbart lib a) (hrng : LawfulRng rng) (hpost : 0 < a.ndpost) :
    ∃ g yhat row, gbart lib rng a = some g ∧ g.yhat_train lib = some yhat ∧
      yhat.getLast? = some row ∧ (g.scale ≠ 0 →
        g.mcmc_state.resid.length = a.y_train.length ∧
        row = List.zipWith (fun y r => y - g.scale * r) a.y_train g.mcmc_state.resid) := by
  obtain ⟨sp, g, hg, hs⟩ := gbart_spec hrng h
  have ha := gbart_args_valid h hs.splits_eq
  have hr := gbartState_reachable (lib := lib) hrng a sp (a.nskip + a.ndpost * a.keepevery)
  have hinv := reachable_inv ha hr
  have hy : (gbart_init_args lib a sp).y.length = a.y_train.length := by
    simp [gbart_init_args, setup_args, transform_input]
  have hf := C03_evaluate_forest (gbart_init_args lib a sp).y.length (gbart_init_args lib a sp).num_trees
    (gbart_init_args lib a sp).p_nonterminal.length ha.depth_lt (gbart_init_args lib a sp).X _ _ _
    hinv.leaf_length hinv.var_length hinv.leaf_size (fun t ht => (hinv.tree t ht).var_len)
    (fun t ht => (hinv.tree t ht).valid.length)
  have hres := C21_residuals ha hr
  rw [hinv.cfg.y, hinv.cfg.X, hf] at hres
  refine ⟨g, _, (List.range a.y_train.length).map fun j => (gbart_settings lib a).offset +
    (gbart_settings lib a).scale * forestAt (a.maxdepth - 1) a.ntree
      (gbartState lib rng a sp (a.nskip + a.ndpost * a.keepevery))
      ((gbart_bin_predictors lib a.x_train.x sp.splits).map fun row => row.getD j 0),
    hg, hs.yhat_train_eq h hrng, ?_, ?_⟩
  · have e : (a.ndpost - 1 + 1) * a.keepevery = a.ndpost * a.keepevery := by
      rw [Nat.sub_add_cancel hpost]
    unfold predictions
    rw [List.getLast?_map, List.getLast?_range, if_neg (by omega), Option.map_some, e, h.length]
  · intro hsc
    rw [hs.state]
    refine ⟨by rw [hinv.resid_length, hy], ?_⟩
    rw [hs.scale] at hsc ⊢
    rw [hres]
    apply List.ext_getElem
    · simp [gbart_init_args, setup_args, transform_input]
    · intro j h1 h2
      simp only [List.getElem_map, List.getElem_range, List.getElem_zipWith, forestAt, gbart_init_args,
        setup_args, transform_input, List.length_map, List.length_range]
      field_simp
      ring

end

/-! ### C47 -/

section
variable {K P : Type} [KeyLike K] [Field P] [LinearOrder P]
  {lib : Lib ℝ P} {rng : Rng K ℝ} {a : GbartArgs K ℝ}

omit [KeyLike K] [Field P] [LinearOrder P] in
theorem affineArgs_valid (h : ValidGbart lib a) (c d : ℝ) : ValidGbart lib (affineArgs c d a) where
  depth_ge := h.depth_ge
  depth_le := h.depth_le
  predictors_pos := h.predictors_pos
  predictors_lt := h.predictors_lt
  length := by simpa [affineArgs] using h.length
  row := by simpa [affineArgs] using h.row
  datapoints := by simpa [affineArgs] using h.datapoints
  nonterminal_pos := h.nonterminal_pos
  x_test := h.x_test
  numcut_lt := h.numcut_lt
  overflow := by simpa [affineArgs] using h.overflow

theorem two_le_of_ne {y : List ℝ} {v w : ℝ} (hv : v ∈ y) (hw : w ∈ y) (h : v ≠ w) : 2 ≤ y.length := by
  match y with
  | [] => simp at hv
  | [x] => simp at hv hw; exact absurd (hv.trans hw.symm) h
  | _ :: _ :: _ => simp

theorem scale_pos {y : List ℝ} {v w k : ℝ} (hv : v ∈ y) (hw : w ∈ y) (h : v ≠ w) (hk : 0 < k) :
    0 < process_scale_settings y k := by
  have hy : y ≠ [] := by rintro rfl; simp at hv
  have h1 := maxF_spec hy
  have h2 := minF_spec hy
  have h3 := h1.2 hv
  have h4 := h1.2 hw
  have h5 := h2.2 hv
  have h6 := h2.2 hw
  unfold process_scale_settings
  rw [if_neg (by have := two_le_of_ne hv hw h; omega)]
  have : 0 < Jax.maxF y - Jax.minF y := by
    rcases lt_or_gt_of_ne h with h | h <;> linarith
  push_cast
  positivity

/-- C47. A change of unit and origin of the responses (`affineArgs`) is passed on to the results, and the MCMC
is the same. The options `offset`, `lamda`, `sigest`, if specified, are converted as well. -/
theorem C47_affine (hl : LawfulLstsq lib.lstsq) (h : ValidGbart lib a) (hrng : LawfulRng rng) (hk : 0 < a.k)
    (hy : ∃ v ∈ a.y_train, ∃ w ∈ a.y_train, v ≠ w) {c : ℝ} (hc : 0 < c) (d : ℝ) :
    ∃ g g', gbart lib rng a = some g ∧ gbart lib rng (affineArgs c d a) = some g' ∧
      0 < g.scale ∧ g'.scale = c * g.scale ∧ g'.offset = c * g.offset + d ∧
      g'.lamda = c ^ 2 * g.lamda ∧ g'.sigest = g.sigest.map (fun v => c * v) ∧
      g'.mcmc_state = g.mcmc_state ∧ g'.main_trace = g.main_trace ∧
      g'.sigma = g.sigma.map (fun v => c * v) ∧ g'.first_sigma = g.first_sigma.map (fun v => c * v) ∧
      (∃ yhat, g.yhat_train lib = some yhat ∧
        g'.yhat_train lib = some (yhat.map fun row => row.map fun v => c * v + d)) ∧
      ∀ x, Compatible a.x_train x → ∃ yhat, g.predict lib x = some yhat ∧
        g'.predict lib x = some (yhat.map fun row => row.map fun v => c * v + d) := by
  obtain ⟨v, hv, w, hw, hvw⟩ := hy
  have hn := two_le_of_ne hv hw hvw
  obtain ⟨sp, g, hg, hs⟩ := gbart_spec hrng h
  have h' := affineArgs_valid h c d
  obtain ⟨sp', g', hg', hs'⟩ := gbart_spec hrng h'
  have esp : sp' = sp := Option.some.inj (hs'.splits_eq.symm.trans hs.splits_eq)
  subst esp
  have hset := settings_affine lib hl hn hc d
  have hinit : gbart_init_args lib (affineArgs c d a) sp' = gbart_init_args lib a sp' := by
    have e : transform_input (affineArgs c d a).y_train (c * (gbart_settings lib a).offset + d)
        (c * (gbart_settings lib a).scale) =
        transform_input a.y_train (gbart_settings lib a).offset (gbart_settings lib a).scale := by
      simp only [transform_input, affineArgs, List.map_map]
      refine List.map_congr_left fun v _ => ?_
      have : c * v + d - (c * (gbart_settings lib a).offset + d) = c * (v - (gbart_settings lib a).offset) := by
        ring
      simp only [Function.comp, this]
      rw [mul_div_mul_left _ _ hc.ne']
    simp only [gbart_init_args, hset, e]
    rfl
  have hst : ∀ t, gbartState lib rng (affineArgs c d a) sp' t = gbartState lib rng a sp' t := by
    intro t
    unfold gbartState
    rw [hinit]
    rfl
  have hpred : ∀ x n, predictions lib rng (affineArgs c d a) sp' x n =
      (predictions lib rng a sp' x n).map fun row => row.map fun v => c * v + d := by
    intro x n
    simp only [predictions, List.map_map, hset, hst]
    refine List.map_congr_left fun k _ => ?_
    simp only [Function.comp, List.map_map]
    refine List.map_congr_left fun j _ => ?_
    simp only [Function.comp, affineArgs]
    ring
  refine ⟨g, g', hg, hg', ?_, ?_, ?_, ?_, ?_, ?_, ?_, ?_, ?_, ?_, ?_⟩
  · rw [hs.scale]; exact scale_pos hv hw hvw hk
  · rw [hs.scale, hs'.scale, hset]
  · rw [hs.offset, hs'.offset, hset]
  · rw [hs.lamda, hs'.lamda, hset]
  · rw [hs.sigest, hs'.sigest, hset]
  · rw [hs.state, hs'.state, hst]; rfl
  · rw [hs.trace, hs'.trace, hinit]; rfl
  · rw [hs.sigma, hs'.sigma, List.map_map]
    simp only [hset, hst]
    refine List.map_congr_left fun k _ => ?_
    simp only [Function.comp, mul_assoc]
    rfl
  · rw [hs.first_sigma, hs'.first_sigma, List.map_map]
    simp only [hset, hst]
    refine List.map_congr_left fun k _ => ?_
    simp only [Function.comp, mul_assoc]
  · exact ⟨_, hs.yhat_train_eq h hrng, (hs'.yhat_train_eq h' hrng).trans (congrArg some (hpred _ _))⟩
  · intro x hx
    exact ⟨_, hs.predict_eq h hrng x hx, (hs'.predict_eq h' hrng x hx).trans (congrArg some (hpred _ _))⟩

/-- C47 does not hold with a single datapoint: the scale is fixed to 1. -/
theorem C47_not (h : ValidGbart lib a) (hrng : LawfulRng rng) (hn : a.y_train.length = 1) (c d : ℝ) :
    ∃ g g', gbart lib rng a = some g ∧ gbart lib rng (affineArgs c d a) = some g' ∧
      g.scale = 1 ∧ g'.scale = 1 := by
  obtain ⟨sp, g, hg, hs⟩ := gbart_spec hrng h
  obtain ⟨sp', g', hg', hs'⟩ := gbart_spec hrng (affineArgs_valid h c d)
  refine ⟨g, g', hg, hg', ?_, ?_⟩
  · rw [hs.scale]; simp [gbart_settings, process_scale_settings, hn]
  · rw [hs'.scale]; simp [gbart_settings, process_scale_settings, affineArgs, hn]

/-! ### C48 -/

omit [Field P] [LinearOrder P] in
theorem sigest2_var (lib : Lib ℝ P) (x : List (List ℝ)) {y : List ℝ} (hn : 2 ≤ y.length)
    (hp : y.length ≤ x.length) (offset : ℝ) :
    process_sigest2 lib x y none offset = sampleVar y.length fun i => y.getD i 0 := by
  unfold process_sigest2
  have h2 : ¬ y.length < 2 := by omega
  simp only [if_neg h2, if_pos hp]
  have e : (y.map fun v => v - offset) = y.map fun v => 1 * v + -offset :=
    List.map_congr_left fun v _ => by ring
  rw [e, var_affine (by omega), var_eq]
  ring

omit [Field P] [LinearOrder P] in
theorem sigest2_regression (lib : Lib ℝ P) (hl : LawfulLstsq lib.lstsq) {x : List (List ℝ)} {y : List ℝ}
    (hx : ∀ row ∈ x, row.length = y.length) (hn : 2 ≤ y.length) (hp : x.length < y.length) (offset : ℝ) :
    ∃ ss, IsGLB (Set.range fun β : ℝ × (Nat → ℝ) => residualSSIntercept y.length x.length
        (fun i j => entry x j i) (fun i => y.getD i 0) β.1 β.2) ss ∧
      ∃ rank, rank = (Matrix.of fun (i : Fin y.length) (j : Fin x.length) => entry x j i -
          sampleMean y.length fun i' => entry x j i').rank ∧ rank < y.length ∧
        process_sigest2 lib x y none offset = ss / ((y.length - rank : Nat) : ℝ) := by
  obtain ⟨hc1, hc2⟩ := center_rows x y.length
  obtain ⟨h1, r1⟩ := hl y.length x.length (center_predictors x y.length)
    (y.map fun v => v - Jax.mean y) hc1 (by simp) hc2
  have hcen : ∀ i j, i < y.length → j < x.length →
      entry (center_predictors x y.length) i j = entry x j i - sampleMean y.length fun i' => entry x j i' := by
    intro i j hi hj
    have hr : x[j].length = y.length := hx _ (List.getElem_mem hj)
    unfold entry center_predictors vmap
    rw [List.getD_eq_getElem (List.map _ _) _ (by simpa using hi), List.getElem_map, List.getElem_range,
      List.getD_eq_getElem (List.map _ _) _ (by simpa using hj), List.getElem_map, mean_eq, hr,
      List.getD_eq_getElem x _ hj, List.getD_eq_getElem _ _ (by omega), List.getD_eq_getElem _ _ (by omega)]
  have e2 : ∀ β, residualSS y.length x.length (entry (center_predictors x y.length))
      (fun i => (y.map fun v => v - Jax.mean y).getD i 0) β =
      residualSS y.length x.length (fun i j => entry x j i - sampleMean y.length fun i' => entry x j i')
      (fun i => y.getD i 0 - sampleMean y.length fun i => y.getD i 0) β := by
    intro β
    refine Finset.sum_congr rfl fun i hi => ?_
    rw [Finset.mem_range] at hi
    simp only
    rw [getD_map_real _ _ hi, mean_eq]
    congr 2
    refine Finset.sum_congr rfl fun j hj => ?_
    rw [hcen i j hi (Finset.mem_range.1 hj)]
  simp only [e2] at h1
  have e3 : (Matrix.of fun (i : Fin y.length) (j : Fin x.length) => entry (center_predictors x y.length) i j) =
      Matrix.of fun (i : Fin y.length) (j : Fin x.length) => entry x j i -
          sampleMean y.length fun i' => entry x j i' := by
    ext i j
    exact hcen i j i.2 j.2
  rw [e3] at r1
  have hlt := Matrix.rank_le_width (Matrix.of fun (i : Fin y.length) (j : Fin x.length) => entry x j i -
          sampleMean y.length fun i' => entry x j i')
  refine ⟨_, (intercept_iff (by omega) (fun i j => entry x j i) _ _).1 h1, _, rfl, by omega, ?_⟩
  unfold process_sigest2
  have h2 : ¬ y.length < 2 := by omega
  have h3 : ¬ y.length ≤ x.length := by omega
  simp only [if_neg h2, if_neg h3]
  rw [r1]

/-- C48. The settings are determined as documented. In the last case, the error standard deviation is estimated
with a linear regression with intercept, with denominator the number of datapoints minus the rank of the
centered predictors. -/
theorem C48_settings (hl : LawfulLstsq lib.lstsq) (h : ValidGbart lib a) (hrng : LawfulRng rng) :
    let n := a.y_train.length
    let p := a.x_train.x.length
    let y := fun i => a.y_train.getD i 0
    let X := fun i j => entry a.x_train.x j i
    ∃ g, gbart lib rng a = some g ∧
      (∀ v, a.offset = some v → g.offset = v) ∧
      (a.offset = none → n = 0 → g.offset = 0) ∧
      (a.offset = none → 0 < n → g.offset = sampleMean n y) ∧
      (n < 2 → g.scale = 1) ∧
      (2 ≤ n → ∃ hi lo, IsGreatest {v | v ∈ a.y_train} hi ∧ IsLeast {v | v ∈ a.y_train} lo ∧
        g.scale = (hi - lo) / (2 * a.k)) ∧
      (∀ v, a.lamda = some v → g.lamda = v ∧ g.sigest = none) ∧
      (a.lamda = none → ∃ s, g.sigest = some s ∧ 0 ≤ s ∧
        (∀ v, a.sigest = some v → s = |v|) ∧
        (a.sigest = none → n < 2 → s = 1) ∧
        (a.sigest = none → 2 ≤ n → n ≤ p → s ^ 2 = sampleVar n y) ∧
        (a.sigest = none → 2 ≤ n → p < n → ∃ ss rank,
          IsGLB (Set.range fun β : ℝ × (Nat → ℝ) => residualSSIntercept n p X y β.1 β.2) ss ∧
          rank = (Matrix.of fun (i : Fin n) (j : Fin p) => X i j - sampleMean n fun i' => X i' j).rank ∧
          rank < n ∧ s ^ 2 = ss / (n - rank))) := by
  intro n p y X
  obtain ⟨sp, g, hg, hs⟩ := gbart_spec hrng h
  refine ⟨g, hg, ?_, ?_, ?_, ?_, ?_, ?_, ?_⟩
  · intro v hv
    rw [hs.offset]; simp [gbart_settings, process_offset_settings, hv]
  · intro h0 hn
    rw [hs.offset]
    simp only [gbart_settings, process_offset_settings, h0]
    rw [if_pos (by omega)]
  · intro h0 hn
    rw [hs.offset]
    simp only [gbart_settings, process_offset_settings, h0]
    rw [if_neg (by omega), mean_eq]
  · intro hn
    rw [hs.scale]
    simp only [gbart_settings, process_scale_settings]
    rw [if_pos hn]
  · intro hn
    have hne : a.y_train ≠ [] := by
      intro h0
      have : n = 0 := by simp only [n, h0, List.length_nil]
      omega
    refine ⟨_, _, maxF_spec hne, minF_spec hne, ?_⟩
    rw [hs.scale]
    simp only [gbart_settings, process_scale_settings]
    rw [if_neg (by omega)]
    push_cast
    rfl
  · intro v hv
    rw [hs.lamda, hs.sigest]
    simp [gbart_settings, process_noise_variance_settings, hv]
  · intro h0
    rw [hs.sigest]
    simp only [gbart_settings, process_noise_variance_settings, h0, Real.fltFun_sqrt]
    refine ⟨_, rfl, Real.sqrt_nonneg _, ?_, ?_, ?_, ?_⟩
    · intro v hv
      simp only [process_sigest2, hv]
      exact Real.sqrt_mul_self_eq_abs v
    · intro h1 hn
      simp only [process_sigest2, h1]
      rw [if_pos hn, Real.sqrt_one]
    · intro h1 hn hp
      rw [h1, sigest2_var lib _ hn hp, Real.sq_sqrt]
      unfold sampleVar sampleMean
      apply div_nonneg _ (by positivity)
      exact Finset.sum_nonneg fun i _ => sq_nonneg _
    · intro h1 hn hp
      obtain ⟨ss, hss, rank, hr, hlt, e⟩ := sigest2_regression lib hl h.row hn hp
        (process_offset_settings a.y_train a.offset)
      refine ⟨ss, rank, hss, hr, hlt, ?_⟩
      have hss0 : 0 ≤ ss := hss.2 (by
        rintro _ ⟨β, rfl⟩
        exact Finset.sum_nonneg fun i _ => sq_nonneg _)
      rw [h1, e, Real.sq_sqrt (div_nonneg hss0 (by positivity)), Nat.cast_sub hlt.le]

/-! ### C56 -/

section
open MeasureTheory ProbabilityTheory

theorem gammaMeasure_nonpos (α : ℝ) : gammaMeasure α 1 (Set.Iic 0) = 0 := by
  have h1 : gammaMeasure α 1 (Set.Iio 0) = 0 := by
    unfold gammaMeasure
    rw [withDensity_apply _ measurableSet_Iio]
    exact lintegral_gammaPDF_of_nonpos le_rfl
  have h2 : gammaMeasure α 1 {0} = 0 := by
    unfold gammaMeasure
    exact withDensity_absolutelyContinuous _ _ (by simp)
  have e : Set.Iic (0 : ℝ) = Set.Iio 0 ∪ {0} := by
    ext x; simp [le_iff_lt_or_eq]
  rw [e]
  exact measure_union_null h1 h2

/-- C56. If `lamda` is not specified, the prior on the error variance is such that the probability that the error
standard deviation is less than `sigest` is `sigquant`. The prior is the one used by the MCMC, converted to
the original units of the response. -/
theorem C56_prior (h : ValidGbart lib a) (hrng : LawfulRng rng) (hl : a.lamda = none) (hdf : 0 < a.sigdf)
    (hq : IsGammainccinv (a.sigdf / 2) a.sigquant (lib.gammainccinv (a.sigdf / 2) a.sigquant)) :
    ∃ g s, gbart lib rng a = some g ∧ g.sigest = some s ∧ (g.scale ≠ 0 → 0 < s →
      0 < g.mcmc_state.sigma2_alpha ∧ 0 < g.mcmc_state.sigma2_beta ∧
      volume.withDensity
        (fun x => ENNReal.ofReal (invGammaPdf g.mcmc_state.sigma2_alpha g.mcmc_state.sigma2_beta x))
        {x | g.scale ^ 2 * x ≤ s ^ 2} = ENNReal.ofReal a.sigquant) := by
  obtain ⟨sp, g, hg, hs⟩ := gbart_spec hrng h
  have ha := gbart_args_valid h hs.splits_eq
  have hinv := reachable_inv ha (gbartState_reachable (lib := lib) hrng a sp (a.nskip + a.ndpost * a.keepevery))
  set v := process_sigest2 lib a.x_train.x a.y_train a.sigest (process_offset_settings a.y_train a.offset) with hv
  set q := lib.gammainccinv (a.sigdf / 2) a.sigquant with hqdef
  have hsig : g.sigest = some (Real.sqrt v) := by
    rw [hs.sigest]; simp [gbart_settings, process_noise_variance_settings, hl, hv]
  have halpha : g.mcmc_state.sigma2_alpha = a.sigdf / 2 := by
    rw [hs.state, hinv.cfg.sigma2_alpha]
    simp [gbart_init_args, setup_args]
  have hbeta : g.mcmc_state.sigma2_beta =
      v / (1 / q / 2 * a.sigdf) / (g.scale * g.scale) * (a.sigdf / 2) := by
    rw [hs.state, hinv.cfg.sigma2_beta, hs.scale]
    simp only [gbart_init_args, setup_args, gbart_settings, process_noise_variance_settings, hl, invgamma_ppf]
    push_cast
    rfl
  refine ⟨g, _, hg, hsig, fun hsc hpos => ?_⟩
  have hvpos : 0 < v := Real.sqrt_pos.1 hpos
  have hq0 := hq.1
  have hsc2 : 0 < g.scale ^ 2 := by positivity
  have hbeta' : g.mcmc_state.sigma2_beta = v * q / g.scale ^ 2 := by
    rw [hbeta]; field_simp
  have hb : 0 < g.mcmc_state.sigma2_beta := by rw [hbeta']; positivity
  have hal : 0 < g.mcmc_state.sigma2_alpha := by rw [halpha]; positivity
  refine ⟨hal, hb, ?_⟩
  have hm : MeasurableSet {x : ℝ | g.scale ^ 2 * x ≤ Real.sqrt v ^ 2} :=
    measurableSet_le (by fun_prop) (by fun_prop)
  rw [← map_div_gamma hal hb, Measure.map_apply (by fun_prop) hm, Real.sq_sqrt hvpos.le, hbeta', halpha,
    ← hq.2]
  apply measure_congr
  have h0 : ∀ᵐ x ∂gammaMeasure (a.sigdf / 2) 1, 0 < x := by
    rw [ae_iff]
    simpa [Set.Iic] using gammaMeasure_nonpos (a.sigdf / 2)
  filter_upwards [h0] with x hx
  apply propext
  show g.scale ^ 2 * (v * q / g.scale ^ 2 / x) ≤ v ↔ q ≤ x
  have e : g.scale ^ 2 * (v * q / g.scale ^ 2 / x) = v * (q / x) := by field_simp
  rw [e, mul_le_iff_le_one_right hvpos, div_le_one hx]

/-! ### C64 -/

theorem integral_invGammaPdf {α β : ℝ} (ha : 0 < α) (hb : 0 < β) : ∫ x, invGammaPdf α β x = 1 := by
  rw [integral_eq_lintegral_of_nonneg_ae (Filter.Eventually.of_forall (invGammaPdf_nonneg ha hb))
    (measurable_invGammaPdf α β).aestronglyMeasurable]
  have := isProbabilityMeasure_gammaMeasure ha one_pos
  have e : ∫⁻ x, ENNReal.ofReal (invGammaPdf α β x) = 1 := by
    rw [← setLIntegral_univ, ← withDensity_apply _ MeasurableSet.univ, ← map_div_gamma ha hb,
      Measure.map_apply (by fun_prop) MeasurableSet.univ, Set.preimage_univ, measure_univ]
  rw [e, ENNReal.toReal_one]

/-- the expected value of the inverse of an inverse gamma variate -/
theorem integral_inv_invGamma {α β : ℝ} (ha : 0 < α) (hb : 0 < β) :
    ∫ x, x⁻¹ * invGammaPdf α β x = α / β := by
  have e : ∀ x, x⁻¹ * invGammaPdf α β x = α / β * invGammaPdf (α + 1) β x := by
    intro x
    unfold invGammaPdf
    split_ifs with hx
    · rw [Real.Gamma_add_one ha.ne', Real.rpow_add hb, Real.rpow_one]
      have h1 := (Real.Gamma_pos_of_pos ha).ne'
      have e2 : x ^ (-(α + 1) - 1) = x⁻¹ * x ^ (-α - 1) := by
        rw [← Real.rpow_neg_one x, ← Real.rpow_add hx]
        congr 1
        ring
      rw [e2]
      field_simp
    · simp
  simp only [e, integral_const_mul, integral_invGammaPdf (by positivity : 0 < α + 1) hb, mul_one]

/-- C64. The inspection method `_sigma_harmonic_mean` returns the square root of the harmonic mean of the error
variance, i.e., of the inverse of the expected value of its inverse, under the prior distribution, or under
the distribution conditional on the residuals of the final state of the MCMC. The distributions are on the
error variance in the units of the response. A priori it is the square root of `lamda`. -/
theorem C64_harmonic_mean (h : ValidGbart lib a) (hrng : LawfulRng rng) (hdf : 0 < a.sigdf) :
    ∃ g, gbart lib rng a = some g ∧ (0 < g.scale → 0 < g.lamda →
      g.sigma_harmonic_mean true = Real.sqrt g.lamda ∧
      g.sigma_harmonic_mean true =
        Real.sqrt (∫ x, x⁻¹ * invGammaPdf (a.sigdf / 2) (g.lamda * a.sigdf / 2) x)⁻¹ ∧
      ∃ α β, 0 < α ∧ 0 < β ∧ IsSigmaPosterior (a.sigdf / 2) (g.lamda * a.sigdf / 2)
          (g.mcmc_state.resid.map fun r => g.scale * r) α β ∧
        g.sigma_harmonic_mean false = Real.sqrt (∫ x, x⁻¹ * invGammaPdf α β x)⁻¹) := by
  obtain ⟨sp, g, hg, hs⟩ := gbart_spec hrng h
  have ha := gbart_args_valid h hs.splits_eq
  have hinv := reachable_inv ha (gbartState_reachable (lib := lib) hrng a sp (a.nskip + a.ndpost * a.keepevery))
  have halpha : g.mcmc_state.sigma2_alpha = a.sigdf / 2 := by
    rw [hs.state, hinv.cfg.sigma2_alpha]
    simp [gbart_init_args, setup_args]
  have hbeta : g.mcmc_state.sigma2_beta = g.lamda / (g.scale * g.scale) * (a.sigdf / 2) := by
    rw [hs.state, hinv.cfg.sigma2_beta, hs.scale, hs.lamda]
    simp only [gbart_init_args, setup_args, gbart_settings]
    push_cast
    rfl
  refine ⟨g, hg, fun hsc hlam => ?_⟩
  have hA : 0 < a.sigdf / 2 := by positivity
  have hB : 0 < g.lamda * a.sigdf / 2 := by positivity
  have hsq : ∀ x : ℝ, Real.sqrt x * g.scale = Real.sqrt (x * g.scale ^ 2) := by
    intro x
    rw [Real.sqrt_mul' _ (by positivity), Real.sqrt_sq hsc.le]
  have e1 : g.sigma_harmonic_mean true = Real.sqrt g.lamda := by
    simp only [Gbart.sigma_harmonic_mean, if_true, Real.fltFun_sqrt, halpha, hbeta, hsq]
    congr 1
    field_simp
  refine ⟨e1, ?_, ?_⟩
  · rw [e1, integral_inv_invGamma hA hB]
    congr 1
    field_simp
  · have hS : 0 ≤ sumSq (g.mcmc_state.resid.map fun r => g.scale * r) := by
      unfold sumSq
      apply List.sum_nonneg
      intro y hy
      rw [List.mem_map] at hy
      obtain ⟨z, _, rfl⟩ := hy
      exact mul_self_nonneg z
    have hS' : sumSq (g.mcmc_state.resid.map fun r => g.scale * r) = g.scale ^ 2 * sumSq g.mcmc_state.resid := by
      unfold sumSq
      rw [List.map_map, ← List.sum_map_mul_left]
      congr 1
      refine List.map_congr_left fun r _ => ?_
      simp only [Function.comp]
      ring
    refine ⟨_, _, by positivity, by positivity, isSigmaPosterior hA hB _, ?_⟩
    rw [integral_inv_invGamma (by positivity) (by positivity)]
    simp only [Gbart.sigma_harmonic_mean, Bool.false_eq_true, if_false, Real.fltFun_sqrt, halpha, hbeta, hsq]
    congr 1
    rw [inv_div, hS', List.length_map, jaxSum_eq]
    change _ = (g.lamda * a.sigdf / 2 + g.scale ^ 2 * (g.mcmc_state.resid.map fun r => r * r).sum / 2) / _
    push_cast
    field_simp

end

end

/-! ### Examples -/

namespace ExGR
open ProbabilityTheory MeasureTheory
open scoped Ex

/-- exact least squares -/
noncomputable def lstsq (A : List (List ℝ)) (b : List ℝ) : ℝ × Nat :=
  (sInf (Set.range fun β => residualSS A.length (A.headD []).length (entry A) (fun i => b.getD i 0) β),
    (Matrix.of fun (i : Fin A.length) (j : Fin (A.headD []).length) => entry A i j).rank)

theorem lstsq_lawful : LawfulLstsq lstsq := by
  rintro n p A b rfl hb hrow
  match A with
  | [] =>
    have e : ∀ β, residualSS 0 p (entry []) (fun i => b.getD i 0) β = 0 := fun β => by simp [residualSS]
    have e' : ∀ β, residualSS 0 0 (entry []) (fun i => b.getD i 0) β = 0 := fun β => by simp [residualSS]
    constructor
    · show IsGLB (Set.range fun β => residualSS 0 p (entry []) (fun i => b.getD i 0) β)
        (sInf (Set.range fun β => residualSS 0 0 (entry []) (fun i => b.getD i 0) β))
      simp only [e, e', Set.range_const, csInf_singleton]
      exact isGLB_singleton
    · have h1 := Matrix.rank_le_height (Matrix.of fun (i : Fin 0) (j : Fin 0) => entry [] i j)
      have h2 := Matrix.rank_le_height (Matrix.of fun (i : Fin 0) (j : Fin p) => entry [] i j)
      exact (Nat.le_zero.1 h1).trans (Nat.le_zero.1 h2).symm
  | row :: A =>
    obtain rfl := hrow row (List.mem_cons_self ..)
    refine ⟨isGLB_csInf (Set.range_nonempty _) ⟨0, ?_⟩, rfl⟩
    rintro _ ⟨β, rfl⟩
    exact Finset.sum_nonneg fun i _ => sq_nonneg _

/-- the inverse incomplete gamma function is right for shape parameter 1 -/
noncomputable def lib : Lib ℝ ℝ :=
  { exact := id, fl := id, lstsq := lstsq, gammainccinv := fun _ y => -Real.log y
    pow := fun x y => x ^ y, isqrt := Nat.sqrt, nbytes := fun n => n, nan := 0 }

/-- 2 predictors, 4 datapoints -/
noncomputable def args : GbartArgs Unit ℝ :=
  { x_train := { x := [[1, 5, 2, 8], [0, 0, 3, 3]], n := 4, columns := none }
    y_train := [0, 4, 8, 12], x_test := none
    usequants := false, sigest := none, sigdf := 2, sigquant := 9 / 10, k := 2, power := 2, base := 95 / 100
    maxdepth := 6, lamda := none, offset := none, ntree := 2, numcut := 3, ndpost := 2, nskip := 1
    keepevery := 2, key := ()
    initkw := { min_points_per_leaf := some (some 1), resid_batch_size := none, count_batch_size := none
                save_ratios := false } }

theorem args_valid : ValidGbart lib args where
  depth_ge := by simp [args]
  depth_le := by simp [args]
  predictors_pos := by simp [args]
  predictors_lt := by simp [args]
  length := by simp [args]
  row := by simp [args]
  datapoints := by simp [args]
  nonterminal_pos := by
    intro d _
    have : (0 : ℝ) < 95 / 100 / ((1 + d : Nat) : ℝ) ^ (2 : ℝ) := by positivity
    simp only [lib, args, Real.leb_iff, Real.leb_iff_false]
    refine ⟨this.le, this, ?_⟩
    have h1 : (1 : ℝ) ≤ ((1 + d : Nat) : ℝ) ^ (2 : ℝ) := by
      apply Real.one_le_rpow _ (by norm_num)
      push_cast
      linarith [(Nat.cast_nonneg d : (0 : ℝ) ≤ d)]
    rw [div_le_one (by linarith)]
    linarith
  x_test := by simp [args]
  numcut_lt := by simp [args]
  overflow := Or.inl ⟨1, le_rfl, rfl⟩

theorem args_ne : ∃ v ∈ args.y_train, ∃ w ∈ args.y_train, v ≠ w :=
  ⟨0, by simp [args], 4, by simp [args], by norm_num⟩

theorem gammainccinv : IsGammainccinv (args.sigdf / 2) args.sigquant
    (lib.gammainccinv (args.sigdf / 2) args.sigquant) := by
  have hlog : Real.log (9 / 10) < 0 := Real.log_neg (by norm_num) (by norm_num)
  have hp : IsProbabilityMeasure (gammaMeasure 1 1) := isProbabilityMeasure_gammaMeasure one_pos one_pos
  have hp' : IsProbabilityMeasure (expMeasure 1) := hp
  refine ⟨by simp only [lib, args]; linarith, ?_⟩
  have e1 : args.sigdf / 2 = 1 := by simp [args]
  have hcdf := cdf_expMeasure_eq one_pos (-Real.log (9 / 10))
  rw [if_pos (by linarith), one_mul, neg_neg, Real.exp_log (by norm_num), cdf_eq_real] at hcdf
  have hIic : gammaMeasure 1 1 (Set.Iic (-Real.log (9 / 10))) = ENNReal.ofReal (1 - 9 / 10) := by
    rw [← hcdf]
    exact (ofReal_measureReal (measure_ne_top (gammaMeasure 1 1) _)).symm
  have hatom : gammaMeasure 1 1 {-Real.log (9 / 10)} = 0 :=
    withDensity_absolutelyContinuous _ _ (by simp)
  have hIio : gammaMeasure 1 1 (Set.Iio (-Real.log (9 / 10))) = ENNReal.ofReal (1 - 9 / 10) := by
    rw [← hIic]
    apply measure_congr
    rw [← Set.Iic_sdiff_right]
    exact sdiff_null_ae_eq_self hatom
  rw [e1]
  simp only [lib, args]
  rw [← Set.compl_Iio, prob_compl_eq_one_sub measurableSet_Iio, hIio, ← ENNReal.ofReal_one,
    ← ENNReal.ofReal_sub _ (by norm_num)]
  norm_num

-- C63, C46
example := C63_compare_resid args_valid ExR.rng_lawful
example := C46_residuals args_valid ExR.rng_lawful (by simp [args])
-- C47
example := C47_affine lstsq_lawful args_valid ExR.rng_lawful (by simp [args]) args_ne (c := 3) (by norm_num) 7
-- C48
example := C48_settings lstsq_lawful args_valid ExR.rng_lawful
-- C56
example := C56_prior args_valid ExR.rng_lawful rfl (by simp [args]) gammainccinv
-- C64
example := C64_harmonic_mean args_valid ExR.rng_lawful (by simp [args])

/-- the scale and offset are not trivial -/
theorem settings : (gbart_settings lib args).scale = 3 ∧ (gbart_settings lib args).offset = 6 := by
  constructor
  · simp only [gbart_settings, process_scale_settings, args, List.length_cons, List.length_nil, maxF, minF,
      List.foldl_cons, List.foldl_nil, Real.leb_iff]
    norm_num
  · simp only [gbart_settings, process_offset_settings, args, mean, Jax.sum, List.length_cons, List.length_nil,
      List.foldl_cons, List.foldl_nil]
    norm_num

end ExGR

end Bartz
