import Verif.Lemmas.ExtendedGbart
import Verif.Props.GbartExact
/-!
# Property C76: the results are finite

Arithmetic without rounding, but with the special cases of floating point arithmetic: infinities and NaN.
-/

set_option autoImplicit false

namespace Bartz
open Jax Spec XReal

section
variable {K P : Type} [KeyLike K] [Field P] [LinearOrder P] {libX : Lib XReal P} {lib : Lib ℝ P}
  {rngX : Rng K XReal} {rng : Rng K ℝ} {a : GbartArgs K ℝ}

omit [KeyLike K] [Field P] [LinearOrder P] in
theorem args_valid_lift (hL : ExtendsLib libX lib) (hl : LawfulLib lib) (hv : ValidGbart lib a) :
    ValidGbart libX (XReal.args a) where
  depth_ge := hv.depth_ge
  depth_le := hv.depth_le
  predictors_pos := by simpa [XReal.args, XReal.predictors] using hv.predictors_pos
  predictors_lt := by simpa [XReal.args, XReal.predictors] using hv.predictors_lt
  length := by simpa [XReal.args, XReal.predictors] using hv.length
  row := by
    intro row hr
    obtain ⟨row', hr', rfl⟩ := List.mem_map.1 hr
    simpa [XReal.args] using hv.row row' hr'
  datapoints := by simpa [XReal.args] using hv.datapoints
  nonterminal_pos := by
    intro d hd
    have hpos : (0 : ℝ) < ((1 + d : Nat) : ℝ) := by positivity
    simp only [XReal.args, XReal.cast_eq]
    rw [hL.pow _ _ hpos, div_num _ (hl.pow _ _ hpos).ne', zero_eq, one_eq, tiny_eq, leb_num, leb_num, leb_num]
    exact hv.nonterminal_pos d hd
  x_test := by
    intro x hx
    simp only [XReal.args, Option.map_eq_some_iff] at hx
    obtain ⟨x', h1, rfl⟩ := hx
    obtain ⟨h2, h3⟩ := hv.x_test x' h1
    exact ⟨h2, by simpa [XReal.args, XReal.predictors] using h3⟩
  numcut_lt := hv.numcut_lt
  overflow := by simpa [XReal.args] using hv.overflow

/-- C76. If the responses are not all equal, the prior settings are in the allowed range, and the gamma variates are
positive, then no infinity or NaN ends up in the results of `gbart`, which are the same as with real numbers. -/
theorem C76_finite_partial (hL : ExtendsLib libX lib) (hl : LawfulLib lib) (hv : ValidGbart lib a)
    (hr : RegularGbart lib a) (hX : LawfulRng rngX) (hrng : LawfulRng rng) (hd : ∀ k, ExtendsDraws (rngX k) (rng k))
    (hg : ∀ k x, 0 < x → 0 < (rng k).gamma x) :
    ∃ gX g, gbart libX rngX (XReal.args a) = some gX ∧ gbart lib rng a = some g ∧
      gX.offset = .num g.offset ∧ gX.scale = .num g.scale ∧ gX.lamda = .num g.lamda ∧
      gX.sigest = g.sigest.map .num ∧
      gX.sigma = g.sigma.map .num ∧ gX.first_sigma = g.first_sigma.map .num ∧
      gX.mcmc_state.sigma2 = .num g.mcmc_state.sigma2 ∧
      gX.mcmc_state.resid = g.mcmc_state.resid.map .num ∧
      gX.mcmc_state.leaf_trees = g.mcmc_state.leaf_trees.map (fun tree => tree.map .num) ∧
      gX.mcmc_state.var_trees = g.mcmc_state.var_trees ∧
      gX.mcmc_state.split_trees = g.mcmc_state.split_trees ∧
      (∃ yhat, g.yhat_train lib = some yhat ∧
        gX.yhat_train libX = some (yhat.map fun row => row.map .num)) ∧
      ∀ x, Compatible a.x_train x → ∃ yhat, g.predict lib x = some yhat ∧
        gX.predict libX (XReal.predictors x) = some (yhat.map fun row => row.map .num) := by
  have hvX := args_valid_lift hL hl hv
  obtain ⟨spX, gX, hgX, hsX⟩ := gbart_spec hX hvX
  obtain ⟨sp, g, hg', hs⟩ := gbart_spec hrng hv
  have esp : spX = sp := by
    have h1 := hsX.splits_eq
    have h2 := determine_splits_lift hL a.x_train.x a.x_train.n a.usequants a.numcut
    have h3 : determine_splits libX (XReal.args a).x_train.x (XReal.args a).x_train.n (XReal.args a).usequants
        (XReal.args a).numcut = some sp := h2.trans hs.splits_eq
    exact Option.some.inj (h1.symm.trans h3)
  subst esp
  have hset := settings_lift hL hl hv hr (scale_ne hr)
  have hch := chain_lift hd hrng hg hL hl hv hr hs.splits_eq
  have hpred : ∀ (x : List (List ℝ)) (n : Nat), predictions libX rngX (XReal.args a) spX (lift2 x) n =
      lift2 (predictions lib rng a spX x n) := by
    intro x n
    unfold predictions
    simp only [lift2, lift, List.map_map]
    refine List.map_congr_left fun k _ => ?_
    simp only [Function.comp, List.map_map]
    refine List.map_congr_left fun j _ => ?_
    obtain ⟨-, r, e⟩ := hch (a.nskip + (k + 1) * a.keepevery)
    have e' : gbartState libX rngX (XReal.args a) spX ((XReal.args a).nskip + (k + 1) * (XReal.args a).keepevery) =
      liftState r (gbartState lib rng a spX (a.nskip + (k + 1) * a.keepevery)) := e
    have hb := bin_predictors_lift hL x spX.splits
    simp only [lift2] at hb
    rw [e', hset, forestAt_lift, hb, mul_num, add_num]
    rfl
  have hsig : ∀ k, (gbart_settings libX (XReal.args a)).scale *
      FltFun.sqrt (gbartState libX rngX (XReal.args a) spX k).sigma2 =
      num ((gbart_settings lib a).scale * FltFun.sqrt (gbartState lib rng a spX k).sigma2) := by
    intro k
    obtain ⟨hp, r, e⟩ := hch k
    rw [e, hset]
    show num _ * FltFun.sqrt (num _) = _
    rw [sqrt_num hp.le, mul_num]
  obtain ⟨-, r, est⟩ := hch (a.nskip + a.ndpost * a.keepevery)
  have est' : gX.mcmc_state = liftState r g.mcmc_state := by
    rw [hsX.state, hs.state]; exact est
  refine ⟨gX, g, hgX, hg', ?_, ?_, ?_, ?_, ?_, ?_, ?_, ?_, ?_, ?_, ?_, ?_, ?_⟩
  · rw [hsX.offset, hs.offset, hset]
  · rw [hsX.scale, hs.scale, hset]
  · rw [hsX.lamda, hs.lamda, hset]
  · rw [hsX.sigest, hs.sigest, hset]
  · rw [hsX.sigma, hs.sigma, List.map_map]
    exact List.map_congr_left fun k _ => hsig _
  · rw [hsX.first_sigma, hs.first_sigma, List.map_map]
    exact List.map_congr_left fun k _ => hsig _
  · rw [est']; rfl
  · rw [est']; rfl
  · rw [est']; rfl
  · rw [est']; rfl
  · rw [est']; rfl
  · exact ⟨_, hs.yhat_train_eq hv hrng, (hsX.yhat_train_eq hvX hX).trans (congrArg some (hpred _ _))⟩
  · intro x hx
    refine ⟨_, hs.predict_eq hv hrng x hx, ?_⟩
    have hx' : Compatible (XReal.args a).x_train (XReal.predictors x) :=
      ⟨hx.1, by simpa [XReal.args, XReal.predictors] using hx.2⟩
    exact (hsX.predict_eq hvX hX _ hx').trans (congrArg some (hpred _ _))

end

/-! ### All responses equal -/

theorem sum_nan {l : List XReal} (h : ∀ x ∈ l, x = nan) (hl : l ≠ []) : Jax.sum l = nan := by
  unfold Jax.sum
  generalize (0 : XReal) = c
  induction l generalizing c with
  | nil => exact absurd rfl hl
  | cons x l ih =>
    rw [List.foldl_cons, h x (by simp), add_nan]
    cases l with
    | nil => rfl
    | cons y l => exact ih (fun z hz => h z (by simp at hz ⊢; tauto)) (by simp) _

section
variable {K P : Type} [KeyLike K] [Field P] [LinearOrder P] {lib : Lib XReal P} {rng : Rng K XReal}
  {a : GbartArgs K XReal}

omit [KeyLike K] in
theorem accept_nan (b mp : Option Nat) (e : XReal) (resid : List XReal) (w : TreeWork XReal)
    (h : ∀ x ∈ resid, x = nan) : ∀ x ∈ (accept_move_and_sample_leaves b mp e resid w).1, x = nan := by
  unfold accept_move_and_sample_leaves
  intro x hx
  obtain ⟨i, hi, rfl⟩ := List.getElem_of_mem hx
  simp only [List.getElem_zipWith]
  rw [h _ (List.getElem_mem _), nan_add]

theorem step_nan (s : State XReal) (key : K) (h : ∀ x ∈ s.resid, x = nan) :
    ∀ x ∈ (step rng s key).resid, x = nan := by
  have e : (step rng s key).resid = residOf rng s (KeyLike.split key 2 1) s.leaf_trees.length := by
    rw [step_eq, sample_trees_eq]; rfl
  rw [e]
  have : ∀ t, t ≤ s.leaf_trees.length → ∀ x ∈ residOf rng s (KeyLike.split key 2 1) t, x = nan := by
    intro t
    induction t with
    | zero => intro _; rw [residOf_zero]; exact h
    | succ t ih =>
      intro ht
      rw [residOf_succ _ _ _ (by omega)]
      exact accept_nan _ _ _ _ _ (ih (by omega))
  exact this _ le_rfl

/-- C76. Without the condition that the responses are not all equal, it is false: if there are at least two responses,
all equal, every value of the noise standard deviation is NaN, whatever the random numbers. -/
theorem C76_not (hv : ValidGbart lib a) (hrng : LawfulRng rng) (hoff : a.offset = none) {k y : ℝ} (hk : 0 < k)
    (hak : a.k = .num k) (hn : 2 ≤ a.y_train.length) (hy : ∀ v ∈ a.y_train, v = .num y) (hke : 0 < a.keepevery) :
    ∃ g, gbart lib rng a = some g ∧ g.scale = 0 ∧ (∀ v ∈ g.sigma, v = .nan) ∧ (∀ v ∈ g.first_sigma, v = .nan) := by
  obtain ⟨sp, g, hg, hs⟩ := gbart_spec hrng hv
  have ha := gbart_args_valid hv hs.splits_eq
  have hrep : a.y_train = lift (List.replicate a.y_train.length y) := by
    rw [lift, List.map_replicate]
    exact List.eq_replicate_iff.2 ⟨rfl, hy⟩
  have hnr : (a.y_train.length : ℝ) ≠ 0 := by
    have : a.y_train.length ≠ 0 := by omega
    exact_mod_cast this
  have hoffset : (gbart_settings lib a).offset = num y := by
    show process_offset_settings a.y_train a.offset = _
    have := offset_lift (List.replicate a.y_train.length y) none
    rw [← hrep, Option.map_none] at this
    rw [hoff, this]
    unfold process_offset_settings mean
    simp only [List.length_replicate]
    rw [if_neg (by omega), jaxSum_eq, List.sum_replicate]
    congr 1
    field_simp
    simp
  have hscale : (gbart_settings lib a).scale = num 0 := by
    show process_scale_settings a.y_train a.k = _
    have := scale_lift (List.replicate a.y_train.length y) hk
    rw [← hrep] at this
    rw [hak, this]
    unfold process_scale_settings
    simp only [List.length_replicate]
    rw [if_neg (by omega)]
    have hne : List.replicate a.y_train.length y ≠ [] := by
      rw [ne_eq, List.replicate_eq_nil_iff]; omega
    have h1 := (maxF_spec hne).1
    have h2 := (minF_spec hne).1
    have h3 := List.eq_of_mem_replicate h1
    have h4 := List.eq_of_mem_replicate h2
    rw [h3, h4]
    simp
  have hres : ∀ t, ∀ x ∈ (gbartState lib rng a sp t).resid, x = nan := by
    intro t
    induction t with
    | zero =>
      intro x hx
      have : (gbartState lib rng a sp 0).resid = transform_input a.y_train (gbart_settings lib a).offset
          (gbart_settings lib a).scale := rfl
      rw [this, hoffset, hscale] at hx
      obtain ⟨v, hv, rfl⟩ := List.mem_map.1 hx
      rw [hy v hv, sub_num, sub_self]
      show (if (0 : ℝ) = 0 then infSign 0 else num (0 / 0)) = nan
      simp [infSign]
    | succ t ih => exact step_nan _ _ ih
  have hsig : ∀ t, (gbartState lib rng a sp (t + 1)).sigma2 = nan := by
    intro t
    have hinv := reachable_inv ha (gbartState_reachable (lib := lib) hrng a sp (t + 1))
    have e : (gbartState lib rng a sp (t + 1)).sigma2 = ((gbartState lib rng a sp t).sigma2_beta +
        Jax.sum ((gbartState lib rng a sp (t + 1)).resid.map fun r => r * r) / ((2 : Nat) : XReal)) /
        (rng (KeyLike.split (KeyLike.split (chainKey a.key t) 2 1) 2 0)).gamma
        ((gbartState lib rng a sp t).sigma2_alpha +
          ((gbartState lib rng a sp (t + 1)).resid.length : XReal) / ((2 : Nat) : XReal)) := rfl
    have hsum : Jax.sum ((gbartState lib rng a sp (t + 1)).resid.map fun r => r * r) = nan := by
      apply sum_nan
      · intro x hx
        obtain ⟨r, hr, rfl⟩ := List.mem_map.1 hx
        rw [hres _ r hr, nan_mul]
      · intro h0
        have hl := hinv.resid_length
        rw [List.map_eq_nil_iff.1 h0] at hl
        simp [gbart_init_args, setup_args, transform_input] at hl
        omega
    rw [e, hsum, nan_div, add_nan, nan_div]
  have hnan : ∀ t, (gbart_settings lib a).scale * FltFun.sqrt (gbartState lib rng a sp (t + 1)).sigma2 = nan := by
    intro t
    rw [hsig]
    show _ * nan = nan
    exact mul_nan _
  refine ⟨g, hg, by rw [hs.scale, hscale]; rfl, ?_, ?_⟩
  · rw [hs.sigma]
    intro v hv
    obtain ⟨j, -, rfl⟩ := List.mem_map.1 hv
    have : a.nskip + (j + 1) * a.keepevery = (a.nskip + (j + 1) * a.keepevery - 1) + 1 := by
      have : 0 < (j + 1) * a.keepevery := by positivity
      omega
    rw [this]
    exact hnan _
  · rw [hs.first_sigma]
    intro v hv
    obtain ⟨j, -, rfl⟩ := List.mem_map.1 hv
    exact hnan _

end

/-! ### Examples -/

namespace ExX
open Ex

/-- the real number -/
noncomputable def val : XReal → ℝ
  | .num x => x
  | _ => 0

/-- external functions, extended with arbitrary values -/
noncomputable def lib : Lib XReal ℝ :=
  { exact := fun x => ExGR.lib.exact (val x)
    fl := ExGR.lib.fl
    lstsq := fun A b =>
      (.num (ExGR.lib.lstsq (A.map fun row => row.map val) (b.map val)).1,
        (ExGR.lib.lstsq (A.map fun row => row.map val) (b.map val)).2)
    gammainccinv := fun a y => .num (ExGR.lib.gammainccinv (val a) (val y))
    pow := fun x y => .num (ExGR.lib.pow (val x) (val y))
    isqrt := ExGR.lib.isqrt
    nbytes := ExGR.lib.nbytes
    nan := .nan }

theorem map_val (l : List ℝ) : (l.map XReal.num).map val = l := by
  rw [List.map_map]
  exact List.map_id l

theorem lib_extends : ExtendsLib lib ExGR.lib where
  exact _ := rfl
  fl := rfl
  lstsq A b := by
    have h1 : (A.map fun row => row.map XReal.num).map (fun row => row.map val) = A := by
      rw [List.map_map]
      conv_rhs => rw [← List.map_id A]
      exact List.map_congr_left fun row _ => map_val row
    simp only [lib]
    rw [h1, map_val]
  gammainccinv _ _ _ _ _ := rfl
  pow _ _ _ := rfl

theorem lib_lawful : LawfulLib ExGR.lib where
  lstsq := ExGR.lstsq_lawful
  gammainccinv α y _ h0 h1 := by
    have := Real.log_neg h0 h1
    simp only [ExGR.lib]
    linarith
  pow x y hx := by
    simp only [ExGR.lib]
    positivity

/-- constant variates -/
noncomputable def rng : Rng Unit XReal := fun k =>
  { uniform2 := fun r t => .num ((ExR.rng k).uniform2 r t)
    uniformTo := fun hi => .num ((ExR.rng k).uniformTo (val hi))
    randint := fun lo hi => (ExR.rng k).randint lo hi
    normal := fun t i => .num ((ExR.rng k).normal t i)
    gamma := fun α => .num ((ExR.rng k).gamma (val α)) }

theorem rng_extends (k : Unit) : ExtendsDraws (rng k) (ExR.rng k) where
  uniform2 _ _ := rfl
  uniformTo _ := rfl
  randint _ _ := rfl
  normal _ _ := rfl
  gamma _ := rfl

theorem rng_lawful : LawfulRng rng := by
  intro k
  have h := ExR.rng_lawful k
  refine ⟨h.uniform2_nonneg, h.uniform2_lt_one, ?_, h.randint_mem, h.randint_empty⟩
  intro hi h1 h2 h3
  cases hi with
  | num hi => exact h.uniformTo hi h1 h2 rfl
  | inf => cases h3
  | ninf => cases h1
  | nan => cases h1

/-- the error standard deviation is specified -/
noncomputable def args : GbartArgs Unit ℝ := { ExGR.args with sigest := some 3 }

theorem args_valid : ValidGbart ExGR.lib args :=
  { ExGR.args_valid with }

theorem args_regular : RegularGbart ExGR.lib args where
  responses _ := ExGR.args_ne
  k := by simp [args, ExGR.args]
  nonterminal d _ := by
    simp only [args, ExGR.args, ExGR.lib]
    have h1 : (1 : ℝ) ≤ ((1 + d : Nat) : ℝ) := by push_cast; linarith [(Nat.cast_nonneg d : (0 : ℝ) ≤ d)]
    have h2 : (1 : ℝ) ≤ ((1 + d : Nat) : ℝ) ^ (2 : ℝ) := Real.one_le_rpow h1 (by norm_num)
    rw [div_lt_one (by linarith)]
    linarith
  sigdf := by simp [args, ExGR.args]
  sigquant := by norm_num [args, ExGR.args]
  lamda := by
    have := Real.log_neg (by norm_num : (0 : ℝ) < 9 / 10) (by norm_num)
    simp [gbart_settings, process_noise_variance_settings, process_sigest2, invgamma_ppf, args, ExGR.args, ExGR.lib]
    linarith

example := C76_finite_partial lib_extends lib_lawful args_valid args_regular rng_lawful ExR.rng_lawful rng_extends
  (by simp [ExR.rng])

/-- all responses are equal -/
noncomputable def constantArgs : GbartArgs Unit ℝ := { args with y_train := [7, 7, 7, 7] }

theorem constant_valid : ValidGbart ExGR.lib constantArgs :=
  { args_valid with
    length := by simp [constantArgs, args, ExGR.args]
    row := by simp [constantArgs, args, ExGR.args]
    datapoints := by simp [constantArgs]
    overflow := Or.inl ⟨1, le_rfl, rfl⟩ }

/-- there are two values of the noise standard deviation, and they are NaN -/
example : ∃ g, gbart lib rng (XReal.args constantArgs) = some g ∧ g.sigma = [.nan, .nan] := by
  obtain ⟨g, h1, -, h2, -⟩ := C76_not (a := XReal.args constantArgs) (y := 7)
    (args_valid_lift lib_extends lib_lawful constant_valid) rng_lawful
    (by simp [XReal.args, constantArgs, args, ExGR.args]) (k := 2) (by norm_num) rfl
    (by simp [XReal.args, constantArgs]) (by simp [XReal.args, constantArgs])
    (by simp [XReal.args, constantArgs, args, ExGR.args])
  refine ⟨g, h1, ?_⟩
  obtain ⟨sp, g', hg', hs⟩ := gbart_spec rng_lawful (args_valid_lift lib_extends lib_lawful constant_valid)
  have e : g' = g := Option.some.inj (hg'.symm.trans h1)
  subst e
  have hlen : g'.sigma.length = 2 := by
    rw [hs.sigma]; simp [XReal.args, constantArgs, args, ExGR.args]
  rw [List.eq_replicate_iff.2 ⟨hlen, h2⟩]
  rfl

end ExX

end Bartz
