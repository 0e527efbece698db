import Verif.Lemmas.BartEndless
import Verif.Lemmas.GbartProper
import Verif.Props.Irreducible
import Verif.Props.GbartExact
/-!
# The results converge as the number of iterations grows: C71, C72, C73

As in C70, this requires a minimum number of datapoints per leaf, as set by default by `gbart`.
-/

set_option autoImplicit false

namespace Bartz
open Jax Spec MeasureTheory ProbabilityTheory Filter Topology

section
variable {K : Type} [KeyLike K] {a : InitArgs ℝ}

/-! ### C71 -/

/-- C71. From any state, an event that has positive posterior probability has positive probability at
all times but for a finite number; so there are no cycles in the chain. -/
theorem C71_aperiodic (ha : ValidArgs a) (hp : ProperSettings a)
    (hm : ∃ m, 1 ≤ m ∧ a.min_points_per_leaf = some m) {s : State ℝ}
    (hc : Consistent a s) (hs : 0 < s.sigma2) {A : Set (Params a.num_trees (nodes a))}
    (hA : MeasurableSet A) (hpos : 0 < posterior a A) :
    ∃ N, ∀ n, N ≤ n → ∀ (key : K) (rng : (Fin n → StepDraws a.num_trees (nodes a)) → Rng K ℝ),
      RunSites a key n rng →
      0 < (Measure.pi fun _ => stepDraws a) {O | paramsOf a (chain (step (rng O)) s key n) ∈ A} := by
  have hu := usable_of ha hp
  obtain ⟨N, hN⟩ := eventually_pos hu hp.nonterminal hp.alpha hp.beta hm (possibleParams_of hc hs) hA
    hpos.ne'
  refine ⟨N, fun n hn key rng hr => ?_⟩
  rw [chain_prob hu hp.alpha hp.beta hc hs hr hA]
  exact pos_iff_ne_zero.2 (hN n hn)

/-- C71. Conversely, an event that has probability zero a posteriori has probability zero after any
number of steps, from any state. -/
theorem C71_null (ha : ValidArgs a) (hp : ProperSettings a) {s : State ℝ}
    (hc : Consistent a s) (hs : 0 < s.sigma2) {A : Set (Params a.num_trees (nodes a))}
    (hA : MeasurableSet A) (hzero : posterior a A = 0) {n : Nat} (hn : 1 ≤ n) (key : K)
    (rng : (Fin n → StepDraws a.num_trees (nodes a)) → Rng K ℝ) (hr : RunSites a key n rng) :
    (Measure.pi fun _ => stepDraws a) {O | paramsOf a (chain (step (rng O)) s key n) ∈ A} = 0 := by
  have hu := usable_of ha hp
  have hinv := stepKernel_invariant hu hp.nonterminal hp.alpha hp.beta
  rw [chain_prob hu hp.alpha hp.beta hc hs hr hA]
  obtain ⟨j, rfl⟩ : ∃ j, n = j + 1 := ⟨n - 1, by omega⟩
  exact absCont_pow hinv (step_abs hu hp.nonterminal hp.alpha hp.beta (possibleParams_of hc hs)) j hzero

/-! ### C72 -/

/-- C72. The strong law of large numbers: let `f` be a function of the parameters with a posterior
expected value; almost surely, its average over the states saved by the MCMC converges to the posterior
expected value, for any starting state, number of burn-in iterations, and thinning. -/
theorem C72_law_of_large_numbers (ha : ValidArgs a) (hp : ProperSettings a)
    (hm : ∃ m, 1 ≤ m ∧ a.min_points_per_leaf = some m) [IsProbabilityMeasure (stepDraws a)] {s : State ℝ}
    (hc : Consistent a s) (hs : 0 < s.sigma2) (key : K)
    (rng : (Nat → StepDraws a.num_trees (nodes a)) → Rng K ℝ) (hr : EndlessSites a key rng)
    (n_burn : Nat) {n_skip : Nat} (hskip : 1 ≤ n_skip)
    {f : Params a.num_trees (nodes a) → ℝ} (hf : Measurable f) (hi : Integrable f (posterior a)) :
    ∀ᵐ O ∂endlessDraws a, Tendsto (fun n : Nat => (∑ k ∈ Finset.range n,
      f (paramsOf a (chain (step (rng O)) s key (n_burn + (k + 1) * n_skip)))) / n) atTop
        (𝓝 (∫ θ, f θ ∂posterior a)) :=
  endless_lln (usable_of ha hp) hp.nonterminal hp.alpha hp.beta n_burn hskip (Or.inr hm) hc hs hr hf hi

/-- C72. With only one tree, the minimum number of datapoints per leaf is not required if there is no
thinning. -/
theorem C72_one_tree (ha : ValidArgs a) (hp : ProperSettings a) (hm : a.num_trees = 1)
    [IsProbabilityMeasure (stepDraws a)] {s : State ℝ}
    (hc : Consistent a s) (hs : 0 < s.sigma2) (key : K)
    (rng : (Nat → StepDraws a.num_trees (nodes a)) → Rng K ℝ) (hr : EndlessSites a key rng)
    (n_burn : Nat) {f : Params a.num_trees (nodes a) → ℝ} (hf : Measurable f)
    (hi : Integrable f (posterior a)) :
    ∀ᵐ O ∂endlessDraws a, Tendsto (fun n : Nat => (∑ k ∈ Finset.range n,
      f (paramsOf a (chain (step (rng O)) s key (n_burn + (k + 1) * 1)))) / n) atTop
        (𝓝 (∫ θ, f θ ∂posterior a)) :=
  endless_lln (usable_of ha hp) hp.nonterminal hp.alpha hp.beta n_burn le_rfl (Or.inl ⟨hm, rfl⟩) hc hs hr
    hf hi

/-- C72. The average, over the saved states, of any function of the noise variance whose growth is
limited, in particular of the standard deviation. The posterior expected value of `sigma2 ^ r` exists if
`r` is less than the shape parameter of the conditional distribution of the variance. -/
theorem C72_sigma (ha : ValidArgs a) (hp : ProperSettings a) {r : ℝ}
    (hr : r < a.sigma2_alpha + a.y.length / 2) :
    Integrable (fun θ : Params a.num_trees (nodes a) => θ.2 ^ r) (posterior a) :=
  integrable_sigma (usable_of ha hp) hp.nonterminal hp.alpha hp.beta hr

/-- C72. The sum of the trees at a point has a posterior expected value, as well as all the moments. -/
theorem C72_moments (ha : ValidArgs a) (hp : ProperSettings a) (X : List (List Nat)) (j p : Nat) :
    Integrable (fun θ : Params a.num_trees (nodes a) => (∑ t, treeValue X j (θ.1 t)) ^ p) (posterior a) := by
  have hu := usable_of ha hp
  have hpr := posterior_prob hu hp.nonterminal hp.alpha hp.beta
  have h := memLp_predict hu hp.nonterminal hp.alpha hp.beta X j p
  have h1 : Integrable (fun θ : Params a.num_trees (nodes a) => ‖∑ t, treeValue X j (θ.1 t)‖ ^ p)
      (posterior a) := MemLp.integrable_norm_pow' h
  refine h1.mono (h.1.pow p) (ae_of_all _ fun θ => ?_)
  rw [norm_pow, norm_pow, norm_norm]

/-! ### C73 -/

theorem init_sigma2_pos (a : InitArgs ℝ) : 0 < (init a).sigma2 := by
  simp only [init]
  split_ifs with h
  · rw [Bool.and_eq_true] at h
    exact (Real.ltb_iff _ _).1 h.2
  · exact one_pos

/-- the sum of the trees in a state of the chain -/
theorem forest_sum (ha : ValidArgs a) {s : State ℝ} (hs : StateInv a s) (X : List (List Nat)) (j : Nat) :
    ((List.range a.num_trees).map fun t => (readTree default (s.leaf_trees.getD t []) (s.var_trees.getD t [])
      (s.split_trees.getD t []) a.p_nonterminal.length 1).eval (X.map fun row => row.getD j 0)).foldl (· + ·) 0 =
    ∑ t, treeValue X j ((paramsOf a s).1 t) := by
  have e : ∀ t ∈ List.range a.num_trees, (readTree default (s.leaf_trees.getD t []) (s.var_trees.getD t [])
      (s.split_trees.getD t []) a.p_nonterminal.length 1).eval (X.map fun row => row.getD j 0) =
      treeValue X j (treeOf a s t) := fun t ht =>
    readTree_treeValue ha hs (List.mem_range.1 ht) X j
  rw [List.map_congr_left e, ← List.sum_eq_foldl]
  exact Finset.sum_range fun t => treeValue X j (treeOf a s t)

theorem endless_lawful {key : K} {rng : (Nat → StepDraws a.num_trees (nodes a)) → Rng K ℝ}
    (hr : EndlessSites a key rng) {O : Nat → StepDraws a.num_trees (nodes a)} (hO : ∀ i, GoodDraws (O i)) :
    LawfulRng (rng O) := by
  have := (hr 0 O fun k t _ => (hO k).1 t).lawful (O 0) (hO 0).1
  rwa [Function.update_eq_self] at this

/-- the averages of the sum of the trees -/
theorem predict_lln (ha : ValidArgs a) (hp : ProperSettings a)
    (hm : ∃ m, 1 ≤ m ∧ a.min_points_per_leaf = some m) [IsProbabilityMeasure (stepDraws a)] (key : K)
    (rng : (Nat → StepDraws a.num_trees (nodes a)) → Rng K ℝ) (hr : EndlessSites a key rng)
    (n_burn : Nat) {n_skip : Nat} (hskip : 1 ≤ n_skip) :
    ∀ᵐ O ∂endlessDraws a, LawfulRng (rng O) ∧ ∀ (X : List (List Nat)) (j : Nat),
      Tendsto (fun N : Nat => (∑ k ∈ Finset.range N, ∑ t, treeValue X j
        ((paramsOf a (chain (step (rng O)) (init a) key (n_burn + (k + 1) * n_skip))).1 t)) / N) atTop
        (𝓝 (∫ θ, ∑ t, treeValue X j (θ.1 t) ∂posterior a)) := by
  have hc := (C68_consistent (K := K) ha hp).1 _ .init
  have h : ∀ᵐ O ∂endlessDraws a, ∀ (X : List (List Nat)) (j : Nat),
      Tendsto (fun N : Nat => (∑ k ∈ Finset.range N, ∑ t, treeValue X j
        ((paramsOf a (chain (step (rng O)) (init a) key (n_burn + (k + 1) * n_skip))).1 t)) / N) atTop
        (𝓝 (∫ θ, ∑ t, treeValue X j (θ.1 t) ∂posterior a)) := by
    rw [ae_all_iff]
    intro X
    rw [ae_all_iff]
    intro j
    refine C72_law_of_large_numbers ha hp hm hc (init_sigma2_pos a) key rng hr n_burn hskip
      (f := fun θ => ∑ t, treeValue X j (θ.1 t)) ?_ ?_
    · refine Finset.measurable_sum _ fun t _ => ?_
      exact (measurable_treeValue X j).comp ((measurable_pi_apply t).comp measurable_fst)
    · simpa using C72_moments ha hp X j 1
  filter_upwards [h, endless_ae] with O hO hg
  exact ⟨endless_lawful hr hg, hO⟩

/-- C73. The predictions computed by `evaluate_trace` on the trace produced by `run_mcmc`, averaged over
the saved states: almost surely, for all points, they converge to the posterior expected value of the sum
of the trees as the number of saved states grows. -/
theorem C73_evaluate_trace (ha : ValidArgs a) (hp : ProperSettings a)
    (hm : ∃ m, 1 ≤ m ∧ a.min_points_per_leaf = some m) [IsProbabilityMeasure (stepDraws a)] (key : K)
    (rng : (Nat → StepDraws a.num_trees (nodes a)) → Rng K ℝ) (hr : EndlessSites a key rng)
    (n_burn : Nat) {n_skip : Nat} (hskip : 1 ≤ n_skip) :
    ∀ᵐ O ∂endlessDraws a, ∀ (isqrt : Nat → Nat) (nbytes n : Nat) (X : List (List Nat)),
      ∃ Y : Nat → List (List ℝ),
        (∀ N, evaluate_trace isqrt nbytes n (run_mcmc (rng O) (init a) n_burn N n_skip key).main_trace X =
          some (Y N) ∧ (Y N).length = N) ∧
        ∀ j, j < n → Tendsto (fun N : Nat => (∑ k ∈ Finset.range N, ((Y N).getD k []).getD j 0) / N) atTop
          (𝓝 (∫ θ, ∑ t, treeValue X j (θ.1 t) ∂posterior a)) := by
  filter_upwards [predict_lln ha hp hm key rng hr n_burn hskip] with O hO isqrt nbytes n X
  refine ⟨_, fun N => ⟨C45_run ha .init (rng O) hO.1 key n_burn N n_skip isqrt nbytes n X, by simp⟩,
    fun j hj => ?_⟩
  refine (hO.2 X j).congr fun N => ?_
  congr 1
  refine Finset.sum_congr rfl fun k hk => ?_
  rw [Finset.mem_range] at hk
  have hinv := reachable_inv ha (C42_reachable (rng O) _ key .init hO.1 (n_burn + (k + 1) * n_skip))
  rw [← forest_sum ha hinv X j]
  simp [List.getD_eq_getElem?_getD, hk, hj]

end

section
variable {K P : Type} [KeyLike K] [Field P] [LinearOrder P] [IsStrictOrderedRing P] {lib : Lib ℝ P}
  {a : GbartArgs K ℝ}

theorem mean_map_range (N : Nat) (f : Nat → ℝ) :
    Jax.mean ((List.range N).map f) = (∑ k ∈ Finset.range N, f k) / N := by
  unfold Jax.mean Jax.sum
  rw [← List.sum_eq_foldl, List.length_map, List.length_range]
  rfl

/-- averages of affine functions -/
theorem tendsto_affine {f : Nat → ℝ} {m : ℝ} (b c : ℝ)
    (h : Tendsto (fun N : Nat => (∑ k ∈ Finset.range N, f k) / N) atTop (𝓝 m)) :
    Tendsto (fun N : Nat => (∑ k ∈ Finset.range N, (b + c * f k)) / N) atTop (𝓝 (b + c * m)) := by
  have h1 : Tendsto (fun N : Nat => b + c * ((∑ k ∈ Finset.range N, f k) / N)) atTop (𝓝 (b + c * m)) :=
    (h.const_mul c).const_add b
  refine h1.congr' ?_
  filter_upwards [eventually_gt_atTop 0] with N hN
  have : (N : ℝ) ≠ 0 := by positivity
  rw [Finset.sum_add_distrib, Finset.sum_const, Finset.card_range, nsmul_eq_mul, ← Finset.mul_sum]
  field_simp

theorem mean_predictions (ha : ValidGbart lib a) {sp : Splits P}
    (hsp : determine_splits lib a.x_train.x a.x_train.n a.usequants a.numcut = some sp) {rng : Rng K ℝ}
    (hrng : LawfulRng rng) (N : Nat) (x : List (List ℝ)) {n j : Nat} (hj : j < n) :
    (meanAxis0 n (predictions lib rng { a with ndpost := N } sp x n)).getD j 0 =
      (∑ k ∈ Finset.range N, ((gbart_settings lib a).offset + (gbart_settings lib a).scale *
        ∑ t, treeValue (gbart_bin_predictors lib x sp.splits) j
          ((paramsOf (gbart_init_args lib a sp) (chain (step rng) (init (gbart_init_args lib a sp)) a.key
            (a.nskip + (k + 1) * a.keepevery))).1 t))) / N := by
  have hv := gbart_args_valid ha hsp
  unfold meanAxis0
  rw [getD_vmap hj, ← mean_map_range]
  congr 1
  unfold predictions
  rw [List.map_map]
  refine List.map_congr_left fun k _ => ?_
  have hinv := reachable_inv hv (C42_reachable rng _ a.key .init hrng (a.nskip + (k + 1) * a.keepevery))
  rw [← forest_sum hv hinv]
  simp only [Function.comp, List.getD_eq_getElem?_getD, List.getElem?_map, List.getElem?_range hj,
    Option.map_some, Option.getD_some]
  simp [forestAt, gbart_init_args, setup_args, gbartState]
  rfl

/-- C73. The results of `gbart`: almost surely, as the number `ndpost` of saved iterations grows, the
averages `yhat_test_mean` and `yhat_train_mean` of the predictions converge to the posterior expected value
of the regression function, i.e., of the sum of trees rescaled and shifted; and the average of the samples
of the error standard deviation `sigma` converges to its posterior expected value. -/
theorem C73_gbart (h : ValidGbart lib a) (hp : ProperGbart lib a) (hacc : AccurateLinspace lib a)
    (hy : 0 < a.y_train.length) (hn : a.y_train.length < 2 ^ 64) (hc : a.numcut + 1 < 2 ^ 64)
    (hkeep : 1 ≤ a.keepevery) {sp : Splits P}
    (hsp : determine_splits lib a.x_train.x a.x_train.n a.usequants a.numcut = some sp)
    [IsProbabilityMeasure (stepDraws (gbart_init_args lib a sp))]
    (rng : (Nat → StepDraws (gbart_init_args lib a sp).num_trees (nodes (gbart_init_args lib a sp))) → Rng K ℝ)
    (hr : EndlessSites (gbart_init_args lib a sp) a.key rng) :
    ∀ᵐ O ∂endlessDraws (gbart_init_args lib a sp), ∃ g : Nat → Gbart ℝ P,
      (∀ N, gbart lib (rng O) { a with ndpost := N } = some (g N)) ∧
      (∀ x, a.x_test = some x → ∃ y : Nat → List ℝ, (∀ N, (g N).yhat_test_mean = some (y N)) ∧
        ∀ j, j < x.n → Tendsto (fun N => (y N).getD j 0) atTop
          (𝓝 ((gbart_settings lib a).offset + (gbart_settings lib a).scale *
            ∫ θ, ∑ t, treeValue (gbart_bin_predictors lib x.x sp.splits) j (θ.1 t)
              ∂posterior (gbart_init_args lib a sp)))) ∧
      (∃ y : Nat → List ℝ, (∀ N, (g N).yhat_train_mean lib = some (y N)) ∧
        ∀ j, j < a.y_train.length → Tendsto (fun N => (y N).getD j 0) atTop
          (𝓝 ((gbart_settings lib a).offset + (gbart_settings lib a).scale *
            ∫ θ, ∑ t, treeValue (gbart_init_args lib a sp).X j (θ.1 t)
              ∂posterior (gbart_init_args lib a sp)))) ∧
      Tendsto (fun N => Jax.mean (g N).sigma) atTop
        (𝓝 ((gbart_settings lib a).scale * ∫ θ, √θ.2 ∂posterior (gbart_init_args lib a sp))) := by
  have hv := gbart_args_valid h hsp
  have hps := gbart_proper h hp hsp hacc hn hc hy
  have hsig : ∀ᵐ O ∂endlessDraws (gbart_init_args lib a sp), Tendsto (fun n : Nat => (∑ k ∈ Finset.range n,
      √(paramsOf (gbart_init_args lib a sp) (chain (step (rng O)) (init (gbart_init_args lib a sp)) a.key
        (a.nskip + (k + 1) * a.keepevery))).2) / n) atTop
        (𝓝 (∫ θ, √θ.2 ∂posterior (gbart_init_args lib a sp))) := by
    refine C72_law_of_large_numbers hv hps hp.points ((C68_consistent (K := K) hv hps).1 _ .init)
      (init_sigma2_pos _) a.key rng hr a.nskip hkeep (f := fun θ => √θ.2) (by fun_prop) ?_
    have hlen : (gbart_init_args lib a sp).y.length = a.y_train.length := by
      simp [gbart_init_args, setup_args, transform_input]
    have := C72_sigma hv hps (r := 1 / 2) (by
      have h1 := hps.alpha
      have h2 : (1 : ℝ) ≤ (gbart_init_args lib a sp).y.length := by rw [hlen]; exact_mod_cast hy
      linarith)
    simpa only [Real.sqrt_eq_rpow] using this
  filter_upwards [predict_lln hv hps hp.points a.key rng hr a.nskip hkeep, hsig] with O hO hO'
  have hvN : ∀ N, ValidGbart lib { a with ndpost := N } := fun N =>
    ⟨h.depth_ge, h.depth_le, h.predictors_pos, h.predictors_lt, h.length, h.row, h.datapoints,
      h.nonterminal_pos, h.x_test, h.numcut_lt, h.overflow⟩
  have hg : ∀ N, ∃ g, gbart lib (rng O) { a with ndpost := N } = some g ∧
      GbartSpec lib (rng O) { a with ndpost := N } sp g := by
    intro N
    obtain ⟨sp', g, h1, h2⟩ := gbart_spec hO.1 (hvN N)
    have e := h2.splits_eq
    simp only [hsp, Option.some.injEq] at e
    subst e
    exact ⟨g, h1, h2⟩
  choose g hg1 hg2 using hg
  refine ⟨g, hg1, ?_, ?_, ?_⟩
  · intro x hx
    refine ⟨_, fun N => by
      rw [(hg2 N).yhat_test_mean]
      simp only [hx, Option.bind_some]
      rw [(hg2 N).predict_eq (hvN N) hO.1 x (h.x_test x hx)]
      rfl, fun j hj => ?_⟩
    simp only [mean_predictions h hsp hO.1 _ _ hj]
    exact tendsto_affine _ _ (hO.2 _ j)
  · refine ⟨_, fun N => by
      unfold Gbart.yhat_train_mean
      rw [(hg2 N).yhat_train_eq (hvN N) hO.1]
      rfl, fun j hj => ?_⟩
    have hy' : ∀ N, (g N).mcmc_state.y.length = a.x_train.n := by
      intro N
      have hinv := reachable_inv hv (C42_reachable (rng O) _ a.key .init hO.1 (a.nskip + N * a.keepevery))
      rw [(hg2 N).state]
      show (chain (step (rng O)) (init (gbart_init_args lib a sp)) a.key (a.nskip + N * a.keepevery)).y.length = _
      rw [hinv.cfg.y]
      simp [gbart_init_args, setup_args, transform_input, h.length]
    simp only [hy']
    rw [← h.length] at hj
    simp only [mean_predictions h hsp hO.1 _ _ hj]
    exact tendsto_affine _ _ (hO.2 _ j)
  · have e : ∀ N, Jax.mean (g N).sigma = (∑ k ∈ Finset.range N, (0 + (gbart_settings lib a).scale *
        √(paramsOf (gbart_init_args lib a sp) (chain (step (rng O)) (init (gbart_init_args lib a sp)) a.key
          (a.nskip + (k + 1) * a.keepevery))).2)) / N := by
      intro N
      rw [(hg2 N).sigma, mean_map_range]
      simp only [zero_add]
      rfl
    simp only [e]
    have := tendsto_affine 0 (gbart_settings lib a).scale hO'
    rwa [zero_add] at this

end
/-! ### Examples -/

namespace ExQ
open ExB (FreeKey)

/-- the draws of an endless Markov chain -/
noncomputable def endlessRng {a : InitArgs ℝ} (O : Nat → StepDraws a.num_trees (nodes a)) :
    Rng FreeKey ℝ := fun k =>
  let i := (k.takeWhile fun x => decide (x = (2, 0))).length
  stepRng (O i) (k.drop (i + 1))

theorem endlessRng_at {a : InitArgs ℝ} (O : Nat → StepDraws a.num_trees (nodes a)) (i : Nat)
    (q : FreeKey) : endlessRng O (List.replicate i (2, 0) ++ (2, 1) :: q) = stepRng (O i) q := by
  have e : ((List.replicate i (2, 0) ++ (2, 1) :: q).takeWhile fun x : Nat × Nat =>
      decide (x = (2, 0))).length = i := by
    rw [List.takeWhile_append_of_pos (by
      intro x hx; rw [List.eq_of_mem_replicate hx]; rfl)]
    simp
  unfold endlessRng
  simp only [e]
  congr 1
  rw [List.drop_append]
  simp

/-- There is a random number generator as required by C72 and C73, for all settings. -/
theorem endlessRng_sites (a : InitArgs ℝ) : EndlessSites a ([] : FreeKey) (endlessRng (a := a)) := by
  intro i O hO
  rw [chainKey_eq]
  have hk : ∀ (o : StepDraws a.num_trees (nodes a)) (q : FreeKey),
      endlessRng (Function.update O i o) (List.replicate i (2, 0) ++ (2, 1) :: q) = stepRng o q := by
    intro o q
    rw [endlessRng_at, Function.update_self]
  have hsplit : ∀ (k : FreeKey) m j, KeyLike.split k m j = k ++ [(m, j)] := fun _ _ _ => rfl
  have hnum : ∀ (o : StepDraws a.num_trees (nodes a)) (t : Fin a.num_trees), treeNums o t = o.1 t :=
    fun o t => dif_pos t.2
  refine ⟨fun t o => ⟨fun w => ?_, fun w => ?_, fun w hi => ?_, fun w lo hi => ?_, fun w lo hi => ?_,
    fun w lo hi => ?_⟩, fun o t k => ?_, fun o => ?_, fun o ho => ?_⟩
  case refine_8 =>
    simp only [hsplit, List.append_assoc, List.cons_append, List.nil_append, hk]
    rfl
  case refine_9 =>
    intro k
    show LawfulDraws (stepRng _ _)
    refine stepRng_lawful ?_ _
    intro t
    by_cases hki : (k.takeWhile fun x : Nat × Nat => decide (x = (2, 0))).length = i
    · rw [hki, Function.update_self]; exact ho t
    · rw [Function.update_of_ne hki]; exact hO _ t hki
  all_goals
    simp only [hsplit, List.append_assoc, List.cons_append, List.nil_append, hk]
    simp [stepRng, hnum]

theorem args_points : ∃ m, 1 ≤ m ∧ ExR.args.min_points_per_leaf = some m := ⟨1, by norm_num, rfl⟩

instance : IsProbabilityMeasure (stepDraws ExR.args) := stepDraws_prob args_proper.alpha

/-- After a sufficient number of steps, it is always possible that the first tree is `T1`. -/
example : ∃ N, ∀ n, N ≤ n → 0 < (Measure.pi fun _ => stepDraws ExR.args)
    {O : Fin n → StepDraws ExR.args.num_trees (nodes ExR.args) |
      paramsOf ExR.args (chain (step (runRng O)) (init ExR.args) [] n) ∈ event} := by
  obtain ⟨hA, h0⟩ := posterior_config (usable_of ExR.args_valid args_proper) args_proper.nonterminal
    args_proper.alpha args_proper.beta (C := fun t => if t.val = 0 then T1 else rootT ExR.args)
    (fun t => by split_ifs; exacts [T1_possible, root_possible _])
  obtain ⟨N, hN⟩ := C71_aperiodic (K := FreeKey) ExR.args_valid args_proper args_points
    ((C68_consistent (K := FreeKey) ExR.args_valid args_proper).1 _ .init) ExR.sigma2_pos hA
    (pos_iff_ne_zero.2 h0)
  exact ⟨N, fun n hn => hN n hn [] runRng (runRng_sites _ n)⟩

/-- The fraction of saved states in which the first tree is `T1` and the second one is a root converges to
the posterior probability of this event; with 5 burn-in iterations, saving one state out of 3. -/
example : ∀ᵐ O ∂endlessDraws ExR.args, Tendsto (fun n : Nat => (∑ k ∈ Finset.range n,
    event.indicator (fun _ => (1 : ℝ)) (paramsOf ExR.args (chain (step (endlessRng O)) (init ExR.args) []
      (5 + (k + 1) * 3)))) / n) atTop (𝓝 ((posterior ExR.args).real event)) := by
  have hu := usable_of ExR.args_valid args_proper
  have hpr := posterior_prob hu args_proper.nonterminal args_proper.alpha args_proper.beta
  have hA : MeasurableSet event := (posterior_config hu args_proper.nonterminal
    args_proper.alpha args_proper.beta (C := fun t => if t.val = 0 then T1 else rootT ExR.args)
    (fun t => by split_ifs; exacts [T1_possible, root_possible _])).1
  have h := C72_law_of_large_numbers (K := FreeKey) ExR.args_valid args_proper args_points
    ((C68_consistent (K := FreeKey) ExR.args_valid args_proper).1 _ .init) ExR.sigma2_pos []
    endlessRng (endlessRng_sites _) 5 (n_skip := 3) (by norm_num)
    (f := event.indicator fun _ => 1) (measurable_const.indicator hA)
    ((integrable_const (1 : ℝ)).indicator hA)
  rwa [integral_indicator_const _ hA, smul_eq_mul, mul_one] at h

-- C72, C73
example := C72_sigma ExR.args_valid args_proper (r := 1 / 2) (by norm_num [ExR.args])
example := C72_moments ExR.args_valid args_proper [[0, 3], [1, 1]] 1 2
example := C73_evaluate_trace (K := FreeKey) ExR.args_valid args_proper args_points [] endlessRng
  (endlessRng_sites _) 5 (n_skip := 3) (by norm_num)

theorem one_proper : ProperSettings ExB.args where
  trees := by simp [ExB.args]
  counts := Or.inr args_cuts
  nonterminal := args_proper.nonterminal
  alpha := args_proper.alpha
  beta := args_proper.beta
  rules := Or.inr ⟨args_cuts, by simp [ExB.args, ExR.args]⟩

/-- One tree, without a minimum number of datapoints: the average of the standard deviation converges. -/
example : ∃ _ : IsProbabilityMeasure (stepDraws ExB.args), ∀ᵐ O ∂endlessDraws ExB.args,
    Tendsto (fun n : Nat => (∑ k ∈ Finset.range n, (paramsOf ExB.args (chain (step (endlessRng O))
      (init ExB.args) [] (5 + (k + 1) * 1))).2 ^ (1 / 2 : ℝ)) / n) atTop
        (𝓝 (∫ θ, θ.2 ^ (1 / 2 : ℝ) ∂posterior ExB.args)) := by
  have := stepDraws_prob one_proper.alpha
  exact ⟨this, C72_one_tree (K := FreeKey) ExB.args_valid one_proper rfl
    ((C68_consistent (K := FreeKey) ExB.args_valid one_proper).1 _ .init) (init_sigma2_pos _) []
    endlessRng (endlessRng_sites _) 5 (f := fun θ => θ.2 ^ (1 / 2 : ℝ)) (by fun_prop)
    (C72_sigma ExB.args_valid one_proper (by norm_num [ExB.args, ExR.args]))⟩

/-- arguments of `gbart`: 2 predictors, 4 datapoints, cutpoints at quantiles -/
noncomputable def gargs : GbartArgs FreeKey ℝ :=
  { x_train := { x := [[1, 5, 2, 8], [0, 0, 3, 3]], n := 4, columns := none }
    y_train := [0, 4, 8, 12], x_test := some { x := [[1, 6], [1, 2]], n := 2, columns := none }
    usequants := true, sigest := none, sigdf := 3, sigquant := 9 / 10, k := 2, power := 2, base := 95 / 100
    maxdepth := 6, lamda := some 1, offset := none, ntree := 2, numcut := 2, ndpost := 2, nskip := 1
    keepevery := 2, key := []
    initkw := { min_points_per_leaf := some (some 1), resid_batch_size := none, count_batch_size := none
                save_ratios := false } }

theorem gargs_valid : ValidGbart ExGR.lib gargs where
  depth_ge := by simp [gargs]
  depth_le := by simp [gargs]
  predictors_pos := by simp [gargs]
  predictors_lt := by simp [gargs]
  length := by simp [gargs]
  row := by simp [gargs]
  datapoints := by simp [gargs]
  nonterminal_pos := ExGR.args_valid.nonterminal_pos
  x_test := by
    intro x hx
    simp only [gargs, Option.some.injEq] at hx
    subst hx
    exact ⟨rfl, rfl⟩
  numcut_lt := by simp [gargs]
  overflow := Or.inl ⟨1, le_rfl, rfl⟩

theorem gargs_proper : ProperGbart ExGR.lib gargs where
  trees := by simp [gargs]
  cuts := by simp [gargs]
  predictors := by
    intro _ h
    simp [gargs] at h
  nonterminal := by
    intro d _
    show (95 / 100 : ℝ) / ((1 + d : Nat) : ℝ) ^ (2 : ℝ) < 1
    have h1 : (1 : ℝ) ≤ ((1 + d : Nat) : ℝ) := by push_cast; linarith [Nat.cast_nonneg (α := ℝ) d]
    have h2 : (1 : ℝ) ≤ ((1 + d : Nat) : ℝ) ^ (2 : ℝ) := Real.one_le_rpow h1 (by norm_num)
    rw [div_lt_one (by linarith)]
    linarith
  sigdf := by norm_num [gargs]
  scale := by
    have := ExGR.settings.1
    have e : (gbart_settings ExGR.lib gargs).scale = (gbart_settings ExGR.lib ExGR.args).scale := rfl
    rw [e, this]
    norm_num
  lamda := one_pos
  points := ⟨1, le_rfl, rfl⟩

theorem gargs_accurate : AccurateLinspace ExGR.lib gargs := by
  intro m hm _
  refine ⟨0, ?_, fun q _ _ => by simp [ExGR.lib]⟩
  have hm' : (((gargs.numcut + 1 : Nat) : ℚ)) < m := by exact_mod_cast hm
  have hpos : (0 : ℚ) < ((gargs.numcut + 1 : Nat) : ℚ) := by positivity
  rw [mul_zero, sub_pos, lt_div_iff₀ hpos, one_mul]
  exact hm'

/-- The hypotheses of C73 are met. -/
example : ∃ sp, determine_splits ExGR.lib gargs.x_train.x gargs.x_train.n gargs.usequants gargs.numcut = some sp ∧
    ∃ _ : IsProbabilityMeasure (stepDraws (gbart_init_args ExGR.lib gargs sp)),
      ∀ᵐ O ∂endlessDraws (gbart_init_args ExGR.lib gargs sp), ∃ y : Nat → List ℝ,
        (∀ N, ∃ g, gbart ExGR.lib (endlessRng O) { gargs with ndpost := N } = some g ∧
          g.yhat_test_mean = some (y N)) ∧
        Tendsto (fun N => (y N).getD 1 0) atTop (𝓝 (6 + 3 * ∫ θ, ∑ t, treeValue
          (gbart_bin_predictors ExGR.lib [[1, 6], [1, 2]] sp.splits) 1 (θ.1 t)
            ∂posterior (gbart_init_args ExGR.lib gargs sp))) := by
  obtain ⟨sp, hsp, -⟩ := determine_splits_spec ExGR.lib gargs.x_train.x gargs.x_train.n gargs.usequants
    gargs.numcut (by simp [gargs])
  have hps := gbart_proper gargs_valid gargs_proper hsp gargs_accurate (by simp [gargs]) (by simp [gargs])
    (by simp [gargs])
  refine ⟨sp, hsp, stepDraws_prob hps.alpha, ?_⟩
  have := stepDraws_prob hps.alpha
  filter_upwards [C73_gbart gargs_valid gargs_proper gargs_accurate (by simp [gargs]) (by simp [gargs])
    (by simp [gargs]) (by simp [gargs]) hsp endlessRng (endlessRng_sites _)] with O hO
  obtain ⟨g, hg, ht, -⟩ := hO
  obtain ⟨y, hy, hy'⟩ := ht _ rfl
  refine ⟨y, fun N => ⟨g N, hg N, hy N⟩, ?_⟩
  have := hy' 1 (by norm_num)
  have e1 : (gbart_settings ExGR.lib gargs).scale = 3 := ExGR.settings.1
  have e2 : (gbart_settings ExGR.lib gargs).offset = 6 := ExGR.settings.2
  rwa [e1, e2] at this

/-- the second predictor is constant, so it has no cutpoints -/
noncomputable def gargsC : GbartArgs FreeKey ℝ :=
  { gargs with x_train := { x := [[1, 5, 2, 8], [7, 7, 7, 7]], n := 4, columns := none } }

theorem gargsC_valid : ValidGbart ExGR.lib gargsC where
  depth_ge := gargs_valid.depth_ge
  depth_le := gargs_valid.depth_le
  predictors_pos := by simp [gargsC]
  predictors_lt := by simp [gargsC]
  length := by simp [gargsC, gargs]
  row := by simp [gargsC, gargs]
  datapoints := by simp [gargsC, gargs]
  nonterminal_pos := gargs_valid.nonterminal_pos
  x_test := by
    intro x hx
    simp only [gargsC, gargs, Option.some.injEq] at hx
    subst hx
    exact ⟨rfl, rfl⟩
  numcut_lt := gargs_valid.numcut_lt
  overflow := gargs_valid.overflow

theorem gargsC_proper : ProperGbart ExGR.lib gargsC where
  trees := gargs_proper.trees
  cuts := gargs_proper.cuts
  predictors := by
    intro _ h
    simp [gargsC] at h
  nonterminal := gargs_proper.nonterminal
  sigdf := gargs_proper.sigdf
  scale := gargs_proper.scale
  lamda := one_pos
  points := gargs_proper.points

/-- The hypotheses of C73 are met with a constant predictor. -/
example : ∃ sp, determine_splits ExGR.lib gargsC.x_train.x gargsC.x_train.n gargsC.usequants gargsC.numcut = some sp ∧
    ∃ _ : IsProbabilityMeasure (stepDraws (gbart_init_args ExGR.lib gargsC sp)),
      ∀ᵐ O ∂endlessDraws (gbart_init_args ExGR.lib gargsC sp), ∃ y : Nat → List ℝ,
        (∀ N, ∃ g, gbart ExGR.lib (endlessRng O) { gargsC with ndpost := N } = some g ∧
          g.yhat_test_mean = some (y N)) ∧
        Tendsto (fun N => (y N).getD 1 0) atTop (𝓝 (6 + 3 * ∫ θ, ∑ t, treeValue
          (gbart_bin_predictors ExGR.lib [[1, 6], [1, 2]] sp.splits) 1 (θ.1 t)
            ∂posterior (gbart_init_args ExGR.lib gargsC sp))) := by
  obtain ⟨sp, hsp, -⟩ := determine_splits_spec ExGR.lib gargsC.x_train.x gargsC.x_train.n gargsC.usequants
    gargsC.numcut (by simp [gargsC])
  have hps := gbart_proper gargsC_valid gargsC_proper hsp gargs_accurate (by simp [gargsC, gargs])
    (by simp [gargsC, gargs]) (by simp [gargsC, gargs])
  refine ⟨sp, hsp, stepDraws_prob hps.alpha, ?_⟩
  have := stepDraws_prob hps.alpha
  filter_upwards [C73_gbart gargsC_valid gargsC_proper gargs_accurate (by simp [gargsC, gargs])
    (by simp [gargsC, gargs]) (by simp [gargsC, gargs]) (by simp [gargsC, gargs]) hsp endlessRng
    (endlessRng_sites _)] with O hO
  obtain ⟨g, hg, ht, -⟩ := hO
  obtain ⟨y, hy, hy'⟩ := ht _ rfl
  refine ⟨y, fun N => ⟨g N, hg N, hy N⟩, ?_⟩
  have := hy' 1 (by norm_num)
  have e1 : (gbart_settings ExGR.lib gargsC).scale = 3 := ExGR.settings.1
  have e2 : (gbart_settings ExGR.lib gargsC).offset = 6 := ExGR.settings.2
  rwa [e1, e2] at this

end ExQ
end Bartz
