import Verif.Lemmas.BartKernel
import Verif.Props.Mcmcloop
/-!
# The Markov chain samples from the posterior distribution: C68, C69

The posterior distribution is defined in `Spec/Bart.lean`, from the a priori distribution of the trees,
of the values of their leaves, and of the noise variance, and from the distribution of the data. Numbers
are real numbers.
-/

set_option autoImplicit false

namespace Bartz
open Jax Spec MeasureTheory ProbabilityTheory

section
variable {K : Type} [KeyLike K] {a : InitArgs ℝ}

/-- C68. There is a Markov kernel `κ` that gives the distribution of the parameters after a step, given
the parameters before the step; and the posterior distribution is invariant under `κ`. -/
theorem C68_invariant (ha : ValidArgs a) (hp : ProperSettings a) :
    IsProbabilityMeasure (posterior a) ∧
    ∃ κ : Kernel (Params a.num_trees (nodes a)) (Params a.num_trees (nodes a)),
      IsMarkovKernel κ ∧ κ.Invariant (posterior a) ∧
      ∀ (s : State ℝ) (key : K) (rng : StepDraws a.num_trees (nodes a) → Rng K ℝ),
        Consistent a s → 0 < s.sigma2 → StepSites a key rng →
        (stepDraws a).map (fun o => paramsOf a (step (rng o) s key)) = κ (paramsOf a s) := by
  have hu := usable_of ha hp
  refine ⟨posterior_prob hu hp.nonterminal hp.alpha hp.beta, stepKernel a, stepKernel_markov hp.alpha,
    stepKernel_invariant hu hp.nonterminal hp.alpha hp.beta, ?_⟩
  intro s key rng hc hsig hsites
  rw [stepKernel_apply]
  refine Measure.map_congr ?_
  filter_upwards [stepDraws_ae a] with o ho
  exact step_params hu hc hsig hsites ho.1

/-- C68. The states reached by the MCMC are consistent, and a step keeps them so. -/
theorem C68_consistent (ha : ValidArgs a) (hp : ProperSettings a) :
    (∀ s, Reachable K a s → Consistent a s) ∧
    ∀ s (rng : Rng K ℝ) key, Consistent a s → LawfulRng rng → Consistent a (step rng s key) := by
  have hu := usable_of ha hp
  exact ⟨fun s hs => consistent_of_inv hu (reachable_inv ha hs) (reachable_resid ha hs),
    fun s rng key hc hr => consistent_step hu hc hr key⟩

/-- C68. Every value of the parameters in the support of the posterior distribution is the one of some
consistent state; and the posterior distribution gives probability 1 to this set. -/
theorem C68_support (ha : ValidArgs a) :
    (∀ θ, PossibleParams a θ → ∃ s, Consistent a s ∧ paramsOf a s = θ) ∧
    (∀ s, Consistent a s → 0 < s.sigma2 → PossibleParams a (paramsOf a s)) ∧
    ∀ᵐ θ ∂posterior a, PossibleParams a θ := by
  refine ⟨fun θ hθ => ?_, fun s hc hs => possibleParams_of hc hs, posterior_ae a⟩
  exact ⟨stateOf a θ, consistent_stateOf ha hθ.tree hθ.leaf, params_stateOf hθ⟩

/-- C69. The parameters along the MCMC are a Markov chain with transition kernel `κ`: the parameters
after a step are a function `f` of the parameters before the step and of random numbers that are
independent of the past, and `κ` is the distribution of this function. As a consequence, the
distribution after `n` steps is given by the `n`-th power of the kernel. The posterior distribution is
invariant. -/
theorem C69_markov_chain (ha : ValidArgs a) (hp : ProperSettings a) :
    ∃ κ : Kernel (Params a.num_trees (nodes a)) (Params a.num_trees (nodes a)),
      IsMarkovKernel κ ∧ κ.Invariant (posterior a) ∧ (∀ n, (κ ^ n).Invariant (posterior a)) ∧
      ∃ f : Params a.num_trees (nodes a) → StepDraws a.num_trees (nodes a) →
          Params a.num_trees (nodes a),
        (Measurable fun p : Params a.num_trees (nodes a) × StepDraws a.num_trees (nodes a) =>
          f p.1 p.2) ∧
        (∀ θ, κ θ = (stepDraws a).map (f θ)) ∧
        ∀ (s : State ℝ) (key : K) (n : Nat)
          (rng : (Fin n → StepDraws a.num_trees (nodes a)) → Rng K ℝ),
          Consistent a s → 0 < s.sigma2 → RunSites a key n rng →
          (∀ᵐ O ∂Measure.pi fun _ : Fin n => stepDraws a, ∀ i : Fin n,
            paramsOf a (chain (step (rng O)) s key (i + 1)) =
              f (paramsOf a (chain (step (rng O)) s key i)) (O i)) ∧
          (Measure.pi fun _ : Fin n => stepDraws a).map
            (fun O => paramsOf a (chain (step (rng O)) s key n)) = (κ ^ n) (paramsOf a s) := by
  have hu := usable_of ha hp
  have hpr := stepDraws_prob hp.alpha
  have hinv := stepKernel_invariant hu hp.nonterminal hp.alpha hp.beta
  refine ⟨stepKernel a, stepKernel_markov hp.alpha, hinv, ?_, stepFun a, measurable_stepFun a,
    stepKernel_apply a, ?_⟩
  · intro n
    induction n with
    | zero => rw [pow_zero]; exact Measure.bind_dirac
    | succ n ih => rw [pow_succ]; exact ih.comp hinv
  intro s key n rng hc hsig hr
  have hae := runDraws_ae (a := a) n hp.alpha
  constructor
  · filter_upwards [hae] with O hO i
    exact (chain_params hu hp.beta hc hsig hr hO i (Nat.le_of_lt i.2)).2 i.2
  · exact chain_kernel hu hp.alpha hp.beta hc hsig hr

/-- C69. The same for `run_mcmc`, started from the initial state: the distribution of the parameters in
the final state, and the states that are saved in the main trace (`C42_trace`). -/
theorem C69_run_mcmc (ha : ValidArgs a) (hp : ProperSettings a) :
    ∃ κ : Kernel (Params a.num_trees (nodes a)) (Params a.num_trees (nodes a)),
      IsMarkovKernel κ ∧ κ.Invariant (posterior a) ∧
      ∀ (n_burn n_save n_skip : Nat) (key : K)
        (rng : (Fin (n_burn + n_save * n_skip) → StepDraws a.num_trees (nodes a)) → Rng K ℝ),
        RunSites a key (n_burn + n_save * n_skip) rng →
        (Measure.pi fun _ => stepDraws a).map
          (fun O => paramsOf a (run_mcmc (rng O) (init a) n_burn n_save n_skip key).bart) =
            (κ ^ (n_burn + n_save * n_skip)) (paramsOf a (init a)) := by
  have h2 : 0 < (init a).sigma2 := by
    simp only [init]
    split_ifs with h
    · rw [Bool.and_eq_true] at h
      exact (Real.ltb_iff _ _).1 h.2
    · exact one_pos
  obtain ⟨κ, h, h', _, f, _, _, hc⟩ := C69_markov_chain (K := K) ha hp
  refine ⟨κ, h, h', fun n_burn n_save n_skip key rng hr => ?_⟩
  simp only [C42_final]
  exact (hc _ key _ rng ((C68_consistent (K := K) ha hp).1 _ .init) h2 hr).2

end

/-! ### Examples -/

namespace ExQ
open ExB (FreeKey unifInt_mem)

/-- the numbers used for tree `t` -/
def treeNums {a : InitArgs ℝ} (o : StepDraws a.num_trees (nodes a)) (t : Nat) :
    (Fin 6 → ℝ) × (Fin (nodes a) → ℝ) := if h : t < a.num_trees then o.1 ⟨t, h⟩ else (0, 0)

/-- the draws of a step, given how the key has been made from the key of the step -/
noncomputable def stepRng {a : InitArgs ℝ} (o : StepDraws a.num_trees (nodes a)) (q : FreeKey) : Draws ℝ :=
  { uniform2 := fun r t => if r = 0 then (treeNums o t).1 0 else (treeNums o t).1 1
    uniformTo := fun hi => hi * (treeNums o ((q.getD 2 (0, 0)).2 - 1)).1 2
    randint := fun lo hi =>
      if q.getD 4 (0, 0) = (3, 1) then unifInt ((treeNums o ((q.getD 2 (0, 0)).2 - 1)).1 3) lo hi
      else if q.getD 4 (0, 0) = (3, 2) then unifInt ((treeNums o ((q.getD 2 (0, 0)).2 - 1)).1 4) lo hi
      else unifInt ((treeNums o ((q.getD 2 (0, 0)).2 - 1)).1 5) lo hi
    normal := fun t i => if h : i < nodes a then (treeNums o t).2 ⟨i, h⟩ else 0
    gamma := fun _ => o.2 }

theorem stepRng_lawful {a : InitArgs ℝ} {o : StepDraws a.num_trees (nodes a)}
    (ho : ∀ t, (o.1 t).1 ∈ unitCube) (q : FreeKey) : LawfulDraws (stepRng o q) := by
  have hw' : ∀ t k, (treeNums o t).1 k ∈ Set.Ico (0 : ℝ) 1 := by
    intro t k
    unfold treeNums
    split_ifs with h
    · exact ho ⟨t, h⟩ k (Set.mem_univ k)
    · simp
  exact
  { uniform2_nonneg := fun r t => by
      simp only [stepRng, Real.leb_iff]; split_ifs; exacts [(hw' t 0).1, (hw' t 1).1]
    uniform2_lt_one := fun r t => by
      simp only [stepRng, Real.ltb_iff]; split_ifs; exacts [(hw' t 0).2, (hw' t 1).2]
    uniformTo := fun hi h1 h2 _ => by
      rw [Real.leb_iff] at h1
      rw [Real.leb_iff_false] at h2
      rw [Real.leb_iff, Real.leb_iff_false]
      simp only [stepRng]
      exact ⟨mul_nonneg h1 (hw' _ 2).1, by nlinarith [(hw' ((q.getD 2 (0, 0)).2 - 1) 2).2]⟩
    randint_mem := fun lo hi h => by
      simp only [stepRng]
      split_ifs
      exacts [unifInt_mem _ (hw' _ 3) _ _ h, unifInt_mem _ (hw' _ 4) _ _ h, unifInt_mem _ (hw' _ 5) _ _ h]
    randint_empty := fun lo hi h => by
      simp only [stepRng, unifInt]
      simp [Nat.not_lt.2 h] }

/-- the draws of a Markov chain -/
noncomputable def runRng {a : InitArgs ℝ} {n : Nat} (O : Fin n → StepDraws a.num_trees (nodes a)) :
    Rng FreeKey ℝ := fun k =>
  let i := (k.takeWhile fun x => decide (x = (2, 0))).length
  stepRng (if h : i < n then O ⟨i, h⟩ else (fun _ => (0, 0), 0)) (k.drop (i + 1))

theorem runRng_at {a : InitArgs ℝ} {n : Nat} (O : Fin n → StepDraws a.num_trees (nodes a)) (i : Fin n)
    (q : FreeKey) : runRng O (List.replicate i (2, 0) ++ (2, 1) :: q) = stepRng (O i) q := by
  have e : ((List.replicate i (2, 0) ++ (2, 1) :: q).takeWhile fun x : Nat × Nat =>
      decide (x = (2, 0))).length = i.val := by
    rw [List.takeWhile_append_of_pos (by
      intro x hx; rw [List.eq_of_mem_replicate hx]; rfl)]
    simp
  unfold runRng
  simp only [e]
  rw [dif_pos i.2]
  congr 1
  rw [List.drop_append]
  simp

theorem chainKey_eq (i : Nat) : chainKey ([] : FreeKey) i = List.replicate i (2, 0) := by
  induction i with
  | zero => rfl
  | succ i ih =>
    show chainKey ([] : FreeKey) i ++ [(2, 0)] = _
    rw [ih, ← List.replicate_succ']

/-- There is a random number generator as required by C68 and C69, for all settings. -/
theorem runRng_sites (a : InitArgs ℝ) (n : Nat) : RunSites a ([] : FreeKey) n (runRng (a := a)) := by
  intro i O hO
  rw [chainKey_eq]
  have hk : ∀ (o : StepDraws a.num_trees (nodes a)) (q : FreeKey),
      runRng (Function.update O i o) (List.replicate i (2, 0) ++ (2, 1) :: q) = stepRng o q := by
    intro o q
    rw [runRng_at, Function.update_self]
  have hsplit : ∀ (k : FreeKey) m j, KeyLike.split k m j = k ++ [(m, j)] := fun _ _ _ => rfl
  have hnum : ∀ (o : StepDraws a.num_trees (nodes a)) (t : Fin a.num_trees), treeNums o t = o.1 t :=
    fun o t => dif_pos t.2
  refine ⟨fun t o => ⟨fun w => ?_, fun w => ?_, fun w hi => ?_, fun w lo hi => ?_, fun w lo hi => ?_,
    fun w lo hi => ?_⟩, fun o t k => ?_, fun o => ?_, fun o ho => ?_⟩
  · simp only [hsplit, List.append_assoc, List.cons_append, List.nil_append, hk]
    simp [stepRng, hnum]
  · simp only [hsplit, List.append_assoc, List.cons_append, List.nil_append, hk]
    simp [stepRng, hnum]
  · simp only [hsplit, List.append_assoc, List.cons_append, List.nil_append, hk]
    simp [stepRng, hnum]
  · simp only [hsplit, List.append_assoc, List.cons_append, List.nil_append, hk]
    simp [stepRng, hnum]
  · simp only [hsplit, List.append_assoc, List.cons_append, List.nil_append, hk]
    simp [stepRng, hnum]
  · simp only [hsplit, List.append_assoc, List.cons_append, List.nil_append, hk]
    simp [stepRng, hnum]
  · simp only [hsplit, List.append_assoc, List.cons_append, List.nil_append, hk]
    simp [stepRng, hnum]
  · simp only [hsplit, List.append_assoc, List.cons_append, List.nil_append, hk]
    rfl
  · intro k
    show LawfulDraws (stepRng _ _)
    refine stepRng_lawful ?_ _
    intro t
    split_ifs with h
    · by_cases hki : (⟨_, h⟩ : Fin n) = i
      · rw [hki, Function.update_self]; exact ho t
      · rw [Function.update_of_ne hki]; exact hO _ t hki
    · intro k _; simp

theorem args_cuts : ∀ v, v < ExR.args.max_split.length → 1 ≤ at0 ExR.args.max_split v := by
  intro v hv
  have : v < 2 := hv
  rcases v with _ | _ | v
  · simp [ExR.args, at0]
  · simp [ExR.args, at0]
  · omega

theorem args_proper : ProperSettings ExR.args where
  trees := by simp [ExR.args]
  counts := Or.inr args_cuts
  nonterminal := by
    intro x hx
    simp only [ExR.args, List.mem_cons, List.not_mem_nil, or_false] at hx
    rcases hx with rfl | rfl <;> norm_num
  alpha := by norm_num [ExR.args]
  beta := by norm_num [ExR.args]
  rules := Or.inr ⟨args_cuts, by simp [ExR.args]⟩

/-- two trees and four datapoints, starting from the initial state: the distribution of the parameters
after three steps is given by the third power of a kernel that leaves the posterior invariant -/
example : ∃ κ : Kernel (Params 2 8) (Params 2 8), IsMarkovKernel κ ∧ κ.Invariant (posterior ExR.args) ∧
    (Measure.pi fun _ : Fin 3 => stepDraws ExR.args).map (fun O => paramsOf ExR.args
      (chain (step (runRng O)) (init ExR.args) ([] : FreeKey) 3)) =
        (κ ^ 3) (paramsOf ExR.args (init ExR.args)) := by
  obtain ⟨κ, h1, h2, _, f, _, _, h⟩ := C69_markov_chain (K := FreeKey) ExR.args_valid args_proper
  refine ⟨κ, h1, h2, (h (init ExR.args) [] 3 runRng ?_ ?_ (runRng_sites _ _)).2⟩
  · exact (C68_consistent (K := FreeKey) ExR.args_valid args_proper).1 _ .init
  · simp [init, ExR.args]

/-- the same for the final state of `run_mcmc` with two burn-in iterations, saving three states, each
after two more iterations -/
example : ∃ κ : Kernel (Params 2 8) (Params 2 8), IsMarkovKernel κ ∧ κ.Invariant (posterior ExR.args) ∧
    (Measure.pi fun _ : Fin 8 => stepDraws ExR.args).map (fun O => paramsOf ExR.args
      (run_mcmc (runRng O) (init ExR.args) 2 3 2 ([] : FreeKey)).bart) =
        (κ ^ 8) (paramsOf ExR.args (init ExR.args)) := by
  obtain ⟨κ, h1, h2, h⟩ := C69_run_mcmc (K := FreeKey) ExR.args_valid args_proper
  exact ⟨κ, h1, h2, h 2 3 2 [] runRng (runRng_sites _ _)⟩

/-- the posterior distribution is a probability measure, and it does not charge the parameters with a
variance of zero -/
example : IsProbabilityMeasure (posterior ExR.args) ∧
    posterior ExR.args {θ | ¬ PossibleParams ExR.args θ} = 0 :=
  ⟨(C68_invariant (K := FreeKey) ExR.args_valid args_proper).1,
    ae_iff.1 (C68_support ExR.args_valid).2.2⟩

end ExQ
end Bartz
