import Verif.Lemmas.ReflectPost
import Verif.Lemmas.ReflectGbart
import Verif.Props.TotalVariation
/-!
# Property C103: change of sign of the response, distribution of the results
-/

set_option autoImplicit false

namespace Bartz
open Jax Spec MeasureTheory ProbabilityTheory Filter

/-- the random numbers of a step with the opposite normal variates -/
def reflectDraws {nt N : Nat} (o : StepDraws nt N) : StepDraws nt N :=
  (fun t => ((o.1 t).1, fun i => -(o.1 t).2 i), o.2)

theorem treeDraws_reflect (N : Nat) :
    MeasurePreserving (fun o : (Fin 6 → ℝ) × (Fin N → ℝ) => (o.1, fun i => -o.2 i)) (treeDraws N) (treeDraws N) := by
  unfold treeDraws
  have hg : MeasurePreserving (fun x : ℝ => -x) (gaussianReal 0 1) (gaussianReal 0 1) := by
    refine ⟨measurable_neg, ?_⟩
    rw [gaussianReal_map_neg, neg_zero]
  exact (MeasurePreserving.id _).prod (measurePreserving_pi (fun _ : Fin N => gaussianReal 0 1) (fun _ => gaussianReal 0 1) fun _ => hg)

theorem stepDraws_reflect {a : InitArgs ℝ} (hα : 0 < a.sigma2_alpha) :
    MeasurePreserving (reflectDraws : StepDraws a.num_trees (nodes a) → _) (stepDraws a) (stepDraws a) := by
  have hpr := stepDraws_prob hα
  unfold stepDraws
  have : IsProbabilityMeasure (gammaMeasure (a.sigma2_alpha + a.y.length / 2) 1) :=
    isProbabilityMeasure_gammaMeasure (by positivity) one_pos
  have : SigmaFinite (treeDraws (nodes a)) := by unfold treeDraws; infer_instance
  exact (measurePreserving_pi _ _ fun _ => treeDraws_reflect (nodes a)).prod (MeasurePreserving.id _)

theorem runDraws_reflect {a : InitArgs ℝ} (hα : 0 < a.sigma2_alpha) (n : Nat) :
    MeasurePreserving (fun (O : Fin n → StepDraws a.num_trees (nodes a)) i => reflectDraws (O i))
      (Measure.pi fun _ => stepDraws a) (Measure.pi fun _ => stepDraws a) := by
  have hpr := stepDraws_prob hα
  exact measurePreserving_pi _ _ fun _ => stepDraws_reflect hα

theorem valid_reflect {a : InitArgs ℝ} (h : ValidArgs a) : ValidArgs (reflectInit a) where
  depth_pos := h.depth_pos
  depth_lt := h.depth_lt
  predictors_pos := h.predictors_pos
  predictors_lt := h.predictors_lt
  X_length := h.X_length
  X_row := fun row hrow => (h.X_row row hrow).trans (List.length_map _).symm
  max_split_fits := h.max_split_fits
  split_bits := h.split_bits
  overflow := by
    refine h.overflow.imp id fun h => ⟨fun v j hv hj => h.1 v j hv ?_, h.2⟩
    simpa using hj
  nonterminal_pos := h.nonterminal_pos

theorem settings_reflect {a : InitArgs ℝ} (h : ProperSettings a) : ProperSettings (reflectInit a) where
  trees := h.trees
  counts := h.counts
  nonterminal := h.nonterminal
  alpha := h.alpha
  beta := h.beta
  rules := by
    refine h.rules.imp (fun h => ⟨fun v j hv hj => h.1 v j hv ?_, h.2⟩) id
    simpa using hj

open Classical in
theorem params_reflect {a : InitArgs ℝ} (s : State ℝ) : paramsOf (reflectInit a) (reflectState s) = reflectParams (paramsOf a s) := by
  refine Prod.ext (funext fun t => Prod.ext rfl (funext fun i => ?_)) rfl
  have e : ∀ (l : List ℝ) (i : Nat), (l.map (-·)).getD i 0 = -l.getD i 0 := by
    intro l i
    rw [← neg_zero, List.getD_map, neg_zero]
  have e2 : (s.leaf_trees.map fun tree => tree.map (-·)).getD t [] = (s.leaf_trees.getD t []).map (-·) := by
    rw [← List.map_nil (f := fun x : ℝ => -x), List.getD_map, List.map_nil]
  change (if IsLeaf (s.split_trees.getD t []) i then ((s.leaf_trees.map fun tree => tree.map (-·)).getD t []).getD i 0 else 0) =
    -(if IsLeaf (s.split_trees.getD t []) i then (s.leaf_trees.getD t []).getD i 0 else 0)
  rw [e2, e]
  split
  · rfl
  · rw [neg_zero]

section
variable {K : Type} [KeyLike K] {a : InitArgs ℝ}

theorem stepSites_reflect {key : K} {r : StepDraws a.num_trees (nodes a) → Rng K ℝ} (h : StepSites a key r) :
    StepSites (reflectInit a) key fun o => reflectRng (r (reflectDraws o)) where
  tree t o := by
    have e : ∀ w : Fin 6 → ℝ, reflectDraws (Function.update o.1 t (w, (o.1 t).2), o.2) =
        (Function.update (reflectDraws o).1 t (w, ((reflectDraws o).1 t).2), (reflectDraws o).2) := by
      intro w
      refine Prod.ext (funext fun u => ?_) rfl
      by_cases hu : u = t
      · subst hu
        simp [reflectDraws]
      · simp [reflectDraws, hu]
    have h1 := h.tree t (reflectDraws o)
    simp only [e]
    exact ⟨h1.grow, h1.accept, h1.leaf, h1.var, h1.split, h1.prune⟩
  normal o t i := by
    change -(r (reflectDraws o) _).normal t i = _
    rw [h.normal]
    exact neg_neg _
  gamma o := by
    change (r (reflectDraws o) _).gamma (a.sigma2_alpha + ((a.y.map (-·)).length : ℕ) / 2) = _
    rw [List.length_map]
    exact h.gamma _
  lawful o ho := lawful_reflect (h.lawful _ ho)

theorem runSites_reflect {key : K} {n : Nat} {rng : (Fin n → StepDraws a.num_trees (nodes a)) → Rng K ℝ} (h : RunSites a key n rng) :
    RunSites (reflectInit a) key n fun O => reflectRng (rng fun i => reflectDraws (O i)) := by
  intro i O hO
  have h1 := stepSites_reflect (h i (fun k => reflectDraws (O k)) hO)
  have e : ∀ o, (fun k => reflectDraws (Function.update O i o k)) = Function.update (fun k => reflectDraws (O k)) i (reflectDraws o) := by
    intro o
    funext k
    by_cases hk : k = i
    · subst hk
      simp
    · simp [hk]
  simp only [e]
  exact h1

theorem chain_reflect (rng : Rng K ℝ) (s : State ℝ) (key : K) (n : Nat) :
    chain (step (reflectRng rng)) (reflectState s) key n = reflectState (chain (step rng) s key n) := by
  induction n with
  | zero => rfl
  | succ n ih =>
    change step _ (chain _ _ _ n) _ = reflectState (step _ (chain _ _ _ n) _)
    rw [ih, step_reflect]

/-- C103. The distribution of the parameters after any number of iterations with the opposite response is the original one, with the
opposite leaves, although the random number generators of the two runs may have nothing to do with each other. -/
theorem C103_law (ha : ValidArgs a) (hp : ProperSettings a) {n : Nat} {key key' : K}
    {rng : (Fin n → StepDraws a.num_trees (nodes a)) → Rng K ℝ} (hr : RunSites a key n rng)
    {rng' : (Fin n → StepDraws a.num_trees (nodes a)) → Rng K ℝ} (hr' : RunSites (reflectInit a) key' n rng') :
    (Measure.pi fun _ => stepDraws (reflectInit a)).map (fun O => paramsOf (reflectInit a) (chain (step (rng' O)) (init (reflectInit a)) key' n)) =
      ((Measure.pi fun _ => stepDraws a).map fun O => paramsOf a (chain (step (rng O)) (init a) key n)).map reflectParams := by
  have ha' := valid_reflect ha
  have hp' := settings_reflect hp
  have hpr := stepDraws_prob hp.alpha
  have hu := usable_of ha hp
  have hu' := usable_of ha' hp'
  have hc := (C68_consistent (K := K) ha hp).1 _ .init
  have hc' := (C68_consistent (K := K) ha' hp').1 _ .init
  rw [chain_kernel hu' hp'.alpha hp'.beta hc' (init_sigma2_pos _) hr',
    ← chain_kernel hu' hp'.alpha hp'.beta hc' (init_sigma2_pos _) (runSites_reflect hr)]
  have hd : stepDraws (reflectInit a) = stepDraws a := by
    unfold stepDraws
    simp only [List.length_map]
  obtain ⟨hm, e⟩ := chain_ae hu hp.alpha hp.beta hc (init_sigma2_pos a) hr
  have hae : AEMeasurable (fun O => paramsOf a (chain (step (rng O)) (init a) key n)) (Measure.pi fun _ => stepDraws a) := ⟨_, hm, e⟩
  have hmp := runDraws_reflect (a := a) hp.alpha n
  rw [AEMeasurable.map_map_of_aemeasurable measurable_reflectParams.aemeasurable hae]
  have hfun : (fun O : Fin n → StepDraws a.num_trees (nodes a) => paramsOf (reflectInit a)
      (chain (step (reflectRng (rng fun i => reflectDraws (O i)))) (init (reflectInit a)) key n)) =
      (reflectParams ∘ fun O => paramsOf a (chain (step (rng O)) (init a) key n)) ∘ fun O i => reflectDraws (O i) := by
    funext O
    change _ = reflectParams (paramsOf a _)
    rw [← params_reflect, ← chain_reflect, ← init_neg]
  rw [hd]
  refine (congrArg (fun f => Measure.map f _) hfun).trans ?_
  have hg : AEMeasurable (reflectParams ∘ fun O => paramsOf a (chain (step (rng O)) (init a) key n)) (Measure.pi fun _ => stepDraws a) :=
    measurable_reflectParams.comp_aemeasurable hae
  have hg' : AEMeasurable (reflectParams ∘ fun O => paramsOf a (chain (step (rng O)) (init a) key n))
      ((Measure.pi fun _ => stepDraws a).map fun O i => reflectDraws (O i)) := by
    rw [hmp.map_eq]
    exact hg
  rw [← AEMeasurable.map_map_of_aemeasurable hg' hmp.measurable.aemeasurable, hmp.map_eq]

/-- C103. The same for `run_mcmc`. -/
theorem C103_run_law (ha : ValidArgs a) (hp : ProperSettings a) {n_burn n_save n_skip : Nat} {key key' : K}
    {rng : (Fin (n_burn + n_save * n_skip) → StepDraws a.num_trees (nodes a)) → Rng K ℝ} (hr : RunSites a key _ rng)
    {rng' : (Fin (n_burn + n_save * n_skip) → StepDraws a.num_trees (nodes a)) → Rng K ℝ} (hr' : RunSites (reflectInit a) key' _ rng') :
    (Measure.pi fun _ => stepDraws (reflectInit a)).map
        (fun O => paramsOf (reflectInit a) (run_mcmc (rng' O) (init (reflectInit a)) n_burn n_save n_skip key').bart) =
      ((Measure.pi fun _ => stepDraws a).map fun O => paramsOf a (run_mcmc (rng O) (init a) n_burn n_save n_skip key).bart).map
        reflectParams := by
  simp only [C42_final]
  exact C103_law ha hp hr hr'

end

namespace ExQ
open ExB (FreeKey)

/-- The distribution after eight iterations. -/
example : (Measure.pi fun _ : Fin 8 => stepDraws (reflectInit ExR.args)).map
      (fun O => paramsOf (reflectInit ExR.args) (run_mcmc (runRng O) (init (reflectInit ExR.args)) 2 3 2 ([] : FreeKey)).bart) =
    ((Measure.pi fun _ : Fin 8 => stepDraws ExR.args).map fun O =>
      paramsOf ExR.args (run_mcmc (runRng O) (init ExR.args) 2 3 2 ([] : FreeKey)).bart).map reflectParams :=
  C103_run_law (n_burn := 2) (n_save := 3) (n_skip := 2) ExR.args_valid args_proper (runRng_sites _ _) (runRng_sites _ _)

end ExQ

end Bartz
