import Verif.Lemmas.BartFlip
import Verif.Lemmas.UniqueInvariant
import Verif.Props.Posterior
/-!
# The Markov chain has no other stationary distribution: C70

If there is only one tree, or if there is a minimum number of datapoints per leaf (as always set by
`gbart`), any event which has positive posterior probability may be reached from any state, and so the
posterior distribution is the only one which is invariant.
-/

set_option autoImplicit false

namespace Bartz
open Jax Spec MeasureTheory ProbabilityTheory

section
variable {K : Type} [KeyLike K] {a : InitArgs ℝ}

/-- C70. From any state, the MCMC may reach any event that has positive posterior probability. -/
theorem C70_irreducible (ha : ValidArgs a) (hp : ProperSettings a)
    (hm : a.num_trees = 1 ∨ ∃ m, 1 ≤ m ∧ a.min_points_per_leaf = some m) {s : State ℝ}
    (hc : Consistent a s) (hs : 0 < s.sigma2) {A : Set (Params a.num_trees (nodes a))}
    (hA : MeasurableSet A) (hpos : 0 < posterior a A) :
    ∃ n, ∀ (key : K) (rng : (Fin n → StepDraws a.num_trees (nodes a)) → Rng K ℝ), RunSites a key n rng →
      0 < (Measure.pi fun _ => stepDraws a) {O | paramsOf a (chain (step (rng O)) s key n) ∈ A} := by
  have hu := usable_of ha hp
  obtain ⟨n, hn⟩ := irreducible hu hp.nonterminal hp.alpha hp.beta hm (possibleParams_of hc hs) hA hpos.ne'
  refine ⟨n, fun key rng hr => ?_⟩
  rw [chain_prob hu hp.alpha hp.beta hc hs hr hA]
  exact pos_iff_ne_zero.2 hn

/-- C70. The posterior distribution is the only distribution of the parameters which is left unchanged
by a step: let `κ` be the distribution of the parameters after a step, given the parameters before the
step; if `μ` is invariant under `κ`, it is the posterior distribution. -/
theorem C70_unique (ha : ValidArgs a) (hp : ProperSettings a)
    (hm : a.num_trees = 1 ∨ ∃ m, 1 ≤ m ∧ a.min_points_per_leaf = some m)
    {key : K} {rng : StepDraws a.num_trees (nodes a) → Rng K ℝ} (hr : StepSites a key rng)
    {κ : Kernel (Params a.num_trees (nodes a)) (Params a.num_trees (nodes a))}
    (hκ : ∀ s, Consistent a s → 0 < s.sigma2 →
      (stepDraws a).map (fun o => paramsOf a (step (rng o) s key)) = κ (paramsOf a s))
    {μ : Measure (Params a.num_trees (nodes a))} [IsProbabilityMeasure μ]
    (hμ : ∀ᵐ θ ∂μ, PossibleParams a θ) : κ.Invariant μ ↔ μ = posterior a := by
  have hu := usable_of ha hp
  have hmk := stepKernel_markov (a := a) hp.alpha
  have hpr := posterior_prob hu hp.nonterminal hp.alpha hp.beta
  have e : ∀ θ, PossibleParams a θ → κ θ = stepKernel a θ := by
    intro θ hθ
    have hc := consistent_stateOf ha hθ.tree hθ.leaf
    have hs : 0 < (stateOf a θ).sigma2 := hθ.sigma2
    have h1 := hκ _ hc hs
    rw [params_stateOf hθ] at h1
    rw [← h1, stepKernel_apply]
    refine Measure.map_congr ?_
    filter_upwards [stepDraws_ae a] with o ho
    rw [step_params hu hc hs hr ho.1, params_stateOf hθ]
  have eb : ∀ ν : Measure (Params a.num_trees (nodes a)), (∀ᵐ θ ∂ν, PossibleParams a θ) →
      ν.bind κ = ν.bind (stepKernel a) := fun ν hν =>
    Measure.bind_congr_right (by filter_upwards [hν] with θ hθ using e θ hθ)
  have hinv := stepKernel_invariant hu hp.nonterminal hp.alpha hp.beta
  constructor
  · intro h
    have h' : (stepKernel a).Invariant μ := (eb μ hμ).symm.trans h
    refine unique_invariant h' hinv fun A hA hpos => ?_
    filter_upwards [hμ] with θ hθ
    exact irreducible hu hp.nonterminal hp.alpha hp.beta hm hθ hA hpos
  · rintro rfl
    exact (eb _ (posterior_ae a)).trans hinv

end

/-- C70. With more than one tree and without a minimum number of datapoints per leaf, the chain may not
be irreducible: there are settings and data such that an event with positive posterior probability is
never reached from the initial state. -/
theorem C70_not {K : Type} [KeyLike K] : ∃ a : InitArgs ℝ, ValidArgs a ∧ ProperSettings a ∧
    a.num_trees = 2 ∧ a.min_points_per_leaf = none ∧
    ∃ A : Set (Params a.num_trees (nodes a)), MeasurableSet A ∧ 0 < posterior a A ∧
      ∀ n (key : K) (rng : (Fin n → StepDraws a.num_trees (nodes a)) → Rng K ℝ), RunSites a key n rng →
        (Measure.pi fun _ => stepDraws a) {O | paramsOf a (chain (step (rng O)) (init a) key n) ∈ A} = 0 := by
  have hpr := ExF.args_proper
  obtain ⟨hA, h0⟩ := posterior_config ExF.hu hpr.nonterminal hpr.alpha hpr.beta
    (C := fun t => if t.val = 0 then ExF.T1 else rootT ExF.args)
    (fun t => by split_ifs; exacts [ExF.T1_possible, root_possible _])
  refine ⟨ExF.args, ExF.args_valid, hpr, rfl, rfl, _, hA, pos_iff_ne_zero.2 h0, fun n key rng hr => ?_⟩
  have hc := (C68_consistent (K := K) ExF.args_valid hpr).1 _ .init
  have hsig : 0 < (init ExF.args).sigma2 := by simp [init, ExF.args]
  have hinit : ∀ t : Fin ExF.args.num_trees, (treeOf ExF.args (init ExF.args) t).1 = ExF.pick false := by
    intro t
    refine (treeOf_eq_iff ExF.hu (Consistent.inv ExF.hu hc).1 t.2 (root_possible _)).2 ⟨?_, fun i hd => ?_⟩
    · match t with
      | ⟨0, _⟩ => rfl
      | ⟨1, _⟩ => rfl
    · exact absurd (at0_replicate _ _) hd.2
  refine measure_mono_null (t := {O | ¬ ∀ i, GoodDraws (O i)}) (fun O hO hgood => ?_)
    (ae_iff.1 (runDraws_ae (a := ExF.args) n hpr.alpha))
  have hfl := ExF.chain_flip hc hsig hinit hr hgood n (le_refl n)
  have e0 := (hfl ⟨0, by simp [ExF.args]⟩).symm.trans (hO ⟨0, by simp [ExF.args]⟩)
  have e1 := (hfl ⟨1, by simp [ExF.args]⟩).symm.trans (hO ⟨1, by simp [ExF.args]⟩)
  exact ExF.grown.ne (e1.symm.trans e0)

/-! ### Examples -/

namespace ExQ
open ExB (FreeKey)

/-- a tree with a decision at the root: the predictor is 0, and the cutpoint separates the first datapoint
from the other ones -/
def T1 : Rules := ⟨[0, 0, 0, 0], [0, 1, 0, 0]⟩

theorem T1_zero {k : Nat} (hk : k ≠ 1) : at0 T1.split k = 0 := by
  match k with
  | 0 => rfl
  | 1 => exact absurd rfl hk
  | 2 => rfl
  | 3 => rfl
  | k + 4 => simp [T1, at0]

theorem T1_possible : PossibleTree ExR.args T1 where
  split := by
    refine ⟨rfl, rfl, fun i hi h => absurd (T1_zero (by omega)) h⟩
  var_length := rfl
  var_unused := fun i _ => by
    match i with
    | 0 => rfl
    | 1 => rfl
    | 2 => rfl
    | 3 => rfl
    | i + 4 => simp [T1, at0]
  var_avail := fun i hi => by
    obtain rfl : i = 1 := by by_contra h; exact hi.2 (T1_zero h)
    exact ⟨by simp [T1, at0, ExR.args], Or.inl ⟨0, 1, by omega, by simp [T1, at0, ExR.args], .root, .root⟩⟩
  split_avail := fun i hi => by
    obtain rfl : i = 1 := by by_contra h; exact hi.2 (T1_zero h)
    exact ⟨⟨0, by simp, .root, by simp [T1, at0]⟩, ⟨1, by simp [T1, at0, ExR.args], .root, by simp [T1, at0]⟩⟩
  points := fun m hm _ i hi => by
    obtain rfl : 1 = m := by simpa [ExR.args] using hm
    have hfin : ∀ i, {j | j < ExR.args.y.length ∧ FallsInto (point ExR.args.X j) T1.var T1.split i}.Finite :=
      fun i => (Set.finite_lt_nat _).subset fun j hj => hj.1
    have h2 : i = 2 ∨ i = 3 := by
      obtain ⟨hn, hz⟩ := hi
      cases hn with
      | root => exact absurd hz (by simp [T1, at0])
      | @left k _ hk =>
        left
        have : k = 1 := by by_contra h; exact hk (T1_zero h)
        omega
      | @right k _ hk =>
        right
        have : k = 1 := by by_contra h; exact hk (T1_zero h)
        omega
    have hne : at0 T1.split 1 ≠ 0 := by simp [T1, at0]
    refine (Set.ncard_pos (hfin i)).2 ?_
    rcases h2 with rfl | rfl
    · exact ⟨0, by simp [ExR.args], ⟨.left .root hne, T1_zero (by omega)⟩, .left .root hne (by
        simp [T1, at0, coord, point, ExR.args])⟩
    · exact ⟨1, by simp [ExR.args], ⟨.right .root hne, T1_zero (by omega)⟩, .right .root hne (by
        simp [T1, at0, coord, point, ExR.args])⟩

/-- the decision rules of the first tree are `T1`, the second one is only a root -/
def event : Set (Params ExR.args.num_trees (nodes ExR.args)) :=
  {θ | ∀ t, (θ.1 t).1 = if t.val = 0 then T1 else rootT ExR.args}

/-- The initial trees have no decisions, and by C70 the event above may be reached. -/
example : ∃ n, 0 < (Measure.pi fun _ => stepDraws ExR.args)
    {O : Fin n → StepDraws ExR.args.num_trees (nodes ExR.args) |
      paramsOf ExR.args (chain (step (runRng O)) (init ExR.args) [] n) ∈ event} := by
  have hm : ExR.args.num_trees = 1 ∨ ∃ m, 1 ≤ m ∧ ExR.args.min_points_per_leaf = some m :=
    Or.inr ⟨1, by norm_num, rfl⟩
  obtain ⟨hA, h0⟩ := posterior_config (usable_of ExR.args_valid args_proper) args_proper.nonterminal
    args_proper.alpha args_proper.beta (C := fun t => if t.val = 0 then T1 else rootT ExR.args)
    (fun t => by split_ifs; exacts [T1_possible, root_possible _])
  obtain ⟨n, hn⟩ := C70_irreducible (K := FreeKey) ExR.args_valid args_proper hm
    ((C68_consistent (K := FreeKey) ExR.args_valid args_proper).1 _ .init) ExR.sigma2_pos hA
    (pos_iff_ne_zero.2 h0)
  exact ⟨n, hn [] runRng (runRng_sites _ n)⟩

/-- The random numbers for one step. -/
noncomputable def oneRng {a : InitArgs ℝ} (o : StepDraws a.num_trees (nodes a)) : Rng FreeKey ℝ :=
  runRng fun _ : Fin 1 => o

theorem oneRng_sites (a : InitArgs ℝ) : StepSites a ([(2, 1)] : FreeKey) (oneRng (a := a)) := by
  have h := runRng_sites a 1 0 (fun _ => (fun _ => (0, 0), 0)) (fun k t hk => absurd (Subsingleton.elim k 0) hk)
  have e : (fun o : StepDraws a.num_trees (nodes a) => runRng (Function.update (fun _ : Fin 1 =>
      ((fun _ => (0, 0), 0) : StepDraws a.num_trees (nodes a))) 0 o)) = oneRng := by
    funext o
    unfold oneRng
    congr 1
    funext k
    rw [Subsingleton.elim k 0, Function.update_self]
  rw [e] at h
  exact h

/-- The hypotheses of C70 are met, with the kernel of C68. -/
example : ∃ κ : Kernel (Params ExR.args.num_trees (nodes ExR.args)) (Params ExR.args.num_trees (nodes ExR.args)),
    ∀ (μ : Measure (Params ExR.args.num_trees (nodes ExR.args))) [IsProbabilityMeasure μ],
      (∀ᵐ θ ∂μ, PossibleParams ExR.args θ) → (κ.Invariant μ ↔ μ = posterior ExR.args) := by
  obtain ⟨_, κ, _, _, hκ⟩ := C68_invariant (K := FreeKey) ExR.args_valid args_proper
  refine ⟨κ, fun μ _ hμ => ?_⟩
  exact C70_unique ExR.args_valid args_proper (Or.inr ⟨1, by norm_num, rfl⟩) (oneRng_sites _)
    (fun s hc hs => hκ s [(2, 1)] oneRng hc hs (oneRng_sites _)) hμ

end ExQ
end Bartz
