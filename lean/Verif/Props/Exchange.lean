import Verif.Lemmas.Exchange
import Verif.Props.Convergence
/-!
# Property C104: the trees are exchangeable
-/

set_option autoImplicit false

namespace Bartz
open Jax Spec MeasureTheory ProbabilityTheory Filter Topology

section
variable {K : Type} [KeyLike K] {a : InitArgs ℝ}

/-- C104. The posterior distribution does not change if the trees are permuted. -/
theorem C104_posterior (a : InitArgs ℝ) (π : Equiv.Perm (Fin a.num_trees)) :
    (posterior a).map (permuteTrees π) = posterior a := posterior_permute π

theorem integral_permute (π : Equiv.Perm (Fin a.num_trees)) {f : Params a.num_trees (nodes a) → ℝ} (hf : Measurable f) :
    ∫ θ, f (permuteTrees π θ) ∂posterior a = ∫ θ, f θ ∂posterior a := by
  conv_rhs => rw [← C104_posterior a π]
  exact (integral_map (measurable_permuteTrees π).aemeasurable hf.aestronglyMeasurable).symm

theorem integrable_permute (π : Equiv.Perm (Fin a.num_trees)) {f : Params a.num_trees (nodes a) → ℝ} (hf : Measurable f)
    (hi : Integrable f (posterior a)) : Integrable (fun θ => f (permuteTrees π θ)) (posterior a) := by
  rw [← C104_posterior a π] at hi
  exact (integrable_map_measure hf.aestronglyMeasurable (measurable_permuteTrees π).aemeasurable).1 hi

/-- C104. In the long run the MCMC does not distinguish the trees, although it updates them one after the other, in order: almost surely,
the average over the saved states of any function `f` of the parameters with a posterior expected value is the same if the trees are
permuted. -/
theorem C104_average (ha : ValidArgs a) (hp : ProperSettings a)
    (hm : ∃ m, 1 ≤ m ∧ a.min_points_per_leaf = some m) [IsProbabilityMeasure (stepDraws a)] {s : State ℝ}
    (hc : Consistent a s) (hs : 0 < s.sigma2) (key : K)
    (rng : (Nat → StepDraws a.num_trees (nodes a)) → Rng K ℝ) (hr : EndlessSites a key rng)
    (n_burn : Nat) {n_skip : Nat} (hskip : 1 ≤ n_skip) (π : Equiv.Perm (Fin a.num_trees))
    {f : Params a.num_trees (nodes a) → ℝ} (hf : Measurable f) (hi : Integrable f (posterior a)) :
    ∀ᵐ O ∂endlessDraws a, Tendsto (fun n : Nat =>
      (∑ k ∈ Finset.range n, f (permuteTrees π (paramsOf a (chain (step (rng O)) s key (n_burn + (k + 1) * n_skip))))) / n -
      (∑ k ∈ Finset.range n, f (paramsOf a (chain (step (rng O)) s key (n_burn + (k + 1) * n_skip)))) / n) atTop (𝓝 0) := by
  have h1 := C72_law_of_large_numbers ha hp hm hc hs key rng hr n_burn hskip hf hi
  have h2 := C72_law_of_large_numbers ha hp hm hc hs key rng hr n_burn hskip
    (f := fun θ => f (permuteTrees π θ)) (hf.comp (measurable_permuteTrees π)) (integrable_permute π hf hi)
  filter_upwards [h1, h2] with O hO1 hO2
  have := hO2.sub hO1
  rwa [integral_permute π hf, sub_self] at this

/-- C104. In particular, the fraction of saved states in which a tree is in a given set is in the limit the same for all trees. -/
theorem C104_frequency (ha : ValidArgs a) (hp : ProperSettings a)
    (hm : ∃ m, 1 ≤ m ∧ a.min_points_per_leaf = some m) [IsProbabilityMeasure (stepDraws a)] {s : State ℝ}
    (hc : Consistent a s) (hs : 0 < s.sigma2) (key : K)
    (rng : (Nat → StepDraws a.num_trees (nodes a)) → Rng K ℝ) (hr : EndlessSites a key rng)
    (n_burn : Nat) {n_skip : Nat} (hskip : 1 ≤ n_skip) (t u : Fin a.num_trees) {A : Set (Tree (nodes a))} (hA : MeasurableSet A) :
    ∀ᵐ O ∂endlessDraws a, Tendsto (fun n : Nat =>
      (∑ k ∈ Finset.range n, A.indicator (fun _ => (1 : ℝ)) (treeOf a (chain (step (rng O)) s key (n_burn + (k + 1) * n_skip)) t)) / n -
      (∑ k ∈ Finset.range n, A.indicator (fun _ => (1 : ℝ)) (treeOf a (chain (step (rng O)) s key (n_burn + (k + 1) * n_skip)) u)) / n)
      atTop (𝓝 0) := by
  have hpr := posterior_prob (usable_of ha hp) hp.nonterminal hp.alpha hp.beta
  have hf : Measurable fun θ : Params a.num_trees (nodes a) => A.indicator (fun _ => (1 : ℝ)) (θ.1 u) :=
    (measurable_const.indicator hA).comp ((measurable_pi_apply u).comp measurable_fst)
  have hi : Integrable (fun θ : Params a.num_trees (nodes a) => A.indicator (fun _ => (1 : ℝ)) (θ.1 u)) (posterior a) :=
    (integrable_const (1 : ℝ)).mono hf.aestronglyMeasurable (ae_of_all _ fun θ => by
      by_cases h : θ.1 u ∈ A <;> simp [h])
  have h := C104_average ha hp hm hc hs key rng hr n_burn hskip (Equiv.swap t u) hf hi
  filter_upwards [h] with O hO
  refine hO.congr fun n => ?_
  simp only [permuteTrees, Equiv.swap_apply_right]
  rfl

theorem integral_tree (ha : ValidArgs a) (hp : ProperSettings a) (X : List (List Nat)) (j : Nat) (t : Fin a.num_trees) :
    ∫ θ, treeValue X j (θ.1 t) ∂posterior a = (∫ θ, ∑ u, treeValue X j (θ.1 u) ∂posterior a) / a.num_trees := by
  have hu := usable_of ha hp
  have hi : ∀ u : Fin a.num_trees, Integrable (fun θ : Params a.num_trees (nodes a) => treeValue X j (θ.1 u)) (posterior a) := by
    intro u
    have := memLp_tree hu hp.nonterminal hp.alpha hp.beta X j u 1
    exact memLp_one_iff_integrable.1 (by simpa using this)
  have hm : ∀ u : Fin a.num_trees, Measurable fun θ : Params a.num_trees (nodes a) => treeValue X j (θ.1 u) := fun u =>
    (measurable_treeValue X j).comp ((measurable_pi_apply u).comp measurable_fst)
  rw [integral_finsetSum _ fun u _ => hi u]
  have e : ∀ u ∈ Finset.univ, ∫ θ, treeValue X j (θ.1 u) ∂posterior a = ∫ θ, treeValue X j (θ.1 t) ∂posterior a := by
    intro u _
    rw [← integral_permute (Equiv.swap t u) (hm t)]
    simp only [permuteTrees, Equiv.swap_apply_left]
  rw [Finset.sum_congr rfl e, Finset.sum_const, Finset.card_univ, Fintype.card_fin, nsmul_eq_mul]
  have : (a.num_trees : ℝ) ≠ 0 := by exact_mod_cast hp.trees.ne'
  field_simp

/-- C104. Each tree contributes the same to the predictions: almost surely, the value of tree `t` at any point, averaged over the saved
states, converges to the posterior expected value of the sum of the trees divided by the number of trees. -/
theorem C104_contribution (ha : ValidArgs a) (hp : ProperSettings a)
    (hm : ∃ m, 1 ≤ m ∧ a.min_points_per_leaf = some m) [IsProbabilityMeasure (stepDraws a)] (key : K)
    (rng : (Nat → StepDraws a.num_trees (nodes a)) → Rng K ℝ) (hr : EndlessSites a key rng)
    (n_burn : Nat) {n_skip : Nat} (hskip : 1 ≤ n_skip) :
    ∀ᵐ O ∂endlessDraws a, ∀ (X : List (List Nat)) (j : Nat) (t : Fin a.num_trees),
      Tendsto (fun n : Nat => (∑ k ∈ Finset.range n,
        (fun s : State ℝ => (readTree default (s.leaf_trees.getD t []) (s.var_trees.getD t []) (s.split_trees.getD t [])
          a.p_nonterminal.length 1).eval (X.map fun row => row.getD j 0))
            (chain (step (rng O)) (init a) key (n_burn + (k + 1) * n_skip))) / n) atTop
        (𝓝 ((∫ θ, ∑ u, treeValue X j (θ.1 u) ∂posterior a) / a.num_trees)) := by
  have hc := (C68_consistent (K := K) ha hp).1 _ .init
  have h : ∀ᵐ O ∂endlessDraws a, ∀ (X : List (List Nat)) (j : Nat) (t : Fin a.num_trees),
      Tendsto (fun n : Nat => (∑ k ∈ Finset.range n, treeValue X j
        ((paramsOf a (chain (step (rng O)) (init a) key (n_burn + (k + 1) * n_skip))).1 t)) / n) atTop
        (𝓝 ((∫ θ, ∑ u, treeValue X j (θ.1 u) ∂posterior a) / a.num_trees)) := by
    rw [ae_all_iff]
    intro X
    rw [ae_all_iff]
    intro j
    rw [ae_all_iff]
    intro t
    rw [← integral_tree ha hp X j t]
    refine C72_law_of_large_numbers ha hp hm hc (init_sigma2_pos a) key rng hr n_burn hskip
      (f := fun θ => treeValue X j (θ.1 t)) ((measurable_treeValue X j).comp ((measurable_pi_apply t).comp measurable_fst)) ?_
    have := memLp_tree (usable_of ha hp) hp.nonterminal hp.alpha hp.beta X j t 1
    exact memLp_one_iff_integrable.1 (by simpa using this)
  filter_upwards [h, endless_ae] with O hO hg X j t
  have hrng := endless_lawful hr hg
  refine (hO X j t).congr fun n => ?_
  congr 1
  refine Finset.sum_congr rfl fun k _ => ?_
  exact (readTree_treeValue ha (reachable_inv ha (C42_reachable (rng O) _ key .init hrng _)) t.2 X j).symm

end

namespace ExQ
open ExB (FreeKey)
open scoped Ex

example := C104_posterior ExR.args (Equiv.swap ⟨0, by decide⟩ ⟨1, by decide⟩)

/-- The fraction of saved states in which a tree is a root is in the limit the same for the two trees; with 5 burn-in iterations, saving
one state out of 3. -/
example := C104_frequency (K := FreeKey) ExR.args_valid args_proper args_points
  ((C68_consistent (K := FreeKey) ExR.args_valid args_proper).1 _ .init) ExR.sigma2_pos [] endlessRng (endlessRng_sites _) 5
  (n_skip := 3) (by norm_num) ⟨0, by decide⟩ ⟨1, by decide⟩
  (A := {x | at0 x.1.split 1 = 0}) ((measurable_from_top (f := fun T : Rules => at0 T.split 1)).comp measurable_fst
    (measurableSet_singleton 0))

example := C104_contribution (K := FreeKey) ExR.args_valid args_proper args_points [] endlessRng
  (endlessRng_sites _) 5 (n_skip := 3) (by norm_num)

end ExQ
end Bartz
