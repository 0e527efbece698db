import Verif.Lemmas.BartAbs
import Verif.Lemmas.BartPeriod
import Verif.Lemmas.BartMoments
import Verif.Lemmas.MarkovErgodic
import Verif.Spec.Endless
/-! # The averages along the Markov chain converge -/

set_option autoImplicit false

namespace Bartz
open Jax Spec MeasureTheory ProbabilityTheory Filter Topology
open scoped ENNReal

section
variable {K : Type} [KeyLike K] {a : InitArgs ℝ} {s : State ℝ} {key : K}

/-- the parameters along an endless chain -/
theorem endless_params (hu : Usable a) (hβ : 0 < a.sigma2_beta) (hc : Consistent a s) (hsig : 0 < s.sigma2)
    {rng : (Nat → StepDraws a.num_trees (nodes a)) → Rng K ℝ} (hr : EndlessSites a key rng)
    {O : Nat → StepDraws a.num_trees (nodes a)} (hO : ∀ i, GoodDraws (O i)) (i : Nat) :
    (Consistent a (chain (step (rng O)) s key i) ∧ 0 < (chain (step (rng O)) s key i).sigma2) ∧
      paramsOf a (chain (step (rng O)) s key (i + 1)) =
        stepFun a (paramsOf a (chain (step (rng O)) s key i)) (O i) := by
  have hstep : ∀ i, Consistent a (chain (step (rng O)) s key i) →
      0 < (chain (step (rng O)) s key i).sigma2 →
      Consistent a (chain (step (rng O)) s key (i + 1)) ∧
      paramsOf a (chain (step (rng O)) s key (i + 1)) =
        stepFun a (paramsOf a (chain (step (rng O)) s key i)) (O i) := by
    intro i hci hsi
    have hsites := hr i O (fun k t _ => (hO k).1 t)
    have e : Function.update O i (O i) = O := Function.update_eq_self _ _
    have h1 := step_params hu hci hsi hsites (o := O i) (hO i).1
    have hl := hsites.lawful (O i) (hO i).1
    rw [e] at h1 hl
    exact ⟨consistent_step hu hci hl _, h1⟩
  induction i with
  | zero => exact ⟨⟨hc, hsig⟩, (hstep 0 hc hsig).2⟩
  | succ i ih =>
    obtain ⟨⟨h1, h2⟩, h3⟩ := ih
    have h4 := hstep i h1 h2
    have h5 : 0 < (chain (step (rng O)) s key (i + 1)).sigma2 := by
      have : (chain (step (rng O)) s key (i + 1)).sigma2 =
        (paramsOf a (chain (step (rng O)) s key (i + 1))).2 := rfl
      rw [this, h4.2]
      exact stepFun_sigma_pos hβ _ (hO _)
    exact ⟨⟨h4.1, h5⟩, (hstep (i + 1) h4.1 h5).2⟩

theorem shift_iterate {X D : Type} {u : X → D → X} {p : Nat → X} {o : Nat → D}
    (h : ∀ i, p (i + 1) = u (p i) (o i)) (n : Nat) :
    (shift u)^[n] (p 0, o) = (p n, fun k => o (k + n)) := by
  induction n with
  | zero => rfl
  | succ n ih =>
    rw [Function.iterate_succ_apply', ih]
    unfold shift
    simp only [Nat.zero_add, h]
    congr 1
    funext k
    congr 1
    omega

theorem endless_ae [IsProbabilityMeasure (stepDraws a)] : ∀ᵐ O ∂endlessDraws a, ∀ i, GoodDraws (O i) := by
  rw [ae_all_iff]
  intro i
  exact (measurePreserving_eval_infinitePi (fun _ : Nat => stepDraws a) i).quasiMeasurePreserving.ae (stepDraws_ae a)

/-- the averages along the chain converge to the expectation -/
theorem endless_lln (hu : Usable a) (hp : ∀ x ∈ a.p_nonterminal, x < 1) (hα : 0 < a.sigma2_alpha)
    (hβ : 0 < a.sigma2_beta) (n_burn : Nat) {n_skip : Nat} (hs : 1 ≤ n_skip)
    (hm : (a.num_trees = 1 ∧ n_skip = 1) ∨ ∃ m, 1 ≤ m ∧ a.min_points_per_leaf = some m)
    (hc : Consistent a s) (hsig : 0 < s.sigma2) [IsProbabilityMeasure (stepDraws a)]
    {rng : (Nat → StepDraws a.num_trees (nodes a)) → Rng K ℝ} (hr : EndlessSites a key rng)
    {f : Params a.num_trees (nodes a) → ℝ} (hf : Measurable f) (hi : Integrable f (posterior a)) :
    ∀ᵐ O ∂endlessDraws a, Tendsto (fun n : Nat => (∑ k ∈ Finset.range n,
      f (paramsOf a (chain (step (rng O)) s key (n_burn + (k + 1) * n_skip)))) / n) atTop
        (𝓝 (∫ θ, f θ ∂posterior a)) := by
  have hpr := posterior_prob hu hp hα hβ
  have hinv := stepKernel_invariant hu hp hα hβ
  have hmk := stepKernel_markov (a := a) hα
  have hθ := possibleParams_of hc hsig
  obtain ⟨j, hj⟩ : ∃ j, n_burn + n_skip = j + 1 := ⟨n_burn + n_skip - 1, by omega⟩
  have h := chain_lln (u := stepFun a) (ν := stepDraws a) (κ := stepKernel a) (π := posterior a)
    (measurable_stepFun a) (stepKernel_apply a) hinv hs (fun A hA h0 => by
      filter_upwards [posterior_ae a] with θ hθ'
      rcases hm with ⟨hm, h1⟩ | hm
      · obtain ⟨n, hn⟩ := irreducible hu hp hα hβ (Or.inl hm) hθ' hA h0
        exact ⟨n, by rwa [h1, one_mul]⟩
      · obtain ⟨N, hN⟩ := eventually_pos hu hp hα hβ hm hθ' hA h0
        exact ⟨N, hN _ (Nat.le_mul_of_pos_left N hs)⟩) hf hi (x0 := paramsOf a s) (j := j + 1)
    (absCont_pow hinv (step_abs hu hp hα hβ hθ) j)
  filter_upwards [h, endless_ae] with O hO hg
  have hstep := fun i => (endless_params hu hβ hc hsig hr hg i).2
  have hit := shift_iterate (u := stepFun a) (p := fun i => paramsOf a (chain (step (rng O)) s key i))
    (o := O) hstep
  have h0 : paramsOf a (chain (step (rng O)) s key 0) = paramsOf a s := rfl
  simp only [h0] at hit
  simp only [hit] at hO
  refine hO.congr fun n => ?_
  congr 1
  refine Finset.sum_congr rfl fun k _ => ?_
  have e : j + 1 + n_skip * k = n_burn + (k + 1) * n_skip := by rw [← hj]; ring
  rw [e]

end
end Bartz
