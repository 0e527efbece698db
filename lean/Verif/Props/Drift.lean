import Verif.Lemmas.Drift
import Verif.Props.Binary32
import Verif.Lemmas.SumError
/-!
# Property C83: accumulation of the rounding errors in the residuals

In exact arithmetic the residuals stored in the state of the MCMC are the data minus the sum of the trees (C21). The code
never recalculates them, it updates them by adding the change of each tree in turn. In single precision each update
rounds the result, so the error accumulates during the whole MCMC. Here is a bound to the error after any number of steps.
-/

set_option autoImplicit false

namespace Bartz
open Jax Spec

section
variable {K : Type} [KeyLike K] [Binary32.Platform] {a : InitArgs Binary32} {steps : Nat} {rng : Nat → Rng K Binary32}
  {key : Nat → K} {s : Nat → State Binary32}

theorem leafAt_init [KeyLike K] (ha : ValidArgs a) {t j : Nat} (ht : t < a.num_trees) (hj : j < a.y.length) :
    leafAt a (init a) t j = 0 := by
  rw [leafAt_train ha (stateInv_init ha) ht hj]
  simp only [init, make_forest]
  rw [getD_vmap ht, getD_vmap ht]
  simp only [make_tree, List.getD_eq_getElem?_getD, List.getElem?_replicate]
  split_ifs <;> rfl

theorem drift_run (ha : ValidArgs a) (hs : Run32 a steps rng key s)
    (hmv : ∀ k, k < steps → StateInv a (s k) → ∀ t, t < a.num_trees →
      MoveOK (cfgOf a) ((s k).var_trees.getD t []) ((s k).split_trees.getD t [])
      ((s k).affluence_trees.map fun x => x.getD t [])
      (moveOf (rng k) (s k) (KeyLike.split (KeyLike.split (key k) 2 1) 2 1) t))
    {y : Nat → ℝ} {v : Nat → Nat → Nat → ℝ} {Y Λ : ℝ}
    (hy : ∀ j, j < a.y.length → HasValue (a.y.getD j 0) (y j) ∧ |y j| ≤ Y)
    (hv : ∀ k, k ≤ steps → ∀ t, t < a.num_trees → ∀ j, j < a.y.length →
      HasValue (leafAt a (s k) t j) (v k t j) ∧ |v k t j| ≤ Λ)
    (hΛ : 1 / 2 ^ 126 ≤ Λ)
    (hmax : (Y + (a.num_trees + 3) * Λ) * (1 + 1 / 2 ^ 24) ^ (steps * a.num_trees) ≤ 2 ^ 127) {k : Nat} (hk : k ≤ steps) :
    StateInv a (s k) ∧ ∀ j, j < a.y.length → ∃ r, HasValue ((s k).resid.getD j 0) r ∧
      |r - (y j - ∑ t ∈ Finset.range a.num_trees, v k t j)| ≤
        driftBound (Y + (a.num_trees + 3) * Λ) (k * a.num_trees) := by
  induction k with
  | zero =>
    rw [hs.init]
    refine ⟨stateInv_init ha, fun j hj => ⟨y j, (hy j hj).1, ?_⟩⟩
    have : ∀ t ∈ Finset.range a.num_trees, v 0 t j = 0 := by
      intro t ht
      rw [Finset.mem_range] at ht
      have h1 := (hv 0 (by omega) t ht j hj).1
      rw [hs.init, leafAt_init (K := K) ha ht hj] at h1
      exact HasValue.unique h1 hasValue_zero
    rw [Finset.sum_eq_zero this]
    simp [driftBound]
  | succ k ih =>
    obtain ⟨hi, hr⟩ := ih (by omega)
    have hm := hmv k (by omega) hi
    have hst := hs.step k (by omega)
    refine ⟨by rw [hst]; exact stateInv_step_of ha hi _ _ hm, fun j hj => ?_⟩
    obtain ⟨r, h1, h2⟩ := hr j hj
    have hΛ0 : 0 < Λ := lt_of_lt_of_le (by positivity) hΛ
    have hY0 : 0 ≤ Y := (abs_nonneg _).trans (hy j hj).2
    have hmax' : (Y + (a.num_trees + 3) * Λ) * (1 + 1 / 2 ^ 24) ^ (k * a.num_trees + a.num_trees) ≤ 2 ^ 127 := by
      refine le_trans (mul_le_mul_of_nonneg_left (pow_le_pow_right₀ (by norm_num) ?_) (by positivity)) hmax
      rw [← Nat.succ_mul]
      exact Nat.mul_le_mul_right _ hk
    rw [hst, Nat.succ_mul]
    refine drift_step ha hi (rng k) (key k) hm hj (hy j hj).2 (fun t ht => hv k (by omega) t ht j hj) (fun t ht => ?_) hΛ hmax' h1 h2
    have := hv (k + 1) hk t ht j hj
    rwa [hst] at this

/-- **C83**: in single precision, with any implementation of `jnp.cumsum` and of the logarithms, after any number `k` of
steps in which `choose_leaf` chooses growable leaves (see C80), the error of the residuals with respect to the data minus the sum of the
trees is at most `(Y + (num_trees + 3) Λ) ((1 + 2 ** -24) ** (k num_trees) - 1)`, where `Y` is an upper bound to the
absolute value of the data, and `Λ` to that of the trees, in all the states; and the residuals are finite. -/
theorem C83_residuals (ha : ValidArgs a) (hs : Run32 a steps rng key s)
    (hp : ∀ k, k < steps → ∀ t, t < a.num_trees → Picks (rng k) (s k) (KeyLike.split (KeyLike.split (key k) 2 1) 2 1) t)
    {y : Nat → ℝ} {v : Nat → Nat → Nat → ℝ} {Y Λ : ℝ}
    (hy : ∀ j, j < a.y.length → HasValue (a.y.getD j 0) (y j) ∧ |y j| ≤ Y)
    (hv : ∀ k, k ≤ steps → ∀ t, t < a.num_trees → ∀ j, j < a.y.length →
      HasValue (leafAt a (s k) t j) (v k t j) ∧ |v k t j| ≤ Λ)
    (hΛ : 1 / 2 ^ 126 ≤ Λ)
    (hmax : (Y + (a.num_trees + 3) * Λ) * (1 + 1 / 2 ^ 24) ^ (steps * a.num_trees) ≤ 2 ^ 127) :
    ∀ k, k ≤ steps → (s k).resid.length = a.y.length ∧ ∀ j, j < a.y.length → ∃ r, HasValue ((s k).resid.getD j 0) r ∧
      |r - (y j - ∑ t ∈ Finset.range a.num_trees, v k t j)| ≤
        (Y + (a.num_trees + 3) * Λ) * ((1 + 1 / 2 ^ 24) ^ (k * a.num_trees) - 1) := by
  intro k hk
  have h := drift_run ha hs (fun k hk hi t ht => ?_) hy hv hΛ hmax hk
  · exact ⟨h.1.resid_length, h.2⟩
  · have hrng : LawfulRng (rng k) := fun k' => JaxDraws.lawful (hs.draws k hk k')
    refine moveOf_ok_of ha hi (rng k) hrng _ ht (hp k hk t ht) ?_
    rw [Binary32.addLaws.lt_iff _ _ ((hrng _).uniform2_nonneg _ _) Binary32.addLaws.zero_le_zero,
      (hrng _).uniform2_nonneg]
    rfl

/-- C83, if `jnp.cumsum` adds the terms from the left: then no assumption on the leaf chosen is necessary. -/
theorem C83_left (hc : ∀ w, Binary32.Platform.cumsum w = cumsum w) (ha : ValidArgs a) (hs : Run32 a steps rng key s)
    {y : Nat → ℝ} {v : Nat → Nat → Nat → ℝ} {Y Λ : ℝ}
    (hy : ∀ j, j < a.y.length → HasValue (a.y.getD j 0) (y j) ∧ |y j| ≤ Y)
    (hv : ∀ k, k ≤ steps → ∀ t, t < a.num_trees → ∀ j, j < a.y.length →
      HasValue (leafAt a (s k) t j) (v k t j) ∧ |v k t j| ≤ Λ)
    (hΛ : 1 / 2 ^ 126 ≤ Λ)
    (hmax : (Y + (a.num_trees + 3) * Λ) * (1 + 1 / 2 ^ 24) ^ (steps * a.num_trees) ≤ 2 ^ 127) :
    ∀ k, k ≤ steps → (s k).resid.length = a.y.length ∧ ∀ j, j < a.y.length → ∃ r, HasValue ((s k).resid.getD j 0) r ∧
      |r - (y j - ∑ t ∈ Finset.range a.num_trees, v k t j)| ≤
        (Y + (a.num_trees + 3) * Λ) * ((1 + 1 / 2 ^ 24) ^ (k * a.num_trees) - 1) := by
  intro k hk
  have h := drift_run ha hs (fun k hk hi t ht => ?_) hy hv hΛ hmax hk
  · exact ⟨h.1.resid_length, h.2⟩
  · letI := Binary32.floatLaws hc
    have hrng : LawfulRng (rng k) := fun k' => JaxDraws.lawful (hs.draws k hk k')
    exact moveOf_ok ha hi (rng k) hrng _ ht

end

/-- C83, in numbers: as long as the number of updates `m` (number of trees times number of steps) is at most `2 ** 24`, the factor
multiplying the error is at most `2 m 2 ** -24`; so with 200 trees and 2000 steps it is lower than 1/20. -/
theorem C83_factor (m : Nat) (hm : m ≤ 2 ^ 24) : (1 + 1 / 2 ^ 24 : ℝ) ^ m - 1 ≤ 2 * m / 2 ^ 24 := by
  have := Binary32.one_add_pow_le m hm
  linarith

example : (1 + 1 / 2 ^ 24 : ℝ) ^ (2000 * 200) - 1 < 1 / 20 :=
  lt_of_le_of_lt (C83_factor _ (by norm_num)) (by norm_num)

namespace ExD
open scoped ExS

/-- two datapoints and a tree without decision nodes -/
def args : InitArgs Binary32 where
  X := [[0, 1]]
  y := [1, 1 / ((2 ^ 30 : Nat) : Binary32)]
  max_split := [1]
  split_bits := 8
  num_trees := 1
  p_nonterminal := ExS.p
  sigma2_alpha := 1
  sigma2_beta := 1
  min_points_per_leaf := some 5
  resid_batch_size := none
  count_batch_size := none
  save_ratios := false
  nan := .nan

theorem args_valid [Binary32.Platform] : ValidArgs args where
  depth_pos := by decide
  depth_lt := by decide
  predictors_pos := by decide
  predictors_lt := by decide
  X_length := rfl
  X_row := by decide +kernel
  max_split_fits := by decide
  split_bits := by decide
  nonterminal_pos := by
    show ∀ x ∈ ExS.p, Binary32.le (.num false ⟨0x00800000, _⟩) x = true ∧ Binary32.le x 0 = false ∧ Binary32.le x 1 = true
    decide +kernel
  overflow := Or.inl (by unfold NoOverflow; decide)

/-- the state after a step -/
def next : State Binary32 := letI := ExS.cpu; step (ExS.rng 0 1) (init args) ()

theorem next_eq (P : Binary32.Platform) (hc : ∀ w, P.cumsum w = associativeScan w) :
    step (ExS.rng 0 1) (init args) () = next := by
  have hc' : P.cumsum = ExS.cpu.cumsum := funext hc
  refine step_platform P ExS.cpu hc' _ _ _ rfl rfl ?_
  have h : (letI := ExS.cpu; workOf (ExS.rng 0 1) (init args) () 0).counts.left < 5 := by decide +kernel
  have h1 := acc_false P ExS.cpu hc' (ExS.rng 0 1) (init args) () 5 rfl h
  have h2 := acc_false ExS.cpu ExS.cpu rfl (ExS.rng 0 1) (init args) () 5 rfl h
  exact h1.trans h2.symm

/-- a third -/
def third : Binary32 := .num false ⟨1051372203, by decide⟩

theorem next_leaf : (letI := ExS.cpu; leafAt args next 0 0) = third ∧ (letI := ExS.cpu; leafAt args next 0 1) = third := by
  decide +kernel

theorem next_resid : next.resid = [.num false ⟨1059760810, by decide⟩, -third] := by decide +kernel

theorem next_y : next.y = [1, .num false ⟨813694976, by decide⟩] := by decide +kernel

end ExD

open scoped ExS

/-- C83, the residuals are not exact: in single precision, with the algorithm used on CPU for `jnp.cumsum`, there are valid arguments
with two datapoints and a tree such that after a step the residual of the second datapoint is finite and
equals minus the value of the tree, although the datapoint is finite and not zero. -/
theorem C83_not_exact (P : Binary32.Platform) (hc : ∀ w, P.cumsum w = associativeScan w) :
    ∃ (a : InitArgs Binary32) (s : State Binary32) (y v r : ℝ), ValidArgs a ∧ ReachableJax Unit a s ∧ a.y.length = 2 ∧ a.num_trees = 1 ∧
      HasValue (a.y.getD 1 0) y ∧ HasValue (leafAt a s 0 1) v ∧ HasValue (s.resid.getD 1 0) r ∧ r = -v ∧ y ≠ 0 := by
  refine ⟨ExD.args, ExD.next, toReal false ⟨813694976, by decide⟩, toReal false ⟨1051372203, by decide⟩,
    toReal true ⟨1051372203, by decide⟩, ExD.args_valid, ?_, rfl, rfl, ⟨false, ⟨813694976, by decide⟩, ?_, by decide, rfl⟩,
    ⟨false, ⟨1051372203, by decide⟩, ExD.next_leaf.2, by decide, rfl⟩,
    ⟨true, ⟨1051372203, by decide⟩, ?_, by decide, rfl⟩, ?_, ?_⟩
  · rw [← ExD.next_eq P hc]
    exact .step _ _ .init (ExS.rng_jax _ _)
  · decide +kernel
  · rw [ExD.next_resid]; rfl
  · unfold toReal Binary32.value
    simp [neg_div]
  · unfold toReal
    have : Binary32.value false ⟨813694976, by decide⟩ = 2 ^ 119 := by decide +kernel
    rw [this]
    positivity

namespace ExD

/-- the initial state -/
def first : State Binary32 := letI := ExS.cpu; init args

/-- a run of one step -/
theorem run : letI := ExS.cpu
    Run32 args 1 (fun _ => ExS.rng 0 1) (fun _ => ()) (fun k => if k = 0 then first else next) :=
  letI := ExS.cpu
  { init := rfl
    step := fun k hk => by
      have : k = 0 := by omega
      subst this
      rfl
    draws := fun _ _ => ExS.rng_jax _ _ }

theorem third_le : |toReal false ⟨1051372203, by decide⟩| ≤ 1 / 2 := by
  have h : Binary32.value false ⟨1051372203, by decide⟩ ≤ 2 ^ 148 ∧ 0 ≤ Binary32.value false ⟨1051372203, by decide⟩ := by decide +kernel
  have h1 : (Binary32.value false ⟨1051372203, by decide⟩ : ℝ) ≤ 2 ^ 148 := by exact_mod_cast h.1
  have h2 : (0 : ℝ) ≤ (Binary32.value false ⟨1051372203, by decide⟩ : ℝ) := by exact_mod_cast h.2
  unfold toReal
  rw [abs_of_nonneg (by positivity), div_le_iff₀ (by positivity)]
  refine h1.trans (le_of_eq ?_)
  norm_num

-- the hypotheses of C83 can be satisfied
example : ∃ r, HasValue (next.resid.getD 1 0) r ∧
    |r - (toReal false ⟨813694976, by decide⟩ - toReal false ⟨1051372203, by decide⟩)| ≤ 3 / 2 ^ 24 := by
  letI := ExS.cpu
  have y0 : HasValue 1 1 := (hasValue_iff.2 Binary32.one_exact)
  have y1 : |toReal false ⟨813694976, by decide⟩| ≤ 1 := by
    have : Binary32.value false ⟨813694976, by decide⟩ = 2 ^ 119 := by decide +kernel
    unfold toReal
    rw [this, Int.cast_pow, Int.cast_ofNat, abs_of_nonneg (by positivity), div_le_one (by positivity)]
    exact pow_le_pow_right₀ (by norm_num) (by norm_num)
  have h := C83_residuals args_valid run (fun k hk t ht => by
      have : k = 0 := by omega
      have : t = 0 := by change t < 1 at ht; omega
      subst k t
      intro h
      revert h
      decide +kernel)
    (y := fun j => if j = 0 then 1 else toReal false ⟨813694976, by decide⟩)
    (v := fun k _ _ => if k = 0 then 0 else toReal false ⟨1051372203, by decide⟩) (Y := 1) (Λ := 1 / 2) ?_ ?_ (by norm_num)
    (by norm_num [args]) 1 le_rfl
  · obtain ⟨r, h1, h2⟩ := h.2 1 (by decide)
    refine ⟨r, h1, ?_⟩
    norm_num [args] at h2 ⊢
    exact h2
  · intro j hj
    change j < 2 at hj
    have : j = 0 ∨ j = 1 := by omega
    rcases this with rfl | rfl
    · exact ⟨y0, by simp⟩
    · refine ⟨⟨false, ⟨813694976, by decide⟩, ?_, by decide, rfl⟩, y1⟩
      decide +kernel
  · intro k hk t ht j hj
    have : k = 0 ∨ k = 1 := by omega
    have : t = 0 := by change t < 1 at ht; omega
    subst t
    rcases ‹k = 0 ∨ k = 1› with rfl | rfl
    · refine ⟨?_, by norm_num⟩
      show HasValue (leafAt args (init args) 0 j) _
      rw [leafAt_init (K := Unit) args_valid ht hj]
      exact hasValue_zero
    · refine ⟨⟨false, ⟨1051372203, by decide⟩, ?_, by decide, rfl⟩, third_le⟩
      change j < 2 at hj
      have : j = 0 ∨ j = 1 := by omega
      rcases this with rfl | rfl
      · exact next_leaf.1
      · exact next_leaf.2

end ExD
end Bartz
