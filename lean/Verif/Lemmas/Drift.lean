import Verif.Spec.Drift
import Verif.Lemmas.RoundError
import Verif.Lemmas.Resid
/-! # Rounding errors of the residuals -/

set_option autoImplicit false

namespace Bartz
open Jax Spec Jax.Binary32

theorem hasValue_iff {x : Binary32} {v : ℝ} : HasValue x v ↔ Binary32.Finite x ∧ Binary32.toReal x = v := by
  constructor
  · rintro ⟨s, b, rfl, h, rfl⟩
    exact ⟨h, rfl⟩
  · rintro ⟨h1, rfl⟩
    cases x with
    | nan => exact absurd h1 (by simp [Binary32.Finite])
    | num s b => exact ⟨s, b, rfl, h1, rfl⟩

theorem hasValue_zero : HasValue 0 0 := by
  refine ⟨false, 0, rfl, by decide, ?_⟩
  have : Binary32.value false (0 : Fin (infBits + 1)) = 0 := by decide
  unfold Spec.toReal
  rw [this]
  simp

theorem HasValue.unique {x : Binary32} {v w : ℝ} (h1 : HasValue x v) (h2 : HasValue x w) : v = w := by
  rw [hasValue_iff] at h1 h2
  exact h1.2.symm.trans h2.2

/-- error of an update of the residuals: `r` has error `E` with respect to `x` -/
theorem update_error {r o w : Binary32} {ρ ω ν x E A Λ : ℝ} (hr : HasValue r ρ) (ho : HasValue o ω) (hw : HasValue w ν)
    (hω : |ω| ≤ Λ) (hν : |ν| ≤ Λ) (hΛ : 1 / 2 ^ 126 ≤ Λ) (hE : |ρ - x| ≤ E) (hA : |x + (ω - ν)| ≤ A)
    (hmax : A + E + 3 * Λ ≤ 2 ^ 127) :
    ∃ ρ', HasValue (r + (o - w)) ρ' ∧ |ρ' - (x + (ω - ν))| ≤ E * (1 + 1 / 2 ^ 24) + (A + 3 * Λ) / 2 ^ 24 := by
  simp only [hasValue_iff] at hr ho hw ⊢
  obtain ⟨hr, rfl⟩ := hr
  obtain ⟨ho, rfl⟩ := ho
  obtain ⟨hw, rfl⟩ := hw
  have hΛ0 : 0 < Λ := lt_of_lt_of_le (by positivity) hΛ
  have hE0 : 0 ≤ E := (abs_nonneg _).trans hE
  have hA0 : 0 ≤ A := (abs_nonneg _).trans hA
  have h2 : |Binary32.toReal o - Binary32.toReal w| ≤ 2 * Λ := (abs_sub _ _).trans (by linarith)
  obtain ⟨f1, e1⟩ := sub_error ho hw (h2.trans (by linarith))
  have e1' := e1.trans (ulp_le h2 (by linarith))
  set d := o - w
  obtain ⟨u, hu⟩ : ∃ u : ℝ, u = 1 / 2 ^ 24 := ⟨_, rfl⟩
  have hu1 : u ≤ 1 / 4 := by rw [hu]; norm_num
  have hu0 : 0 < u := by rw [hu]; positivity
  have e1'' : |Binary32.toReal d - (Binary32.toReal o - Binary32.toReal w)| ≤ 2 * Λ * u := by
    rw [hu, mul_one_div]; exact e1'
  have h3 : |Binary32.toReal r + Binary32.toReal d| ≤ A + E + 2 * Λ * u := by
    have : Binary32.toReal r + Binary32.toReal d = (x + (Binary32.toReal o - Binary32.toReal w)) + (Binary32.toReal r - x) +
      (Binary32.toReal d - (Binary32.toReal o - Binary32.toReal w)) := by ring
    rw [this]
    exact (abs_add_three _ _ _).trans (by linarith)
  have h4 : 2 * Λ * u ≤ Λ := by
    have := mul_le_mul_of_nonneg_left hu1 hΛ0.le
    linarith
  obtain ⟨f2, e2⟩ := add_error hr f1 (h3.trans (by linarith))
  have h5 : |Binary32.toReal r + Binary32.toReal d| ≤ A + E + Λ := h3.trans (by linarith)
  have e2' := e2.trans (ulp_le h5 (by linarith))
  refine ⟨_, ⟨f2, rfl⟩, ?_⟩
  have e : Binary32.toReal (r + d) - (x + (Binary32.toReal o - Binary32.toReal w)) =
      (Binary32.toReal (r + d) - (Binary32.toReal r + Binary32.toReal d)) + (Binary32.toReal r - x) +
        (Binary32.toReal d - (Binary32.toReal o - Binary32.toReal w)) := by ring
  rw [e]
  refine (abs_add_three _ _ _).trans ?_
  have e3 : (A + E + Λ) / 2 ^ 24 = (A + E + Λ) * u := by rw [hu, mul_one_div]
  have e4 : (A + 3 * Λ) / 2 ^ 24 = (A + 3 * Λ) * u := by rw [hu, mul_one_div]
  rw [e3] at e2'
  rw [e4, ← hu]
  linarith

section
variable [Binary32.Platform] {a : InitArgs Binary32} {s : State Binary32}

theorem leafAt_train (ha : ValidArgs a) (hs : StateInv a s) {t j : Nat} (ht : t < a.num_trees)
    (hj : j < a.y.length) :
    leafAt a s t j = (s.leaf_trees.getD t []).getD (at0 (s.leaf_indices.getD t []) j) 0 := by
  have hT := hs.tree t ht
  unfold leafAt
  rw [eval_readTree_root _ _ ha.depth_lt hT.var_len hT.valid.length]
  have hf := hT.falls j hj
  have e := traverse_eq_of_fallsInto (cfgOf_ok ha).h64 hT.var_len hT.valid.length hf
  have e' : traverse_tree (a.X.map fun row => row.getD j 0) (s.var_trees.getD t [])
      (s.split_trees.getD t []) = at0 (s.leaf_indices.getD t []) j := e
  rw [e']

variable {K : Type} [KeyLike K]

theorem resid_step_leaf (ha : ValidArgs a) (hs : StateInv a s) (rng : Rng K Binary32) (key : K)
    (hmv : ∀ t, t < a.num_trees → MoveOK (cfgOf a) (s.var_trees.getD t []) (s.split_trees.getD t [])
      (s.affluence_trees.map fun x => x.getD t [])
      (moveOf rng s (KeyLike.split (KeyLike.split key 2 1) 2 1) t))
    {t : Nat} (ht : t < a.num_trees) {j : Nat} (hj : j < a.y.length) :
    (residOf rng s (KeyLike.split key 2 1) (t + 1)).getD j 0 = (residOf rng s (KeyLike.split key 2 1) t).getD j 0 +
      (leafAt a s t j - leafAt a (step rng s key) t j) := by
  have hs' := stateInv_step_of ha hs rng key hmv
  rw [resid_succ_of ha hs rng _ ht (hmv t ht) hj, leafAt_train ha hs ht hj, leafAt_train ha hs' ht hj]
  have e1 : (step rng s key).leaf_trees.getD t [] = (accOf rng s (KeyLike.split key 2 1) t).2.leaf_tree := by
    rw [step_eq, sample_trees_eq]
    simp only [sample_sigma, hs.leaf_length]
    rw [getD_vmap ht]
  have e2 : (step rng s key).leaf_indices.getD t [] = idxOf rng s (KeyLike.split key 2 1) t := by
    rw [step_eq, sample_trees_eq]
    simp only [sample_sigma, hs.leaf_length]
    rw [getD_vmap ht]
    rfl
  rw [e1, e2]

theorem resid_step_last (hs : StateInv a s) (rng : Rng K Binary32) (key : K) :
    (step rng s key).resid = residOf rng s (KeyLike.split key 2 1) a.num_trees := by
  rw [step_eq, sample_trees_eq]
  simp only [sample_sigma, hs.leaf_length]

end

/-- sum of the trees of which the first `t` have been updated -/
noncomputable def mixed (n t : Nat) (v v' : Nat → ℝ) : ℝ :=
  ∑ u ∈ Finset.range n, if u < t then v' u else v u

theorem mixed_zero (n : Nat) (v v' : Nat → ℝ) : mixed n 0 v v' = ∑ u ∈ Finset.range n, v u := by simp [mixed]

theorem mixed_last (n : Nat) (v v' : Nat → ℝ) : mixed n n v v' = ∑ u ∈ Finset.range n, v' u := by
  unfold mixed
  exact Finset.sum_congr rfl fun u hu => if_pos (Finset.mem_range.1 hu)

theorem mixed_succ {n t : Nat} (ht : t < n) (v v' : Nat → ℝ) : mixed n (t + 1) v v' = mixed n t v v' - (v t - v' t) := by
  unfold mixed
  rw [← Finset.add_sum_erase _ _ (Finset.mem_range.2 ht), ← Finset.add_sum_erase (Finset.range n) (fun u => if u < t then v' u else v u)
    (Finset.mem_range.2 ht)]
  rw [if_pos (by omega), if_neg (by omega)]
  have : ∀ u ∈ (Finset.range n).erase t, (if u < t + 1 then v' u else v u) = if u < t then v' u else v u := by
    intro u hu
    have := Finset.ne_of_mem_erase hu
    split_ifs <;> first | rfl | omega
  rw [Finset.sum_congr rfl this]
  ring

theorem abs_mixed_le {n t : Nat} {v v' : Nat → ℝ} {Λ : ℝ} (h : ∀ u, u < n → |v u| ≤ Λ) (h' : ∀ u, u < n → |v' u| ≤ Λ) :
    |mixed n t v v'| ≤ n * Λ := by
  unfold mixed
  refine (Finset.abs_sum_le_sum_abs _ _).trans ?_
  have : ∀ u ∈ Finset.range n, |if u < t then v' u else v u| ≤ Λ := by
    intro u hu
    rw [Finset.mem_range] at hu
    split_ifs
    · exact h' u hu
    · exact h u hu
  refine (Finset.sum_le_sum this).trans ?_
  simp

/-- error of the residuals after `m` updates -/
noncomputable def driftBound (B : ℝ) (m : Nat) : ℝ := B * ((1 + 1 / 2 ^ 24) ^ m - 1)

theorem driftBound_succ (B : ℝ) (m : Nat) : driftBound B (m + 1) = driftBound B m * (1 + 1 / 2 ^ 24) + B / 2 ^ 24 := by
  unfold driftBound
  rw [pow_succ]
  ring

section
variable [Binary32.Platform] {a : InitArgs Binary32} {s : State Binary32} {K : Type} [KeyLike K]

/-- the residuals before updating tree `t` -/
theorem drift_inner (ha : ValidArgs a) (hs : StateInv a s) (rng : Rng K Binary32) (key : K)
    (hmv : ∀ t, t < a.num_trees → MoveOK (cfgOf a) (s.var_trees.getD t []) (s.split_trees.getD t [])
      (s.affluence_trees.map fun x => x.getD t [])
      (moveOf rng s (KeyLike.split (KeyLike.split key 2 1) 2 1) t))
    {j : Nat} (hj : j < a.y.length) {y Y Λ r : ℝ} (hy : |y| ≤ Y) {v v' : Nat → ℝ}
    (hv : ∀ t, t < a.num_trees → HasValue (leafAt a s t j) (v t) ∧ |v t| ≤ Λ)
    (hv' : ∀ t, t < a.num_trees → HasValue (leafAt a (step rng s key) t j) (v' t) ∧ |v' t| ≤ Λ)
    (hΛ : 1 / 2 ^ 126 ≤ Λ) {m : Nat}
    (hmax : (Y + (a.num_trees + 3) * Λ) * (1 + 1 / 2 ^ 24) ^ (m + a.num_trees) ≤ 2 ^ 127)
    (hr : HasValue (s.resid.getD j 0) r)
    (hd : |r - (y - ∑ t ∈ Finset.range a.num_trees, v t)| ≤ driftBound (Y + (a.num_trees + 3) * Λ) m) :
    ∀ t, t ≤ a.num_trees → ∃ r', HasValue ((residOf rng s (KeyLike.split key 2 1) t).getD j 0) r' ∧
      |r' - (y - mixed a.num_trees t v v')| ≤ driftBound (Y + (a.num_trees + 3) * Λ) (m + t) := by
  have hΛ0 : 0 < Λ := lt_of_lt_of_le (by positivity) hΛ
  have hY0 : 0 ≤ Y := (abs_nonneg _).trans hy
  set B := Y + (a.num_trees + 3) * Λ with hB
  have hB0 : 0 ≤ B := by positivity
  intro t
  induction t with
  | zero =>
    intro _
    rw [residOf_zero, mixed_zero]
    exact ⟨r, hr, hd⟩
  | succ t ih =>
    intro ht
    obtain ⟨r1, h1, h2⟩ := ih (by omega)
    have hx : y - mixed a.num_trees (t + 1) v v' = (y - mixed a.num_trees t v v') + (v t - v' t) := by
      rw [mixed_succ (by omega)]; ring
    have hA : |y - mixed a.num_trees t v v' + (v t - v' t)| ≤ Y + a.num_trees * Λ := by
      rw [← hx]
      exact (abs_sub _ _).trans (add_le_add hy (abs_mixed_le (fun u hu => (hv u hu).2) fun u hu => (hv' u hu).2))
    have hm : Y + a.num_trees * Λ + driftBound B (m + t) + 3 * Λ ≤ 2 ^ 127 := by
      refine le_trans ?_ hmax
      have : (1 + 1 / 2 ^ 24 : ℝ) ^ (m + t) ≤ (1 + 1 / 2 ^ 24) ^ (m + a.num_trees) :=
        pow_le_pow_right₀ (by norm_num) (by omega)
      have h3 := mul_le_mul_of_nonneg_left this hB0
      have e : Y + a.num_trees * Λ + driftBound B (m + t) + 3 * Λ = B * (1 + 1 / 2 ^ 24) ^ (m + t) := by
        unfold driftBound
        rw [hB]; ring
      rw [e]
      exact h3
    obtain ⟨r2, h3, h4⟩ := update_error h1 (hv t (by omega)).1 (hv' t (by omega)).1 (hv t (by omega)).2
      (hv' t (by omega)).2 hΛ h2 hA hm
    refine ⟨r2, ?_, ?_⟩
    · rw [resid_step_leaf ha hs rng key hmv (by omega) hj]
      exact h3
    · rw [hx, ← Nat.add_assoc, driftBound_succ]
      have e : Y + a.num_trees * Λ + 3 * Λ = B := by rw [hB]; ring
      rw [e] at h4
      exact h4

theorem drift_step (ha : ValidArgs a) (hs : StateInv a s) (rng : Rng K Binary32) (key : K)
    (hmv : ∀ t, t < a.num_trees → MoveOK (cfgOf a) (s.var_trees.getD t []) (s.split_trees.getD t [])
      (s.affluence_trees.map fun x => x.getD t [])
      (moveOf rng s (KeyLike.split (KeyLike.split key 2 1) 2 1) t))
    {j : Nat} (hj : j < a.y.length) {y Y Λ r : ℝ} (hy : |y| ≤ Y) {v v' : Nat → ℝ}
    (hv : ∀ t, t < a.num_trees → HasValue (leafAt a s t j) (v t) ∧ |v t| ≤ Λ)
    (hv' : ∀ t, t < a.num_trees → HasValue (leafAt a (step rng s key) t j) (v' t) ∧ |v' t| ≤ Λ)
    (hΛ : 1 / 2 ^ 126 ≤ Λ) {m : Nat}
    (hmax : (Y + (a.num_trees + 3) * Λ) * (1 + 1 / 2 ^ 24) ^ (m + a.num_trees) ≤ 2 ^ 127)
    (hr : HasValue (s.resid.getD j 0) r)
    (hd : |r - (y - ∑ t ∈ Finset.range a.num_trees, v t)| ≤ driftBound (Y + (a.num_trees + 3) * Λ) m) :
    ∃ r', HasValue ((step rng s key).resid.getD j 0) r' ∧
      |r' - (y - ∑ t ∈ Finset.range a.num_trees, v' t)| ≤ driftBound (Y + (a.num_trees + 3) * Λ) (m + a.num_trees) := by
  have := drift_inner ha hs rng key hmv hj hy hv hv' hΛ hmax hr hd a.num_trees (le_refl _)
  rwa [mixed_last, ← resid_step_last hs] at this

end
end Bartz
