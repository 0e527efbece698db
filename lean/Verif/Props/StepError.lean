import Verif.Spec.StepError
import Verif.Lemmas.LeafError
import Verif.Lemmas.SigmaError
import Verif.Props.Drift
/-!
# Property C92: rounding errors of the leaves and of the error variance drawn in a step, in single precision
-/

set_option autoImplicit false

namespace Bartz
open Jax Spec

section
variable {K : Type} [KeyLike K] [Binary32.Platform] {a : InitArgs Binary32} {steps : Nat} {rng : Nat → Rng K Binary32}
  {key : Nat → K} {s : Nat → State Binary32}

omit [Binary32.Platform] in
theorem otherTrees_eq {n t : Nat} (ht : t < n) (y : ℝ) (v v' : Nat → ℝ) : otherTrees n t y v v' = y - mixed n t v v' + v t := by
  unfold otherTrees mixed
  rw [← Finset.add_sum_erase _ _ (Finset.mem_range.2 ht), ← Finset.add_sum_erase (Finset.range n) (fun u => if u < t then v' u else v u)
    (Finset.mem_range.2 ht)]
  rw [if_neg (lt_irrefl _), if_pos rfl, if_neg (lt_irrefl _)]
  have : ∀ u ∈ (Finset.range n).erase t, (if u < t then v' u else if u = t then 0 else v u) = if u < t then v' u else v u := by
    intro u hu
    have := Finset.ne_of_mem_erase hu
    split_ifs <;> rfl
  rw [Finset.sum_congr rfl this]
  ring

/-- C92, leaves, given that the moves are well formed -/
theorem leaves_run (ha : ValidArgs a) (hs : Run32 a steps rng key s)
    (hmv : ∀ k, k < steps → StateInv a (s k) → ∀ t, t < a.num_trees →
      MoveOK (cfgOf a) ((s k).var_trees.getD t []) ((s k).split_trees.getD t [])
      ((s k).affluence_trees.map fun x => x.getD t [])
      (moveOf (rng k) (s k) (KeyLike.split (KeyLike.split (key k) 2 1) 2 1) t))
    {y : Nat → ℝ} {v : Nat → Nat → Nat → ℝ} {Y Λ : ℝ}
    (hy : ∀ j, j < a.y.length → HasValue (a.y.getD j 0) (y j) ∧ |y j| ≤ Y)
    (hv : ∀ k, k ≤ steps → ∀ t, t < a.num_trees → ∀ j, j < a.y.length →
      HasValue (leafAt a (s k) t j) (v k t j) ∧ |v k t j| ≤ Λ)
    (hΛ : 1 / 2 ^ 126 ≤ Λ) (hN : a.y.length ≤ 2 ^ 20) (hn : a.num_trees ≤ 2 ^ 24)
    (hmax : a.y.length * ((Y + (a.num_trees + 3) * Λ) * (1 + 1 / 2 ^ 24) ^ (steps * a.num_trees)) ≤ 2 ^ 118)
    {k : Nat} (hk : k < steps) {t : Nat} (ht : t < a.num_trees) {j : Nat} (hj : j < a.y.length)
    (hfin : ∀ x ∈ (s k).leaf_trees.getD t [], ∃ r, HasValue x r)
    {σ : ℝ} (hσ : HasValue (s k).sigma2 σ) (hσ1 : 1 / 2 ^ 80 ≤ σ) (hσ2 : σ ≤ 2 ^ 80)
    {ζ : ℝ} (hζ : HasValue ((rng k (KeyLike.split (KeyLike.split (key k) 2 1) 2 0)).normal t
      (((s (k + 1)).leaf_indices.getD t []).getD j 0)) ζ) (hζ' : |ζ| ≤ 2 ^ 120) :
    |v (k + 1) t j - exactLeaf a.num_trees (sameLeaf a (s (k + 1)) t j).card σ
        (∑ i ∈ sameLeaf a (s (k + 1)) t j, otherTrees a.num_trees t (y i) (fun u => v k u i) (fun u => v (k + 1) u i)) ζ| ≤
      (Y + (a.num_trees + 3) * Λ) * ((1 + 1 / 2 ^ 24) ^ ((k + 1) * a.num_trees) - 1) +
      ((Y + (a.num_trees + 3) * Λ) * (1 + 1 / 2 ^ 24) ^ ((k + 1) * a.num_trees) + |ζ|) *
        (((sameLeaf a (s (k + 1)) t j).card + 8) / 2 ^ 23) + 1 / 2 ^ 148 := by
  have hΛ0 : 0 < Λ := lt_of_lt_of_le (by positivity) hΛ
  have hY0 : 0 ≤ Y := (abs_nonneg _).trans (hy j hj).2
  obtain ⟨B, eB⟩ : ∃ B : ℝ, B = Y + (a.num_trees + 3) * Λ := ⟨_, rfl⟩
  have hB0 : 0 ≤ B := by rw [eB]; positivity
  have hN1 : (1 : ℝ) ≤ a.y.length := by exact_mod_cast (show 1 ≤ a.y.length by omega)
  have hmax127 : (Y + (a.num_trees + 3) * Λ) * (1 + 1 / 2 ^ 24) ^ (steps * a.num_trees) ≤ 2 ^ 118 :=
    le_trans (le_mul_of_one_le_left (by positivity) hN1) hmax
  have hpow : (2 : ℝ) ^ 118 ≤ 2 ^ 127 := by norm_num
  obtain ⟨hi, hr⟩ := drift_run ha hs hmv hy hv hΛ (hmax127.trans hpow) (k := k) (by omega)
  have hm := hmv k hk hi
  have hst := hs.step k hk
  have hi' := stateInv_step_of ha hi (rng k) (key k) hm
  -- the power of the drift
  obtain ⟨P, eP⟩ : ∃ P : ℝ, P = (1 + 1 / 2 ^ 24) ^ ((k + 1) * a.num_trees) := ⟨_, rfl⟩
  have hP1 : 1 ≤ P := by rw [eP]; exact one_le_pow₀ (by norm_num)
  have hPs : P ≤ (1 + 1 / 2 ^ 24) ^ (steps * a.num_trees) := by
    rw [eP]; exact pow_le_pow_right₀ (by norm_num) (Nat.mul_le_mul_right _ hk)
  have hNBP : a.y.length * (B * P) ≤ 2 ^ 118 := by
    refine le_trans (mul_le_mul_of_nonneg_left ?_ (by positivity)) hmax
    rw [← eB]
    exact mul_le_mul_of_nonneg_left hPs hB0
  have hBP : B * P ≤ 2 ^ 118 := le_trans (le_mul_of_one_le_left (by positivity) hN1) hNBP
  have hBP0 : 0 ≤ B * P := by positivity
  -- residuals before updating the tree
  have hres : ∀ i, ∃ q : ℝ, i < a.y.length → HasValue ((residOf (rng k) (s k) (KeyLike.split (key k) 2 1) t).getD i 0) q ∧
      |q - (y i - mixed a.num_trees t (fun u => v k u i) (fun u => v (k + 1) u i))| ≤ B * (P - 1) := by
    intro i
    by_cases hi2 : i < a.y.length
    · obtain ⟨r, h1, h2⟩ := hr i hi2
      have hmax' : (Y + (a.num_trees + 3) * Λ) * (1 + 1 / 2 ^ 24) ^ (k * a.num_trees + a.num_trees) ≤ 2 ^ 127 := by
        rw [← Nat.succ_mul, ← eB]
        show B * (1 + 1 / 2 ^ 24) ^ ((k + 1) * a.num_trees) ≤ 2 ^ 127
        rw [← eP]
        exact hBP.trans hpow
      obtain ⟨q, h3, h4⟩ := drift_inner ha hi (rng k) (key k) hm hi2 (hy i hi2).2 (fun t ht => hv k (by omega) t ht i hi2)
        (v' := fun u => v (k + 1) u i) (fun t ht => by rw [← hst]; exact hv (k + 1) (by omega) t ht i hi2) hΛ hmax' h1 h2 t (by omega)
      refine ⟨q, fun _ => ⟨h3, h4.trans ?_⟩⟩
      unfold driftBound
      rw [← eB]
      refine mul_le_mul_of_nonneg_left ?_ hB0
      rw [eP]
      have : (1 + 1 / 2 ^ 24 : ℝ) ^ (k * a.num_trees + t) ≤ (1 + 1 / 2 ^ 24) ^ ((k + 1) * a.num_trees) := by
        refine pow_le_pow_right₀ (by norm_num) ?_
        rw [Nat.succ_mul]
        omega
      linarith
    · exact ⟨0, fun h => absurd h hi2⟩
  choose q hq using hres
  -- the new tree
  have e1 : (s (k + 1)).leaf_trees.getD t [] = (accOf (rng k) (s k) (KeyLike.split (key k) 2 1) t).2.leaf_tree := by
    rw [hst, step_eq, sample_trees_eq]
    simp only [sample_sigma, hi.leaf_length]
    rw [getD_vmap ht]
  have e2 : (s (k + 1)).leaf_indices.getD t [] = idxOf (rng k) (s k) (KeyLike.split (key k) 2 1) t := by
    rw [hst, step_eq, sample_trees_eq]
    simp only [sample_sigma, hi.leaf_length]
    rw [getD_vmap ht]
    rfl
  have hstep := tree_step_of ha hi (rng k) (KeyLike.split (key k) 2 1) ht (hm t ht)
  have hleaf := (hstep.falls j hj).1
  rw [hi.cfg.split_bits] at hleaf
  change IsLeaf _ (at0 (idxOf (rng k) (s k) (KeyLike.split (key k) 2 1) t) j) at hleaf
  have eG : sameLeaf a (s (k + 1)) t j = (Finset.range a.y.length).filter fun i =>
      at0 (idxOf (rng k) (s k) (KeyLike.split (key k) 2 1) t) i = at0 (idxOf (rng k) (s k) (KeyLike.split (key k) 2 1) t) j := by
    unfold sameLeaf
    rw [e2]
    rfl
  rw [e2] at hζ
  obtain ⟨G, hG⟩ : ∃ G, G = sameLeaf a (s (k + 1)) t j := ⟨_, rfl⟩
  rw [← hG] at eG ⊢
  have hlt : ∀ i ∈ G, i < a.y.length := by
    intro i h
    rw [eG, Finset.mem_filter, Finset.mem_range] at h
    exact h.1
  have hjG : j ∈ G := by rw [eG, Finset.mem_filter, Finset.mem_range]; exact ⟨hj, rfl⟩
  have hc1 : (1 : ℝ) ≤ G.card := by exact_mod_cast Finset.card_pos.2 ⟨j, hjG⟩
  have hcN : (G.card : ℝ) ≤ a.y.length := by
    have : G.card ≤ a.y.length := by
      rw [eG]
      exact (Finset.card_filter_le _ _).trans (by simp)
    exact_mod_cast this
  have hσ0 : 0 < σ := lt_of_lt_of_le (by positivity) hσ1
  have hD : (G.card : ℝ) ≤ G.card + a.num_trees * σ := le_add_of_nonneg_right (by positivity)
  have hD0 : 0 < G.card + a.num_trees * σ := by linarith
  -- absolute values
  have habs : ∀ i ∈ G, |q i| + |v k t i| ≤ B * P - 2 * Λ := by
    intro i hiG
    have hi2 := hlt i hiG
    have h1 := (hq i hi2).2
    have h2 : |y i - mixed a.num_trees t (fun u => v k u i) (fun u => v (k + 1) u i)| ≤ Y + a.num_trees * Λ :=
      (abs_sub _ _).trans (add_le_add (hy i hi2).2 (abs_mixed_le (fun u hu => (hv k (by omega) u hu i hi2).2)
        fun u hu => (hv (k + 1) (by omega) u hu i hi2).2))
    have h3 := (hv k (by omega) t ht i hi2).2
    have h4 : |q i| ≤ Y + a.num_trees * Λ + B * (P - 1) := by
      have e : q i = (y i - mixed a.num_trees t (fun u => v k u i) (fun u => v (k + 1) u i)) +
        (q i - (y i - mixed a.num_trees t (fun u => v k u i) (fun u => v (k + 1) u i))) := by ring
      rw [e]
      exact (abs_add_le _ _).trans (add_le_add h2 h1)
    have h5 : B * P - 2 * Λ = Y + a.num_trees * Λ + B * (P - 1) + Λ := by
      have : B = Y + a.num_trees * Λ + 3 * Λ := by rw [eB]; ring
      rw [mul_sub, mul_one]
      linarith
    rw [h5]
    linarith
  have hsum : ∑ i ∈ G, (|q i| + |v k t i|) ≤ G.card * (B * P - 2 * Λ) := by
    refine (Finset.sum_le_sum habs).trans (le_of_eq ?_)
    rw [Finset.sum_const, nsmul_eq_mul]
  have h125 : (1 : ℝ) / 2 ^ 125 ≤ 2 * Λ := by
    have : (1 : ℝ) / 2 ^ 125 = 2 * (1 / 2 ^ 126) := by norm_num
    linarith
  have hsum' : ∑ i ∈ G, (|q i| + |v k t i|) + 1 / 2 ^ 125 ≤ G.card * (B * P) := by
    have : 2 * Λ ≤ G.card * (2 * Λ) := le_mul_of_one_le_left (by positivity) hc1
    have e : (G.card : ℝ) * (B * P - 2 * Λ) = G.card * (B * P) - G.card * (2 * Λ) := by ring
    linarith
  have hdiv : (∑ i ∈ G, (|q i| + |v k t i|) + 1 / 2 ^ 125) / (G.card + a.num_trees * σ) ≤ B * P := by
    rw [div_le_iff₀ hD0, mul_comm (B * P)]
    exact hsum'.trans (mul_le_mul_of_nonneg_right hD hBP0)
  have hcBP : G.card * (B * P) ≤ 2 ^ 118 := (mul_le_mul_of_nonneg_right hcN hBP0).trans hNBP
  have h18 : (2 : ℝ) ^ 118 ≤ 2 ^ 120 := by norm_num
  obtain ⟨r, h1, h2⟩ := leaf_error_step ha hi (rng k) (KeyLike.split (key k) 2 1) ht (hm t ht) hN hn (q := q) (o := fun i => v k t i)
    (fun i hi2 => (hq i hi2).1) (fun i hi2 => (hv k (by omega) t ht i hi2).1) hfin hσ hσ1 hσ2 hleaf hζ hζ' eG
    (by
      have : (0 : ℝ) ≤ 1 / 2 ^ 125 := by positivity
      linarith)
    (hdiv.trans hBP)
  have hvr : v (k + 1) t j = r := by
    have h3 := (hv (k + 1) (by omega) t ht j hj).1
    have h4 := leafAt_train ha hi' ht hj
    rw [← hst, e1, e2] at h4
    rw [h4] at h3
    exact HasValue.unique h3 h1
  rw [hvr, ← eB, ← eP]
  unfold exactLeaf
  obtain ⟨e, he⟩ : ∃ e : ℝ, e = ζ / Real.sqrt (G.card / σ + a.num_trees) := ⟨_, rfl⟩
  rw [← he] at h2 ⊢
  have hoth : |∑ i ∈ G, (q i + v k t i) - ∑ i ∈ G, otherTrees a.num_trees t (y i) (fun u => v k u i) (fun u => v (k + 1) u i)| ≤
      G.card * (B * (P - 1)) := by
    rw [← Finset.sum_sub_distrib]
    refine (Finset.abs_sum_le_sum_abs _ _).trans ?_
    have : ∀ i ∈ G, |q i + v k t i - otherTrees a.num_trees t (y i) (fun u => v k u i) (fun u => v (k + 1) u i)| ≤ B * (P - 1) := by
      intro i hiG
      rw [otherTrees_eq ht]
      have := (hq i (hlt i hiG)).2
      have e : q i + v k t i - (y i - mixed a.num_trees t (fun u => v k u i) (fun u => v (k + 1) u i) + v k t i) =
        q i - (y i - mixed a.num_trees t (fun u => v k u i) (fun u => v (k + 1) u i)) := by ring
      rw [e]
      exact this
    refine (Finset.sum_le_sum this).trans (le_of_eq ?_)
    rw [Finset.sum_const, nsmul_eq_mul]
  obtain ⟨A1, hA1⟩ : ∃ A1 : ℝ, A1 = ∑ i ∈ G, (q i + v k t i) := ⟨_, rfl⟩
  obtain ⟨A2, hA2⟩ : ∃ A2 : ℝ, A2 = ∑ i ∈ G, otherTrees a.num_trees t (y i) (fun u => v k u i) (fun u => v (k + 1) u i) := ⟨_, rfl⟩
  rw [← hA1] at h2
  rw [← hA1, ← hA2] at hoth
  rw [← hA2]
  have hP0 : 0 ≤ B * (P - 1) := mul_nonneg hB0 (by linarith)
  have h3 : |A1 / (G.card + a.num_trees * σ) - A2 / (G.card + a.num_trees * σ)| ≤ B * (P - 1) := by
    rw [← sub_div, abs_div, abs_of_pos hD0, div_le_iff₀ hD0, mul_comm (B * (P - 1))]
    exact hoth.trans (mul_le_mul_of_nonneg_right hD hP0)
  have e3 : r - (A2 / (G.card + a.num_trees * σ) + e) = (r - (A1 / (G.card + a.num_trees * σ) + e)) +
    (A1 / (G.card + a.num_trees * σ) - A2 / (G.card + a.num_trees * σ)) := by ring
  rw [e3]
  refine (abs_add_le _ _).trans ?_
  have h4 : ((∑ i ∈ G, (|q i| + |v k t i|) + 1 / 2 ^ 125) / (G.card + a.num_trees * σ) + |ζ|) * (((G.card : ℝ) + 8) / 2 ^ 23) ≤
      (B * P + |ζ|) * ((G.card + 8) / 2 ^ 23) := mul_le_mul_of_nonneg_right (by linarith) (by positivity)
  linarith

/-- **C92**, the leaves: in single precision, with any implementation of `jnp.cumsum` and of the logarithms, in each step in which
`choose_leaf` chose growable leaves up to then (see C80), the new value of each tree at each datapoint differs from the
value that would be drawn with exact arithmetic, given the same normal variate `ζ`, the
same new tree, the values of the trees updated before in the step, and those of the other trees before the step, by at most the
bound of C83 to the error of the residuals plus a relative error of `(c + 8) / 2 ** 23`, where `c` is the number of datapoints in
the leaf. -/
theorem C92_leaves (ha : ValidArgs a) (hs : Run32 a steps rng key s)
    (hp : ∀ k, k < steps → ∀ t, t < a.num_trees → Picks (rng k) (s k) (KeyLike.split (KeyLike.split (key k) 2 1) 2 1) t)
    {y : Nat → ℝ} {v : Nat → Nat → Nat → ℝ} {Y Λ : ℝ}
    (hy : ∀ j, j < a.y.length → HasValue (a.y.getD j 0) (y j) ∧ |y j| ≤ Y)
    (hv : ∀ k, k ≤ steps → ∀ t, t < a.num_trees → ∀ j, j < a.y.length →
      HasValue (leafAt a (s k) t j) (v k t j) ∧ |v k t j| ≤ Λ)
    (hΛ : 1 / 2 ^ 126 ≤ Λ) (hN : a.y.length ≤ 2 ^ 20) (hn : a.num_trees ≤ 2 ^ 24)
    (hmax : a.y.length * ((Y + (a.num_trees + 3) * Λ) * (1 + 1 / 2 ^ 24) ^ (steps * a.num_trees)) ≤ 2 ^ 118)
    {k : Nat} (hk : k < steps) {t : Nat} (ht : t < a.num_trees) {j : Nat} (hj : j < a.y.length)
    (hfin : ∀ x ∈ (s k).leaf_trees.getD t [], ∃ r, HasValue x r)
    {σ : ℝ} (hσ : HasValue (s k).sigma2 σ) (hσ1 : 1 / 2 ^ 80 ≤ σ) (hσ2 : σ ≤ 2 ^ 80)
    {ζ : ℝ} (hζ : HasValue ((rng k (KeyLike.split (KeyLike.split (key k) 2 1) 2 0)).normal t
      (((s (k + 1)).leaf_indices.getD t []).getD j 0)) ζ) (hζ' : |ζ| ≤ 2 ^ 120) :
    |v (k + 1) t j - exactLeaf a.num_trees (sameLeaf a (s (k + 1)) t j).card σ
        (∑ i ∈ sameLeaf a (s (k + 1)) t j, otherTrees a.num_trees t (y i) (fun u => v k u i) (fun u => v (k + 1) u i)) ζ| ≤
      (Y + (a.num_trees + 3) * Λ) * ((1 + 1 / 2 ^ 24) ^ ((k + 1) * a.num_trees) - 1) +
      ((Y + (a.num_trees + 3) * Λ) * (1 + 1 / 2 ^ 24) ^ ((k + 1) * a.num_trees) + |ζ|) *
        (((sameLeaf a (s (k + 1)) t j).card + 8) / 2 ^ 23) + 1 / 2 ^ 148 := by
  refine leaves_run ha hs (fun k hk hi t ht => ?_) hy hv hΛ hN hn hmax hk ht hj hfin hσ hσ1 hσ2 hζ hζ'
  have hrng : LawfulRng (rng k) := fun k' => JaxDraws.lawful (hs.draws k hk k')
  refine moveOf_ok_of ha hi (rng k) hrng _ ht (hp k hk t ht) ?_
  rw [Binary32.addLaws.lt_iff _ _ ((hrng _).uniform2_nonneg _ _) Binary32.addLaws.zero_le_zero,
    (hrng _).uniform2_nonneg]
  rfl

/-- C92, the leaves, if `jnp.cumsum` adds the terms from the left: then no assumption on the leaf chosen is necessary. -/
theorem C92_left (hc : ∀ w, Binary32.Platform.cumsum w = cumsum w) (ha : ValidArgs a) (hs : Run32 a steps rng key s)
    {y : Nat → ℝ} {v : Nat → Nat → Nat → ℝ} {Y Λ : ℝ}
    (hy : ∀ j, j < a.y.length → HasValue (a.y.getD j 0) (y j) ∧ |y j| ≤ Y)
    (hv : ∀ k, k ≤ steps → ∀ t, t < a.num_trees → ∀ j, j < a.y.length →
      HasValue (leafAt a (s k) t j) (v k t j) ∧ |v k t j| ≤ Λ)
    (hΛ : 1 / 2 ^ 126 ≤ Λ) (hN : a.y.length ≤ 2 ^ 20) (hn : a.num_trees ≤ 2 ^ 24)
    (hmax : a.y.length * ((Y + (a.num_trees + 3) * Λ) * (1 + 1 / 2 ^ 24) ^ (steps * a.num_trees)) ≤ 2 ^ 118)
    {k : Nat} (hk : k < steps) {t : Nat} (ht : t < a.num_trees) {j : Nat} (hj : j < a.y.length)
    (hfin : ∀ x ∈ (s k).leaf_trees.getD t [], ∃ r, HasValue x r)
    {σ : ℝ} (hσ : HasValue (s k).sigma2 σ) (hσ1 : 1 / 2 ^ 80 ≤ σ) (hσ2 : σ ≤ 2 ^ 80)
    {ζ : ℝ} (hζ : HasValue ((rng k (KeyLike.split (KeyLike.split (key k) 2 1) 2 0)).normal t
      (((s (k + 1)).leaf_indices.getD t []).getD j 0)) ζ) (hζ' : |ζ| ≤ 2 ^ 120) :
    |v (k + 1) t j - exactLeaf a.num_trees (sameLeaf a (s (k + 1)) t j).card σ
        (∑ i ∈ sameLeaf a (s (k + 1)) t j, otherTrees a.num_trees t (y i) (fun u => v k u i) (fun u => v (k + 1) u i)) ζ| ≤
      (Y + (a.num_trees + 3) * Λ) * ((1 + 1 / 2 ^ 24) ^ ((k + 1) * a.num_trees) - 1) +
      ((Y + (a.num_trees + 3) * Λ) * (1 + 1 / 2 ^ 24) ^ ((k + 1) * a.num_trees) + |ζ|) *
        (((sameLeaf a (s (k + 1)) t j).card + 8) / 2 ^ 23) + 1 / 2 ^ 148 := by
  refine leaves_run ha hs (fun k hk hi t ht => ?_) hy hv hΛ hN hn hmax hk ht hj hfin hσ hσ1 hσ2 hζ hζ'
  letI := Binary32.floatLaws hc
  have hrng : LawfulRng (rng k) := fun k' => JaxDraws.lawful (hs.draws k hk k')
  exact moveOf_ok ha hi (rng k) hrng _ ht

/-- **C92**, the error variance: in single precision, in any state, the error variance drawn in a step differs from the one obtained in
exact arithmetic from the residuals in the new state and from the same gamma variate by a relative error of at most
`(n + 3) / 2 ** 23`, where `n` is the number of datapoints. -/
theorem C92_sigma (rng : Rng K Binary32) (s : State Binary32) (key : K) {ρ : Nat → ℝ}
    (hρ : ∀ j, j < (step rng s key).resid.length → HasValue ((step rng s key).resid.getD j 0) (ρ j))
    (hn : (step rng s key).resid.length ≤ 2 ^ 20) {β γ : ℝ} (hb : HasValue s.sigma2_beta β)
    (hg : HasValue ((rng (KeyLike.split key 2 0)).gamma
      (s.sigma2_alpha + ((step rng s key).resid.length : Binary32) / ((2 : Nat) : Binary32))) γ)
    (hβ : 1 / 2 ^ 80 ≤ β) (hS : β + ∑ j ∈ Finset.range (step rng s key).resid.length, ρ j ^ 2 ≤ 2 ^ 80)
    (hγ : 1 / 2 ^ 40 ≤ γ) (hγ' : γ ≤ 2 ^ 40) :
    ∃ r, HasValue (step rng s key).sigma2 r ∧
      |r - (β + (∑ j ∈ Finset.range (step rng s key).resid.length, ρ j ^ 2) / 2) / γ| ≤
        (β + (∑ j ∈ Finset.range (step rng s key).resid.length, ρ j ^ 2) / 2) / γ *
          (((step rng s key).resid.length + 3 : ℝ) / 2 ^ 23) := by
  obtain ⟨xs, hxs⟩ : ∃ xs, xs = (step rng s key).resid := ⟨_, rfl⟩
  have es : (step rng s key).sigma2 = (s.sigma2_beta + Jax.sum (xs.map fun r => r * r) / ((2 : Nat) : Binary32)) /
      (rng (KeyLike.split key 2 0)).gamma (s.sigma2_alpha + (xs.length : Binary32) / ((2 : Nat) : Binary32)) := by
    rw [hxs, step_eq, sample_trees_eq]
    rfl
  rw [es]
  rw [← hxs] at hρ hn hg hS ⊢
  have hfv : ∀ x ∈ xs, ∃ r, HasValue x r := by
    intro x hx
    obtain ⟨i, hi, rfl⟩ := List.mem_iff_getElem.1 hx
    have := hρ i hi
    rw [List.getD_eq_getElem _ _ hi] at this
    exact ⟨_, this⟩
  classical
  obtain ⟨f, hf⟩ : ∃ f : Binary32 → ℝ, ∀ x ∈ xs, HasValue x (f x) :=
    ⟨fun x => if h : ∃ r, HasValue x r then h.choose else 0, fun x hx => by
      dsimp only; rw [dif_pos (hfv x hx)]; exact (hfv x hx).choose_spec⟩
  have hsum : (xs.map fun x => f x ^ 2).sum = ∑ j ∈ Finset.range xs.length, ρ j ^ 2 := by
    rw [← Fin.sum_univ_getElem, Finset.sum_range]
    · simp only [List.getElem_map]
      refine Fintype.sum_equiv (finCongr (by simp)) _ _ fun i => ?_
      have h1 := hf _ (List.getElem_mem (l := xs) (n := i) (by simpa using i.2))
      have h2 := hρ i (by simpa using i.2)
      rw [List.getD_eq_getElem _ _ (by simpa using i.2)] at h2
      rw [HasValue.unique h1 h2]
      rfl
  have := sigma_error (sumSquares_sum xs) hf hn hb hg hβ (by rw [hsum]; exact hS) hγ hγ'
  rwa [hsum] at this

end

/-- C92, the bound for the error variance does not depend on the order of the sum of squares, and on whether squaring and adding are
done with a single rounding. -/
theorem C92_any_order {xs : List Binary32} {norm2 : Binary32} (h : SumSquares xs norm2) {f : Binary32 → ℝ}
    (hf : ∀ x ∈ xs, HasValue x (f x)) (hn : xs.length ≤ 2 ^ 20) {b0 g : Binary32} {β γ : ℝ} (hb : HasValue b0 β) (hg : HasValue g γ)
    (hβ : 1 / 2 ^ 80 ≤ β) (hS : β + (xs.map fun x => f x ^ 2).sum ≤ 2 ^ 80) (hγ : 1 / 2 ^ 40 ≤ γ) (hγ' : γ ≤ 2 ^ 40) :
    ∃ r, HasValue ((b0 + norm2 / ((2 : Nat) : Binary32)) / g) r ∧
      |r - (β + (xs.map fun x => f x ^ 2).sum / 2) / γ| ≤
        (β + (xs.map fun x => f x ^ 2).sum / 2) / γ * ((xs.length + 3 : ℝ) / 2 ^ 23) :=
  sigma_error h hf hn hb hg hβ hS hγ hγ'

/-- C92, the total of the residuals in a leaf, to which the previous value `o` of the leaf is added back: for any order of the sum, and also if the
product and the sum are done with a single rounding. -/
theorem C92_total {xs : List Binary32} {s : Binary32} (h : Sums xs s) {f : Binary32 → ℝ} (hf : ∀ x ∈ xs, HasValue x (f x))
    {old : Binary32} {o : ℝ} (ho : HasValue old o) (hm : xs.length ≤ 2 ^ 22)
    (hmax : (xs.map fun x => |f x|).sum + xs.length * |o| ≤ 2 ^ 120) {R : Binary32}
    (hR : R = s + (xs.length : Binary32) * old ∨ R = Binary32.fma (xs.length : Binary32) old s) :
    ∃ r, HasValue R r ∧ |r - ((xs.map f).sum + xs.length * o)| ≤
      ((xs.map fun x => |f x|).sum + xs.length * |o| + 1 / 2 ^ 126) * ((xs.length + 2 : ℝ) / 2 ^ 23) :=
  resid_error h hf ho hm hmax R hR

/-- C92, the leaf drawn given the total `ρ` of the residuals, also if one of the products is added with a single rounding. -/
theorem C92_draw {sigma2 : Binary32} {σ : ℝ} (hs : HasValue sigma2 σ) (hσ : 1 / 2 ^ 80 ≤ σ) (hσ' : σ ≤ 2 ^ 80)
    {c n : Nat} (hc : c ≤ 2 ^ 24) (hn : 1 ≤ n) (hn' : n ≤ 2 ^ 24) {R z : Binary32} {ρ ζ : ℝ} (hR : HasValue R ρ) (hz : HasValue z ζ)
    (hmax : |ρ / (c + n * σ)| ≤ 2 ^ 120) (hmax' : |ζ / Real.sqrt (c / σ + n)| ≤ 2 ^ 120) {factor scale : Binary32}
    (hf : factor = (1 / ((c : Binary32) / sigma2 + (n : Binary32))) / sigma2)
    (hsc : scale = Binary32.sqrt (1 / ((c : Binary32) / sigma2 + (n : Binary32)))) {y : Binary32}
    (hy : y = R * factor + z * scale ∨ y = Binary32.fma R factor (z * scale) ∨ y = Binary32.fma z scale (R * factor)) :
    ∃ r, HasValue y r ∧ |r - exactLeaf n c σ ρ ζ| ≤
      (|ρ / (c + n * σ)| + |ζ / Real.sqrt (c / σ + n)|) / 2 ^ 21 + 1 / 2 ^ 148 :=
  leaf_error hs hσ hσ' hc hn hn' hR hz hmax hmax' hf hsc y hy

/-! ### Examples -/

namespace ExD
open scoped ExS

theorem next_indices : next.leaf_indices = [[1, 1]] := by decide +kernel

theorem y1_value : toReal false ⟨813694976, by decide⟩ = 1 / 2 ^ 30 := by
  have : Binary32.value false ⟨813694976, by decide⟩ = 2 ^ 119 := by decide +kernel
  unfold toReal
  rw [this, Int.cast_pow, Int.cast_ofNat, show (149 : Nat) = 119 + 30 from rfl, pow_add, div_mul_eq_div_div, div_self (by positivity)]

theorem run_picks : letI := ExS.cpu
    ∀ k, k < 1 → ∀ t, t < args.num_trees → Picks (ExS.rng 0 1) (if k = 0 then first else next) () t := by
  letI := ExS.cpu
  intro k hk t ht
  have : k = 0 := by omega
  have : t = 0 := by change t < 1 at ht; omega
  subst k t
  intro h
  revert h
  decide +kernel

theorem first_sigma : first.sigma2 = 1 := by decide +kernel

theorem first_leaves : ∀ x ∈ first.leaf_trees.getD 0 [], x = 0 := by decide +kernel

-- The hypotheses of C92_leaves can be satisfied: the leaf is the mean of the data, shrunk, that is `(1 + 2 ** -30) / 3`.
example : |toReal false ⟨1051372203, by decide⟩ - (1 + 1 / 2 ^ 30) / 3| ≤ 34 / 2 ^ 23 := by
  letI := ExS.cpu
  have hsame : ∀ t j, t = 0 → j < 2 → sameLeaf args next t j = {0, 1} := by
    rintro t j rfl hj
    unfold sameLeaf
    rw [next_indices]
    have : j = 0 ∨ j = 1 := by omega
    rcases this with rfl | rfl <;> decide
  have h := C92_leaves args_valid run run_picks
    (y := fun j => if j = 0 then 1 else 1 / 2 ^ 30)
    (v := fun k _ _ => if k = 0 then 0 else toReal false ⟨1051372203, by decide⟩) (Y := 1) (Λ := 1 / 2) ?_ ?_ (by norm_num)
    (by decide) (by decide) (by norm_num [args]) (k := 0) (by omega) (t := 0) (by decide) (j := 0) (by decide)
    (fun x hx => ⟨0, by rw [first_leaves x hx]; exact hasValue_zero⟩) (σ := 1)
    (by show HasValue first.sigma2 1; rw [first_sigma]; exact hasValue_iff.2 Binary32.one_exact) (by norm_num) (by norm_num)
    (ζ := 0) hasValue_zero (by norm_num)
  · have e1 : sameLeaf args ((fun k => if k = 0 then first else next) (0 + 1)) 0 0 = {0, 1} := hsame 0 0 rfl (by omega)
    rw [e1] at h
    have e2 : args.num_trees = 1 := rfl
    rw [e2] at h
    unfold exactLeaf otherTrees at h
    norm_num at h ⊢
    refine h.trans ?_
    norm_num
  · intro j hj
    change j < 2 at hj
    have : j = 0 ∨ j = 1 := by omega
    rcases this with rfl | rfl
    · exact ⟨hasValue_iff.2 Binary32.one_exact, by simp⟩
    · refine ⟨⟨false, ⟨813694976, by decide⟩, by decide +kernel, by decide, ?_⟩, by norm_num⟩
      rw [y1_value]
      rfl
  · intro k hk t ht j hj
    have : k = 0 ∨ k = 1 := by omega
    have : t = 0 := by change t < 1 at ht; omega
    subst t
    rcases ‹k = 0 ∨ k = 1› with rfl | rfl
    · refine ⟨?_, by norm_num⟩
      show HasValue (leafAt args (init args) 0 j) _
      rw [leafAt_init (K := Unit) args_valid ht hj]
      exact hasValue_zero
    · refine ⟨⟨false, ⟨1051372203, by decide⟩, ?_, by decide, rfl⟩, third_le⟩
      change j < 2 at hj
      have : j = 0 ∨ j = 1 := by omega
      rcases this with rfl | rfl
      · exact next_leaf.1
      · exact next_leaf.2

-- The hypotheses of C92_sigma can be satisfied.
example : ∃ r, HasValue next.sigma2 r ∧
    |r - (1 + (toReal false ⟨1059760810, by decide⟩ ^ 2 + toReal true ⟨1051372203, by decide⟩ ^ 2) / 2)| ≤ 1 / 2 ^ 19 := by
  letI := ExS.cpu
  have hstep : step (ExS.rng 0 1) first () = next := rfl
  have hlen : (step (ExS.rng 0 1) first ()).resid.length = 2 := by rw [hstep, next_resid]; rfl
  have hone : HasValue 1 1 := hasValue_iff.2 Binary32.one_exact
  have b1 : |toReal false ⟨1059760810, by decide⟩| ≤ 1 := by
    have h : Binary32.value false ⟨1059760810, by decide⟩ ≤ 2 ^ 149 ∧ 0 ≤ Binary32.value false ⟨1059760810, by decide⟩ := by decide +kernel
    have h1 : (Binary32.value false ⟨1059760810, by decide⟩ : ℝ) ≤ 2 ^ 149 := by exact_mod_cast h.1
    have h2 : (0 : ℝ) ≤ (Binary32.value false ⟨1059760810, by decide⟩ : ℝ) := by exact_mod_cast h.2
    unfold toReal
    rw [abs_of_nonneg (by positivity), div_le_one (by positivity)]
    exact h1
  have b2 : |toReal true ⟨1051372203, by decide⟩| ≤ 1 := by
    have h : Binary32.value true ⟨1051372203, by decide⟩ ≤ 0 ∧ -2 ^ 149 ≤ Binary32.value true ⟨1051372203, by decide⟩ := by decide +kernel
    have h1 : (Binary32.value true ⟨1051372203, by decide⟩ : ℝ) ≤ 0 := by exact_mod_cast h.1
    have h2 : -2 ^ 149 ≤ (Binary32.value true ⟨1051372203, by decide⟩ : ℝ) := by exact_mod_cast h.2
    unfold toReal
    rw [abs_div, abs_of_nonpos h1, abs_of_pos (by positivity), div_le_one (by positivity)]
    linarith
  have b3 := sq_le_one_iff_abs_le_one _ |>.2 b1
  have b4 := sq_le_one_iff_abs_le_one _ |>.2 b2
  obtain ⟨u, hu⟩ : ∃ u : ℝ, u = toReal false ⟨1059760810, by decide⟩ := ⟨_, rfl⟩
  obtain ⟨w, hw⟩ : ∃ w : ℝ, w = toReal true ⟨1051372203, by decide⟩ := ⟨_, rfl⟩
  rw [← hu] at b3 ⊢
  rw [← hw] at b4 ⊢
  have h := C92_sigma (ExS.rng 0 1) first () (ρ := fun j => if j = 0 then u else w) (β := 1) (γ := 1) ?_
    (by rw [hlen]; norm_num) hone hone (by norm_num) ?_ (by norm_num) (by norm_num)
  · obtain ⟨r, h1, h2⟩ := h
    refine ⟨r, h1, ?_⟩
    rw [hlen] at h2
    simp only [Finset.sum_range_succ, Finset.sum_range_zero, zero_add, if_true, one_ne_zero, if_false, div_one] at h2
    refine h2.trans ?_
    have : 1 + (u ^ 2 + w ^ 2) / 2 ≤ 2 := by linarith
    push_cast
    linarith
  · intro j hj
    rw [hlen] at hj
    rw [hstep, next_resid]
    have : j = 0 ∨ j = 1 := by omega
    rcases this with rfl | rfl
    · exact ⟨false, _, rfl, by decide, hu⟩
    · exact ⟨true, _, rfl, by decide, hw⟩
  · rw [hlen]
    simp only [Finset.sum_range_succ, Finset.sum_range_zero, zero_add, if_true, one_ne_zero, if_false]
    have : (3 : ℝ) ≤ 2 ^ 80 := by norm_num
    linarith

-- The hypotheses of C92_draw, C92_total, C92_any_order can be satisfied.
example : ∃ r, HasValue (Binary32.fma 1 ((1 / (((2 : Nat) : Binary32) / 1 + ((3 : Nat) : Binary32))) / 1)
      (1 * Binary32.sqrt (1 / (((2 : Nat) : Binary32) / 1 + ((3 : Nat) : Binary32))))) r ∧
    |r - exactLeaf 3 2 1 1 1| ≤ 1 / 2 ^ 20 := by
  have hone : HasValue 1 1 := hasValue_iff.2 Binary32.one_exact
  have hs : 1 ≤ Real.sqrt (((2 : Nat) : ℝ) / 1 + (3 : Nat)) := by
    rw [Real.one_le_sqrt]; norm_num
  have hs0 : 0 < Real.sqrt (((2 : Nat) : ℝ) / 1 + (3 : Nat)) := by linarith
  have h1 : |1 / Real.sqrt (((2 : Nat) : ℝ) / 1 + (3 : Nat))| ≤ 1 := by
    rw [abs_of_pos (by positivity), div_le_one hs0]; exact hs
  have h2 : |(1 : ℝ) / ((2 : Nat) + (3 : Nat) * 1)| ≤ 1 / 2 := by
    rw [abs_of_pos (by positivity)]; norm_num
  obtain ⟨r, h3, h4⟩ := C92_draw hone (by norm_num) (by norm_num) (c := 2) (n := 3) (by norm_num) (by norm_num) (by norm_num) hone hone
    (h2.trans (by norm_num)) (h1.trans (by norm_num)) rfl rfl (.inr (.inl rfl))
  refine ⟨r, h3, h4.trans ?_⟩
  have : (|(1 : ℝ) / ((2 : Nat) + (3 : Nat) * 1)| + |1 / Real.sqrt (((2 : Nat) : ℝ) / 1 + (3 : Nat))|) / 2 ^ 21 ≤
    (1 / 2 + 1) / 2 ^ 21 := by gcongr
  refine (add_le_add_left this _).trans ?_
  norm_num

example : Sums [1, 1] (1 + 1) ∧ SumSquares [1, 1] (Binary32.fma 1 1 (1 * 1)) :=
  ⟨.add (.one 1) (.one 1), .fused 1 (.one 1)⟩

end ExD

end Bartz
