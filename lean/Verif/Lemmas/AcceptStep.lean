import Verif.Lemmas.AcceptError
import Verif.Lemmas.LeafData
import Verif.Lemmas.Normal
import Mathlib.Analysis.Complex.ExponentialBounds
/-! # Rounding errors of the acceptance ratio in a step -/

set_option autoImplicit false

namespace Bartz
open Jax Spec Jax.Binary32

section
variable {K F : Type} [KeyLike K] [Inhabited F] [Zero F] [One F] [Add F] [Sub F] [Mul F] [Div F] [Neg F] [NatCast F] [FltFun F]
  {a : InitArgs F} {s : State F}

theorem gidx_iff_of (ha : ValidArgs a) (hs : StateInv a s) (rng : Rng K F)
    (key : K) {t j : Nat} (ht : t < a.num_trees)
    (hm : MoveOK (cfgOf a) (s.var_trees.getD t []) (s.split_trees.getD t [])
      (s.affluence_trees.map fun x => x.getD t []) (moveOf rng s (KeyLike.split key 2 1) t))
    (hpos : (moveOf rng s (KeyLike.split key 2 1) t).grow = true →
      1 ≤ (moveOf rng s (KeyLike.split key 2 1) t).grow_split) (hj : j < a.y.length) (i : Nat) :
    at0 (gidx rng s key t) j = i ↔ FallsInto (point s.X j)
      (moveOf rng s (KeyLike.split key 2 1) t).var_tree
      (bigSplit (s.split_trees.getD t []) (moveOf rng s (KeyLike.split key 2 1) t)) i := by
  have hc := cfgOf_ok ha
  have hT := hs.tree t ht
  have hf := falls_big hc hT hm hpos (j := j) hj
  rw [← workOf_idx hs] at hf
  have hX : (cfgOf a).X = s.X := hs.cfg.X.symm
  rw [hX] at hf
  constructor
  · intro e; rw [← e]; exact hf
  · intro hf'
    exact fallsInto_unique hc.h64 hm.len (by rw [length_bigSplit]; exact hT.valid.length) hf hf'

/-- the log likelihood ratio calculated by the code -/
theorem accOf_log_likelihood (rng : Rng K F) (key : K) (t : Nat) :
    (accOf rng s key t).2.log_likelihood =
      compute_likelihood_ratio
        (gather (residTree rng s key t) (moveOf rng s (KeyLike.split key 2 1) t).left +
          gather (residTree rng s key t) (moveOf rng s (KeyLike.split key 2 1) t).right)
        (gather (residTree rng s key t) (moveOf rng s (KeyLike.split key 2 1) t).left)
        (gather (residTree rng s key t) (moveOf rng s (KeyLike.split key 2 1) t).right)
        (precompute_likelihood_terms s.leaf_trees.length s.sigma2 (workOf rng s key t).counts)
        (exp_factor s.leaf_trees.length s.sigma2) := rfl

/-- the decision taken by the code -/
theorem accOf_acc (rng : Rng K F) (key : K) (t : Nat) :
    (accOf rng s key t).2.acc =
      let mv := moveOf rng s (KeyLike.split key 2 1) t
      let ratio := (accOf rng s key t).2.log_trans_prior + (accOf rng s key t).2.log_likelihood
      let acc := mv.allowed && FltFun.leb mv.logu (if mv.grow then ratio else -ratio)
      match s.min_points_per_leaf with
      | none => acc
      | some m => acc && decide ((workOf rng s key t).counts.left ≥ m) && decide ((workOf rng s key t).counts.right ≥ m) := rfl

end

theorem lik_exact {n : Nat} (hn : 0 < n) {σ : ℝ} (hσ : 0 < σ) (l r : List ℝ) :
    Real.log (leafMarginal (1 / (n : ℝ)) σ l * leafMarginal (1 / (n : ℝ)) σ r / leafMarginal (1 / (n : ℝ)) σ (l ++ r)) =
    Real.log (σ * (σ + (l.length + r.length : Nat) / n) / ((σ + l.length / n) * (σ + r.length / n))) / 2 +
        1 / n / (2 * σ) * (l.sum ^ 2 / (σ + l.length / n) + r.sum ^ 2 / (σ + r.length / n) -
          (l.sum + r.sum) ^ 2 / (σ + (l.length + r.length : Nat) / n)) := by
  have hnt' : (0 : ℝ) < n := by exact_mod_cast hn
  have ht : 0 < 1 / (n : ℝ) := by positivity
  rw [Real.log_div (mul_ne_zero (leafMarginal_pos ht hσ l).ne' (leafMarginal_pos ht hσ r).ne')
    (leafMarginal_pos ht hσ _).ne', Real.log_mul (leafMarginal_pos ht hσ l).ne'
    (leafMarginal_pos ht hσ r).ne', log_leafMarginal ht hσ, log_leafMarginal ht hσ,
    log_leafMarginal ht hσ]
  simp only [List.sum_append, List.length_append, sumSq, List.map_append]
  rw [← mul_one_div (l.length : ℝ) (n : ℝ), ← mul_one_div (r.length : ℝ) (n : ℝ), ← mul_one_div ((l.length + r.length : Nat) : ℝ) (n : ℝ)]
  generalize 1 / (n : ℝ) = τ at ht
  push_cast
  have hl : 0 < σ + (l.length : ℝ) * τ := by positivity
  have hr : 0 < σ + (r.length : ℝ) * τ := by positivity
  have hlr : 0 < σ + ((l.length : ℝ) + r.length) * τ := by positivity
  rw [Real.log_div (mul_pos hσ hlr).ne' (mul_pos hl hr).ne', Real.log_div hσ.ne' hl.ne',
    Real.log_div hσ.ne' hr.ne', Real.log_div hσ.ne' hlr.ne', Real.log_mul hσ.ne' hlr.ne',
    Real.log_mul hl.ne' hr.ne']
  ring

theorem det_le {σ : ℝ} (hσ : 1 / 2 ^ 30 ≤ σ) {l r n : Nat} (hc : l + r ≤ 2 ^ 18) (hn : 1 ≤ n) :
    |Real.log (σ * (σ + (l + r : Nat) / n) / ((σ + l / n) * (σ + r / n))) / 2| ≤ 17 := by
  have hσ0 : 0 < σ := lt_of_lt_of_le (by positivity) hσ
  have hn0 : (1 : ℝ) ≤ n := by exact_mod_cast hn
  have hl0 : (0 : ℝ) ≤ l / n := by positivity
  have hr0 : (0 : ℝ) ≤ r / n := by positivity
  have hcl : (l : ℝ) / n ≤ 2 ^ 18 := (div_le_self (Nat.cast_nonneg l) hn0).trans (by exact_mod_cast (by omega : l ≤ 2 ^ 18))
  have e1 : ((l + r : Nat) : ℝ) / n = l / n + r / n := by push_cast; ring
  rw [e1]
  generalize (l : ℝ) / n = u at *
  generalize (r : ℝ) / n = w at *
  have hT : 0 < σ * (σ + (u + w)) := by positivity
  have hLR : 0 < (σ + u) * (σ + w) := by positivity
  have h1 : σ * (σ + (u + w)) / ((σ + u) * (σ + w)) ≤ 1 := by
    rw [div_le_one hLR]
    nlinarith [mul_nonneg hl0 hr0]
  have h2 : 1 / 2 ^ 49 ≤ σ * (σ + (u + w)) / ((σ + u) * (σ + w)) := by
    rw [div_le_div_iff₀ (by positivity) hLR, one_mul]
    have h3 : σ + u ≤ σ * 2 ^ 49 := by
      have a1 : (2 : ℝ) ^ 18 ≤ σ * 2 ^ 48 :=
        le_trans (le_of_eq (by norm_num)) (mul_le_mul_of_nonneg_right hσ (by positivity : (0 : ℝ) ≤ 2 ^ 48))
      have a2 : σ ≤ σ * 2 ^ 48 := le_mul_of_one_le_right hσ0.le (by norm_num)
      have a3 : σ * 2 ^ 49 = σ * 2 ^ 48 + σ * 2 ^ 48 := by ring
      rw [a3]; linarith
    calc (σ + u) * (σ + w) ≤ (σ * 2 ^ 49) * (σ + (u + w)) := mul_le_mul h3 (by linarith) (by positivity) (by positivity)
      _ = _ := by ring
  have hA0 : 0 < σ * (σ + (u + w)) / ((σ + u) * (σ + w)) := by positivity
  have h3 := Real.log_nonpos hA0.le h1
  have h4 := Real.log_le_log (by positivity) h2
  have h5 : Real.log (1 / 2 ^ 49) = -(49 * Real.log 2) := by
    rw [one_div, Real.log_inv, Real.log_pow]; norm_num
  have h6 := Real.log_two_lt_d9
  rw [abs_div, abs_of_nonpos h3, abs_of_pos (by norm_num : (0 : ℝ) < 2)]
  rw [h5] at h4
  linarith

/-- the bound to the absolute value of the sums used in the proof -/
noncomputable def sumBound (c : Nat) (W : ℝ) : ℝ := if c = 0 then 1 / 2 ^ 40 else c * W

theorem sumBound_pos {c : Nat} {W : ℝ} (hW : 1 / 2 ^ 40 ≤ W) : 1 / 2 ^ 40 ≤ sumBound c W := by
  unfold sumBound
  split_ifs with h
  · exact le_rfl
  · have : (1 : ℝ) ≤ c := by exact_mod_cast (by omega : 1 ≤ c)
    exact hW.trans (le_mul_of_one_le_left (le_trans (by positivity) hW) this)

theorem sumBound_sq {c n : Nat} {W σ : ℝ} (hn : 1 ≤ n) (hσ : 0 < σ) :
    sumBound c W ^ 2 / (σ + c / n) ≤ n * (c * W ^ 2 + 1 / 2 ^ 80 / σ) := by
  have hn0 : (1 : ℝ) ≤ n := by exact_mod_cast hn
  unfold sumBound
  split_ifs with h
  · subst h
    rw [Nat.cast_zero, zero_div, add_zero, zero_mul, zero_add]
    have : ((1 : ℝ) / 2 ^ 40) ^ 2 / σ = 1 / 2 ^ 80 / σ := by norm_num
    rw [this]
    exact le_mul_of_one_le_left (by positivity) hn0
  · have hc : (1 : ℝ) ≤ c := by exact_mod_cast (by omega : 1 ≤ c)
    have hd : 0 < σ + c / n := by positivity
    rw [div_le_iff₀ hd]
    have e : (n : ℝ) * (c * W ^ 2) * (c / n) = (c * W) ^ 2 := by field_simp
    have h1 : (c * W) ^ 2 ≤ n * (c * W ^ 2) * (σ + c / n) := by
      rw [mul_add, e]
      exact le_add_of_nonneg_left (by positivity)
    refine h1.trans (mul_le_mul_of_nonneg_right ?_ hd.le)
    refine mul_le_mul_of_nonneg_left ?_ (by linarith)
    exact le_add_of_nonneg_right (by positivity)

/-- the total of the squares -/
theorem total_le {l r n : Nat} {W σ : ℝ} (hn : 1 ≤ n) (hσ : 1 / 2 ^ 30 ≤ σ) (hW : 1 / 2 ^ 40 ≤ W) :
    1 / n / (2 * σ) * (sumBound l W ^ 2 / (σ + l / n) + sumBound r W ^ 2 / (σ + r / n) +
      (sumBound l W + sumBound r W) ^ 2 / (σ + (l + r : Nat) / n)) ≤
    3 / 2 * ((l + r : Nat) * W ^ 2 / σ) + 3 / 2 ^ 20 := by
  have hσ0 : 0 < σ := lt_of_lt_of_le (by positivity) hσ
  have hn0 : (1 : ℝ) ≤ n := by exact_mod_cast hn
  have h1 := sumBound_sq (c := l) (W := W) hn hσ0
  have h2 := sumBound_sq (c := r) (W := W) hn hσ0
  have hl0 : (0 : ℝ) ≤ l / n := by positivity
  have hr0 : (0 : ℝ) ≤ r / n := by positivity
  have e1 : ((l + r : Nat) : ℝ) / n = l / n + r / n := by push_cast; ring
  have h3 : (sumBound l W + sumBound r W) ^ 2 / (σ + (l + r : Nat) / n) ≤
      2 * (sumBound l W ^ 2 / (σ + l / n)) + 2 * (sumBound r W ^ 2 / (σ + r / n)) := by
    have a1 : (sumBound l W + sumBound r W) ^ 2 ≤ 2 * sumBound l W ^ 2 + 2 * sumBound r W ^ 2 := by
      nlinarith [sq_nonneg (sumBound l W - sumBound r W)]
    rw [e1]
    have hd : 0 < σ + (l / n + r / n) := by positivity
    refine (div_le_div_of_nonneg_right a1 hd.le).trans ?_
    rw [add_div, mul_div_assoc, mul_div_assoc]
    have a2 : sumBound l W ^ 2 / (σ + (l / n + r / n)) ≤ sumBound l W ^ 2 / (σ + l / n) :=
      div_le_div_of_nonneg_left (sq_nonneg _) (by positivity) (by linarith)
    have a3 : sumBound r W ^ 2 / (σ + (l / n + r / n)) ≤ sumBound r W ^ 2 / (σ + r / n) :=
      div_le_div_of_nonneg_left (sq_nonneg _) (by positivity) (by linarith)
    linarith
  have hf : 0 ≤ 1 / (n : ℝ) / (2 * σ) := by positivity
  have h4 : sumBound l W ^ 2 / (σ + l / n) + sumBound r W ^ 2 / (σ + r / n) +
      (sumBound l W + sumBound r W) ^ 2 / (σ + (l + r : Nat) / n) ≤
      3 * (n * ((l + r : Nat) * W ^ 2 + 2 * (1 / 2 ^ 80 / σ))) := by
    have e0 : 3 * ((n : ℝ) * ((l + r : Nat) * W ^ 2 + 2 * (1 / 2 ^ 80 / σ))) =
        3 * (n * (l * W ^ 2 + 1 / 2 ^ 80 / σ)) + 3 * (n * (r * W ^ 2 + 1 / 2 ^ 80 / σ)) := by push_cast; ring
    rw [e0]
    linarith
  refine (mul_le_mul_of_nonneg_left h4 hf).trans ?_
  have e2 : 1 / (n : ℝ) / (2 * σ) * (3 * (n * ((l + r : Nat) * W ^ 2 + 2 * (1 / 2 ^ 80 / σ)))) =
      3 / 2 * ((l + r : Nat) * W ^ 2 / σ) + 3 / 2 ^ 80 / σ / σ := by
    field_simp
  rw [e2]
  have h5 : 3 / 2 ^ 80 / σ / σ ≤ 3 / 2 ^ 20 := by
    rw [div_div, div_le_iff₀ (by positivity)]
    have : (1 : ℝ) / 2 ^ 30 * (1 / 2 ^ 30) ≤ σ * σ := mul_le_mul hσ hσ (by positivity) hσ0.le
    calc (3 : ℝ) / 2 ^ 80 ≤ 3 / 2 ^ 20 * (1 / 2 ^ 30 * (1 / 2 ^ 30)) := by norm_num
      _ ≤ _ := mul_le_mul_of_nonneg_left this (by positivity)
  linarith

section
variable [P : Binary32.Platform] {a : InitArgs Binary32} {s : State Binary32} {K : Type} [KeyLike K]

/-- the sum of residuals in a leaf, with respect to the exact data -/
theorem residTree_near (ha : ValidArgs a) (hs : StateInv a s) (rng : Rng K Binary32) (key : K) {t : Nat} (ht : t < a.num_trees)
    (hm : MoveOK (cfgOf a) (s.var_trees.getD t []) (s.split_trees.getD t [])
      (s.affluence_trees.map fun x => x.getD t []) (moveOf rng s (KeyLike.split key 2 1) t))
    (hN : a.y.length ≤ 2 ^ 18) {q o z : Nat → ℝ} (hq : ∀ j < a.y.length, HasValue ((residOf rng s key t).getD j 0) (q j))
    (ho : ∀ j < a.y.length, HasValue (leafAt a s t j) (o j)) (hfin : ∀ x ∈ s.leaf_trees.getD t [], ∃ v, HasValue x v)
    {d W : ℝ} (hd : ∀ j < a.y.length, |q j + o j - z j| ≤ d) (hW : ∀ j < a.y.length, |q j| + |o j| ≤ W) (hz : ∀ j < a.y.length, |z j| ≤ W)
    (hW1 : 1 / 2 ^ 40 ≤ W) (hW2 : a.y.length * W ≤ 2 ^ 39) (hd0 : 0 ≤ d)
    {k : Nat} (hk : k < 2 ^ (a.p_nonterminal.length + 1)) (hne : k ≠ (moveOf rng s (KeyLike.split key 2 1) t).node)
    {G : Finset Nat} (hG : G = (Finset.range a.y.length).filter fun j => at0 (gidx rng s key t) j = k) {c : Nat} (hc : G.card ≤ c) :
    ∃ r, HasValue ((residTree rng s key t).getD k 0) r ∧
      |r - ∑ j ∈ G, z j| ≤ (d / W + (c + 3) / 2 ^ 23) * sumBound G.card W ∧ |∑ j ∈ G, z j| ≤ sumBound G.card W := by
  have hlt : ∀ j ∈ G, j < a.y.length := by
    intro j hj
    rw [hG, Finset.mem_filter, Finset.mem_range] at hj
    exact hj.1
  have hW0 : 0 < W := lt_of_lt_of_le (by positivity) hW1
  have hcN : (G.card : ℝ) ≤ a.y.length := by
    have : G.card ≤ a.y.length := by
      rw [hG]
      exact (Finset.card_filter_le _ _).trans (by simp)
    exact_mod_cast this
  have hcc : (G.card : ℝ) ≤ c := by exact_mod_cast hc
  have hg0 : (0 : ℝ) ≤ G.card := Nat.cast_nonneg _
  have hsum : ∑ j ∈ G, (|q j| + |o j|) ≤ G.card * W := by
    refine (Finset.sum_le_sum fun j hj => hW j (hlt j hj)).trans (le_of_eq ?_)
    rw [Finset.sum_const, nsmul_eq_mul]
  have hcW : G.card * W ≤ 2 ^ 39 := (mul_le_mul_of_nonneg_right hcN hW0.le).trans hW2
  obtain ⟨r, h1, h2⟩ := residTree_error ha hs rng key ht hm (hN.trans (by norm_num)) hq ho hfin hk hne hG
    (hsum.trans (hcW.trans (by norm_num)))
  have h3 : |∑ j ∈ G, (q j + o j) - ∑ j ∈ G, z j| ≤ G.card * d := by
    rw [← Finset.sum_sub_distrib]
    refine (Finset.abs_sum_le_sum_abs _ _).trans ((Finset.sum_le_sum fun j hj => hd j (hlt j hj)).trans (le_of_eq ?_))
    rw [Finset.sum_const, nsmul_eq_mul]
  have h4 : |∑ j ∈ G, z j| ≤ G.card * W := by
    refine (Finset.abs_sum_le_sum_abs _ _).trans ((Finset.sum_le_sum fun j hj => hz j (hlt j hj)).trans (le_of_eq ?_))
    rw [Finset.sum_const, nsmul_eq_mul]
  have h5 : |r - ∑ j ∈ G, z j| ≤ (G.card * W + 1 / 2 ^ 126) * ((G.card + 2 : ℝ) / 2 ^ 23) + G.card * d := by
    rw [show r - ∑ j ∈ G, z j = (r - ∑ j ∈ G, (q j + o j)) + (∑ j ∈ G, (q j + o j) - ∑ j ∈ G, z j) by ring]
    refine (abs_add_le _ _).trans (add_le_add (h2.trans ?_) h3)
    exact mul_le_mul_of_nonneg_right (by linarith) (by positivity)
  refine ⟨r, h1, h5.trans ?_, h4.trans ?_⟩
  · unfold sumBound
    split_ifs with h
    · rw [h, Nat.cast_zero, zero_mul, zero_mul, zero_add, add_zero, zero_add]
      have : (3 : ℝ) / 2 ^ 23 ≤ d / W + (c + 3) / 2 ^ 23 := by
        have a1 : 0 ≤ d / W := by positivity
        have a2 : (3 : ℝ) / 2 ^ 23 ≤ (c + 3) / 2 ^ 23 := div_le_div_of_nonneg_right (by linarith) (by norm_num)
        linarith
      refine le_trans ?_ (mul_le_mul_of_nonneg_right this (by positivity))
      norm_num
    · have hg1 : (1 : ℝ) ≤ G.card := by exact_mod_cast (by omega : 1 ≤ G.card)
      have e1 : (d / W + (c + 3) / 2 ^ 23) * (G.card * W) = G.card * d + (G.card * W) * ((c + 3) / 2 ^ 23) := by
        field_simp
      rw [e1]
      have hgW : W ≤ G.card * W := le_mul_of_one_le_left hW0.le hg1
      have a1 : 1 / 2 ^ 126 * ((G.card + 2 : ℝ) / 2 ^ 23) ≤ (G.card * W) * (1 / 2 ^ 23) := by
        have : (G.card : ℝ) ≤ 2 ^ 18 := hcN.trans (by exact_mod_cast hN)
        have b1 : (G.card + 2 : ℝ) ≤ 2 ^ 19 := by
          have : (2 : ℝ) ^ 19 = 2 ^ 18 + 2 ^ 18 := by norm_num
          have : (2 : ℝ) ≤ 2 ^ 18 := by norm_num
          linarith
        calc 1 / 2 ^ 126 * ((G.card + 2 : ℝ) / 2 ^ 23) ≤ 1 / 2 ^ 126 * (2 ^ 19 / 2 ^ 23) := by gcongr
          _ ≤ 1 / 2 ^ 40 * (1 / 2 ^ 23) := by norm_num
          _ ≤ _ := mul_le_mul_of_nonneg_right (hW1.trans hgW) (by positivity)
      have a2 : (G.card * W) * ((G.card + 2 : ℝ) / 2 ^ 23) ≤ (G.card * W) * ((c + 2) / 2 ^ 23) := by
        refine mul_le_mul_of_nonneg_left (div_le_div_of_nonneg_right (by linarith) (by norm_num)) (by positivity)
      have e2 : (G.card * W) * (((c : ℝ) + 3) / 2 ^ 23) = (G.card * W) * ((c + 2) / 2 ^ 23) + (G.card * W) * (1 / 2 ^ 23) := by ring
      rw [e2, add_mul]
      linarith
  · unfold sumBound
    split_ifs with h
    · rw [h, Nat.cast_zero, zero_mul]; positivity
    · exact le_rfl

/-- the number of datapoints at node `k` if the growing move were accepted -/
theorem leafData_stats (ha : ValidArgs a) (hs : StateInv a s) (rng : Rng K Binary32) (key : K) {t : Nat} (ht : t < a.num_trees)
    (hm : MoveOK (cfgOf a) (s.var_trees.getD t []) (s.split_trees.getD t [])
      (s.affluence_trees.map fun x => x.getD t []) (moveOf rng s (KeyLike.split key 2 1) t))
    (hpos : (moveOf rng s (KeyLike.split key 2 1) t).grow = true →
      1 ≤ (moveOf rng s (KeyLike.split key 2 1) t).grow_split) (z : Nat → ℝ) (k : Nat) :
    (leafData s.X a.y.length (moveOf rng s (KeyLike.split key 2 1) t).var_tree
      (bigSplit (s.split_trees.getD t []) (moveOf rng s (KeyLike.split key 2 1) t)) z k).sum =
        ∑ j ∈ (Finset.range a.y.length).filter (fun j => at0 (gidx rng s key t) j = k), z j ∧
    (leafData s.X a.y.length (moveOf rng s (KeyLike.split key 2 1) t).var_tree
      (bigSplit (s.split_trees.getD t []) (moveOf rng s (KeyLike.split key 2 1) t)) z k).length =
        ((Finset.range a.y.length).filter (fun j => at0 (gidx rng s key t) j = k)).card := by
  have hD := leafData_of_idx (r := z) (idx := gidx rng s key t) (fun j hj => gidx_iff_of ha hs rng key ht hm hpos hj k)
  rw [hD, sum_filter_range, length_filter_range]
  exact ⟨rfl, rfl⟩

omit P in
theorem final_bound {δ e Ψ S T : ℝ} (hδ : 0 ≤ δ) (he0 : 0 ≤ e) (he : e ≤ 1 / 8) (hS : S ≤ 17) (hT : T ≤ 3 / 2 * Ψ + 3 / 2 ^ 20) :
    2 * δ * (1 + S) + 9 / 4 * e * T + (18 + 4 * S + 40 * T) / 2 ^ 24 ≤ 36 * δ + 27 / 8 * e * Ψ + (100 + 60 * Ψ) / 2 ^ 24 := by
  have h1 : 2 * δ * (1 + S) ≤ 2 * δ * 18 := mul_le_mul_of_nonneg_left (by linarith) (by linarith)
  have h2 : 9 / 4 * e * T ≤ 9 / 4 * e * (3 / 2 * Ψ + 3 / 2 ^ 20) := mul_le_mul_of_nonneg_left hT (by linarith)
  have h3 : (18 + 4 * S + 40 * T) / 2 ^ 24 ≤ (86 + 40 * (3 / 2 * Ψ + 3 / 2 ^ 20)) / 2 ^ 24 :=
    div_le_div_of_nonneg_right (by linarith) (by norm_num)
  have h4 : 9 / 4 * e * (3 / 2 * Ψ + 3 / 2 ^ 20) = 27 / 8 * e * Ψ + e * (27 / 4 / 2 ^ 20) := by ring
  have h5 : e * (27 / 4 / 2 ^ 20) ≤ 1 / 8 * (27 / 4 / 2 ^ 20) := mul_le_mul_of_nonneg_right he (by norm_num)
  have h6 : (86 + 40 * (3 / 2 * Ψ + 3 / 2 ^ 20)) / 2 ^ 24 = (86 + 120 / 2 ^ 20) / 2 ^ 24 + 60 * Ψ / 2 ^ 24 := by ring
  have h7 : (100 + 60 * Ψ) / 2 ^ 24 = 100 / 2 ^ 24 + 60 * Ψ / 2 ^ 24 := by ring
  have h8 : (1 : ℝ) / 8 * (27 / 4 / 2 ^ 20) + (86 + 120 / 2 ^ 20) / 2 ^ 24 ≤ 100 / 2 ^ 24 := by norm_num
  rw [h7]
  linarith

/-- the error of the log likelihood ratio in a step -/
theorem lik_error_step {δ : ℝ} (hP : LogError P δ) (hδ : 0 ≤ δ) (hδ' : δ ≤ 1 / 8)
    (ha : ValidArgs a) (hs : StateInv a s) (rng : Rng K Binary32) (key : K) {t : Nat} (ht : t < a.num_trees)
    (hm : MoveOK (cfgOf a) (s.var_trees.getD t []) (s.split_trees.getD t [])
      (s.affluence_trees.map fun x => x.getD t []) (moveOf rng s (KeyLike.split key 2 1) t))
    (hall : (moveOf rng s (KeyLike.split key 2 1) t).allowed = true)
    (hpos : (moveOf rng s (KeyLike.split key 2 1) t).grow = true →
      1 ≤ (moveOf rng s (KeyLike.split key 2 1) t).grow_split)
    (hN : a.y.length ≤ 2 ^ 18) (hn : a.num_trees ≤ 2 ^ 24) {q o z : Nat → ℝ} (hq : ∀ j < a.y.length, HasValue ((residOf rng s key t).getD j 0) (q j))
    (ho : ∀ j < a.y.length, HasValue (leafAt a s t j) (o j)) (hfin : ∀ x ∈ s.leaf_trees.getD t [], ∃ v, HasValue x v)
    {d W : ℝ} (hd : ∀ j < a.y.length, |q j + o j - z j| ≤ d) (hW : ∀ j < a.y.length, |q j| + |o j| ≤ W) (hz : ∀ j < a.y.length, |z j| ≤ W)
    (hW1 : 1 / 2 ^ 40 ≤ W) (hW2 : a.y.length * W ≤ 2 ^ 30) (hd0 : 0 ≤ d) (hdW : d ≤ W / 16)
    {σ : ℝ} (hσ : HasValue s.sigma2 σ) (hσ1 : 1 / 2 ^ 30 ≤ σ) (hσ2 : σ ≤ 2 ^ 30) {L R : List ℝ}
    (hL : L = leafData s.X a.y.length (moveOf rng s (KeyLike.split key 2 1) t).var_tree
      (bigSplit (s.split_trees.getD t []) (moveOf rng s (KeyLike.split key 2 1) t)) z (2 * (moveOf rng s (KeyLike.split key 2 1) t).node))
    (hR : R = leafData s.X a.y.length (moveOf rng s (KeyLike.split key 2 1) t).var_tree
      (bigSplit (s.split_trees.getD t []) (moveOf rng s (KeyLike.split key 2 1) t)) z (2 * (moveOf rng s (KeyLike.split key 2 1) t).node + 1)) :
    ∃ v, HasValue ((accOf rng s key t).2.log_likelihood) v ∧
      |v - Real.log (leafMarginal (1 / (a.num_trees : ℝ)) σ L * leafMarginal (1 / (a.num_trees : ℝ)) σ R /
        leafMarginal (1 / (a.num_trees : ℝ)) σ (L ++ R))| ≤
      36 * δ + 27 / 8 * (d / W + ((L.length + R.length : Nat) + 3) / 2 ^ 23) * ((L.length + R.length : Nat) * W ^ 2 / σ) +
        (100 + 60 * ((L.length + R.length : Nat) * W ^ 2 / σ)) / 2 ^ 24 := by
  obtain ⟨mv, hmv⟩ : ∃ mv, mv = moveOf rng s (KeyLike.split key 2 1) t := ⟨_, rfl⟩
  have hT := hs.tree t ht
  have hσ0 : 0 < σ := lt_of_lt_of_le (by positivity) hσ1
  have hW0 : 0 < W := lt_of_lt_of_le (by positivity) hW1
  have hp : 2 ^ (a.p_nonterminal.length + 1) = 2 * 2 ^ a.p_nonterminal.length := by
    rw [pow_succ]; omega
  have hnode : mv.node < 2 ^ a.p_nonterminal.length := by
    rw [hmv]; exact allowed_node_lt hT hm hall
  have hpos' : 1 ≤ mv.node := by
    cases hg : mv.grow with
    | true => rw [hmv] at hg ⊢; exact (hm.grow_leaf hg).1.1.pos
    | false => rw [hmv] at hg ⊢; exact (hm.prune_node hg hall).1.1.pos
  obtain ⟨sl, ll⟩ := leafData_stats ha hs rng key ht hm hpos z (2 * mv.node)
  obtain ⟨sr, lr⟩ := leafData_stats ha hs rng key ht hm hpos z (2 * mv.node + 1)
  have hcl := length_residTree_of hs rng key ht hm
  have hcw := counts_work_of rng key hm (by rw [← hmv]; exact hnode)
  rw [← hmv] at sl ll sr lr hL hR hcw
  rw [← hL] at sl ll
  rw [← hR] at sr lr
  have hgi := length_gidx ha hs rng key ht
  rw [count_eq_card, count_eq_card, hgi, ← ll, ← lr] at hcw
  have hcounts : (workOf rng s key t).counts = { left := L.length, right := R.length, total := L.length + R.length } := by
    rw [← hcw.1, ← hcw.2.1]
    have := hcw.2.2
    rw [← hcw.1, ← hcw.2.1] at this
    rw [← this]
  have hgl : gather (residTree rng s key t) mv.left = (residTree rng s key t).getD (2 * mv.node) 0 := by
    rw [gather_eq_getD (by rw [hcl, hmv, hm.left, ← hmv]; omega) 0, hmv, hm.left]
  have hgr : gather (residTree rng s key t) mv.right = (residTree rng s key t).getD (2 * mv.node + 1) 0 := by
    rw [gather_eq_getD (by rw [hcl, hmv, hm.right, ← hmv]; omega) 0, hmv, hm.right]
  have hdisj : L.length + R.length ≤ a.y.length := by
    rw [ll, lr, ← Finset.card_union_of_disjoint]
    · refine (Finset.card_le_card (?_ : _ ⊆ Finset.range a.y.length)).trans (by simp)
      exact Finset.union_subset (Finset.filter_subset _ _) (Finset.filter_subset _ _)
    · rw [Finset.disjoint_filter]
      intro x _ h1 h2
      omega
  have hW39 : a.y.length * W ≤ 2 ^ 39 := hW2.trans (by norm_num)
  obtain ⟨u, u1, u2, u3⟩ := residTree_near ha hs rng key ht hm hN hq ho hfin hd hW hz hW1 hW39 hd0 (k := 2 * mv.node) (by omega)
    (by rw [← hmv]; omega) rfl (c := L.length + R.length) (by rw [← ll]; omega)
  obtain ⟨w, w1, w2, w3⟩ := residTree_near ha hs rng key ht hm hN hq ho hfin hd hW hz hW1 hW39 hd0 (k := 2 * mv.node + 1) (by omega)
    (by rw [← hmv]; omega) rfl (c := L.length + R.length) (by rw [← lr]; omega)
  rw [← sl, ← ll] at u2 u3
  rw [← sr, ← lr] at w2 w3
  have hn1 : 1 ≤ a.num_trees := by omega
  have hN' : ((L.length + R.length : Nat) : ℝ) ≤ a.y.length := by exact_mod_cast hdisj
  have hN18 : (a.y.length : ℝ) ≤ 2 ^ 18 := by exact_mod_cast hN
  have he0 : 0 ≤ d / W + ((L.length + R.length : Nat) + 3) / 2 ^ 23 := by positivity
  have he : d / W + ((L.length + R.length : Nat) + 3) / 2 ^ 23 ≤ 1 / 8 := by
    have h1 : d / W ≤ 1 / 16 := by rw [div_le_iff₀ hW0]; linarith
    have h2 : (((L.length + R.length : Nat) : ℝ) + 3) / 2 ^ 23 ≤ 1 / 16 := by
      rw [div_le_iff₀ (by norm_num)]
      have : (2 : ℝ) ^ 18 + 3 ≤ 1 / 16 * 2 ^ 23 := by norm_num
      linarith
    linarith
  have hsb : ∀ c : Nat, c ≤ a.y.length → sumBound c W ≤ 2 ^ 30 + 1 := by
    intro c hc
    unfold sumBound
    split_ifs
    · norm_num
    · have : (c : ℝ) * W ≤ a.y.length * W := mul_le_mul_of_nonneg_right (by exact_mod_cast hc) hW0.le
      linarith
  have hAB : sumBound L.length W + sumBound R.length W ≤ 2 ^ 40 := by
    have h1 := hsb L.length (by omega)
    have h2 := hsb R.length (by omega)
    have : (2 : ℝ) ^ 30 + 1 + (2 ^ 30 + 1) ≤ 2 ^ 40 := by norm_num
    linarith
  have hTb := total_le (l := L.length) (r := R.length) (n := a.num_trees) hn1 hσ1 hW1
  have hS := det_le hσ1 (l := L.length) (r := R.length) (n := a.num_trees) (by omega) hn1
  have hΨ0 : 0 ≤ (L.length + R.length : Nat) * W ^ 2 / σ := by positivity
  have hΨ : (L.length + R.length : Nat) * W ^ 2 / σ ≤ 2 ^ 90 := by
    rw [div_le_iff₀ hσ0]
    have h1 : ((L.length + R.length : Nat) : ℝ) * W ≤ 2 ^ 30 := (mul_le_mul_of_nonneg_right hN' hW0.le).trans hW2
    by_cases h0 : a.y.length = 0
    · have : ((L.length + R.length : Nat) : ℝ) = 0 := by exact_mod_cast (by omega : L.length + R.length = 0)
      rw [this, zero_mul]
      positivity
    have h2 : W ≤ 2 ^ 30 := by
      have : (1 : ℝ) ≤ a.y.length := by exact_mod_cast (by omega : 1 ≤ a.y.length)
      exact (le_mul_of_one_le_left hW0.le this).trans hW2
    calc ((L.length + R.length : Nat) : ℝ) * W ^ 2 = (L.length + R.length : Nat) * W * W := by ring
      _ ≤ 2 ^ 30 * 2 ^ 30 := mul_le_mul h1 h2 hW0.le (by positivity)
      _ ≤ 2 ^ 90 * (1 / 2 ^ 30) := by norm_num
      _ ≤ _ := mul_le_mul_of_nonneg_left hσ1 (by positivity)
  have h100 : 3 / 2 * (2 : ℝ) ^ 90 + 3 / 2 ^ 20 ≤ 2 ^ 100 := by norm_num
  obtain ⟨v, v1, v2⟩ := lik_error hP hδ hδ' hσ ((by norm_num : (1 : ℝ) / 2 ^ 40 ≤ 1 / 2 ^ 30).trans hσ1) (hσ2.trans (by norm_num))
    (l := L.length) (r := R.length) (n := a.num_trees) (by omega) hn1 hn u1 w1 u2 w2 he he0 u3 w3 (sumBound_pos hW1) (sumBound_pos hW1) hAB rfl
    (hTb.trans (by linarith)) rfl (hS.trans (by norm_num))
  refine ⟨v, ?_, ?_⟩
  · rw [accOf_log_likelihood, ← hmv, hgl, hgr, hcounts, hs.leaf_length]
    exact v1
  · rw [lik_exact (by omega) hσ0]
    exact v2.trans (final_bound hδ he0 he hS hTb)

end
end Bartz
