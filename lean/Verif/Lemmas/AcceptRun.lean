import Verif.Spec.AcceptError
import Verif.Lemmas.AcceptStep
import Verif.Lemmas.Categorical32
import Verif.Props.StepError
/-! # Rounding errors of the acceptance ratio in a run -/

set_option autoImplicit false

namespace Bartz
open Jax Spec Jax.Binary32

theorem le_iff_value {x y : Binary32} {v w : ℝ} (hx : HasValue x v) (hy : HasValue y w) : Binary32.le x y = true ↔ v ≤ w := by
  obtain ⟨s, b, rfl, _, rfl⟩ := hx
  obtain ⟨s', b', rfl, _, rfl⟩ := hy
  constructor
  · intro h
    have h1 : signedBits s b ≤ signedBits s' b' := of_decide_eq_true h
    have := value_mono h1
    unfold Spec.toReal
    exact div_le_div_of_nonneg_right (by exact_mod_cast this) (by positivity)
  · exact le_of_toReal

theorem uniform_value (k : Fin (2 ^ 23)) : HasValue (Binary32.uniform k 1) ((k.val : ℝ) / 2 ^ 23) := by
  have e1 : (1 : Binary32) = num false ⟨0x3f800000, by decide⟩ := rfl
  have hm : mag 0x3f800000 = 2 ^ 149 := by decide +kernel
  rw [e1, uniform_eq k (by decide)]
  obtain ⟨b, hb⟩ := exists_mag (m := k.val) (le_of_lt (lt_trans k.isLt (by norm_num))) 126
  have e2 : k.val * mag 0x3f800000 = mag b * 2 ^ 23 := by
    rw [hm, hb, show (149 : Nat) = 126 + 23 from rfl, pow_add, Nat.mul_assoc]
  show HasValue (num false (roundRat (k.val * mag 0x3f800000) (2 ^ 23))) _
  rw [e2, roundRat_mag b (by positivity)]
  have hlt : b < infBits := by
    have h1 : mag b < mag infBits := by
      rw [hb]
      have h2 : mag infBits = 2 ^ 277 := by decide +kernel
      rw [h2]
      calc k.val * 2 ^ 126 < 2 ^ 23 * 2 ^ 126 := Nat.mul_lt_mul_of_pos_right k.isLt (by positivity)
        _ = 2 ^ 149 := by rw [← pow_add]
        _ ≤ 2 ^ 277 := Nat.pow_le_pow_right (by norm_num) (by norm_num)
    exact mag_strictMono.lt_iff_lt.1 h1
  have hc : (clip b).val = b := clip_of_le hlt.le
  refine ⟨false, clip b, rfl, by rw [hc]; exact hlt, ?_⟩
  unfold Spec.toReal
  have e3 : Binary32.value false (clip b) = (mag b : Int) := by
    show ((mag (clip b).val : Nat) : Int) = _
    rw [hc]
  rw [e3, hb]
  rw [Int.cast_natCast, Nat.cast_mul, Nat.cast_pow, Nat.cast_ofNat, show (149 : Nat) = 23 + 126 from rfl, pow_add,
    mul_div_mul_right _ _ (by positivity)]

/-- the logarithm of one minus the uniform variate -/
theorem logu_error [P : Binary32.Platform] {δ : ℝ} (hP : LogError P δ) (hδ : 0 ≤ δ) (k : Fin (2 ^ 23)) :
    ∃ r, HasValue (Platform.log1p (-(Binary32.uniform k 1))) r ∧ |r - Real.log (1 - k.val / 2 ^ 23)| ≤ 17 * δ := by
  have hk : ((k.val : Nat) : ℝ) ≤ 2 ^ 23 - 1 := by
    have : k.val + 1 ≤ 2 ^ 23 := k.isLt
    have h : ((k.val : Nat) : ℝ) + 1 ≤ 2 ^ 23 := by exact_mod_cast this
    linarith
  have hu : (k.val : ℝ) / 2 ^ 23 ≤ 1 - 1 / 2 ^ 23 := by
    rw [div_le_iff₀ (by norm_num)]
    refine hk.trans (le_of_eq ?_)
    norm_num
  have hu0 : (0 : ℝ) ≤ (k.val : ℝ) / 2 ^ 23 := by positivity
  have hpos : (0 : ℝ) < 1 / 2 ^ 23 := by positivity
  obtain ⟨r, h1, h2⟩ := hP.log1p _ _ (hasValue_neg (uniform_value k)) (by linarith) (by linarith)
  rw [← sub_eq_add_neg] at h2
  refine ⟨r, h1, h2.trans ?_⟩
  have h3 : |Real.log (1 - k.val / 2 ^ 23)| ≤ 16 := by
    have h4 := Real.log_nonpos (x := 1 - k.val / 2 ^ 23) (by linarith) (by linarith)
    rw [abs_of_nonpos h4]
    have h5 := Real.log_le_log hpos (show (1 : ℝ) / 2 ^ 23 ≤ 1 - k.val / 2 ^ 23 by linarith)
    have h6 : Real.log (1 / 2 ^ 23) = -(23 * Real.log 2) := by
      rw [one_div, Real.log_inv, Real.log_pow]; norm_num
    have h7 := Real.log_two_lt_d9
    rw [h6] at h5
    linarith
  calc δ * (1 + |Real.log (1 - k.val / 2 ^ 23)|) ≤ δ * 17 := mul_le_mul_of_nonneg_left (by linarith) hδ
    _ = _ := by ring

section
variable {K : Type} [KeyLike K] [P : Binary32.Platform] {a : InitArgs Binary32} {steps : Nat} {rng : Nat → Rng K Binary32}
  {key : Nat → K} {s : Nat → State Binary32}

/-- the residuals when a tree is updated -/
theorem resid_run (ha : ValidArgs a) (hs : Run32 a steps rng key s)
    (hmv : ∀ k, k < steps → StateInv a (s k) → ∀ t, t < a.num_trees →
      MoveOK (cfgOf a) ((s k).var_trees.getD t []) ((s k).split_trees.getD t [])
      ((s k).affluence_trees.map fun x => x.getD t [])
      (moveOf (rng k) (s k) (KeyLike.split (KeyLike.split (key k) 2 1) 2 1) t))
    {y : Nat → ℝ} {v : Nat → Nat → Nat → ℝ} {Y Λ : ℝ}
    (hy : ∀ j, j < a.y.length → HasValue (a.y.getD j 0) (y j) ∧ |y j| ≤ Y)
    (hv : ∀ k, k ≤ steps → ∀ t, t < a.num_trees → ∀ j, j < a.y.length →
      HasValue (leafAt a (s k) t j) (v k t j) ∧ |v k t j| ≤ Λ)
    (hΛ : 1 / 2 ^ 126 ≤ Λ) {B Q : ℝ} (eB : B = Y + (a.num_trees + 3) * Λ)
    (hmax : B * (1 + 1 / 2 ^ 24) ^ (steps * a.num_trees) ≤ 2 ^ 118) (hB0 : 0 ≤ B)
    {k : Nat} (hk : k < steps) {t : Nat} (ht : t < a.num_trees) (eQ : Q = (1 + 1 / 2 ^ 24) ^ ((k + 1) * a.num_trees)) :
    StateInv a (s k) ∧ ∃ q : Nat → ℝ, ∀ i < a.y.length,
      HasValue ((residOf (rng k) (s k) (KeyLike.split (key k) 2 1) t).getD i 0) (q i) ∧
      |q i + v k t i - otherTrees a.num_trees t (y i) (fun u => v k u i) (fun u => v (k + 1) u i)| ≤ B * (Q - 1) ∧
      |q i| + |v k t i| ≤ B * Q ∧ |otherTrees a.num_trees t (y i) (fun u => v k u i) (fun u => v (k + 1) u i)| ≤ B * Q := by
  have hΛ0 : 0 < Λ := lt_of_lt_of_le (by positivity) hΛ
  have hpow : (2 : ℝ) ^ 118 ≤ 2 ^ 127 := by norm_num
  obtain ⟨hi, hr⟩ := drift_run ha hs hmv hy hv hΛ (by rw [← eB]; exact hmax.trans hpow) (k := k) (by omega)
  refine ⟨hi, ?_⟩
  have hm := hmv k hk hi
  have hst := hs.step k hk
  have hQ1 : 1 ≤ Q := by rw [eQ]; exact one_le_pow₀ (by norm_num)
  have hQs : Q ≤ (1 + 1 / 2 ^ 24) ^ (steps * a.num_trees) := by
    rw [eQ]; exact pow_le_pow_right₀ (by norm_num) (Nat.mul_le_mul_right _ hk)
  have hBQ : B * Q ≤ 2 ^ 118 := (mul_le_mul_of_nonneg_left hQs hB0).trans hmax
  have hB4 : B = Y + a.num_trees * Λ + 3 * Λ := by rw [eB]; ring
  have hres : ∀ i, ∃ q : ℝ, i < a.y.length →
      HasValue ((residOf (rng k) (s k) (KeyLike.split (key k) 2 1) t).getD i 0) q ∧
      |q + v k t i - otherTrees a.num_trees t (y i) (fun u => v k u i) (fun u => v (k + 1) u i)| ≤ B * (Q - 1) ∧
      |q| + |v k t i| ≤ B * Q ∧ |otherTrees a.num_trees t (y i) (fun u => v k u i) (fun u => v (k + 1) u i)| ≤ B * Q := by
    intro i
    by_cases hi2 : i < a.y.length
    · obtain ⟨r, h1, h2⟩ := hr i hi2
      have hmax' : (Y + (a.num_trees + 3) * Λ) * (1 + 1 / 2 ^ 24) ^ (k * a.num_trees + a.num_trees) ≤ 2 ^ 127 := by
        rw [← Nat.succ_mul, ← eB]
        show B * (1 + 1 / 2 ^ 24) ^ ((k + 1) * a.num_trees) ≤ 2 ^ 127
        rw [← eQ]
        exact hBQ.trans hpow
      obtain ⟨q, h3, h4⟩ := drift_inner ha hi (rng k) (key k) hm hi2 (hy i hi2).2 (fun t ht => hv k (by omega) t ht i hi2)
        (v' := fun u => v (k + 1) u i) (fun t ht => by rw [← hst]; exact hv (k + 1) (by omega) t ht i hi2) hΛ hmax' h1 h2 t (by omega)
      have h5 : |q - (y i - mixed a.num_trees t (fun u => v k u i) (fun u => v (k + 1) u i))| ≤ B * (Q - 1) := by
        refine h4.trans ?_
        unfold driftBound
        rw [← eB]
        refine mul_le_mul_of_nonneg_left ?_ hB0
        rw [eQ]
        have : (1 + 1 / 2 ^ 24 : ℝ) ^ (k * a.num_trees + t) ≤ (1 + 1 / 2 ^ 24) ^ ((k + 1) * a.num_trees) := by
          refine pow_le_pow_right₀ (by norm_num) ?_
          rw [Nat.succ_mul]
          omega
        linarith
      have h6 : |y i - mixed a.num_trees t (fun u => v k u i) (fun u => v (k + 1) u i)| ≤ Y + a.num_trees * Λ :=
        (abs_sub _ _).trans (add_le_add (hy i hi2).2 (abs_mixed_le (fun u hu => (hv k (by omega) u hu i hi2).2)
          fun u hu => (hv (k + 1) (by omega) u hu i hi2).2))
      have h7 := (hv k (by omega) t ht i hi2).2
      have hBQ' : B ≤ B * Q := le_mul_of_one_le_right hB0 hQ1
      refine ⟨q, fun _ => ⟨h3, ?_, ?_, ?_⟩⟩
      · rw [otherTrees_eq ht]
        have e : q + v k t i - (y i - mixed a.num_trees t (fun u => v k u i) (fun u => v (k + 1) u i) + v k t i) =
          q - (y i - mixed a.num_trees t (fun u => v k u i) (fun u => v (k + 1) u i)) := by ring
        rw [e]
        exact h5
      · have h8 : |q| ≤ Y + a.num_trees * Λ + B * (Q - 1) := by
          have e : q = (y i - mixed a.num_trees t (fun u => v k u i) (fun u => v (k + 1) u i)) +
            (q - (y i - mixed a.num_trees t (fun u => v k u i) (fun u => v (k + 1) u i))) := by ring
          rw [e]
          exact (abs_add_le _ _).trans (add_le_add h6 h5)
        have e : B * Q = B + B * (Q - 1) := by ring
        linarith
      · rw [otherTrees_eq ht]
        have := (abs_add_le _ _).trans (add_le_add h6 h7)
        linarith
    · exact ⟨0, fun h => absurd h hi2⟩
  choose q hq using hres
  exact ⟨q, hq⟩

/-- the error of the log likelihood ratio, given that the moves are well formed -/
theorem lik_run {δ : ℝ} (hP : LogError P δ) (hδ : 0 ≤ δ) (hδ' : δ ≤ 1 / 8) (ha : ValidArgs a) (hs : Run32 a steps rng key s)
    (hmv : ∀ k, k < steps → StateInv a (s k) → ∀ t, t < a.num_trees →
      MoveOK (cfgOf a) ((s k).var_trees.getD t []) ((s k).split_trees.getD t [])
      ((s k).affluence_trees.map fun x => x.getD t [])
      (moveOf (rng k) (s k) (KeyLike.split (KeyLike.split (key k) 2 1) 2 1) t))
    {y : Nat → ℝ} {v : Nat → Nat → Nat → ℝ} {Y Λ : ℝ}
    (hy : ∀ j, j < a.y.length → HasValue (a.y.getD j 0) (y j) ∧ |y j| ≤ Y)
    (hv : ∀ k, k ≤ steps → ∀ t, t < a.num_trees → ∀ j, j < a.y.length →
      HasValue (leafAt a (s k) t j) (v k t j) ∧ |v k t j| ≤ Λ)
    (hΛ : 1 / 2 ^ 42 ≤ Λ) (hY : 0 ≤ Y) {B Q : ℝ} (eB : B = Y + (a.num_trees + 3) * Λ)
    (hN : a.y.length ≤ 2 ^ 18) (hn : a.num_trees ≤ 2 ^ 24)
    (hmax : (a.y.length + 1) * (B * (1 + 1 / 2 ^ 24) ^ (steps * a.num_trees)) ≤ 2 ^ 30)
    {k : Nat} (hk : k < steps) {t : Nat} (ht : t < a.num_trees) (eQ : Q = (1 + 1 / 2 ^ 24) ^ ((k + 1) * a.num_trees)) (hQ : Q ≤ 17 / 16)
    {mv : Move Binary32} (hmv' : mv = moveOf (rng k) (s k) (KeyLike.split (KeyLike.split (key k) 2 1) 2 1) t)
    (hall : mv.allowed = true) (hsplit : mv.grow = true → 1 ≤ mv.grow_split)
    (hfin : ∀ x ∈ (s k).leaf_trees.getD t [], ∃ r, HasValue x r)
    {σ : ℝ} (hσ : HasValue (s k).sigma2 σ) (hσ1 : 1 / 2 ^ 30 ≤ σ) (hσ2 : σ ≤ 2 ^ 30) {z : Nat → ℝ}
    (hz : z = fun i => otherTrees a.num_trees t (y i) (fun u => v k u i) (fun u => v (k + 1) u i)) {L R : List ℝ}
    (hL : L = sideData a ((s k).split_trees.getD t []) mv z (2 * mv.node))
    (hR : R = sideData a ((s k).split_trees.getD t []) mv z (2 * mv.node + 1)) :
    ∃ r, HasValue ((accOf (rng k) (s k) (KeyLike.split (key k) 2 1) t).2.log_likelihood) r ∧
      |r - logLikRatio a.num_trees σ L R| ≤ ratioBound δ B Q σ (L.length + R.length) := by
  have hΛ0 : 0 < Λ := lt_of_lt_of_le (by positivity) hΛ
  have hB0 : 0 ≤ B := by rw [eB]; positivity
  have hp0 : 0 ≤ B * (1 + 1 / 2 ^ 24) ^ (steps * a.num_trees) := by positivity
  have hN0 : (0 : ℝ) ≤ a.y.length := Nat.cast_nonneg _
  have hmax1 : B * (1 + 1 / 2 ^ 24) ^ (steps * a.num_trees) ≤ 2 ^ 30 :=
    (le_mul_of_one_le_left hp0 (by linarith)).trans hmax
  obtain ⟨hi, q, hq⟩ := resid_run ha hs hmv hy hv ((by norm_num : (1 : ℝ) / 2 ^ 126 ≤ 1 / 2 ^ 42).trans hΛ) eB
    (hmax1.trans (by norm_num)) hB0 hk ht eQ
  have hm := hmv k hk hi t ht
  have hQ1 : 1 ≤ Q := by rw [eQ]; exact one_le_pow₀ (by norm_num)
  have hQs : Q ≤ (1 + 1 / 2 ^ 24) ^ (steps * a.num_trees) := by
    rw [eQ]; exact pow_le_pow_right₀ (by norm_num) (Nat.mul_le_mul_right _ hk)
  have hB1 : 1 / 2 ^ 40 ≤ B := by
    have h1 : (3 : ℝ) * Λ ≤ (a.num_trees + 3) * Λ := mul_le_mul_of_nonneg_right (by
      have : (0 : ℝ) ≤ a.num_trees := Nat.cast_nonneg _
      linarith) hΛ0.le
    have h2 : (1 : ℝ) * Λ ≤ a.num_trees * Λ := mul_le_mul_of_nonneg_right (by exact_mod_cast (by omega : 1 ≤ a.num_trees)) hΛ0.le
    have h3 : (a.num_trees + 3) * Λ = a.num_trees * Λ + 3 * Λ := by ring
    have h4 : (1 : ℝ) / 2 ^ 40 = 4 * (1 / 2 ^ 42) := by norm_num
    rw [eB, h4, h3]
    linarith
  have hBQ : B ≤ B * Q := le_mul_of_one_le_right hB0 hQ1
  have hNBQ : a.y.length * (B * Q) ≤ 2 ^ 30 := by
    refine le_trans ?_ hmax
    exact mul_le_mul (by linarith) (mul_le_mul_of_nonneg_left hQs hB0) (by positivity) (by linarith)
  have hd0 : 0 ≤ B * (Q - 1) := mul_nonneg hB0 (by linarith)
  have hdW : B * (Q - 1) ≤ B * Q / 16 := by
    have : B * (Q - 1) ≤ B * (Q / 16) := mul_le_mul_of_nonneg_left (by linarith) hB0
    linarith
  have hsp : ∀ i, sideData a ((s k).split_trees.getD t []) mv z i = leafData (s k).X a.y.length mv.var_tree
      (bigSplit ((s k).split_trees.getD t []) mv) z i := by
    intro k'
    unfold sideData
    rw [hi.cfg.X]
    rfl
  rw [hsp] at hL hR
  rw [hmv'] at hL hR hall hsplit
  obtain ⟨r, h1, h2⟩ := lik_error_step hP hδ hδ' ha hi (rng k) (KeyLike.split (key k) 2 1) ht hm hall hsplit hN hn
    (q := q) (o := fun i => v k t i) (z := z) (fun j hj => (hq j hj).1) (fun j hj => (hv k (by omega) t ht j hj).1) hfin
    (d := B * (Q - 1)) (W := B * Q) (fun j hj => by rw [hz]; exact (hq j hj).2.1) (fun j hj => (hq j hj).2.2.1)
    (fun j hj => by rw [hz]; exact (hq j hj).2.2.2) (hB1.trans hBQ) hNBQ hd0 hdW hσ hσ1 hσ2 hL hR
  refine ⟨r, h1, h2.trans ?_⟩
  unfold ratioBound
  have hBp : 0 < B := lt_of_lt_of_le (by positivity) hB1
  have hσ0 : 0 < σ := lt_of_lt_of_le (by positivity) hσ1
  have h3 : B * (Q - 1) / (B * Q) ≤ Q - 1 := by
    rw [mul_div_mul_left _ _ hBp.ne']
    exact div_le_self (by linarith) hQ1
  gcongr

end
end Bartz
