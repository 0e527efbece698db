import Verif.Lemmas.AnySum
import Verif.Props.Drift
import Verif.Props.Gbart
import Verif.Model.Binning32
/-!
# Property C89: rounding errors of the predictions, and of the comparison of the residuals

The predictions are sums over the trees of numbers in single precision. The order of the sum depends on the platform; the
bounds hold for any order (`Spec.Sums`), including the one of the model (`sums_sum`).
-/

set_option autoImplicit false

namespace Bartz
open Jax Spec Jax.Binary32

/-- the order of the sum in the model is one of those considered -/
theorem sums_sum (xs : List Binary32) : Sums xs (Jax.sum xs) := by
  have H : ∀ (xs ys : List Binary32) (s : Binary32), Sums ys s → Sums (ys ++ xs) (xs.foldl (· + ·) s) := by
    intro xs
    induction xs with
    | nil => intro ys s h; simpa using h
    | cons x xs ih =>
      intro ys s h
      have := ih (ys ++ [x]) (s + x) (h.add (.one x))
      rwa [List.append_assoc] at this
  exact H xs [] 0 .zero

/-- C89, sums. The sum of `m` finite numbers in single precision, in any order, is finite and differs from the exact one
by at most `(1 + 2 ** -24) ** (m - 1) - 1` times the sum of the absolute values, barring overflow. -/
theorem C89_sum {m : Nat} {x : Nat → Binary32} {v : Nat → ℝ} {s : Binary32} (h : Sums ((List.range m).map x) s)
    (hx : ∀ t < m, HasValue (x t) (v t))
    (hmax : (∑ t ∈ Finset.range m, |v t|) * (1 + 1 / 2 ^ 24) ^ (m - 1) ≤ 2 ^ 127) :
    ∃ r, HasValue s r ∧ |r - ∑ t ∈ Finset.range m, v t| ≤
      (∑ t ∈ Finset.range m, |v t|) * ((1 + 1 / 2 ^ 24) ^ (m - 1) - 1) := by
  have hv : ∀ t < m, Binary32.toReal (x t) = v t := fun t ht => (hasValue_iff.1 (hx t ht)).2
  have e : ∀ g : ℝ → ℝ, (((List.range m).map x).map fun y => g (Binary32.toReal y)).sum = ∑ t ∈ Finset.range m, g (v t) := by
    intro g
    rw [List.map_map, list_sum_range]
    exact Finset.sum_congr rfl fun t ht => by simp [hv t (Finset.mem_range.1 ht)]
  have := (sums_error h).2 Binary32.toReal (by
    intro y hy
    obtain ⟨t, ht, rfl⟩ := List.mem_map.1 hy
    exact hasValue_iff.2 ⟨(hasValue_iff.1 (hx t (List.mem_range.1 ht))).1, rfl⟩)
  rw [e (fun z => |z|), e (fun z => z)] at this
  simpa using this (by simpa using hmax)

/-- C89, predictions. `s` is the sum of the values of `m` trees, in any order; the prediction is `offset + scale * s`,
calculated with two roundings, or with one (fused multiply and add). -/
theorem C89_predict {m : Nat} {x : Nat → Binary32} {v : Nat → ℝ} {s : Binary32} (h : Sums ((List.range m).map x) s)
    (hx : ∀ t < m, HasValue (x t) (v t)) {offset scale : Binary32} {o c : ℝ} (ho : HasValue offset o)
    (hc : HasValue scale c)
    (hmax : (∑ t ∈ Finset.range m, |v t|) * (1 + 1 / 2 ^ 24) ^ (m - 1) ≤ 2 ^ 127)
    (hmax' : (|o| + |c| * (∑ t ∈ Finset.range m, |v t|) + 1 / 2 ^ 126) * (1 + 1 / 2 ^ 24) ^ (m + 2) ≤ 2 ^ 127) :
    ∀ y, y = offset + scale * s ∨ y = fma scale s offset → ∃ r, HasValue y r ∧
      |r - (o + c * ∑ t ∈ Finset.range m, v t)| ≤
        (|o| + |c| * (∑ t ∈ Finset.range m, |v t|) + 1 / 2 ^ 126) * ((1 + 1 / 2 ^ 24) ^ (m + 2) - 1) := by
  obtain ⟨σ, hσ, eσ⟩ := C89_sum h hx hmax
  obtain ⟨u, hu⟩ : ∃ u : ℝ, u = 1 / 2 ^ 24 := ⟨_, rfl⟩
  obtain ⟨τ, hτ⟩ : ∃ τ : ℝ, τ = 1 / 2 ^ 126 := ⟨_, rfl⟩
  have hu0 : 0 < u := by rw [hu]; positivity
  have hτ0 : 0 < τ := by rw [hτ]; positivity
  rw [← hu] at eσ
  rw [← hu, ← hτ] at hmax'
  have hS : 0 ≤ ∑ t ∈ Finset.range m, |v t| := Finset.sum_nonneg fun _ _ => abs_nonneg _
  have habs : |∑ t ∈ Finset.range m, v t| ≤ ∑ t ∈ Finset.range m, |v t| := Finset.abs_sum_le_sum_abs _ _
  rw [← hu, ← hτ]
  set S := ∑ t ∈ Finset.range m, |v t|
  set T := ∑ t ∈ Finset.range m, v t
  have hq1 : 1 ≤ 1 + u := by linarith
  have hp0 : (1 + u) ^ (m - 1) ≤ (1 + u) ^ m := pow_le_pow_right₀ hq1 (by omega)
  have hp1 : 1 ≤ (1 + u) ^ m := one_le_pow₀ hq1
  have hp2 : (1 + u) ^ (m + 2) = (1 + u) ^ m * (1 + u) * (1 + u) := by rw [pow_succ, pow_succ]
  rw [hp2] at hmax' ⊢
  obtain ⟨Q, hQ⟩ : ∃ Q : ℝ, Q = (1 + u) ^ m := ⟨_, rfl⟩
  rw [← hQ] at hp0 hp1 hmax' ⊢
  have eσ' : |σ - T| ≤ S * (Q - 1) := eσ.trans (mul_le_mul_of_nonneg_left (by linarith) hS)
  have hσS : |σ| ≤ S * Q := by
    have : σ = T + (σ - T) := by ring
    rw [this]
    exact (abs_add_le _ _).trans (by linarith)
  have hcS : 0 ≤ |c| * S := mul_nonneg (abs_nonneg _) hS
  have hcσ : |c * σ| ≤ |c| * S * Q := by
    rw [abs_mul, mul_assoc]
    exact mul_le_mul_of_nonneg_left hσS (abs_nonneg _)
  have hcT : |c * T| ≤ |c| * S := by
    rw [abs_mul]
    exact mul_le_mul_of_nonneg_left habs (abs_nonneg _)
  have ecσ : |c * σ - c * T| ≤ |c| * S * (Q - 1) := by
    rw [← mul_sub, abs_mul, mul_assoc]
    exact mul_le_mul_of_nonneg_left eσ' (abs_nonneg _)
  have hQu : Q ≤ Q * (1 + u) := le_mul_of_one_le_right (by linarith) hq1
  have hQuu : Q * (1 + u) ≤ Q * (1 + u) * (1 + u) := le_mul_of_one_le_right (by linarith) hq1
  have ho0 : 0 ≤ |o| := abs_nonneg _
  have hulp : ∀ z : ℝ, ulp z ≤ (|z| + τ) * u := by
    intro z
    unfold ulp
    rw [div_eq_mul_one_div, ← hu, ← hτ]
    exact mul_le_mul_of_nonneg_right (max_le (by linarith) (by linarith [abs_nonneg z])) hu0.le
  have hτQ : τ ≤ τ * Q := le_mul_of_one_le_right hτ0.le hp1
  obtain ⟨A, hA⟩ : ∃ A : ℝ, A = |c| * S := ⟨_, rfl⟩
  rw [← hA] at hcS hcσ hcT ecσ hmax' ⊢
  rintro y (rfl | rfl)
  · rw [hasValue_iff] at hc hσ
    obtain ⟨fc, rfl⟩ := hc
    obtain ⟨fσ, rfl⟩ := hσ
    have hb : A * Q ≤ 2 ^ 127 := by
      refine le_trans ?_ hmax'
      exact mul_le_mul (by linarith) (hQu.trans hQuu) (by linarith) (by linarith)
    obtain ⟨f1, e1⟩ := mul_error fc fσ (hcσ.trans hb)
    have e1' := e1.trans (hulp _)
    have e2 : |Binary32.toReal (scale * s) - Binary32.toReal scale * T| ≤ (A + τ) * (Q * (1 + u) - 1) := by
      have e : Binary32.toReal (scale * s) - Binary32.toReal scale * T =
        (Binary32.toReal (scale * s) - Binary32.toReal scale * Binary32.toReal s) +
          (Binary32.toReal scale * Binary32.toReal s - Binary32.toReal scale * T) := by ring
      rw [e]
      refine (abs_add_le _ _).trans ?_
      have e3 : (|Binary32.toReal scale * Binary32.toReal s| + τ) * u ≤ (A * Q + τ * Q) * u :=
        mul_le_mul_of_nonneg_right (by linarith) hu0.le
      have e4 : (A + τ) * (Q * (1 + u) - 1) = (A * Q + τ * Q) * u + A * (Q - 1) + (τ * Q - τ) := by ring
      linarith
    obtain ⟨r, hr, er⟩ := add_approx ho (hasValue_iff.2 ⟨f1, rfl⟩) (hp1.trans hQu) le_rfl (hcT.trans (by linarith))
      (by rw [sub_self, abs_zero]; exact mul_nonneg ho0 (by linarith)) e2
      (by
        rw [← add_assoc]
        exact (mul_le_mul_of_nonneg_left hQuu (by linarith)).trans hmax')
    rw [← hu, ← add_assoc] at er
    exact ⟨r, hr, er⟩
  · rw [hasValue_iff] at hc hσ ho
    obtain ⟨fc, rfl⟩ := hc
    obtain ⟨fσ, rfl⟩ := hσ
    obtain ⟨fo, rfl⟩ := ho
    obtain ⟨O, hO⟩ : ∃ O : ℝ, O = |Binary32.toReal offset| := ⟨_, rfl⟩
    rw [← hO] at ho0 hmax' ⊢
    have hOQ : O ≤ O * Q := le_mul_of_one_le_right ho0 hp1
    have hs : |Binary32.toReal scale * Binary32.toReal s + Binary32.toReal offset| ≤ A * Q + O := by
      rw [hO]
      exact (abs_add_le _ _).trans (by linarith)
    have hb : A * Q + O ≤ 2 ^ 127 := by
      refine le_trans ?_ hmax'
      have : A * Q + O ≤ (O + A + τ) * Q := by
        have : 0 ≤ τ * Q := by positivity
        linarith [add_mul (O + A) τ Q, add_mul O A Q]
      exact this.trans (mul_le_mul_of_nonneg_left (hQu.trans hQuu) (by linarith))
    obtain ⟨f1, e1⟩ := fma_error fc fσ fo (hs.trans hb)
    have e1' := e1.trans (hulp _)
    refine ⟨_, hasValue_iff.2 ⟨f1, rfl⟩, ?_⟩
    have e : Binary32.toReal (fma scale s offset) - (Binary32.toReal offset + Binary32.toReal scale * T) =
      (Binary32.toReal (fma scale s offset) - (Binary32.toReal scale * Binary32.toReal s + Binary32.toReal offset)) +
        (Binary32.toReal scale * Binary32.toReal s - Binary32.toReal scale * T) := by ring
    rw [e]
    refine (abs_add_le _ _).trans ?_
    have e3 : (|Binary32.toReal scale * Binary32.toReal s + Binary32.toReal offset| + τ) * u ≤
        (A * Q + O * Q + τ * Q) * u :=
      mul_le_mul_of_nonneg_right (by linarith) hu0.le
    have e4 : (O + A + τ) * (Q * (1 + u) - 1) = (A * Q + O * Q + τ * Q) * u + A * (Q - 1) + (τ * Q - τ) + (O * Q - O) := by
      ring
    have e5 : (O + A + τ) * (Q * (1 + u) - 1) ≤ (O + A + τ) * (Q * (1 + u) * (1 + u) - 1) :=
      mul_le_mul_of_nonneg_left (by linarith) (by linarith)
    linarith

section
variable {K : Type} [KeyLike K] [Binary32.Platform] {a : InitArgs Binary32} {steps : Nat} {rng : Nat → Rng K Binary32}
  {key : Nat → K} {s : Nat → State Binary32}

theorem run32_inv (ha : ValidArgs a) (hs : Run32 a steps rng key s)
    (hp : ∀ k, k < steps → ∀ t, t < a.num_trees → Picks (rng k) (s k) (KeyLike.split (KeyLike.split (key k) 2 1) 2 1) t) :
    ∀ k, k ≤ steps → StateInv a (s k) := by
  intro k hk
  induction k with
  | zero => rw [hs.init]; exact stateInv_init ha
  | succ k ih =>
    have hi := ih (by omega)
    rw [hs.step k (by omega)]
    refine stateInv_step_of ha hi _ _ fun t ht => ?_
    have hrng : LawfulRng (rng k) := fun k' => JaxDraws.lawful (hs.draws k (by omega) k')
    refine moveOf_ok_of ha hi (rng k) hrng _ ht (hp k (by omega) t ht) ?_
    rw [Binary32.addLaws.lt_iff _ _ ((hrng _).uniform2_nonneg _ _) Binary32.addLaws.zero_le_zero,
      (hrng _).uniform2_nonneg]
    rfl

/-- C89, residuals. In the situation of C83, the residuals stored in the state and those recomputed from the trees,
with the sum in any order, differ by at most `(Y + (num_trees + 3) Λ) ((1 + 2 ** -24) ** (k num_trees) +
(1 + 2 ** -24) ** (num_trees + 1) - 2)`. -/
theorem C89_residuals (ha : ValidArgs a) (hs : Run32 a steps rng key s)
    (hp : ∀ k, k < steps → ∀ t, t < a.num_trees → Picks (rng k) (s k) (KeyLike.split (KeyLike.split (key k) 2 1) 2 1) t)
    {y : Nat → ℝ} {v : Nat → Nat → Nat → ℝ} {Y Λ : ℝ}
    (hy : ∀ j, j < a.y.length → HasValue (a.y.getD j 0) (y j) ∧ |y j| ≤ Y)
    (hv : ∀ k, k ≤ steps → ∀ t, t < a.num_trees → ∀ j, j < a.y.length →
      HasValue (leafAt a (s k) t j) (v k t j) ∧ |v k t j| ≤ Λ)
    (hΛ : 1 / 2 ^ 126 ≤ Λ)
    (hmax : (Y + (a.num_trees + 3) * Λ) * (1 + 1 / 2 ^ 24) ^ (steps * a.num_trees + a.num_trees) ≤ 2 ^ 127) :
    ∀ k, k ≤ steps → ∀ j, j < a.y.length → ∀ z, Sums ((List.range a.num_trees).map fun t => leafAt a (s k) t j) z →
      ∃ r r', HasValue ((s k).resid.getD j 0) r ∧ HasValue (a.y.getD j 0 - z) r' ∧
        |r - r'| ≤ (Y + (a.num_trees + 3) * Λ) *
          ((1 + 1 / 2 ^ 24) ^ (k * a.num_trees) + (1 + 1 / 2 ^ 24) ^ (a.num_trees + 1) - 2) := by
  intro k hk j hj z hz
  have hΛ0 : 0 < Λ := lt_of_lt_of_le (by positivity) hΛ
  have hY0 : 0 ≤ Y := (abs_nonneg _).trans (hy j hj).2
  have hB : 0 < Y + (a.num_trees + 3) * Λ := by positivity
  have hmax0 : (Y + (a.num_trees + 3) * Λ) * (1 + 1 / 2 ^ 24) ^ (steps * a.num_trees) ≤ 2 ^ 127 :=
    (mul_le_mul_of_nonneg_left (pow_le_pow_right₀ (by norm_num) (by omega)) hB.le).trans hmax
  obtain ⟨r, hr, er⟩ := (C83_residuals ha hs hp hy hv hΛ hmax0 k hk).2 j hj
  have hS : ∑ t ∈ Finset.range a.num_trees, |v k t j| ≤ a.num_trees * Λ := by
    refine (Finset.sum_le_sum fun t ht => (hv k hk t (Finset.mem_range.1 ht) j hj).2).trans ?_
    simp
  have hS0 : 0 ≤ ∑ t ∈ Finset.range a.num_trees, |v k t j| := Finset.sum_nonneg fun _ _ => abs_nonneg _
  have hST := Finset.abs_sum_le_sum_abs (fun t => v k t j) (Finset.range a.num_trees)
  have hmax1 : (Y + (a.num_trees + 3) * Λ) * (1 + 1 / 2 ^ 24) ^ a.num_trees ≤ 2 ^ 127 :=
    (mul_le_mul_of_nonneg_left (pow_le_pow_right₀ (by norm_num) (by omega)) hB.le).trans hmax
  have hSB : ∑ t ∈ Finset.range a.num_trees, |v k t j| ≤ Y + (a.num_trees + 3) * Λ := by linarith
  obtain ⟨u, hu⟩ : ∃ u : ℝ, u = 1 / 2 ^ 24 := ⟨_, rfl⟩
  have hu0 : 0 < u := by rw [hu]; positivity
  have hp0 : (1 + u) ^ (a.num_trees - 1) ≤ (1 + u) ^ a.num_trees := pow_le_pow_right₀ (by linarith) (by omega)
  have hp1 : 1 ≤ (1 + u) ^ a.num_trees := one_le_pow₀ (by linarith)
  obtain ⟨σ, hσ, eσ⟩ := C89_sum hz (fun t ht => (hv k hk t ht j hj).1) (by
    rw [← hu] at hmax1 ⊢
    exact (mul_le_mul hSB hp0 (by positivity) hB.le).trans hmax1)
  rw [← hu] at eσ hmax1 er ⊢
  rw [pow_succ]
  set S := ∑ t ∈ Finset.range a.num_trees, |v k t j|
  set T := ∑ t ∈ Finset.range a.num_trees, v k t j
  obtain ⟨Q, hQ⟩ : ∃ Q : ℝ, Q = (1 + u) ^ a.num_trees := ⟨_, rfl⟩
  rw [← hQ] at hp0 hp1 hmax1 ⊢
  have eσ' : |σ - T| ≤ S * (Q - 1) := eσ.trans (mul_le_mul_of_nonneg_left (by linarith) hS0)
  have hYQ : Y ≤ Y * Q := le_mul_of_one_le_right hY0 hp1
  rw [hasValue_iff] at hσ
  obtain ⟨fσ, rfl⟩ := hσ
  obtain ⟨fn, en⟩ := neg_finite fσ
  have hadd := add_approx (c := Q) (V := Y) (W := S) (v := y j) (w := -T) (hy j hj).1 (hasValue_iff.2 ⟨fn, rfl⟩) hp1
    (hy j hj).2 (by rw [abs_neg]; exact hST)
    (by rw [sub_self, abs_zero]; exact mul_nonneg hY0 (by linarith))
    (by rw [en]; have e : -Binary32.toReal z - -T = -(Binary32.toReal z - T) := by ring
        rw [e, abs_neg]; exact eσ')
    ((mul_le_mul_of_nonneg_right (by linarith) (by linarith)).trans hmax1)
  obtain ⟨r', hr', er'⟩ := hadd
  refine ⟨r, r', hr, hr', ?_⟩
  rw [← hu] at er'
  have e : r - r' = (r - (y j - T)) - (r' - (y j + -T)) := by ring
  rw [e]
  refine (abs_sub _ _).trans ?_
  have h1 : (Y + S) * (Q * (1 + u) - 1) ≤ (Y + (a.num_trees + 3) * Λ) * (Q * (1 + u) - 1) := by
    refine mul_le_mul_of_nonneg_right (by linarith) ?_
    have : Q ≤ Q * (1 + u) := le_mul_of_one_le_right (by linarith) (by linarith)
    linarith
  linarith

/-- C89, `_compare_resid`. The bound applies to the two arrays returned by `_compare_resid`, as modelled. -/
theorem C89_compare_resid {P : Type} (ha : ValidArgs a) (hs : Run32 a steps rng key s)
    (hp : ∀ k, k < steps → ∀ t, t < a.num_trees → Picks (rng k) (s k) (KeyLike.split (KeyLike.split (key k) 2 1) 2 1) t)
    {y : Nat → ℝ} {v : Nat → Nat → Nat → ℝ} {Y Λ : ℝ}
    (hy : ∀ j, j < a.y.length → HasValue (a.y.getD j 0) (y j) ∧ |y j| ≤ Y)
    (hv : ∀ k, k ≤ steps → ∀ t, t < a.num_trees → ∀ j, j < a.y.length →
      HasValue (leafAt a (s k) t j) (v k t j) ∧ |v k t j| ≤ Λ)
    (hΛ : 1 / 2 ^ 126 ≤ Λ)
    (hmax : (Y + (a.num_trees + 3) * Λ) * (1 + 1 / 2 ^ 24) ^ (steps * a.num_trees + a.num_trees) ≤ 2 ^ 127)
    (g : Gbart Binary32 P) {k : Nat} (hk : k ≤ steps) (hg : g.mcmc_state = s k) :
    g.compare_resid.1.length = a.y.length ∧ g.compare_resid.2.length = a.y.length ∧
    ∀ j, j < a.y.length → ∃ r r', HasValue (g.compare_resid.1.getD j 0) r ∧ HasValue (g.compare_resid.2.getD j 0) r' ∧
      |r - r'| ≤ (Y + (a.num_trees + 3) * Λ) *
        ((1 + 1 / 2 ^ 24) ^ (k * a.num_trees) + (1 + 1 / 2 ^ 24) ^ (a.num_trees + 1) - 2) := by
  have hi := run32_inv ha hs hp k hk
  unfold Gbart.compare_resid
  dsimp only
  rw [hg, hi.cfg.y, hi.cfg.X, C03_evaluate_forest a.y.length a.num_trees a.p_nonterminal.length ha.depth_lt a.X _ _ _
    hi.leaf_length hi.var_length hi.leaf_size (fun t ht => (hi.tree t ht).var_len) fun t ht => (hi.tree t ht).valid.length]
  refine ⟨hi.resid_length, by simp, fun j hj => ?_⟩
  obtain ⟨r, r', h1, h2, h3⟩ := C89_residuals ha hs hp hy hv hΛ hmax k hk j hj _ (sums_sum _)
  refine ⟨r, r', h1, ?_, h3⟩
  have e : a.y[j]?.getD 0 = a.y[j] := by simp [hj]
  simp only [List.getD_eq_getElem?_getD, List.getElem?_zipWith, List.getElem?_map, List.getElem?_range hj,
    List.getElem?_eq_getElem hj, Option.map_some, Option.getD_some]
  simp only [List.getD_eq_getElem?_getD, e] at h2
  exact h2

end

/-! ### Examples -/

namespace ExD

-- three trees with value 1, added in another order than that of the model; offset and scale 1
example : ∃ r, HasValue (1 + (1 : Binary32) * (1 + (1 + 1))) r ∧ |r - 4| ≤ 1 / 2 ^ 19 := by
  have one : HasValue (1 : Binary32) 1 := hasValue_iff.2 Binary32.one_exact
  have hs : Sums ((List.range 3).map fun _ => (1 : Binary32)) (1 + (1 + 1)) :=
    Sums.add (.one 1) (Sums.add (.one 1) (.one 1))
  obtain ⟨r, hr, he⟩ := C89_predict hs (v := fun _ => 1) (fun _ _ => one) one one (by norm_num) (by norm_num) _ (.inl rfl)
  refine ⟨r, hr, ?_⟩
  norm_num at he ⊢
  refine he.trans ?_
  norm_num

open scoped ExS in
-- the hypotheses of the bound on the residuals can be satisfied
example (g : Gbart Binary32 Rat) (hg : g.mcmc_state = next) : ∃ r r', HasValue (g.compare_resid.1.getD 1 0) r ∧
    HasValue (g.compare_resid.2.getD 1 0) r' ∧ |r - r'| ≤ 10 / 2 ^ 24 := by
  letI := ExS.cpu
  have y0 : HasValue 1 1 := (hasValue_iff.2 Binary32.one_exact)
  have y1 : |Spec.toReal false ⟨813694976, by decide⟩| ≤ 1 := by
    have : Binary32.value false ⟨813694976, by decide⟩ = 2 ^ 119 := by decide +kernel
    unfold Spec.toReal
    rw [this, Int.cast_pow, Int.cast_ofNat, abs_of_nonneg (by positivity), div_le_one (by positivity)]
    exact pow_le_pow_right₀ (by norm_num) (by norm_num)
  have h := C89_compare_resid args_valid run (fun k hk t ht => by
      have : k = 0 := by omega
      have : t = 0 := by change t < 1 at ht; omega
      subst k t
      intro h
      revert h
      decide +kernel)
    (y := fun j => if j = 0 then 1 else Spec.toReal false ⟨813694976, by decide⟩)
    (v := fun k _ _ => if k = 0 then 0 else Spec.toReal false ⟨1051372203, by decide⟩) (Y := 1) (Λ := 1 / 2) ?_ ?_ (by norm_num)
    (by norm_num [args]) g (k := 1) le_rfl hg
  · obtain ⟨r, r', h1, h2, h3⟩ := h.2.2 1 (by decide)
    refine ⟨r, r', h1, h2, h3.trans ?_⟩
    norm_num [args]
  · intro j hj
    change j < 2 at hj
    have : j = 0 ∨ j = 1 := by omega
    rcases this with rfl | rfl
    · exact ⟨y0, by simp⟩
    · refine ⟨⟨false, ⟨813694976, by decide⟩, ?_, by decide, rfl⟩, y1⟩
      decide +kernel
  · intro k hk t ht j hj
    have : k = 0 ∨ k = 1 := by omega
    have : t = 0 := by change t < 1 at ht; omega
    subst t
    rcases ‹k = 0 ∨ k = 1› with rfl | rfl
    · refine ⟨?_, by norm_num⟩
      show HasValue (leafAt args (init args) 0 j) _
      rw [leafAt_init (K := Unit) args_valid ht hj]
      exact hasValue_zero
    · refine ⟨⟨false, ⟨1051372203, by decide⟩, ?_, by decide, rfl⟩, third_le⟩
      change j < 2 at hj
      have : j = 0 ∨ j = 1 := by omega
      rcases this with rfl | rfl
      · exact next_leaf.1
      · exact next_leaf.2

end ExD
end Bartz
