import Verif.Lemmas.DrawError
/-! # Rounding errors in drawing the error variance -/

set_option autoImplicit false

namespace Bartz
open Jax Spec Jax.Binary32

theorem ulp_le_add (z : ℝ) : ulp z ≤ (|z| + 1 / 2 ^ 126) * (1 / 2 ^ 24) := by
  unfold ulp
  rw [div_eq_mul_one_div]
  have h : (0 : ℝ) ≤ 1 / 2 ^ 126 := by positivity
  exact mul_le_mul_of_nonneg_right (max_le (by linarith) (by linarith [abs_nonneg z])) (by positivity)

/-- Error of a sum of squares in any order. -/
theorem sumSquares_error {xs : List Binary32} {s : Binary32} (h : SumSquares xs s) :
    (xs = [] → HasValue s 0) ∧ ∀ f : Binary32 → ℝ, (∀ x ∈ xs, HasValue x (f x)) →
      (xs.map fun x => f x ^ 2 + 1 / 2 ^ 126).sum * (1 + 1 / 2 ^ 24) ^ xs.length ≤ 2 ^ 127 →
      ∃ r, HasValue s r ∧ |r - (xs.map fun x => f x ^ 2).sum| ≤
        (xs.map fun x => f x ^ 2 + 1 / 2 ^ 126).sum * ((1 + 1 / 2 ^ 24) ^ xs.length - 1) := by
  obtain ⟨τ, hτ⟩ : ∃ τ : ℝ, τ = 1 / 2 ^ 126 := ⟨_, rfl⟩
  obtain ⟨u, hu⟩ : ∃ u : ℝ, u = 1 / 2 ^ 24 := ⟨_, rfl⟩
  have hτ0 : 0 < τ := by rw [hτ]; positivity
  have hu0 : 0 < u := by rw [hu]; positivity
  have hulp : ∀ z : ℝ, ulp z ≤ (|z| + τ) * u := by rw [hτ, hu]; exact ulp_le_add
  have hq1 : 1 ≤ 1 + u := by linarith
  have hadd := @add_approx
  rw [← hτ]
  rw [← hu] at hadd ⊢
  have habs : ∀ (f : Binary32 → ℝ) (l : List Binary32), |(l.map fun x => f x ^ 2).sum| ≤ (l.map fun x => f x ^ 2 + τ).sum := by
    intro f l
    induction l with
    | nil => simp
    | cons x l ih =>
      simp only [List.map_cons, List.sum_cons]
      refine (abs_add_le _ _).trans ?_
      rw [abs_of_nonneg (sq_nonneg (f x))]
      linarith
  have hnn : ∀ (f : Binary32 → ℝ) (l : List Binary32), 0 ≤ (l.map fun x => f x ^ 2 + τ).sum :=
    fun f l => (abs_nonneg _).trans (habs f l)
  induction h with
  | zero => exact ⟨fun _ => hasValue_zero, fun f _ _ => ⟨0, hasValue_zero, by simp⟩⟩
  | one x =>
    refine ⟨(fun e => nomatch e), fun f hf hmax => ?_⟩
    have hx := hf x (by simp)
    rw [hasValue_iff] at hx
    simp only [List.map_cons, List.map_nil, List.sum_cons, List.sum_nil, add_zero, List.length_cons, List.length_nil, zero_add,
      pow_one] at hmax ⊢
    have h2 : |f x * f x| = f x ^ 2 := by rw [abs_mul_self, sq]
    have h3 : f x ^ 2 + τ ≤ (f x ^ 2 + τ) * (1 + u) := le_mul_of_one_le_right (by positivity) hq1
    obtain ⟨f1, e1⟩ := mul_error hx.1 hx.1 (by rw [hx.2, h2]; linarith)
    refine ⟨_, hasValue_iff.2 ⟨f1, rfl⟩, ?_⟩
    rw [hx.2] at e1
    have := hulp (f x * f x)
    rw [h2] at this
    rw [add_sub_cancel_left, sq]
    rw [← sq]
    refine le_trans ?_ this
    rw [sq]
    exact e1
  | @add xs ys s t h1 h2 ih1 ih2 =>
    refine ⟨fun e => ?_, fun f hf hmax => ?_⟩
    · obtain ⟨e1, e2⟩ := List.append_eq_nil_iff.1 e
      exact zero_add_exact (ih1.1 e1) (ih2.1 e2)
    · rcases List.eq_nil_or_concat xs with e1 | ⟨xs', x', e1⟩
      · subst e1
        obtain ⟨r, hr, he⟩ := ih2.2 f (fun x hx => hf x (by simpa using hx)) (by simpa using hmax)
        exact ⟨r, zero_add_exact (ih1.1 rfl) hr, by simpa using he⟩
      · rcases List.eq_nil_or_concat ys with e2 | ⟨ys', y', e2⟩
        · subst e2
          obtain ⟨r, hr, he⟩ := ih1.2 f (fun x hx => hf x (by simpa using hx)) (by simpa using hmax)
          refine ⟨r, ?_, by simpa using he⟩
          rw [add_comm32]
          exact zero_add_exact (ih2.1 rfl) hr
        · have hx1 : 1 ≤ xs.length := by rw [e1]; simp
          have hy1 : 1 ≤ ys.length := by rw [e2]; simp
          clear e1 e2
          have hl : (xs ++ ys).length = (xs.length + ys.length - 1) + 1 := by
            rw [List.length_append]; omega
          rw [hl, List.map_append, List.sum_append] at hmax
          rw [hl, List.map_append, List.sum_append, List.map_append, List.sum_append]
          obtain ⟨V, eV⟩ : ∃ V : ℝ, V = (xs.map fun x => f x ^ 2 + τ).sum := ⟨_, rfl⟩
          obtain ⟨W, eW⟩ : ∃ W : ℝ, W = (ys.map fun x => f x ^ 2 + τ).sum := ⟨_, rfl⟩
          have hV : 0 ≤ V := by rw [eV]; exact hnn f xs
          have hW : 0 ≤ W := by rw [eW]; exact hnn f ys
          obtain ⟨c, hc⟩ : ∃ c : ℝ, c = (1 + u) ^ (xs.length + ys.length - 1) := ⟨_, rfl⟩
          have hc1 : 1 ≤ c := by rw [hc]; exact one_le_pow₀ hq1
          have hcx : (1 + u) ^ xs.length ≤ c := by rw [hc]; exact pow_le_pow_right₀ hq1 (by omega)
          have hcy : (1 + u) ^ ys.length ≤ c := by rw [hc]; exact pow_le_pow_right₀ hq1 (by omega)
          have ih1' := ih1.2 f (fun x hx => hf x (by simp [hx]))
          have ih2' := ih2.2 f (fun x hx => hf x (by simp [hx]))
          rw [pow_succ, ← hc, ← eV, ← eW] at hmax ⊢
          rw [← eV] at ih1'
          rw [← eW] at ih2'
          have hcq : c ≤ c * (1 + u) := le_mul_of_one_le_right (by linarith) hq1
          have hm : (V + W) * c ≤ 2 ^ 127 :=
            (mul_le_mul_of_nonneg_left hcq (by linarith)).trans hmax
          obtain ⟨ρ, hρ, eρ⟩ := ih1' ((mul_le_mul (by linarith) hcx (by positivity) (by linarith)).trans hm)
          obtain ⟨σ, hσ, eσ⟩ := ih2' ((mul_le_mul (by linarith) hcy (by positivity) (by linarith)).trans hm)
          exact hadd hρ hσ hc1 (by rw [eV]; exact habs f xs) (by rw [eW]; exact habs f ys)
            (eρ.trans (mul_le_mul_of_nonneg_left (by linarith) hV))
            (eσ.trans (mul_le_mul_of_nonneg_left (by linarith) hW)) hm
  | @fused xs s x h ih =>
    refine ⟨(fun e => nomatch e), fun f hf hmax => ?_⟩
    have hx := hasValue_iff.1 (hf x (by simp))
    have ih' := ih.2 f (fun y hy => hf y (by simp [hy]))
    simp only [List.map_cons, List.sum_cons, List.length_cons] at hmax ⊢
    rw [pow_succ (1 + u) xs.length] at hmax ⊢
    have hS := habs f xs
    have hV := hnn f xs
    obtain ⟨V, eV⟩ : ∃ V : ℝ, V = (xs.map fun x => f x ^ 2 + τ).sum := ⟨_, rfl⟩
    obtain ⟨S, eS⟩ : ∃ S : ℝ, S = (xs.map fun x => f x ^ 2).sum := ⟨_, rfl⟩
    obtain ⟨Q, eQ⟩ : ∃ Q : ℝ, Q = (1 + u) ^ xs.length := ⟨_, rfl⟩
    have hQ1 : 1 ≤ Q := by rw [eQ]; exact one_le_pow₀ hq1
    rw [← eV, ← eQ] at hmax
    rw [← eV] at hV
    rw [← eV, ← eS] at hS
    rw [← eV, ← eS, ← eQ] at ih'
    rw [← eV, ← eS, ← eQ]
    have hsq : 0 ≤ f x ^ 2 := sq_nonneg _
    have hQq : Q ≤ Q * (1 + u) := le_mul_of_one_le_right (by linarith) hq1
    have hm1 : (f x ^ 2 + τ + V) * Q ≤ 2 ^ 127 := (mul_le_mul_of_nonneg_left hQq (by linarith)).trans hmax
    have hVQ : V * Q ≤ (f x ^ 2 + τ + V) * Q := mul_le_mul_of_nonneg_right (by linarith) (by linarith)
    obtain ⟨r, hr, er⟩ := ih' (hVQ.trans hm1)
    have hr' := hasValue_iff.1 hr
    have hra : |r| ≤ V * Q := by
      have e : r = S + (r - S) := by ring
      rw [e]
      exact (abs_add_le _ _).trans (by linarith)
    have hb : |f x * f x + r| ≤ f x ^ 2 + V * Q := by
      refine (abs_add_le _ _).trans ?_
      rw [abs_mul_self, ← sq]
      linarith
    have hsQ : f x ^ 2 + τ ≤ (f x ^ 2 + τ) * Q := le_mul_of_one_le_right (by linarith) hQ1
    have hbb : f x ^ 2 + V * Q + τ ≤ (f x ^ 2 + τ + V) * Q := by
      have : (f x ^ 2 + τ + V) * Q = (f x ^ 2 + τ) * Q + V * Q := by ring
      linarith
    obtain ⟨f1, e1⟩ := fma_error hx.1 hx.1 hr'.1 (by rw [hx.2, hr'.2]; linarith)
    rw [hx.2, hr'.2] at e1
    refine ⟨_, hasValue_iff.2 ⟨f1, rfl⟩, ?_⟩
    have e2 : Binary32.toReal (fma x x s) - (f x ^ 2 + S) = (Binary32.toReal (fma x x s) - (f x * f x + r)) + (r - S) := by ring
    rw [e2]
    refine (abs_add_le _ _).trans ?_
    have e3 : (|f x * f x + r| + τ) * u ≤ (f x ^ 2 + τ + V) * Q * u := mul_le_mul_of_nonneg_right (by linarith) hu0.le
    have e4 := e1.trans (hulp _)
    have e5 : (f x ^ 2 + τ + V) * (Q * (1 + u) - 1) = (f x ^ 2 + τ + V) * Q * u + V * (Q - 1) + (f x ^ 2 + τ) * (Q - 1) := by ring
    have e6 : 0 ≤ (f x ^ 2 + τ) * (Q - 1) := mul_nonneg (by linarith) (by linarith)
    linarith
  | @perm xs ys s hp _ ih =>
    refine ⟨fun e => ih.1 (by subst e; exact hp.eq_nil), fun f hf hmax => ?_⟩
    have e1 : (xs.map fun x => f x ^ 2).sum = (ys.map fun x => f x ^ 2).sum := (hp.map _).sum_eq
    have e2 : (xs.map fun x => f x ^ 2 + τ).sum = (ys.map fun x => f x ^ 2 + τ).sum := (hp.map _).sum_eq
    rw [← e1, ← e2, ← hp.length_eq]
    rw [← e2, ← hp.length_eq] at hmax
    exact ih.2 f (fun x hx => hf x (hp.mem_iff.1 hx)) hmax

/-- the order of the sum in the model is one of those considered -/
theorem sumSquares_sum (xs : List Binary32) : SumSquares xs (Jax.sum (xs.map fun r => r * r)) := by
  have H : ∀ (xs ys : List Binary32) (s : Binary32), SumSquares ys s →
      SumSquares (ys ++ xs) ((xs.map fun r => r * r).foldl (· + ·) s) := by
    intro xs
    induction xs with
    | nil => intro ys s h; simpa using h
    | cons x xs ih =>
      intro ys s h
      have := ih (ys ++ [x]) (s + x * x) (h.add (.one x))
      rwa [List.append_assoc] at this
  exact H xs [] 0 .zero

/-- Error of the variance drawn. -/
theorem sigma_error {xs : List Binary32} {norm2 : Binary32} (h : SumSquares xs norm2) {f : Binary32 → ℝ}
    (hf : ∀ x ∈ xs, HasValue x (f x)) (hn : xs.length ≤ 2 ^ 20) {b0 g : Binary32} {β γ : ℝ} (hb : HasValue b0 β) (hg : HasValue g γ)
    (hβ : 1 / 2 ^ 80 ≤ β) (hS : β + (xs.map fun x => f x ^ 2).sum ≤ 2 ^ 80) (hγ : 1 / 2 ^ 40 ≤ γ) (hγ' : γ ≤ 2 ^ 40) :
    ∃ r, HasValue ((b0 + norm2 / ((2 : Nat) : Binary32)) / g) r ∧
      |r - (β + (xs.map fun x => f x ^ 2).sum / 2) / γ| ≤
        (β + (xs.map fun x => f x ^ 2).sum / 2) / γ * ((xs.length + 3 : ℝ) / 2 ^ 23) := by
  obtain ⟨m, hm⟩ : ∃ m : Nat, m = xs.length := ⟨_, rfl⟩
  obtain ⟨S, eS⟩ : ∃ S : ℝ, S = (xs.map fun x => f x ^ 2).sum := ⟨_, rfl⟩
  have hS0 : 0 ≤ S := by rw [eS]; exact List.sum_nonneg (by intro x hx; obtain ⟨y, _, rfl⟩ := List.mem_map.1 hx; positivity)
  obtain ⟨τ, hτ⟩ : ∃ τ : ℝ, τ = 1 / 2 ^ 126 := ⟨_, rfl⟩
  have hτ0 : 0 < τ := by rw [hτ]; positivity
  have hτ1 : τ ≤ 1 / 2 ^ 126 := by rw [hτ]
  have eV : (xs.map fun x => f x ^ 2 + 1 / 2 ^ 126).sum = S + m * τ := by
    rw [eS, hm, ← hτ]
    clear hm eS hS hn hf h hS0
    induction xs with
    | nil => simp
    | cons x l ih => simp only [List.map_cons, List.sum_cons, ih, List.length_cons]; push_cast; ring
  have hm' : (m : ℝ) ≤ 2 ^ 20 := by rw [hm]; exact_mod_cast hn
  have hm0 : (0 : ℝ) ≤ m := Nat.cast_nonneg m
  have hmτ : m * τ ≤ β / 2 ^ 26 := by
    calc m * τ ≤ 2 ^ 20 * (1 / 2 ^ 126) := mul_le_mul hm' hτ1 hτ0.le (by norm_num)
      _ = 1 / 2 ^ 80 / 2 ^ 26 := by norm_num
      _ ≤ β / 2 ^ 26 := div_le_div_of_nonneg_right hβ (by norm_num)
  have hmτ0 : 0 ≤ m * τ := by positivity
  have hβ0 : 0 < β := lt_of_lt_of_le (by positivity) hβ
  have hγ0 : 0 < γ := lt_of_lt_of_le (by positivity) hγ
  have hp := pow_sub_one_le (k := m + 1) (by omega)
  have hp0 := pow_sub_one_le (k := m) (by omega)
  have hse := (sumSquares_error h).2 f hf
  rw [← eS] at hS hse ⊢
  rw [eV, ← hm] at hse
  rw [← hm]
  obtain ⟨u, hu⟩ : ∃ u : ℝ, u = 1 / 2 ^ 24 := ⟨_, rfl⟩
  have hu0 : 0 < u := by rw [hu]; positivity
  have hu1 : u ≤ 1 := by rw [hu]; norm_num
  have hulp : ∀ z : ℝ, ulp z ≤ (|z| + τ) * u := by rw [hτ, hu]; exact ulp_le_add
  have hadd := @add_approx
  rw [← hu] at hse hp hp0 hadd
  have hq1 : 1 ≤ 1 + u := by linarith
  obtain ⟨Q, hQ⟩ : ∃ Q : ℝ, Q = (1 + u) ^ m := ⟨_, rfl⟩
  have hQ1 : 1 ≤ Q := by rw [hQ]; exact one_le_pow₀ hq1
  rw [pow_succ, ← hQ] at hp
  rw [← hQ] at hse hp0
  have hQ2 : Q * (1 + u) ≤ 2 := by
    have : ((m + 1 : Nat) : ℝ) / 2 ^ 23 ≤ 1 := by
      rw [div_le_one (by norm_num)]
      push_cast
      calc (m : ℝ) + 1 ≤ 2 ^ 20 + 1 := by linarith
        _ ≤ 2 ^ 23 := by norm_num
    linarith
  have hQu : Q ≤ Q * (1 + u) := le_mul_of_one_le_right (by linarith) hq1
  have hVS : S + m * τ ≤ 2 ^ 80 := by
    have : β / 2 ^ 26 ≤ β := div_le_self hβ0.le (by norm_num)
    linarith
  obtain ⟨ν, hν, eν⟩ := hse (by
    calc (S + m * τ) * Q ≤ 2 ^ 80 * 2 := mul_le_mul hVS (hQu.trans hQ2) (by linarith) (by norm_num)
      _ ≤ 2 ^ 127 := by norm_num)
  -- half of the sum of squares
  have h2 := hasValue_natCast (n := 2) (by norm_num)
  rw [show ((2 : Nat) : ℝ) = 2 by norm_num] at h2
  have hνa : |ν| ≤ (S + m * τ) * Q := by
    have e : ν = S + (ν - S) := by ring
    rw [e]
    refine (abs_add_le _ _).trans ?_
    rw [abs_of_nonneg hS0]
    linarith
  obtain ⟨w, hw, ew⟩ : ∃ w, HasValue (norm2 / ((2 : Nat) : Binary32)) w ∧ |w - S / 2| ≤ (S / 2 + m * τ + τ) * (Q * (1 + u) - 1) := by
    have hν' := hasValue_iff.1 hν
    have h2' := hasValue_iff.1 h2
    have hhalf : |ν / 2| ≤ (S / 2 + m * τ) * Q := by
      rw [abs_div, abs_of_pos (by norm_num : (0 : ℝ) < 2), div_le_iff₀ (by norm_num)]
      have : (S / 2 + m * τ) * Q * 2 = (S + m * τ) * Q + m * τ * Q := by ring
      have : 0 ≤ m * τ * Q := by positivity
      linarith
    obtain ⟨f1, e1⟩ := div_error hν'.1 h2'.1 (by rw [h2'.2]; norm_num) (by
      rw [hν'.2, h2'.2]
      refine hhalf.trans ?_
      calc (S / 2 + m * τ) * Q ≤ 2 ^ 80 * 2 := mul_le_mul (by linarith) (hQu.trans hQ2) (by linarith) (by norm_num)
        _ ≤ 2 ^ 127 := by norm_num)
    rw [hν'.2, h2'.2] at e1
    refine ⟨_, hasValue_iff.2 ⟨f1, rfl⟩, ?_⟩
    have e2 : Binary32.toReal (norm2 / ((2 : Nat) : Binary32)) - S / 2 =
      (Binary32.toReal (norm2 / ((2 : Nat) : Binary32)) - ν / 2) + (ν - S) / 2 := by ring
    rw [e2]
    refine (abs_add_le _ _).trans ?_
    have e3 : |(ν - S) / 2| ≤ (S + m * τ) * (Q - 1) / 2 := by
      rw [abs_div, abs_of_pos (by norm_num : (0 : ℝ) < 2)]
      exact div_le_div_of_nonneg_right eν (by norm_num)
    have e4 := e1.trans (hulp _)
    have e5 : (|ν / 2| + τ) * u ≤ ((S / 2 + m * τ) * Q + τ * Q) * u :=
      mul_le_mul_of_nonneg_right (add_le_add hhalf (le_mul_of_one_le_right hτ0.le hQ1)) hu0.le
    have e6 : (S / 2 + m * τ + τ) * (Q * (1 + u) - 1) = ((S / 2 + m * τ) * Q + τ * Q) * u + (S + m * τ) * (Q - 1) / 2 +
      (m * τ / 2 + τ) * (Q - 1) := by ring
    have e7 : 0 ≤ (m * τ / 2 + τ) * (Q - 1) := mul_nonneg (by positivity) (by linarith)
    linarith
  -- beta
  have hττ : m * τ + τ ≤ β / 2 ^ 25 := by
    have : τ ≤ β / 2 ^ 26 := by
      rw [hτ, le_div_iff₀ (by norm_num)]
      refine le_trans ?_ hβ
      norm_num
    calc m * τ + τ ≤ β / 2 ^ 26 + β / 2 ^ 26 := add_le_add hmτ this
      _ = β / 2 ^ 25 := by ring
  obtain ⟨T, eT⟩ : ∃ T : ℝ, T = β + S / 2 := ⟨_, rfl⟩
  have hT0 : 0 < T := by rw [eT]; linarith
  have hT1 : T ≤ 2 ^ 80 := by rw [eT]; linarith
  have hTb : 1 / 2 ^ 80 ≤ T := by rw [eT]; linarith
  have hTT : β + (S / 2 + m * τ + τ) ≤ T * (1 + 1 / 2 ^ 25) := by
    have : β / 2 ^ 25 ≤ T / 2 ^ 25 := div_le_div_of_nonneg_right (by rw [eT]; linarith) (by norm_num)
    have e : T * (1 + 1 / 2 ^ 25) = T + T / 2 ^ 25 := by ring
    rw [e]
    calc β + (S / 2 + m * τ + τ) = T + (m * τ + τ) := by rw [eT]; ring
      _ ≤ T + T / 2 ^ 25 := by linarith
  obtain ⟨x, hx, ex⟩ := hadd hb hw (v := β) (w := S / 2) (V := β) (W := S / 2 + m * τ + τ) (c := Q * (1 + u)) (by linarith)
    (by rw [abs_of_pos hβ0]) (by rw [abs_of_nonneg (by linarith)]; linarith)
    (by rw [sub_self, abs_zero]; exact mul_nonneg hβ0.le (by linarith)) ew (by
      calc (β + (S / 2 + m * τ + τ)) * (Q * (1 + u)) ≤ (T * (1 + 1 / 2 ^ 25)) * 2 := mul_le_mul hTT hQ2 (by linarith) (by positivity)
        _ ≤ (2 ^ 80 * 2) * 2 := by
          refine mul_le_mul_of_nonneg_right (mul_le_mul hT1 (by norm_num) (by norm_num) (by norm_num)) (by norm_num)
        _ ≤ 2 ^ 127 := by norm_num)
  rw [← eT] at ex ⊢
  obtain ⟨k, hk⟩ : ∃ k : ℝ, k = (m + 1) / 2 ^ 23 := ⟨_, rfl⟩
  have hk0 : 0 ≤ k := by rw [hk]; positivity
  have hk1 : k ≤ 1 / 4 := by
    rw [hk, div_le_iff₀ (by norm_num)]
    calc (m : ℝ) + 1 ≤ 2 ^ 20 + 1 := by linarith
      _ ≤ 1 / 4 * 2 ^ 23 := by norm_num
  push_cast at hp
  rw [← hk] at hp
  have ex' : |x - T| ≤ T * (k + 3 / 2 * u) := by
    refine ex.trans ?_
    have h1 : Q * (1 + u) * (1 + u) - 1 ≤ k + 5 / 4 * u := by
      have : Q * (1 + u) * u ≤ (1 + k) * u := mul_le_mul_of_nonneg_right (by linarith) hu0.le
      have : k * u ≤ 1 / 4 * u := mul_le_mul_of_nonneg_right hk1 hu0.le
      linarith
    have h0 : 0 ≤ Q * (1 + u) * (1 + u) - 1 := by
      have : Q * (1 + u) ≤ Q * (1 + u) * (1 + u) := le_mul_of_one_le_right (by linarith) hq1
      linarith
    have hu4 : u ≤ 1 / 5 := by rw [hu]; norm_num
    have e25 : (1 : ℝ) / 2 ^ 25 = u / 2 := by rw [hu]; norm_num
    calc (β + (S / 2 + m * τ + τ)) * (Q * (1 + u) * (1 + u) - 1) ≤ T * (1 + 1 / 2 ^ 25) * (k + 5 / 4 * u) :=
          mul_le_mul hTT h1 h0 (by positivity)
      _ = T * ((1 + u / 2) * (k + 5 / 4 * u)) := by rw [mul_assoc, e25]
      _ ≤ T * (k + 3 / 2 * u) := by
        refine mul_le_mul_of_nonneg_left ?_ hT0.le
        have h2 : u / 2 * (k + 5 / 4 * u) ≤ u / 2 * (1 / 2) := mul_le_mul_of_nonneg_left (by linarith) (by linarith)
        linarith
  have hu4 : u ≤ 1 / 6 := by rw [hu]; norm_num
  have hTk : T * (k + 3 / 2 * u) ≤ T * (1 / 2) := mul_le_mul_of_nonneg_left (by linarith) hT0.le
  have hxT := abs_le.1 (ex'.trans hTk)
  have hx' := hasValue_iff.1 hx
  have hg' := hasValue_iff.1 hg
  have hxg : 0 < x / γ := div_pos (by linarith) hγ0
  have hxg1 : x / γ ≤ T / γ * (3 / 2) := by
    rw [div_mul_eq_mul_div]
    exact div_le_div_of_nonneg_right (by linarith) hγ0.le
  have hxg2 : 1 / 2 ^ 126 ≤ x / γ := by
    rw [le_div_iff₀ hγ0]
    calc 1 / 2 ^ 126 * γ ≤ 1 / 2 ^ 126 * 2 ^ 40 := mul_le_mul_of_nonneg_left hγ' (by norm_num)
      _ ≤ 1 / 2 ^ 80 * (1 / 2) := by norm_num
      _ ≤ x := by linarith
  have hmax : |x / γ| ≤ 2 ^ 127 := by
    rw [abs_of_pos hxg, div_le_iff₀ hγ0]
    calc x ≤ 2 ^ 80 * 2 := by linarith
      _ ≤ 2 ^ 127 * (1 / 2 ^ 40) := by norm_num
      _ ≤ 2 ^ 127 * γ := mul_le_mul_of_nonneg_left hγ (by norm_num)
  obtain ⟨f1, e1⟩ := div_error hx'.1 hg'.1 (by rw [hg'.2]; exact hγ0.ne') (by rw [hx'.2, hg'.2]; exact hmax)
  rw [hx'.2, hg'.2] at e1
  refine ⟨_, hasValue_iff.2 ⟨f1, rfl⟩, ?_⟩
  have e2 : ulp (x / γ) ≤ T / γ * (3 / 2) * u := by
    unfold ulp
    rw [abs_of_pos hxg, max_eq_left hxg2, div_eq_mul_one_div, ← hu]
    exact mul_le_mul_of_nonneg_right hxg1 hu0.le
  have e3 : |x / γ - T / γ| ≤ T / γ * (k + 3 / 2 * u) := by
    rw [← sub_div, abs_div, abs_of_pos hγ0, div_mul_eq_mul_div]
    exact div_le_div_of_nonneg_right ex' hγ0.le
  have e4 : Binary32.toReal ((b0 + norm2 / ((2 : Nat) : Binary32)) / g) - T / γ =
    (Binary32.toReal ((b0 + norm2 / ((2 : Nat) : Binary32)) / g) - x / γ) + (x / γ - T / γ) := by ring
  rw [e4]
  refine (abs_add_le _ _).trans ?_
  have e5 : ((m : ℝ) + 3) / 2 ^ 23 = k + 4 * u := by rw [hk, hu]; ring
  rw [e5]
  have hTγ : 0 ≤ T / γ := (div_pos hT0 hγ0).le
  have e6 : T / γ * (k + 4 * u) = T / γ * (3 / 2) * u + T / γ * (k + 3 / 2 * u) + T / γ * u := by ring
  have e7 : 0 ≤ T / γ * u := mul_nonneg hTγ hu0.le
  linarith

end Bartz
