import Verif.Lemmas.PowerScale
/-! # The settings of `gbart` in single precision and powers of two -/

set_option autoImplicit false

namespace Bartz
open Jax Spec

section
variable {K F P : Type} [KeyLike K] [Inhabited F] [Zero F] [One F] [Add F] [Sub F] [Mul F] [Div F]
  [Neg F] [NatCast F] [FltFun F] [Field P] [LinearOrder P]

/-- The attributes of the object are those determined from the settings and from the run. -/
theorem gbart_fields {lib : Lib F P} {rng : Rng K F} {a : GbartArgs K F} {g : Gbart F P} (h : gbart lib rng a = some g) :
    ∃ sp, determine_splits lib a.x_train.x a.x_train.n a.usequants a.numcut = some sp ∧
      g.offset = (gbart_settings lib a).offset ∧ g.scale = (gbart_settings lib a).scale ∧ g.lamda = (gbart_settings lib a).lamda ∧
      g.sigest = (gbart_settings lib a).sigest ∧ g.splits = sp.splits ∧ g.x_train_fmt = predictor_format a.x_train ∧
      g.main_trace = (run_mcmc rng (init (gbart_init_args lib a sp)) a.nskip a.ndpost a.keepevery a.key).main_trace ∧
      g.mcmc_state = (run_mcmc rng (init (gbart_init_args lib a sp)) a.nskip a.ndpost a.keepevery a.key).bart ∧
      extract_sigma (run_mcmc rng (init (gbart_init_args lib a sp)) a.nskip a.ndpost a.keepevery a.key).main_trace
        (gbart_settings lib a).scale = some g.sigma ∧
      extract_sigma (run_mcmc rng (init (gbart_init_args lib a sp)) a.nskip a.ndpost a.keepevery a.key).burnin_trace
        (gbart_settings lib a).scale = some g.first_sigma := by
  unfold gbart at h
  simp only [Option.bind_eq_bind, Option.bind_eq_some_iff] at h
  obtain ⟨_, _, sp, h1, sigma, h2, first_sigma, h3, h⟩ := h
  refine ⟨sp, h1, ?_⟩
  cases hx : a.x_test with
  | none =>
    rw [hx] at h
    cases h
    exact ⟨rfl, rfl, rfl, rfl, rfl, rfl, rfl, rfl, h2, h3⟩
  | some x =>
    rw [hx] at h
    simp only [Option.bind_eq_some_iff] at h
    obtain ⟨yhat, _, h⟩ := h
    cases h
    exact ⟨rfl, rfl, rfl, rfl, rfl, rfl, rfl, rfl, h2, h3⟩

end

section
open Jax.Binary32
variable {K P : Type} [Binary32.Platform] {j : Nat}

omit [Binary32.Platform] in
theorem unless_iff {x x' : Binary32} : TimesPowUnless j x x' ↔ Scales j x x' :=
  ⟨fun h hf => h _ (hasValue_iff.2 ⟨hf, rfl⟩), fun h _ hv => h (hasValue_iff.1 hv).1⟩

omit [Binary32.Platform] in
theorem multiple_of_value {y : Binary32} (h : ∀ v, HasValue y v → v = 0 ∨ 1 / 2 ^ 79 ≤ |v|) (hf : Binary32.Finite y) : Multiple 47 y := by
  rintro s b rfl
  refine multiple_of_large ?_
  rcases h _ (hasValue_iff.2 ⟨hf, rfl⟩) with h | h
  · left
    rw [← abs_eq_zero, toReal_abs, div_eq_zero_iff] at h
    rcases h with h | h
    · exact_mod_cast h
    · norm_num at h
  · right
    rw [toReal_abs, le_div_iff₀ (by positivity)] at h
    have : ((2 ^ (47 + 23) : Nat) : ℝ) ≤ mag b := by
      refine _root_.le_trans ?_ h
      norm_num
    exact Nat.cast_le.1 this

omit [Binary32.Platform] in
theorem finite_left {x x' : Binary32} (h : TimesPow j x x') : Binary32.Finite x ∧ Binary32.Finite x' := by
  obtain ⟨s, b, b', rfl, rfl, hb, hb', _⟩ := timesPow_iff.1 h
  exact ⟨hb, hb'⟩

omit [Binary32.Platform] in
theorem forall₂_finite {ys ys' : List Binary32} (h : List.Forall₂ (TimesPow j) ys ys') : ∀ y ∈ ys, Binary32.Finite y := by
  induction h with
  | nil => simp
  | cons h _ ih =>
    intro y hy
    rcases List.mem_cons.1 hy with rfl | hy
    · exact (finite_left h).1
    · exact ih y hy

omit [Binary32.Platform] in
theorem mean_scale {ys ys' : List Binary32} (h : List.Forall₂ (TimesPow j) ys ys') (hn : ys.length ≤ 2 ^ 24)
    (hy : ∀ y ∈ ys, ∀ v, HasValue y v → v = 0 ∨ 1 / 2 ^ 79 ≤ |v|) : Scales j (Jax.mean ys) (Jax.mean ys') := by
  unfold Jax.mean
  rw [← h.length_eq]
  refine (Scales.sum h).div fun hf _ h0 => ?_
  have hm : Multiple 47 (Jax.sum ys) := Multiple.sum (by norm_num) (fun y hy' => multiple_of_value (hy y hy') (forall₂_finite h y hy')) hf
  refine hm.noUnderflow hf h0 ?_
  rw [(natCast_exact hn).2, abs_of_nonneg (Nat.cast_nonneg _)]
  exact_mod_cast hn

omit [Binary32.Platform] in
theorem offset_scale {ys ys' : List Binary32} {o o' : Option Binary32} (h : List.Forall₂ (TimesPow j) ys ys') (hn : ys.length ≤ 2 ^ 24)
    (hy : ∀ y ∈ ys, ∀ v, HasValue y v → v = 0 ∨ 1 / 2 ^ 79 ≤ |v|) (ho : Option.Rel (TimesPow j) o o') :
    Scales j (process_offset_settings ys o) (process_offset_settings ys' o') := by
  cases ho with
  | some h => exact fun _ => h
  | none =>
    unfold process_offset_settings
    dsimp only
    rw [← h.length_eq]
    split_ifs
    · exact fun _ => timesPow_zero _ _
    · exact mean_scale h hn hy

theorem scale_scale {ys ys' : List Binary32} {k : Binary32} (h : List.Forall₂ (TimesPow j) ys ys') (hn : 2 ≤ ys.length)
    (hy : ∀ y ∈ ys, ∀ v, HasValue y v → v = 0 ∨ 1 / 2 ^ 79 ≤ |v|) {κ : ℝ} (hk : HasValue k κ) (hκ : |κ| ≤ 2 ^ 22) :
    Scales j (process_scale_settings ys k) (process_scale_settings ys' k) := by
  unfold process_scale_settings
  rw [← h.length_eq, if_neg (by omega), if_neg (by omega)]
  have h1 := maxF_scale h
  have h2 := minF_scale h
  refine (Scales.sub (fun _ => h1) fun _ => h2).div fun hf _ h0 => ?_
  have hmul : ∀ y ∈ ys, Multiple 47 y := fun y hy' => multiple_of_value (hy y hy') (forall₂_finite h y hy')
  have hm : Multiple 47 (Jax.maxF ys - Jax.minF ys) := by
    cases ys with
    | nil => simp at hn
    | cons y ys => exact (hmul _ maxF_mem).add (by norm_num) (hmul _ minF_mem).neg hf
  refine hm.noUnderflow hf h0 ?_
  rw [hasValue_iff] at hk
  obtain ⟨k1, k2⟩ := hk
  obtain ⟨n1, n2⟩ := natCast_exact (n := 2) (by norm_num)
  have e : |toReal ((2 : Nat) : Binary32) * toReal k| ≤ 2 ^ 23 := by
    rw [n2, k2, abs_mul, abs_of_nonneg (Nat.cast_nonneg _)]
    push_cast
    linarith
  obtain ⟨e1, e2⟩ := mul_error n1 k1 (e.trans (by norm_num))
  have e3 := ulp_le e (by norm_num)
  have e4 := abs_sub_abs_le_abs_sub (toReal (((2 : Nat) : Binary32) * k)) (toReal ((2 : Nat) : Binary32) * toReal k)
  norm_num at e e3 ⊢
  norm_num at e2 e4
  linarith

omit [Binary32.Platform] in
theorem timesPow_refl {x : Binary32} (h : Binary32.Finite x) : TimesPow 0 x x := by
  cases x with
  | nan => exact h.elim
  | num s b => exact TimesPow.mk h h (by rw [pow_zero, one_mul])

omit [Binary32.Platform] in
theorem forall₂_map {α β γ δ : Type} {R : α → β → Prop} {S : γ → δ → Prop} {f : α → γ} {g : β → δ} (H : ∀ a b, R a b → S (f a) (g b))
    {as : List α} {bs : List β} (h : List.Forall₂ R as bs) : List.Forall₂ S (as.map f) (bs.map g) := by
  induction h with
  | nil => exact .nil
  | cons h _ ih => exact .cons (H _ _ h) ih

omit [Binary32.Platform] in
theorem sum_scale {ys ys' : List Binary32} (h : List.Forall₂ (Scales j) ys ys') : Scales j (Jax.sum ys) (Jax.sum ys') := by
  unfold Jax.sum
  have : ∀ (x x' : Binary32), Scales j x x' → Scales j (ys.foldl (· + ·) x) (ys'.foldl (· + ·) x') := by
    induction h with
    | nil => exact fun _ _ h => h
    | cons h _ ih => exact fun x x' hx => ih _ _ (hx.add h)
  exact this _ _ fun _ => timesPow_zero _ _

omit [Binary32.Platform] in
/-- the variance: the sum has to be zero or large enough to be divided by the number of values, and the deviations zero or large enough to be
squared -/
theorem var_scale {ys ys' : List Binary32} (h : List.Forall₂ (Scales j) ys ys') (hn : ys.length ≤ 2 ^ 24)
    (hs : ∀ v, HasValue (Jax.sum ys) v → v = 0 ∨ 1 / 2 ^ 102 ≤ |v|)
    (hd : ∀ y ∈ ys, ∀ v, HasValue (y - Jax.mean ys) v → v = 0 ∨ 1 / 2 ^ 63 ≤ |v|)
    (hu : ∀ s b, Jax.var ys = num s b → 2 ^ 23 < b.val) : Scales (2 * j) (Jax.var ys) (Jax.var ys') := by
  have hm : Scales j (Jax.mean ys) (Jax.mean ys') := by
    unfold Jax.mean
    rw [← h.length_eq]
    refine (sum_scale h).div fun hf _ h0 => ?_
    rw [(natCast_exact hn).2] at h0 ⊢
    rcases hs _ (hasValue_iff.2 ⟨hf, rfl⟩) with h1 | h1
    · left; rw [h1, zero_div]
    · right
      have hp : (0 : ℝ) < (ys.length : ℝ) := lt_of_le_of_ne (Nat.cast_nonneg _) h0.symm
      have hle : (ys.length : ℝ) ≤ 2 ^ 24 := by exact_mod_cast hn
      rw [abs_div, abs_of_pos hp, le_div_iff₀ hp]
      calc (1 : ℝ) / 2 ^ 126 * ys.length ≤ 1 / 2 ^ 126 * 2 ^ 24 := mul_le_mul_of_nonneg_left hle (by positivity)
        _ = 1 / 2 ^ 102 := by norm_num
        _ ≤ _ := h1
  have hsq : List.Forall₂ (Scales (2 * j)) (ys.map fun v => (v - Jax.mean ys) * (v - Jax.mean ys))
      (ys'.map fun v => (v - Jax.mean ys') * (v - Jax.mean ys')) := by
    generalize Jax.mean ys = m at hm hd
    generalize Jax.mean ys' = m' at hm
    clear hs hu hn
    induction h with
    | nil => exact .nil
    | cons h _ ih =>
      refine .cons ?_ (ih fun y hy => hd y (List.mem_cons_of_mem _ hy))
      rw [two_mul]
      refine Scales.mul (h.sub hm) (h.sub hm) fun f _ => ?_
      rcases hd _ List.mem_cons_self _ (hasValue_iff.2 ⟨f, rfl⟩) with h1 | h1
      · left; rw [h1, zero_mul]
      · right
        rw [abs_mul]
        calc (1 : ℝ) / 2 ^ 126 = 1 / 2 ^ 63 * (1 / 2 ^ 63) := by norm_num
          _ ≤ _ := mul_le_mul h1 h1 (by positivity) (abs_nonneg _)
  unfold Jax.var at hu ⊢
  dsimp only at hu ⊢
  unfold Jax.mean at hu hsq ⊢
  rw [List.length_map] at hu
  rw [List.length_map, List.length_map]
  rw [← h.length_eq] at hsq ⊢
  exact (sum_scale hsq).div fun h1 h2 h3 => div_noUnderflow h1 h2 h3 hu

omit [Binary32.Platform] in
/-- the estimate of the variance -/
theorem sigest2_scale {lib : Lib Binary32 P} {x : List (List Binary32)} {ys ys' : List Binary32} {sg sg' : Option Binary32} {o o' : Binary32}
    (h : List.Forall₂ (TimesPow j) ys ys') (hn : ys.length ≤ 2 ^ 24) (hn2 : 2 ≤ ys.length)
    (hy : ∀ y ∈ ys, ∀ v, HasValue y v → v = 0 ∨ 1 / 2 ^ 79 ≤ |v|) (hsg : Option.Rel (TimesPow j) sg sg')
    (ho : Scales j o o') (hv : sg = none → ys.length ≤ x.length →
      (∀ v, HasValue (Jax.sum (ys.map fun y => y - o)) v → v = 0 ∨ 1 / 2 ^ 102 ≤ |v|) ∧
      ∀ y ∈ ys, ∀ v, HasValue (y - o - Jax.mean (ys.map fun y => y - o)) v → v = 0 ∨ 1 / 2 ^ 63 ≤ |v|)
    (hl : sg = none → x.length < ys.length → ∀ b b', b = ys.map (fun v => v - Jax.mean ys) → b' = ys'.map (fun v => v - Jax.mean ys') →
      List.Forall₂ (TimesPowUnless j) b b' →
      (lib.lstsq (center_predictors x ys.length) b').2 = (lib.lstsq (center_predictors x ys.length) b).2 ∧
      TimesPowUnless (2 * j) (lib.lstsq (center_predictors x ys.length) b).1 (lib.lstsq (center_predictors x ys.length) b').1)
    (hu : ∀ s b, process_sigest2 lib x ys sg o = num s b → 2 ^ 23 < b.val) :
    Scales (2 * j) (process_sigest2 lib x ys sg o) (process_sigest2 lib x ys' sg' o') := by
  cases hsg with
  | some hs =>
    rename_i s s'
    change ∀ t b, s * s = num t b → _ at hu
    change Scales (2 * j) (s * s) (s' * s')
    rw [two_mul]
    exact Scales.mul (fun _ => hs) (fun _ => hs) fun h1 h2 => mul_noUnderflow h1 h2 hu
  | none =>
    unfold process_sigest2 at hu ⊢
    dsimp only at hu ⊢
    have h2 : ¬ ys.length < 2 := by omega
    rw [if_neg h2] at hu
    rw [← h.length_eq, if_neg h2, if_neg h2]
    by_cases hp : ys.length ≤ x.length
    · rw [if_pos hp] at hu
      rw [if_pos hp, if_pos hp]
      obtain ⟨v1, v2⟩ := hv rfl hp
      refine var_scale (forall₂_map (fun a b hab => Scales.sub (fun _ => hab) ho) h) (by rwa [List.length_map]) v1 ?_ hu
      intro y hy
      obtain ⟨z, hz, rfl⟩ := List.mem_map.1 hy
      exact v2 z hz
    · rw [if_neg hp] at hu
      rw [if_neg hp, if_neg hp]
      have hl := hl rfl (by omega) _ _ rfl rfl (forall₂_map (fun a b hab => unless_iff.2 ((Scales.sub (fun _ => hab) (mean_scale h hn hy)))) h)
      rw [hl.1]
      exact (unless_iff.1 hl.2).div fun h1 h2 h3 => div_noUnderflow h1 h2 h3 hu

end

end Bartz
