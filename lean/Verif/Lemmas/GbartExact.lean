import Verif.Lemmas.Gbart
import Verif.Lemmas.Regression
import Verif.Lemmas.Counts
/-! # Lemmas on the settings of `gbart` in exact arithmetic -/

set_option autoImplicit false

namespace Bartz
open Jax Spec Finset

theorem list_sum_eq (l : List ℝ) : l.sum = ∑ i ∈ range l.length, l.getD i 0 := by
  induction l with
  | nil => simp
  | cons x l ih =>
    rw [List.sum_cons, ih, List.length_cons, Finset.sum_range_succ', add_comm]
    simp

theorem mean_eq (y : List ℝ) : Jax.mean y = sampleMean y.length fun i => y.getD i 0 := by
  unfold Jax.mean sampleMean
  rw [jaxSum_eq, list_sum_eq]

theorem getD_map_real (f : ℝ → ℝ) (y : List ℝ) {i : Nat} (hi : i < y.length) (d : ℝ) :
    (y.map f).getD i d = f (y.getD i 0) := by
  rw [List.getD_eq_getElem _ _ (by simpa using hi), List.getElem_map, List.getD_eq_getElem _ _ hi]

theorem sampleMean_congr {n : Nat} {b b' : Nat → ℝ} (h : ∀ i, i < n → b i = b' i) :
    sampleMean n b = sampleMean n b' := by
  unfold sampleMean
  rw [Finset.sum_congr rfl fun i hi => h i (Finset.mem_range.1 hi)]

theorem sampleMean_affine {n : Nat} (hn : 0 < n) (b : Nat → ℝ) (c d : ℝ) :
    (sampleMean n fun i => c * b i + d) = c * sampleMean n b + d := by
  have hn' : (n : ℝ) ≠ 0 := by positivity
  unfold sampleMean
  rw [Finset.sum_add_distrib, ← Finset.mul_sum, Finset.sum_const, Finset.card_range, nsmul_eq_mul]
  field_simp

theorem mean_affine {y : List ℝ} (hy : 0 < y.length) (c d : ℝ) :
    Jax.mean (y.map fun v => c * v + d) = c * Jax.mean y + d := by
  rw [mean_eq, mean_eq, ← sampleMean_affine hy, List.length_map]
  exact sampleMean_congr fun i hi => getD_map_real _ y hi 0

theorem var_eq (y : List ℝ) : Jax.var y = sampleVar y.length fun i => y.getD i 0 := by
  unfold Jax.var sampleVar
  simp only
  rw [mean_eq, mean_eq y, List.length_map]
  refine sampleMean_congr fun i hi => ?_
  rw [getD_map_real _ y hi]
  ring

theorem sampleVar_affine {n : Nat} (hn : 0 < n) (b : Nat → ℝ) (c d : ℝ) :
    (sampleVar n fun i => c * b i + d) = c ^ 2 * sampleVar n b := by
  unfold sampleVar
  have e := sampleMean_affine hn (fun i => (b i - sampleMean n b) ^ 2) (c ^ 2) 0
  rw [add_zero] at e
  rw [← e, sampleMean_affine hn]
  refine sampleMean_congr fun i _ => ?_
  ring

theorem sampleVar_congr {n : Nat} {b b' : Nat → ℝ} (h : ∀ i, i < n → b i = b' i) :
    sampleVar n b = sampleVar n b' := by
  unfold sampleVar
  rw [sampleMean_congr h]
  exact sampleMean_congr fun i hi => by rw [h i hi]

theorem var_affine {y : List ℝ} (hy : 0 < y.length) (c d : ℝ) :
    Jax.var (y.map fun v => c * v + d) = c ^ 2 * Jax.var y := by
  rw [var_eq, var_eq, ← sampleVar_affine hy _ c d, List.length_map]
  exact sampleVar_congr fun i hi => getD_map_real _ y hi 0

theorem foldl_max_spec (xs : List ℝ) : ∀ x : ℝ,
    IsGreatest {v | v ∈ x :: xs} (xs.foldl (fun a b => if FltFun.leb a b then b else a) x) := by
  induction xs with
  | nil =>
    intro x
    exact ⟨by simp, fun v hv => by simp_all⟩
  | cons z zs ih =>
    intro x
    rw [List.foldl_cons]
    by_cases h : x ≤ z
    · rw [if_pos (by simpa using h)]
      obtain ⟨h1, h2⟩ := ih z
      refine ⟨?_, ?_⟩
      · exact List.mem_cons_of_mem _ h1
      · intro v hv
        rcases List.mem_cons.1 hv with rfl | hv
        · exact h.trans (h2 (List.mem_cons_self ..))
        · exact h2 hv
    · rw [if_neg (by simpa using h)]
      obtain ⟨h1, h2⟩ := ih x
      refine ⟨?_, ?_⟩
      · rcases List.mem_cons.1 h1 with h1 | h1
        · rw [h1]; exact List.mem_cons_self ..
        · exact List.mem_cons_of_mem _ (List.mem_cons_of_mem _ h1)
      · intro v hv
        rcases List.mem_cons.1 hv with rfl | hv
        · exact h2 (List.mem_cons_self ..)
        · rcases List.mem_cons.1 hv with rfl | hv
          · exact (not_le.1 h).le.trans (h2 (List.mem_cons_self ..))
          · exact h2 (List.mem_cons_of_mem _ hv)

theorem foldl_min_spec (xs : List ℝ) : ∀ x : ℝ,
    IsLeast {v | v ∈ x :: xs} (xs.foldl (fun a b => if FltFun.leb a b then a else b) x) := by
  induction xs with
  | nil =>
    intro x
    exact ⟨by simp, fun v hv => by simp_all⟩
  | cons z zs ih =>
    intro x
    rw [List.foldl_cons]
    by_cases h : x ≤ z
    · rw [if_pos (by simpa using h)]
      obtain ⟨h1, h2⟩ := ih x
      refine ⟨?_, ?_⟩
      · rcases List.mem_cons.1 h1 with h1 | h1
        · rw [h1]; exact List.mem_cons_self ..
        · exact List.mem_cons_of_mem _ (List.mem_cons_of_mem _ h1)
      · intro v hv
        rcases List.mem_cons.1 hv with rfl | hv
        · exact h2 (List.mem_cons_self ..)
        · rcases List.mem_cons.1 hv with rfl | hv
          · exact (h2 (List.mem_cons_self ..)).trans h
          · exact h2 (List.mem_cons_of_mem _ hv)
    · rw [if_neg (by simpa using h)]
      obtain ⟨h1, h2⟩ := ih z
      refine ⟨?_, ?_⟩
      · exact List.mem_cons_of_mem _ h1
      · intro v hv
        rcases List.mem_cons.1 hv with rfl | hv
        · exact (h2 (List.mem_cons_self ..)).trans (not_le.1 h).le
        · exact h2 hv

theorem maxF_spec {y : List ℝ} (hy : y ≠ []) : IsGreatest {v | v ∈ y} (Jax.maxF y) := by
  match y, hy with
  | x :: xs, _ => exact foldl_max_spec xs x

theorem minF_spec {y : List ℝ} (hy : y ≠ []) : IsLeast {v | v ∈ y} (Jax.minF y) := by
  match y, hy with
  | x :: xs, _ => exact foldl_min_spec xs x

theorem maxF_affine {y : List ℝ} (hy : y ≠ []) {c : ℝ} (hc : 0 < c) (d : ℝ) :
    Jax.maxF (y.map fun v => c * v + d) = c * Jax.maxF y + d := by
  have h1 := maxF_spec hy
  have h2 := maxF_spec (y := y.map fun v => c * v + d) (by simpa using hy)
  refine h2.unique ⟨?_, ?_⟩
  · exact List.mem_map.2 ⟨_, h1.1, rfl⟩
  · rintro _ hv
    obtain ⟨v, hv', rfl⟩ := List.mem_map.1 hv
    have := h1.2 hv'
    gcongr

theorem minF_affine {y : List ℝ} (hy : y ≠ []) {c : ℝ} (hc : 0 < c) (d : ℝ) :
    Jax.minF (y.map fun v => c * v + d) = c * Jax.minF y + d := by
  have h1 := minF_spec hy
  have h2 := minF_spec (y := y.map fun v => c * v + d) (by simpa using hy)
  refine h2.unique ⟨?_, ?_⟩
  · exact List.mem_map.2 ⟨_, h1.1, rfl⟩
  · rintro _ hv
    obtain ⟨v, hv', rfl⟩ := List.mem_map.1 hv
    have := h1.2 hv'
    gcongr

section
variable {K P : Type} [KeyLike K] [Field P] [LinearOrder P]

omit [KeyLike K] in
theorem offset_affine {a : GbartArgs K ℝ} (hn : 0 < a.y_train.length) (c d : ℝ) :
    process_offset_settings (affineArgs c d a).y_train (affineArgs c d a).offset =
      c * process_offset_settings a.y_train a.offset + d := by
  unfold process_offset_settings affineArgs
  cases a.offset with
  | some v => rfl
  | none =>
    simp only [Option.map_none, List.length_map]
    rw [if_neg (by omega), if_neg (by omega), mean_affine hn]

theorem scale_affine {y : List ℝ} (hn : 2 ≤ y.length) {c : ℝ} (hc : 0 < c) (d k : ℝ) :
    process_scale_settings (y.map fun v => c * v + d) k = c * process_scale_settings y k := by
  have hy : y ≠ [] := by rintro rfl; simp at hn
  unfold process_scale_settings
  rw [List.length_map, if_neg (by omega), if_neg (by omega), maxF_affine hy hc, minF_affine hy hc]
  ring

theorem center_rows (x : List (List ℝ)) (n : Nat) :
    (center_predictors x n).length = n ∧ ∀ row ∈ center_predictors x n, row.length = x.length := by
  constructor
  · simp [center_predictors, length_vmap]
  · intro row hr
    simp only [center_predictors, vmap, List.mem_map] at hr
    obtain ⟨i, -, rfl⟩ := hr
    simp

omit [LinearOrder P] [Field P] in
theorem sigest2_affine (lib : Lib ℝ P) (hl : LawfulLstsq lib.lstsq) (x : List (List ℝ)) {y : List ℝ}
    (hn : 2 ≤ y.length) (sigest : Option ℝ) (offset : ℝ) {c : ℝ} (hc : 0 < c) (d : ℝ) :
    process_sigest2 lib x (y.map fun v => c * v + d) (sigest.map fun v => c * v) (c * offset + d) =
      c ^ 2 * process_sigest2 lib x y sigest offset := by
  unfold process_sigest2
  cases sigest with
  | some v => simp only [Option.map_some]; ring
  | none =>
    simp only [Option.map_none, List.length_map]
    have h2 : ¬ y.length < 2 := by omega
    rw [if_neg h2, if_neg h2]
    split
    · have e : (y.map fun v => c * v + d).map (fun v => v - (c * offset + d)) =
          (y.map fun v => v - offset).map fun v => c * v + 0 := by
        rw [List.map_map, List.map_map]
        refine List.map_congr_left fun v _ => ?_
        simp only [Function.comp]
        ring
      rw [e, var_affine (by rw [List.length_map]; omega)]
    · have e : (y.map fun v => c * v + d).map (fun v => v - Jax.mean (y.map fun v => c * v + d)) =
          (y.map fun v => v - Jax.mean y).map fun v => c * v := by
        rw [List.map_map, List.map_map, mean_affine (by omega)]
        refine List.map_congr_left fun v _ => ?_
        simp only [Function.comp]
        ring
      rw [e]
      obtain ⟨hc1, hc2⟩ := center_rows x y.length
      obtain ⟨h1, r1⟩ := hl y.length x.length (center_predictors x y.length)
        (y.map fun v => v - Jax.mean y) hc1 (by simp) hc2
      obtain ⟨h2, r2⟩ := hl y.length x.length (center_predictors x y.length)
        ((y.map fun v => v - Jax.mean y).map fun v => c * v) hc1 (by simp) hc2
      have e2 : ∀ β, residualSS y.length x.length (entry (center_predictors x y.length))
          (fun i => ((y.map fun v => v - Jax.mean y).map fun v => c * v).getD i 0) β =
          residualSS y.length x.length (entry (center_predictors x y.length))
          (fun i => c * (y.map fun v => v - Jax.mean y).getD i 0) β := by
        intro β
        refine Finset.sum_congr rfl fun i hi => ?_
        simp only
        rw [getD_map_real _ _ (by simpa using hi)]
      simp only [e2] at h2
      rw [residualSS_scale _ _ hc _ _ h1 h2, r1, r2]
      ring

omit [LinearOrder P] [Field P] [KeyLike K] in
theorem settings_affine (lib : Lib ℝ P) (hl : LawfulLstsq lib.lstsq) {a : GbartArgs K ℝ}
    (hn : 2 ≤ a.y_train.length) {c : ℝ} (hc : 0 < c) (d : ℝ) :
    gbart_settings lib (affineArgs c d a) =
      { offset := c * (gbart_settings lib a).offset + d
        scale := c * (gbart_settings lib a).scale
        lamda := c ^ 2 * (gbart_settings lib a).lamda
        sigest := (gbart_settings lib a).sigest.map fun v => c * v
        lamda_scaled := (gbart_settings lib a).lamda_scaled } := by
  have h1 := offset_affine (a := a) (by omega) c d
  have h2 := scale_affine hn hc d a.k
  have h3 := sigest2_affine lib hl a.x_train.x hn a.sigest (process_offset_settings a.y_train a.offset) hc d
  have hc2 : c ^ 2 ≠ 0 := by positivity
  have e : ∀ l s : ℝ, c ^ 2 * l / (c * s * (c * s)) = l / (s * s) := by
    intro l s
    have : c * s * (c * s) = c ^ 2 * (s * s) := by ring
    rw [this, mul_div_mul_left _ _ hc2]
  unfold gbart_settings
  simp only [h1]
  simp only [affineArgs, h2, process_noise_variance_settings]
  cases a.lamda with
  | some l => simp only [Option.map_some, Option.map_none, e]
  | none =>
    simp only [Option.map_some, Option.map_none, h3, Real.fltFun_sqrt,
      Real.sqrt_mul (sq_nonneg c), Real.sqrt_sq hc.le]
    rw [mul_div_assoc, e]

end

end Bartz
