import Verif.Spec.InvGamma
import Verif.Lemmas.Normal
import Mathlib.MeasureTheory.Function.JacobianOneDim
/-! # The posterior of the noise variance -/

set_option autoImplicit false

namespace Spec
open MeasureTheory ProbabilityTheory

theorem sqrt_pow_inv {x : ℝ} (hx : 0 < x) (n : ℕ) :
    ((Real.sqrt x)⁻¹) ^ n = x ^ (-(n : ℝ) / 2) := by
  rw [← Real.sqrt_inv, Real.sqrt_eq_rpow, ← Real.rpow_natCast, ← Real.rpow_mul (by positivity),
    Real.inv_rpow hx.le, ← Real.rpow_neg hx.le]
  congr 1
  ring

theorem isSigmaPosterior {a b : ℝ} (ha : 0 < a) (hb : 0 < b) (r : List ℝ) :
    IsSigmaPosterior a b r (a + r.length / 2) (b + sumSq r / 2) := by
  have hS : 0 ≤ sumSq r := by
    unfold sumSq
    apply List.sum_nonneg
    intro y hy
    rw [List.mem_map] at hy
    obtain ⟨z, _, rfl⟩ := hy
    exact mul_self_nonneg z
  have ha' : 0 < a + r.length / 2 := by positivity
  have hb' : 0 < b + sumSq r / 2 := by positivity
  refine ⟨(b ^ a / Real.Gamma a) * (2 * Real.pi) ^ (-(r.length : ℝ) / 2) /
    ((b + sumSq r / 2) ^ (a + r.length / 2 : ℝ) / Real.Gamma (a + r.length / 2)), ?_, ?_⟩
  · have h1 := Real.Gamma_pos_of_pos ha
    have h2 := Real.Gamma_pos_of_pos ha'
    positivity
  · intro x
    unfold sigmaJoint invGammaPdf
    split_ifs with hx
    · rw [prod_pdf hx, sqrt_pow_inv (by positivity), Real.mul_rpow (by positivity) hx.le]
      have h1 := (Real.Gamma_pos_of_pos ha).ne'
      have h2 := (Real.Gamma_pos_of_pos ha').ne'
      have h3 : (b + sumSq r / 2) ^ (a + r.length / 2 : ℝ) ≠ 0 := (Real.rpow_pos_of_pos hb' _).ne'
      have e1 : x ^ (-(a + r.length / 2) - 1 : ℝ) = x ^ (-a - 1) * x ^ (-(r.length : ℝ) / 2) := by
        rw [← Real.rpow_add hx]; congr 1; ring
      have e2 : Real.exp (-(b + sumSq r / 2) / x) = Real.exp (-b / x) *
          Real.exp (-(sumSq r - 2 * r.sum * 0 + r.length * 0 ^ 2) / (2 * x)) := by
        rw [← Real.exp_add]; congr 1; field_simp; ring
      rw [e1, e2]
      field_simp
    · simp

/-- Scale divided by a gamma variate is an inverse gamma variate. -/
theorem map_div_gamma {a b : ℝ} (ha : 0 < a) (hb : 0 < b) :
    (gammaMeasure a 1).map (fun g => b / g) =
      volume.withDensity (fun x => ENNReal.ofReal (invGammaPdf a b x)) := by
  have hmeas : Measurable (fun g : ℝ => b / g) := by fun_prop
  ext E hE
  rw [Measure.map_apply hmeas hE, withDensity_apply _ hE]
  unfold gammaMeasure
  rw [withDensity_apply _ (hmeas hE)]
  -- restrict to positive values
  have e1 : ∫⁻ g in (fun g => b / g) ⁻¹' E, gammaPDF a 1 g =
      ∫⁻ g in (fun g => b / g) ⁻¹' E ∩ Set.Ioi 0, gammaPDF a 1 g := by
    rw [← lintegral_inter_add_sdiff _ ((fun g => b / g) ⁻¹' E) (measurableSet_Ioi (a := (0 : ℝ)))]
    have : ∫⁻ g in (fun g => b / g) ⁻¹' E \ Set.Ioi 0, gammaPDF a 1 g = 0 := by
      show ∫⁻ g in (fun g => b / g) ⁻¹' E \ Set.Ioi 0, ENNReal.ofReal (gammaPDFReal a 1 g) = 0
      rw [setLIntegral_eq_zero_iff ((hmeas hE).diff measurableSet_Ioi)
        (measurable_gammaPDFReal a 1).ennreal_ofReal]
      have h0 : ∀ᵐ x : ℝ, x ≠ 0 := by
        simp [ae_iff]
      filter_upwards [h0] with x hx0 hx
      show gammaPDF a 1 x = 0
      apply gammaPDF_of_neg
      have : ¬ 0 < x := hx.2
      exact lt_of_le_of_ne (not_lt.1 this) hx0
    rw [this, add_zero]
  have e2 : ∫⁻ x in E, ENNReal.ofReal (invGammaPdf a b x) =
      ∫⁻ x in E ∩ Set.Ioi 0, ENNReal.ofReal (invGammaPdf a b x) := by
    rw [← lintegral_inter_add_sdiff _ E (measurableSet_Ioi (a := (0 : ℝ)))]
    have : ∫⁻ x in E \ Set.Ioi 0, ENNReal.ofReal (invGammaPdf a b x) = 0 := by
      rw [setLIntegral_congr_fun (g := fun _ => 0) (hE.diff measurableSet_Ioi)]
      · simp
      · intro x hx
        have : ¬ 0 < x := hx.2
        simp [invGammaPdf, this]
    rw [this, add_zero]
  have himg : (fun g => b / g) ⁻¹' E ∩ Set.Ioi 0 = (fun x => b / x) '' (E ∩ Set.Ioi 0) := by
    ext g
    constructor
    · rintro ⟨h1, h2⟩
      have h2' : 0 < g := h2
      refine ⟨b / g, ⟨h1, div_pos hb h2'⟩, ?_⟩
      field_simp
    · rintro ⟨x, ⟨h1, h2⟩, rfl⟩
      have h2' : 0 < x := h2
      refine ⟨?_, div_pos hb h2'⟩
      show b / (b / x) ∈ E
      have : b / (b / x) = x := by field_simp
      rw [this]; exact h1
  rw [e1, e2, himg, lintegral_image_eq_lintegral_abs_deriv_mul (f := fun x => b / x)
    (f' := fun x => -b / x ^ 2) (hE.inter measurableSet_Ioi)]
  · apply setLIntegral_congr_fun (hE.inter measurableSet_Ioi)
    rintro x ⟨_, hx⟩
    have hx' : 0 < x := hx
    have hg : 0 < b / x := div_pos hb hx'
    show ENNReal.ofReal |-b / x ^ 2| * gammaPDF a 1 (b / x) = ENNReal.ofReal (invGammaPdf a b x)
    rw [gammaPDF_of_nonneg hg.le, ← ENNReal.ofReal_mul (abs_nonneg _)]
    congr 1
    unfold invGammaPdf
    rw [if_pos hx', neg_div, abs_neg, abs_of_pos (by positivity), Real.div_rpow hb.le hx'.le,
      Real.one_rpow, one_mul]
    have h1 : x ^ (-a - 1) = (x ^ (a - 1))⁻¹ * (x ^ 2)⁻¹ := by
      rw [← Real.rpow_neg hx'.le, ← Real.rpow_natCast, ← Real.rpow_neg hx'.le, ← Real.rpow_add hx']
      congr 1; push_cast; ring
    have h2 : b ^ a = b ^ (a - 1) * b := by
      conv_lhs => rw [show a = (a - 1) + 1 by ring]
      rw [Real.rpow_add_one hb.ne']
    have h3 := (Real.Gamma_pos_of_pos ha).ne'
    have h4 := (Real.rpow_pos_of_pos hx' (a - 1)).ne'
    rw [h1, h2]
    have h5 : -b / x = -(b / x) := by ring
    rw [h5]
    field_simp
  · rintro x ⟨_, hx⟩
    have hx' : x ≠ 0 := ne_of_gt hx
    have := ((hasDerivAt_inv hx').const_mul b).hasDerivWithinAt (s := E ∩ Set.Ioi 0)
    have e : b * -(x ^ 2)⁻¹ = -b / x ^ 2 := by field_simp
    rw [e] at this
    simpa only [div_eq_mul_inv] using this
  · rintro x ⟨_, hx⟩ y ⟨_, hy⟩ hxy
    have hx' : 0 < x := hx
    have hy' : 0 < y := hy
    have hxy' : b / x = b / y := hxy
    field_simp at hxy'
    linarith

theorem measurable_invGammaPdf (a b : ℝ) : Measurable (invGammaPdf a b) := by
  unfold invGammaPdf
  refine Measurable.ite measurableSet_Ioi ?_ measurable_const
  exact (measurable_const.mul (measurable_id.pow_const _)).mul ((measurable_const.div measurable_id).exp)

theorem invGammaPdf_nonneg {α β : ℝ} (hα : 0 < α) (hβ : 0 < β) (v : ℝ) : 0 ≤ invGammaPdf α β v := by
  unfold invGammaPdf
  split_ifs with h
  · have := Real.Gamma_pos_of_pos hα
    positivity
  · exact le_refl _

end Spec
