import Verif.Spec.Normal
import Mathlib.Tactic.FieldSimp
import Mathlib.Tactic.LinearCombination
/-! # The marginal likelihood and posterior of a leaf -/

set_option autoImplicit false

namespace Spec
open MeasureTheory ProbabilityTheory

theorem normalPdf_eq {v : ℝ} (hv : 0 < v) (m x : ℝ) :
    normalPdf m v x = (Real.sqrt (2 * Real.pi * v))⁻¹ * Real.exp (-(x - m) ^ 2 / (2 * v)) := by
  unfold normalPdf
  rw [gaussianPDFReal]
  simp [Real.coe_toNNReal _ hv.le]

/-- sum of squares -/
def sumSq (r : List ℝ) : ℝ := (r.map fun x => x * x).sum

theorem prod_pdf {s : ℝ} (hs : 0 < s) (mu : ℝ) (r : List ℝ) :
    (r.map fun x => normalPdf mu s x).prod =
      ((Real.sqrt (2 * Real.pi * s))⁻¹) ^ r.length *
        Real.exp (-(sumSq r - 2 * r.sum * mu + r.length * mu ^ 2) / (2 * s)) := by
  induction r with
  | nil => simp [sumSq]
  | cons x r ih =>
    rw [List.map_cons, List.prod_cons, ih, normalPdf_eq hs, List.length_cons, pow_succ]
    have : Real.exp (-(sumSq (x :: r) - 2 * (x :: r).sum * mu + ((r.length + 1 : ℕ) : ℝ) * mu ^ 2) /
        (2 * s)) = Real.exp (-(x - mu) ^ 2 / (2 * s)) *
        Real.exp (-(sumSq r - 2 * r.sum * mu + r.length * mu ^ 2) / (2 * s)) := by
      rw [← Real.exp_add]
      congr 1
      simp only [sumSq, List.map_cons, List.sum_cons]
      push_cast
      ring
    rw [this]; ring

/-- posterior variance -/
noncomputable def postVar (tau s : ℝ) (k : ℕ) : ℝ := 1 / (k / s + 1 / tau)

/-- the value of the marginal likelihood -/
noncomputable def margC (tau s : ℝ) (r : List ℝ) : ℝ :=
  Real.sqrt (postVar tau s r.length / tau) * ((Real.sqrt (2 * Real.pi * s))⁻¹) ^ r.length *
    Real.exp (r.sum ^ 2 * postVar tau s r.length / (2 * s ^ 2) - sumSq r / (2 * s))

theorem postVar_pos {tau s : ℝ} (ht : 0 < tau) (hs : 0 < s) (k : ℕ) : 0 < postVar tau s k := by
  unfold postVar; positivity

theorem leafJoint_eq {tau s : ℝ} (ht : 0 < tau) (hs : 0 < s) (r : List ℝ) (mu : ℝ) :
    leafJoint tau s r mu = margC tau s r *
      normalPdf (postVar tau s r.length * r.sum / s) (postVar tau s r.length) mu := by
  have hv := postVar_pos ht hs r.length
  unfold leafJoint
  rw [prod_pdf hs, normalPdf_eq ht, normalPdf_eq hv]
  unfold margC
  have e1 : Real.sqrt (postVar tau s r.length / tau) *
      (Real.sqrt (2 * Real.pi * postVar tau s r.length))⁻¹ = (Real.sqrt (2 * Real.pi * tau))⁻¹ := by
    rw [← Real.sqrt_inv, ← Real.sqrt_inv, ← Real.sqrt_mul (by positivity)]
    congr 1
    field_simp
  have e2 : Real.exp (-(mu - 0) ^ 2 / (2 * tau)) *
      Real.exp (-(sumSq r - 2 * r.sum * mu + r.length * mu ^ 2) / (2 * s)) =
      Real.exp (r.sum ^ 2 * postVar tau s r.length / (2 * s ^ 2) - sumSq r / (2 * s)) *
      Real.exp (-(mu - postVar tau s r.length * r.sum / s) ^ 2 / (2 * postVar tau s r.length)) := by
    rw [← Real.exp_add, ← Real.exp_add]
    congr 1
    have hi : 1 / postVar tau s r.length = r.length / s + 1 / tau := by
      unfold postVar; rw [one_div_one_div]
    have : -(mu - postVar tau s r.length * r.sum / s) ^ 2 / (2 * postVar tau s r.length) =
        -(mu ^ 2 * (1 / postVar tau s r.length)) / 2 + mu * r.sum / s -
          r.sum ^ 2 * postVar tau s r.length / (2 * s ^ 2) := by
      field_simp
      ring
    rw [this, hi]
    field_simp
    ring
  rw [← e1]
  calc _ = Real.sqrt (postVar tau s r.length / tau) *
      (Real.sqrt (2 * Real.pi * postVar tau s r.length))⁻¹ *
      ((Real.sqrt (2 * Real.pi * s))⁻¹) ^ r.length * (Real.exp (-(mu - 0) ^ 2 / (2 * tau)) *
      Real.exp (-(sumSq r - 2 * r.sum * mu + r.length * mu ^ 2) / (2 * s))) := by ring
    _ = _ := by rw [e2]; ring

theorem leafMarginal_eq {tau s : ℝ} (ht : 0 < tau) (hs : 0 < s) (r : List ℝ) :
    leafMarginal tau s r = margC tau s r := by
  unfold leafMarginal
  simp_rw [leafJoint_eq ht hs]
  rw [integral_const_mul]
  unfold normalPdf
  rw [integral_gaussianPDFReal_eq_one _ (by
    have := postVar_pos ht hs r.length
    simp [this]), mul_one]

theorem leafMarginal_pos {tau s : ℝ} (ht : 0 < tau) (hs : 0 < s) (r : List ℝ) :
    0 < leafMarginal tau s r := by
  rw [leafMarginal_eq ht hs]
  unfold margC
  have := postVar_pos ht hs r.length
  positivity

theorem isLeafPosterior {tau s : ℝ} (ht : 0 < tau) (hs : 0 < s) (r : List ℝ) :
    IsLeafPosterior tau s r (postVar tau s r.length * r.sum / s) (postVar tau s r.length) :=
  ⟨postVar_pos ht hs _, fun mu => by rw [leafMarginal_eq ht hs]; exact leafJoint_eq ht hs r mu⟩

theorem log_leafMarginal {tau s : ℝ} (ht : 0 < tau) (hs : 0 < s) (r : List ℝ) :
    Real.log (leafMarginal tau s r) =
      Real.log (s / (s + r.length * tau)) / 2 +
      r.length * Real.log ((Real.sqrt (2 * Real.pi * s))⁻¹) +
      (tau / (2 * s) * (r.sum * r.sum / (s + r.length * tau)) - sumSq r / (2 * s)) := by
  rw [leafMarginal_eq ht hs]
  have hv := postVar_pos ht hs r.length
  have e : postVar tau s r.length / tau = s / (s + r.length * tau) := by
    unfold postVar; field_simp; ring
  have e' : r.sum ^ 2 * postVar tau s r.length / (2 * s ^ 2) =
      tau / (2 * s) * (r.sum * r.sum / (s + r.length * tau)) := by
    unfold postVar; field_simp; ring
  unfold margC
  rw [Real.log_mul (by positivity) (by positivity), Real.log_mul (by positivity) (by positivity),
    Real.log_exp, Real.log_pow, Real.log_sqrt (by positivity), e, e']

end Spec
