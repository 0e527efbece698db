import Mathlib.Probability.Distributions.Gamma
import Verif.Spec.Normal
/-!
# The probabilistic model of the noise variance

The residuals are independent normal variates with mean zero and variance `x`; a priori `x` has an
inverse gamma distribution.
-/

set_option autoImplicit false

namespace Spec
open MeasureTheory ProbabilityTheory

/-- density of the inverse gamma distribution with shape `a` and scale `b` -/
noncomputable def invGammaPdf (a b x : ℝ) : ℝ :=
  if 0 < x then b ^ a / Real.Gamma a * x ^ (-a - 1) * Real.exp (-b / x) else 0

/-- density of the residuals `r` and their variance `x` -/
noncomputable def sigmaJoint (a b : ℝ) (r : List ℝ) (x : ℝ) : ℝ :=
  invGammaPdf a b x * (r.map fun e => normalPdf 0 x e).prod

/-- The posterior distribution of the variance is inverse gamma with parameters `a'`, `b'`. -/
def IsSigmaPosterior (a b : ℝ) (r : List ℝ) (a' b' : ℝ) : Prop :=
  ∃ C, 0 < C ∧ ∀ x, sigmaJoint a b r x = C * invGammaPdf a' b' x

/-- `q` is the point at which the survival function of the distribution Gamma(α) is `y`, i.e., the
regularized incomplete upper gamma function is `y` -/
def IsGammainccinv (α y q : ℝ) : Prop :=
  0 < q ∧ gammaMeasure α 1 (Set.Ici q) = ENNReal.ofReal y

end Spec
