import Mathlib.Probability.Distributions.Gaussian.Real
/-!
# The probabilistic model of a leaf

The datapoints in a leaf are independent normal variates with common mean `mu` and variance
`sigma2`; a priori `mu` is normal with mean zero and variance `tau`. Everything is stated with the
normal density of Mathlib.
-/

set_option autoImplicit false

namespace Spec
open MeasureTheory ProbabilityTheory

/-- density of the normal distribution with mean `m` and variance `v` -/
noncomputable def normalPdf (m v x : ℝ) : ℝ := gaussianPDFReal m v.toNNReal x

/-- density of the data `r` and the mean `mu` -/
noncomputable def leafJoint (tau sigma2 : ℝ) (r : List ℝ) (mu : ℝ) : ℝ :=
  normalPdf 0 tau mu * (r.map fun x => normalPdf mu sigma2 x).prod

/-- density of the data `r`, integrating the mean away -/
noncomputable def leafMarginal (tau sigma2 : ℝ) (r : List ℝ) : ℝ :=
  ∫ mu, leafJoint tau sigma2 r mu

/-- The posterior distribution of the mean given the data is normal with mean `m` and variance `v`:
the joint density is proportional to the normal density, as a function of the mean. -/
def IsLeafPosterior (tau sigma2 : ℝ) (r : List ℝ) (m v : ℝ) : Prop :=
  0 < v ∧ ∀ mu, leafJoint tau sigma2 r mu = leafMarginal tau sigma2 r * normalPdf m v mu

end Spec
