import Verif.Spec.Reflect
import Verif.Spec.Bart
/-!
# Change of sign of the response, in the posterior distribution
-/

set_option autoImplicit false

namespace Spec
open Jax Bartz

/-- the arguments of `init` with the opposite response -/
abbrev reflectInit (a : InitArgs ℝ) : InitArgs ℝ := { a with y := a.y.map (-·) }

/-- the parameters with the opposite leaves -/
def reflectParams {nt N : Nat} (θ : Params nt N) : Params nt N :=
  (fun t => ((θ.1 t).1, fun i => -(θ.1 t).2 i), θ.2)

end Spec
