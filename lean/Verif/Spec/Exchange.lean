import Verif.Spec.Bart
/-!
# Order of the trees
-/

set_option autoImplicit false

namespace Spec

/-- the trees in another order -/
def permuteTrees {nt N : Nat} (π : Equiv.Perm (Fin nt)) (θ : Params nt N) : Params nt N := (fun t => θ.1 (π t), θ.2)

end Spec
