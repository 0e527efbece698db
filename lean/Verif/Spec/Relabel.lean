import Verif.Spec.Bart
import Verif.Spec.Reorder
/-!
# Reordering of the predictors

Predictor `v` in the new order is predictor `σ[v]` in the old one; so predictor `v` in the old order is predictor
`σ.idxOf v` in the new one.
-/

set_option autoImplicit false

namespace Spec
open Jax Bartz

/-- the arguments of `init` with the predictors in another order -/
def reorderPredictors {F : Type} (σ : List Nat) (a : InitArgs F) : InitArgs F :=
  { a with X := reorder σ a.X, max_split := reorder σ a.max_split }

open Classical in
/-- change the names of the variables in the decision rules; the entries that are not part of the tree are zero -/
noncomputable def relabel (f : Nat → Nat) (T : Rules) : Rules :=
  ⟨(List.range T.var.length).map fun i => if IsDecision T.split i then f (at0 T.var i) else 0, T.split⟩

/-- change the names of the variables in all the trees -/
noncomputable def relabelParams {nt N : Nat} (f : Nat → Nat) (θ : Params nt N) : Params nt N :=
  (fun t => (relabel f (θ.1 t).1, (θ.1 t).2), θ.2)

/-- the names of the columns in another order -/
def reorderColumns (σ : List Nat) : Columns → Columns
  | .list names => .list (reorder σ names)
  | .index id names => .index id (reorder σ names)

/-- the predictors in another order -/
def reorderMatrix {F : Type} (σ : List Nat) (x : Predictors F) : Predictors F :=
  { x with x := reorder σ x.x, columns := x.columns.map (reorderColumns σ) }

/-- the arguments of `gbart` with the predictors in another order -/
def reorderGbart {K F : Type} (σ : List Nat) (a : GbartArgs K F) : GbartArgs K F :=
  { a with x_train := reorderMatrix σ a.x_train, x_test := a.x_test.map (reorderMatrix σ) }

end Spec
