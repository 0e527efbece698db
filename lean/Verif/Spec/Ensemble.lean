import Verif.Spec.Gbart
/-!
# Sums of decision trees on the original predictors
-/

set_option autoImplicit false

namespace Spec
open Jax Bartz

variable {K F P : Type}

/-- Decision tree on the values of the predictors. The cutpoint may be infinite, i.e., the decision is always
"left". -/
inductive RTree (F P : Type) where
  | leaf (value : F)
  | node (var : Nat) (cut : WithTop P) (l r : RTree F P)

/-- The function represented by the tree: go left iff `x[var] ≤ cut`. -/
def RTree.eval [LinearOrder P] (x : Nat → P) : RTree F P → F
  | .leaf v => v
  | .node var cut l r => if ((x var : P) : WithTop P) ≤ cut then l.eval x else r.eval x

/-- The depth of a tree. -/
def RTree.depth : RTree F P → Nat
  | .leaf _ => 0
  | .node _ _ l r => 1 + max l.depth r.depth

/-- All the decision rules satisfy a condition. -/
def RTree.Rules (ok : Nat → WithTop P → Prop) : RTree F P → Prop
  | .leaf _ => True
  | .node var cut l r => ok var cut ∧ l.Rules ok ∧ r.Rules ok

/-- Value of the predictor `v` for the datapoint `j`. -/
def predictorValue [Inhabited F] (x : Predictors F) (v j : Nat) : F := (x.x.getD v []).getD j default

/-- All the predictors have the same number of values. -/
def Rectangular (x : Predictors F) : Prop := ∀ row ∈ x.x, row.length = x.n

/-- The rounding errors in the calculation of the indices of the quantiles are small enough, whatever the number of
distinct values of the predictors. -/
def AccurateLinspace (lib : Lib F P) (a : GbartArgs K F) : Prop :=
  ∀ m : Nat, a.numcut + 1 < m → m ≤ a.y_train.length → ∃ δ : ℚ,
    2 * δ < (m : ℚ) / ((a.numcut + 1 : Nat) : ℚ) - 1 ∧ ∀ q : ℚ, -1 ≤ q → q ≤ m → |lib.fl q - q| ≤ δ

end Spec
