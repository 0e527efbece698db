import Mathlib.Order.WithBot
/-! # Missing values -/

set_option autoImplicit false

namespace Spec

/-- the values that are not missing, in order; `⊤` is a missing value -/
def present {α : Type} (x : List (WithTop α)) : List α := x.filterMap fun v => match v with | some a => some a | none => none

/-- the number of missing values -/
def missing {α : Type} (x : List (WithTop α)) : Nat := x.countP fun v => match v with | some _ => false | none => true

end Spec
