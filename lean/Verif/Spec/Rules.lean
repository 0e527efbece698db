import Verif.Spec.Tree
/-!
# Specification of the decision rules compatible with the ancestors of a node
-/

set_option autoImplicit false

namespace Spec

/-- The value `a` of variable `v` satisfies all the decisions on `v` in the strict ancestors of a
node. The nodes are numbered as in a heap. -/
inductive ValueReaches (v a : Nat) (var split : List Nat) : Nat → Prop
  | root : ValueReaches v a var split 1
  | left {i : Nat} : ValueReaches v a var split i → (at0 var i = v → a < at0 split i) →
      ValueReaches v a var split (2 * i)
  | right {i : Nat} : ValueReaches v a var split i → (at0 var i = v → at0 split i ≤ a) →
      ValueReaches v a var split (2 * i + 1)


/-- There is a cutpoint on variable `v` at node `i` that separates two of the values `0..max_split[v]`
of the variable that are compatible with the ancestors of `i`. -/
def HasSplit (max_split var split : List Nat) (i v : Nat) : Prop :=
  ∃ a b, a < b ∧ b ≤ at0 max_split v ∧ ValueReaches v a var split i ∧ ValueReaches v b var split i

/-- The split `s` on variable `v` at node `i` sends to each side at least one of the values
`0..max_split[v]` of the variable that are compatible with the ancestors of `i`. -/
def NonRedundant (max_split var split : List Nat) (i v s : Nat) : Prop :=
  (∃ a, a ≤ at0 max_split v ∧ ValueReaches v a var split i ∧ a < s) ∧
  (∃ b, b ≤ at0 max_split v ∧ ValueReaches v b var split i ∧ s ≤ b)

end Spec
