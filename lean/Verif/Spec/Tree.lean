/-!
# Specification of decision trees stored as heaps

This file does not mention the model. It says what the arrays documented at the top of
`/repo/src/bartz/grove.py` (lines 29-39) mean: node 1 is the root, node `i` is a decision node iff
`split[i] ≠ 0`, its children are `2i` and `2i+1`, a point goes left iff `x[var[i]] < split[i]`.
Entries past the end of the arrays are zero, i.e., bottom level nodes are leaves.
-/

set_option autoImplicit false

namespace Spec

/-- The `v`-th coordinate of a point. An axis index past the end stands for the last axis (it can
appear only in degenerate situations, see C28). -/
def coord (x : List Nat) (v : Nat) : Nat := x.getD (min v (x.length - 1)) 0

/-- Entry of an array, 0 past the end. -/
def at0 (a : List Nat) (i : Nat) : Nat := a.getD i 0

/-- `i` is a node of the tree. -/
inductive IsNode (split : List Nat) : Nat → Prop
  | root : IsNode split 1
  | left {i : Nat} : IsNode split i → at0 split i ≠ 0 → IsNode split (2 * i)
  | right {i : Nat} : IsNode split i → at0 split i ≠ 0 → IsNode split (2 * i + 1)

/-- `i` is a decision node of the tree. -/
def IsDecision (split : List Nat) (i : Nat) : Prop := IsNode split i ∧ at0 split i ≠ 0

/-- `i` is a leaf of the tree. -/
def IsLeaf (split : List Nat) (i : Nat) : Prop := IsNode split i ∧ at0 split i = 0

/-- `i` is a decision node and its children are leaves. -/
def IsLeafParent (split : List Nat) (i : Nat) : Prop :=
  IsDecision split i ∧ IsLeaf split (2 * i) ∧ IsLeaf split (2 * i + 1)

/-- `i` is a node of the tree, and the point `x` satisfies all the decisions from the root to `i`. -/
inductive Reaches (x var split : List Nat) : Nat → Prop
  | root : Reaches x var split 1
  | left {i : Nat} : Reaches x var split i → at0 split i ≠ 0 →
      coord x (at0 var i) < at0 split i → Reaches x var split (2 * i)
  | right {i : Nat} : Reaches x var split i → at0 split i ≠ 0 →
      at0 split i ≤ coord x (at0 var i) → Reaches x var split (2 * i + 1)

/-- `i` is the leaf the point `x` falls into. -/
def FallsInto (x var split : List Nat) (i : Nat) : Prop :=
  IsLeaf split i ∧ Reaches x var split i

/-- A well formed array of decision boundaries of half-depth `h` (`h = d - 1`). -/
structure ValidSplit (h : Nat) (split : List Nat) : Prop where
  length : split.length = 2 ^ h
  zero : at0 split 0 = 0
  closed : ∀ i, 2 ≤ i → at0 split i ≠ 0 → at0 split (i / 2) ≠ 0

/-- Binary decision trees. -/
inductive DTree (F : Type) where
  | leaf (value : F)
  | node (var split : Nat) (l r : DTree F)

/-- The function represented by a decision tree. -/
def DTree.eval {F : Type} (x : List Nat) : DTree F → F
  | .leaf v => v
  | .node var split l r => if coord x var < split then l.eval x else r.eval x

/-- Read the decision tree rooted at node `i` from the arrays; `levels` is the number of levels
below `i`. -/
def readTree {F : Type} (dflt : F) (leaf : List F) (var split : List Nat) :
    (levels i : Nat) → DTree F
  | 0, i => .leaf (leaf.getD i dflt)
  | k + 1, i =>
    if at0 split i = 0 then .leaf (leaf.getD i dflt)
    else .node (at0 var i) (at0 split i) (readTree dflt leaf var split k (2 * i))
      (readTree dflt leaf var split k (2 * i + 1))

end Spec
