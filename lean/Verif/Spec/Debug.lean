import Verif.Spec.Tree
import Verif.Spec.Mcmc
/-!
# Specification of the debugging functions

What it means for a list of nodes to be in preorder, how the rows of a printed tree are indented,
what the statistics of a tree and its consistency checks are about. It does not mention the model.
-/

set_option autoImplicit false

namespace Spec

/-- Node `a` is node `i` or an ancestor of it: it is obtained by repeatedly taking the parent. -/
def IsAncestor (a i : Nat) : Prop := ∃ k, i / 2 ^ k = a

/-- Node `i` comes before node `j` in preorder: it is a proper ancestor of it, or `i` descends from
the left child of some node `a` and `j` descends from its right child. -/
def Before (i j : Nat) : Prop :=
  (i ≠ j ∧ IsAncestor i j) ∨ ∃ a, 1 ≤ a ∧ IsAncestor (2 * a) i ∧ IsAncestor (2 * a + 1) j

/-- The vertical lines on the left of the children of `i`: for each of the nodes from the child of
the root to `i`, there is a line if it is a left child (its sibling is still to come). -/
def stem (i : Nat) : String :=
  if _h : i ≤ 1 then "" else stem (i / 2) ++ (if i % 2 = 0 then "│  " else "   ")
termination_by i
decreasing_by omega

/-- What is on the left of node `i`. -/
def branch (i : Nat) : String :=
  if i ≤ 1 then "" else stem (i / 2) ++ (if i % 2 = 0 then "├──" else "└──")

/-- The number of steps from node `i` to the root. -/
inductive HasDepth : Nat → Nat → Prop
  | root : HasDepth 1 0
  | left {i k : Nat} : HasDepth i k → HasDepth (2 * i) (k + 1)
  | right {i k : Nat} : HasDepth i k → HasDepth (2 * i + 1) (k + 1)

/-- The depth of the deepest leaf of the tree is `D`. -/
def IsTreeDepth (split : List Nat) (D : Nat) : Prop :=
  (∃ i, IsLeaf split i ∧ HasDepth i D) ∧ ∀ i k, IsLeaf split i → HasDepth i k → k ≤ D

/-- The number of leaves that contain exactly `k` datapoints. -/
noncomputable def leavesWith (X : List (List Nat)) (n : Nat) (var split : List Nat) (k : Nat) : Nat :=
  {i | IsLeaf split i ∧ pointsIn X n var split i = k}.ncard

/-- The number of leaves. -/
noncomputable def numLeaves (split : List Nat) : Nat := {i | IsLeaf split i}.ncard

end Spec
