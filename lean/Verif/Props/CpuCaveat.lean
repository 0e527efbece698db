import Verif.Props.Mcmc
import Verif.Props.Binary32
/-!
# C19, C20: the invariants with the sums done as on CPU

As stated in `properties.jsonl`, C19 and C20 are about all the states which the program can reach. The theorems `C19_valid_trees` and
`C20_leaf_indices` assume `FloatLaws`, which holds in exact arithmetic, and in single precision if `jnp.cumsum` accumulates from left to right
(C79), but not with the order of the sums used by JAX on CPU (C80).
-/

set_option autoImplicit false

namespace Bartz
open Jax Spec
open scoped Ex ExS

/-- C19 is false on CPU in single precision: a reachable state has an invalid tree. -/
theorem C19_not_cpu (P : Binary32.Platform) (hP : RoughLog P) (hc : ∀ w, P.cumsum w = associativeScan w) :
    ∃ (a : InitArgs Binary32) (s : State Binary32), ValidArgs a ∧ ReachableJax Unit a s ∧
      ¬ ValidSplit a.p_nonterminal.length (s.split_trees.getD 0 []) := by
  obtain ⟨a, s, h1, -, -, h2, h3, -⟩ := C80_cpu_violation P hP hc
  exact ⟨a, s, h1, h2, h3⟩

/-- C20 is false on CPU in single precision: in a reachable state the leaf indices are not those found by traversing the trees. -/
theorem C20_not_cpu (P : Binary32.Platform) (hP : RoughLog P) (hc : ∀ w, P.cumsum w = associativeScan w) :
    ∃ (a : InitArgs Binary32) (s : State Binary32), ValidArgs a ∧ ReachableJax Unit a s ∧
      s.leaf_indices ≠ traverse_forest s.y.length s.X s.var_trees s.split_trees := by
  obtain ⟨a, s, h1, -, -, h2, -, h3⟩ := C80_cpu_violation P hP hc
  exact ⟨a, s, h1, h2, h3⟩

section
variable {K F : Type} [KeyLike K] [Inhabited F] [Zero F] [One F] [Add F] [Sub F] [Mul F] [Div F]
  [Neg F] [NatCast F] [FltFun F] [FloatLaws F] {a : InitArgs F} {s : State F}

/-- C19 under the additional hypothesis `FloatLaws`. The full statement is without it; it is false with the sums done as on CPU
(`C19_not_cpu`). There it holds along the runs in which the leaf chosen is growable (`C80_cpu_partial`). -/
theorem C19_valid_trees_partial (ha : ValidArgs a) (hs : Reachable K a s) :
    s.leaf_trees.length = a.num_trees ∧ s.var_trees.length = a.num_trees ∧
    s.split_trees.length = a.num_trees ∧
    ∀ t, t < a.num_trees →
      (s.leaf_trees.getD t []).length = 2 ^ (a.p_nonterminal.length + 1) ∧
      (s.var_trees.getD t []).length = 2 ^ a.p_nonterminal.length ∧
      at0 (s.var_trees.getD t []) 0 = 0 ∧
      ValidSplit a.p_nonterminal.length (s.split_trees.getD t []) :=
  C19_valid_trees ha hs

/-- C20 under the additional hypothesis `FloatLaws`. The full statement is without it; it is false with the sums done as on CPU
(`C20_not_cpu`). There it holds along the runs in which the leaf chosen is growable (`C80_cpu_partial`). -/
theorem C20_leaf_indices_partial (ha : ValidArgs a) (hs : Reachable K a s) :
    s.leaf_indices = traverse_forest s.y.length s.X s.var_trees s.split_trees :=
  C20_leaf_indices ha hs

end

namespace Ex

example : ValidSplit 2 (state1.split_trees.getD 0 []) :=
  ((C19_valid_trees_partial args_valid state1_reachable).2.2.2 0 (by decide)).2.2.2

example : state1.leaf_indices = traverse_forest 4 state1.X state1.var_trees state1.split_trees :=
  C20_leaf_indices_partial args_valid state1_reachable

end Ex

end Bartz
