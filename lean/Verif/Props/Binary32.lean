import Verif.Lemmas.StepAccept
import Verif.Lemmas.AssociativeScan
import Verif.Lemmas.RoughLog
import Verif.Props.Mcmc
/-!
# Properties C79, C80: the invariants of the MCMC in single precision

The structural properties C19, C20, C22, C23, etc. assume a few laws of floating point numbers (`Spec.FloatLaws`). Here the numbers
are those of IEEE 754 in single precision, with rounding, overflow and NaNs, and the uniform variates are computed from
random bits with the algorithm of JAX. The properties hold if `jnp.cumsum` adds the terms from the left (C79). They do not hold,
instead, with the algorithm used on CPU, which is `lax.associative_scan` (C80): since rounded addition is not associative,
the cumulative sum may increase at a term which is zero, so `categorical` may choose an item with zero weight, and so
`choose_leaf` may choose a decision node in place of a leaf. This happens with the default settings of `gbart`.
-/

set_option autoImplicit false

namespace Bartz
open Jax Spec

/-! ### The uniform variates of JAX -/

theorem JaxDraws.lawful [Binary32.Platform] {d : Draws Binary32} (h : JaxDraws d) : LawfulDraws d := by
  obtain ⟨k, hk⟩ := h.uniform2
  obtain ⟨k', hk'⟩ := h.uniformTo
  have h1 : FltFun.leb FltFun.tiny (1 : Binary32) = true := by
    show Binary32.le (.num false ⟨0x00800000, _⟩) 1 = true
    decide +kernel
  have h2 : FltFun.isFinite (1 : Binary32) = true := by
    show decide _ = true
    decide +kernel
  have hu := fun r t => Binary32.uniform_lawful (k r t) 1 h1 h2
  refine ⟨fun r t => ?_, fun r t => ?_, fun hi h3 _ h4 => ?_, h.randint_mem, h.randint_empty⟩
  · rw [hk]; exact (hu r t).1
  · rw [hk, Binary32.addLaws.lt_iff _ _ (hu r t).1 Binary32.addLaws.zero_le_one, (hu r t).2]; rfl
  · rw [hk']; exact Binary32.uniform_lawful k' hi h3 h4

theorem ReachableJax.reachable {K : Type} [KeyLike K] [Binary32.Platform] {a : InitArgs Binary32} {s : State Binary32}
    (h : ReachableJax K a s) : Reachable K a s := by
  induction h with
  | init => exact .init
  | step rng key _ hr ih => exact .step rng key ih fun k => JaxDraws.lawful (hr k)

/-! ### C79: sums from the left -/

/-- **C79**: in single precision, if `jnp.cumsum` adds the terms from the left, then in all the states produced by `init` and
`step` the trees are valid, the cached leaf indices are those found by traversing the trees, each leaf has the
minimum number of points, and the growable leaves are those with twice as many. -/
theorem C79_single_precision {K : Type} [KeyLike K] [Binary32.Platform]
    (hc : ∀ w, Binary32.Platform.cumsum w = cumsum w) {a : InitArgs Binary32} {s : State Binary32} (ha : ValidArgs a)
    (hs : ReachableJax K a s) :
    s.leaf_indices = traverse_forest s.y.length s.X s.var_trees s.split_trees ∧
    ∀ t, t < a.num_trees →
      ValidSplit a.p_nonterminal.length (s.split_trees.getD t []) ∧
      (∀ m, a.min_points_per_leaf = some m → ¬ IsLeaf (s.split_trees.getD t []) 1 → ∀ i,
        IsLeaf (s.split_trees.getD t []) i →
        m ≤ pointsIn a.X a.y.length (s.var_trees.getD t []) (s.split_trees.getD t []) i) ∧
      ∀ i, (growable_leaves (s.split_trees.getD t [])
          (s.affluence_trees.map fun x => x.getD t [])).getD i false = true ↔
        IsLeaf (s.split_trees.getD t []) i ∧ i < 2 ^ a.p_nonterminal.length ∧
          ∀ m, a.min_points_per_leaf = some m → 2 * m ≤
            pointsIn a.X a.y.length (s.var_trees.getD t []) (s.split_trees.getD t []) i := by
  letI := Binary32.floatLaws hc
  have h := ReachableJax.reachable hs
  refine ⟨C20_leaf_indices ha h, fun t ht => ⟨((C19_valid_trees ha h).2.2.2 t ht).2.2.2, ?_, ?_⟩⟩
  · intro m hm hroot i hi
    exact (C22_min_points ha h m hm t ht i hi hroot).1
  · exact C23_growable ha h t ht

/-! ### C80: sums with the algorithm used on CPU -/

namespace ExS

scoped instance : KeyLike Unit := ⟨fun _ _ _ => ()⟩

/-- a platform with the algorithm used on CPU for the sums, and trivial logarithms -/
@[instance_reducible] def cpu : Binary32.Platform :=
  ⟨fun _ => 0, fun _ => .num true (Binary32.clip infBits), associativeScan⟩

theorem cpu_rough : RoughLog cpu where
  log _ _ := by
    show Binary32.le (-((7 : Nat) : Binary32)) 0 = true
    decide +kernel
  log1p := by decide +kernel

/-- the default values of the a priori probability that a node is not terminal, with `maxdepth=6` -/
def p : List Binary32 :=
  [.num false ⟨1064514355, by decide⟩, .num false ⟨1047737139, by decide⟩, .num false ⟨1037577603, by decide⟩,
    .num false ⟨1030959923, by decide⟩, .num false ⟨1025222115, by decide⟩]

/-- `base / (1 + depth) ** power` with `base = 0.95` and `power = 2` -/
theorem p_eq : p = (List.range 5).map fun d =>
    .num false ⟨0x3f733333, by decide⟩ / (((1 + d) ^ 2 : Nat) : Binary32) := by decide +kernel

/-- the only predictor -/
def x : List Nat :=
  List.replicate 10 0 ++ List.replicate 10 1 ++ List.replicate 10 2 ++ List.replicate 10 3 ++ List.replicate 10 4 ++
  List.replicate 10 5 ++ List.replicate 5 6 ++ List.replicate 5 7 ++ List.replicate 10 8

/-- 80 datapoints, a predictor with 8 cutpoints, a tree, and the default values of the depth, of the splitting
probabilities and of the minimum number of points per leaf -/
def args : InitArgs Binary32 where
  X := [x]
  y := List.replicate 80 0
  max_split := [8]
  split_bits := 8
  num_trees := 1
  p_nonterminal := p
  sigma2_alpha := 1
  sigma2_beta := 1
  min_points_per_leaf := some 5
  resid_batch_size := none
  count_batch_size := none
  save_ratios := false
  nan := .nan

theorem args_valid [Binary32.Platform] : ValidArgs args where
  depth_pos := by decide
  depth_lt := by decide
  predictors_pos := by decide
  predictors_lt := by decide
  X_length := rfl
  X_row := by decide +kernel
  max_split_fits := by decide
  split_bits := by decide
  nonterminal_pos := by
    show ∀ x ∈ p, Binary32.le (.num false ⟨0x00800000, _⟩) x = true ∧ Binary32.le x 0 = false ∧ Binary32.le x 1 = true
    decide +kernel
  overflow := Or.inl (by unfold NoOverflow; decide)

/-- propose to grow and accept, with given random bits `k` to choose the leaf, and cutpoint `v` -/
def rng (k : Fin (2 ^ 23)) (v : Nat) : Rng Unit Binary32 := fun _ =>
  { uniform2 := fun r _ => Binary32.uniform (if r = 0 then 0 else ⟨2 ^ 23 - 1, by decide⟩) 1
    uniformTo := Binary32.uniform k
    randint := fun lo hi => if lo < hi then max lo (min v (hi - 1)) else lo
    normal := fun _ _ => 0
    gamma := fun _ => 1 }

theorem rng_jax (k : Fin (2 ^ 23)) (v : Nat) : ∀ key, JaxDraws (rng k v key) := fun _ =>
  { uniform2 := ⟨fun r _ => if r = 0 then 0 else ⟨2 ^ 23 - 1, by decide⟩, fun _ _ => rfl⟩
    uniformTo := ⟨k, fun _ => rfl⟩
    randint_mem := fun lo hi h => by
      show lo ≤ (if lo < hi then max lo (min v (hi - 1)) else lo) ∧ (if lo < hi then max lo (min v (hi - 1)) else lo) < hi
      rw [if_pos h]; omega
    randint_empty := fun lo hi h => if_neg (by omega) }

/-- the array of the cutpoints with given nonzero elements -/
def ofList (d : List (Nat × Nat)) : List Nat := (List.range 32).map fun i => (d.lookup i).getD 0

/-- traverse a tree with a single predictor -/
def leaf (split : List Nat) (v : Nat) : Nat :=
  (List.range 5).foldl (fun i _ =>
    let t := split.getD i 0
    if t = 0 then i else 2 * i + (if v ≥ t then 1 else 0)) 1

/-- the nodes with at least 10 points or grown last -/
def affl (d : List (Nat × Nat)) (idx : List Nat) : List Bool :=
  (List.range 32).map fun i => decide (10 ≤ idx.count i) || decide ((d.getLast?.getD (0, 0)).1 = i)

/-- a state with a tree with given decision nodes -/
def st (d : List (Nat × Nat)) : State Binary32 :=
  letI := cpu
  { init args with
    split_trees := [ofList d]
    leaf_indices := [x.map (leaf (ofList d))]
    grow_prop_count := 1
    grow_acc_count := 1
    affluence_trees := some [affl d (x.map (leaf (ofList d)))] }

theorem state_eq_iff (s s' : State Binary32) :
    (s.leaf_trees = s'.leaf_trees ∧ s.var_trees = s'.var_trees ∧ s.split_trees = s'.split_trees ∧ s.resid =
      s'.resid ∧ s.sigma2 = s'.sigma2 ∧ s.grow_prop_count = s'.grow_prop_count ∧ s.grow_acc_count =
      s'.grow_acc_count ∧ s.prune_prop_count = s'.prune_prop_count ∧ s.prune_acc_count = s'.prune_acc_count ∧
      s.p_nonterminal = s'.p_nonterminal ∧ s.p_propose_grow = s'.p_propose_grow ∧ s.sigma2_alpha = s'.sigma2_alpha ∧
      s.sigma2_beta = s'.sigma2_beta ∧ s.max_split = s'.max_split ∧ s.y = s'.y ∧ s.X = s'.X ∧ s.leaf_indices =
      s'.leaf_indices ∧ s.min_points_per_leaf = s'.min_points_per_leaf ∧ s.affluence_trees = s'.affluence_trees ∧
      s.resid_batch_size = s'.resid_batch_size ∧ s.count_batch_size = s'.count_batch_size ∧ s.ratios = s'.ratios ∧
      s.var_bits = s'.var_bits ∧ s.split_bits = s'.split_bits ∧ s.idx_bits = s'.idx_bits) ↔ s = s' := by
  cases s; cases s'; simp only [State.mk.injEq]

instance : DecidableEq (State Binary32) := fun s s' => decidable_of_iff _ (state_eq_iff s s')

/-- a step that grows the tree, on any platform -/
theorem grow_step (P : Binary32.Platform) (hP : RoughLog P) (hc : ∀ w, P.cumsum w = associativeScan w)
    (k : Fin (2 ^ 23)) (v : Nat) (s s' : State Binary32) (hr : s.ratios = none) (hn : s.leaf_trees.length = 1)
    (hm : s.min_points_per_leaf = some 5)
    (h1 : acceptable s 5 (letI := cpu; workOf (rng k v) s () 0) = true) (h2 : (letI := cpu; step (rng k v) s ()) = s') :
    (letI := P; step (rng k v) s ()) = s' := by
  have hc' : P.cumsum = cpu.cumsum := funext hc
  have hu : (rng k v ()).uniform2 1 0 = 1 - 1 / ((2 ^ 23 : Nat) : Binary32) := by
    show Binary32.uniform ⟨2 ^ 23 - 1, by decide⟩ 1 = _
    decide +kernel
  rw [step_platform P cpu hc' (rng k v) s () hr hn, h2]
  rw [acc_true P cpu hP hc' (rng k v) s () 5 hm hu h1, acc_true cpu cpu cpu_rough rfl (rng k v) s () 5 hm hu h1]

/-- the decision nodes (node, cutpoint), in the order in which they are added -/
def nodes : List (Nat × Nat) := [(1, 3), (2, 2), (3, 5), (4, 1), (6, 4), (7, 6), (15, 8), (30, 7)]

/-- the state with the first `n` decision nodes -/
def state (n : Nat) : State Binary32 := st (nodes.take n)

/-- the conditions to go from a state to another with a step that grows the tree -/
def Goes (k : Fin (2 ^ 23)) (v : Nat) (s s' : State Binary32) : Prop :=
  s.ratios = none ∧ s.leaf_trees.length = 1 ∧ s.min_points_per_leaf = some 5 ∧
    acceptable s 5 (letI := cpu; workOf (rng k v) s () 0) = true ∧ (letI := cpu; step (rng k v) s ()) = s'

instance (k : Fin (2 ^ 23)) (v : Nat) (s s' : State Binary32) : Decidable (Goes k v s s') :=
  inferInstanceAs (Decidable (_ ∧ _ ∧ _ ∧ _ ∧ _))

theorem Goes.reachable {P : Binary32.Platform} (hP : RoughLog P) (hc : ∀ w, P.cumsum w = associativeScan w)
    {k : Fin (2 ^ 23)} {v : Nat} {s s' : State Binary32} (h : Goes k v s s') (hs : ReachableJax Unit args s) :
    ReachableJax Unit args s' := by
  obtain ⟨hr, hn, hm, h1, h2⟩ := h
  rw [← grow_step P hP hc k v s s' hr hn hm h1 h2]
  exact .step _ _ hs (rng_jax k v)

theorem goes0 : Goes 0 3 (letI := cpu; init args) (state 1) := by decide +kernel
theorem goes1 : Goes 0 2 (state 1) (state 2) := by decide +kernel
theorem goes2 : Goes 0 5 (state 2) (state 3) := by decide +kernel
theorem goes3 : Goes 0 1 (state 3) (state 4) := by decide +kernel
theorem goes4 : Goes ⟨2097152, by decide⟩ 4 (state 4) (state 5) := by decide +kernel
theorem goes5 : Goes ⟨2097152, by decide⟩ 6 (state 5) (state 6) := by decide +kernel
theorem goes6 : Goes ⟨7340032, by decide⟩ 8 (state 6) (state 7) := by decide +kernel
theorem goes7 : Goes ⟨7077888, by decide⟩ 7 (state 7) (state 8) := by decide +kernel

theorem state_reachable (P : Binary32.Platform) (hP : RoughLog P) (hc : ∀ w, P.cumsum w = associativeScan w) :
    ReachableJax Unit args (state 8) := by
  have h0 : (init args : State Binary32) = (letI := cpu; init args) := rfl
  have r0 : ReachableJax Unit args (letI := cpu; init args) := by rw [← h0]; exact .init
  have r4 := goes3.reachable hP hc (goes2.reachable hP hc (goes1.reachable hP hc (goes0.reachable hP hc r0)))
  exact goes7.reachable hP hc (goes6.reachable hP hc (goes5.reachable hP hc (goes4.reachable hP hc r4)))

-- the node 15 is chosen to be grown although it is a decision node and its weight is zero
example : (letI := cpu; choose_leaf (ofList nodes) (some (affl nodes (x.map (leaf (ofList nodes)))))
    (init args).p_propose_grow (rng ⟨7664845, by decide⟩ 8 ())).leaf_to_grow = 15 := by decide +kernel
example : (ofList nodes).getD 15 0 = 8 := by decide +kernel

end ExS

open scoped ExS

/-- **C80, negation**: in single precision, with `jnp.cumsum` implemented with `lax.associative_scan`, as is the case on CPU,
and with any implementation of the logarithms that is not grossly wrong, there are valid arguments of `init`, with the default
values in `gbart` of the parameters of the a priori distribution of trees and of the minimum number of points per leaf, such that
`step` produces an invalid tree, with a decision node below a leaf, and cached leaf indices that are not those
found by traversing the tree. -/
theorem C80_cpu_violation (P : Binary32.Platform) (hP : RoughLog P) (hc : ∀ w, P.cumsum w = associativeScan w) :
    ∃ (a : InitArgs Binary32) (s : State Binary32), ValidArgs a ∧ a.p_nonterminal = ExS.p ∧
      a.min_points_per_leaf = some 5 ∧ ReachableJax Unit a s ∧
      ¬ ValidSplit a.p_nonterminal.length (s.split_trees.getD 0 []) ∧
      s.leaf_indices ≠ traverse_forest s.y.length s.X s.var_trees s.split_trees := by
  have hc' : P.cumsum = ExS.cpu.cumsum := funext hc
  have e : step (ExS.rng ⟨7664845, by decide⟩ 8) (ExS.state 8) () =
      (letI := ExS.cpu; step (ExS.rng ⟨7664845, by decide⟩ 8) (ExS.state 8) ()) := by
    refine step_platform P ExS.cpu hc' _ _ _ rfl (by decide +kernel) ?_
    have h : (letI := ExS.cpu; workOf (ExS.rng ⟨7664845, by decide⟩ 8) (ExS.state 8) () 0).counts.left < 5 := by decide +kernel
    have h1 := acc_false P ExS.cpu hc' (ExS.rng ⟨7664845, by decide⟩ 8) (ExS.state 8) () 5 rfl h
    have h2 := acc_false ExS.cpu ExS.cpu rfl (ExS.rng ⟨7664845, by decide⟩ 8) (ExS.state 8) () 5 rfl h
    rw [h1, h2]
  refine ⟨ExS.args, step (ExS.rng ⟨7664845, by decide⟩ 8) (ExS.state 8) (), ExS.args_valid, rfl, rfl,
    .step _ _ (ExS.state_reachable P hP hc) (ExS.rng_jax _ _), ?_, ?_⟩
  · rw [e]
    intro hv
    have h := hv.closed 30 (by decide)
    have h1 : at0 ((letI := ExS.cpu; step (ExS.rng ⟨7664845, by decide⟩ 8) (ExS.state 8) ()).split_trees.getD 0 []) 30 ≠ 0 := by
      decide +kernel
    have h2 : at0 ((letI := ExS.cpu; step (ExS.rng ⟨7664845, by decide⟩ 8) (ExS.state 8) ()).split_trees.getD 0 []) (30 / 2) = 0 := by
      decide +kernel
    exact h h1 h2
  · rw [e]
    decide +kernel

/-- `C80_cpu_violation` with the requirement on the logarithms stated in terms of the error. -/
theorem C80_cpu_violation_accurate (P : Binary32.Platform) (hP : AccurateLog P) (hc : ∀ w, P.cumsum w = associativeScan w) :
    ∃ (a : InitArgs Binary32) (s : State Binary32), ValidArgs a ∧ a.p_nonterminal = ExS.p ∧
      a.min_points_per_leaf = some 5 ∧ ReachableJax Unit a s ∧
      ¬ ValidSplit a.p_nonterminal.length (s.split_trees.getD 0 []) ∧
      s.leaf_indices ≠ traverse_forest s.y.length s.X s.var_trees s.split_trees :=
  C80_cpu_violation P (roughLog_of_accurate hP) hc

-- the hypotheses can be satisfied
example : ∃ P : Binary32.Platform, AccurateLog P ∧ ∀ w, P.cumsum w = associativeScan w := exists_accurateLog

theorem ReachablePicks.inv {K : Type} [KeyLike K] [Binary32.Platform] {a : InitArgs Binary32} {s : State Binary32}
    (ha : ValidArgs a) (hs : ReachablePicks K a s) : StateInv a s := by
  induction hs with
  | init => exact stateInv_init ha
  | step rng key _ hr hp ih =>
    have hrng : LawfulRng rng := fun k => JaxDraws.lawful (hr k)
    refine stateInv_step_of ha ih rng key fun t ht => moveOf_ok_of ha ih rng hrng _ ht (hp t ht) ?_
    rw [Binary32.addLaws.lt_iff _ _ ((hrng _).uniform2_nonneg _ _) Binary32.addLaws.zero_le_zero,
      (hrng _).uniform2_nonneg]
    rfl

/-- **C80, partial**: in single precision, with any implementation of `jnp.cumsum` and of the logarithms, the properties stated
in `C79_single_precision` hold in all the states produced by `init` and `step`, as long as in each step the leaf chosen by
`choose_leaf` in each tree is one of the growable ones. What is missing is that the choice is always a growable leaf, which is
false on CPU (`C80_cpu_violation`). -/
theorem C80_cpu_partial {K : Type} [KeyLike K] [Binary32.Platform] {a : InitArgs Binary32} {s : State Binary32}
    (ha : ValidArgs a) (hs : ReachablePicks K a s) :
    s.leaf_indices = traverse_forest s.y.length s.X s.var_trees s.split_trees ∧
    ∀ t, t < a.num_trees →
      ValidSplit a.p_nonterminal.length (s.split_trees.getD t []) ∧
      (∀ m, a.min_points_per_leaf = some m → ¬ IsLeaf (s.split_trees.getD t []) 1 → ∀ i,
        IsLeaf (s.split_trees.getD t []) i →
        m ≤ pointsIn a.X a.y.length (s.var_trees.getD t []) (s.split_trees.getD t []) i) ∧
      ∀ i, (growable_leaves (s.split_trees.getD t [])
          (s.affluence_trees.map fun x => x.getD t [])).getD i false = true ↔
        IsLeaf (s.split_trees.getD t []) i ∧ i < 2 ^ a.p_nonterminal.length ∧
          ∀ m, a.min_points_per_leaf = some m → 2 * m ≤
            pointsIn a.X a.y.length (s.var_trees.getD t []) (s.split_trees.getD t []) i := by
  have h := ReachablePicks.inv ha hs
  refine ⟨h.leaf_indices_eq ha, fun t ht => ⟨(h.tree t ht).valid, ?_, h.growable_iff ha t ht⟩⟩
  intro m hm hroot i hi
  exact (h.min_points ha m hm t ht i hi hroot).1

namespace ExS

instance (k : Fin (2 ^ 23)) (v : Nat) (s : State Binary32) : Decidable (letI := cpu; Picks (rng k v) s () 0) :=
  inferInstanceAs (Decidable (_ → _ = true))

theorem cpu_step {k : Fin (2 ^ 23)} {v : Nat} {s s' : State Binary32} (h : Goes k v s s')
    (hp : letI := cpu; Picks (rng k v) s () 0) (hs : letI := cpu; ReachablePicks Unit args s) :
    letI := cpu; ReachablePicks Unit args s' := by
  letI := cpu
  obtain ⟨_, _, _, _, h2⟩ := h
  rw [← h2]
  refine .step _ _ hs (rng_jax k v) fun t ht => ?_
  have : t = 0 := by change t < 1 at ht; omega
  subst this
  exact hp

/-- the state from which the violation follows is reached by choosing growable leaves -/
theorem state_picks : letI := cpu; ReachablePicks Unit args (state 8) := by
  letI := cpu
  have r0 : ReachablePicks Unit args (init args) := .init
  have r1 := cpu_step goes0 (by decide +kernel) r0
  have r2 := cpu_step goes1 (by decide +kernel) r1
  have r3 := cpu_step goes2 (by decide +kernel) r2
  have r4 := cpu_step goes3 (by decide +kernel) r3
  have r5 := cpu_step goes4 (by decide +kernel) r4
  have r6 := cpu_step goes5 (by decide +kernel) r5
  have r7 := cpu_step goes6 (by decide +kernel) r6
  exact cpu_step goes7 (by decide +kernel) r7

example : ValidSplit 5 ((state 8).split_trees.getD 0 []) :=
  letI := cpu
  ((C80_cpu_partial args_valid state_picks).2 0 (by decide)).1

-- the next choice is not of a growable leaf
example : letI := cpu; ¬ Picks (rng ⟨7664845, by decide⟩ 8) (state 8) () 0 := by decide +kernel

end ExS

end Bartz
