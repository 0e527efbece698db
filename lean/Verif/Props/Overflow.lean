import Verif.Props.Binary32
/-!
# Property C85: predictors with the largest possible number of cutpoints

The decision boundaries are numbered from 1 to `max_split[v]`, in the smallest integer type that can represent the maximum; by
default `gbart` uses at most 255 cutpoints, in 8 bits. The left end of the range of the cutpoints available at a node is computed in
the same type, so it overflows to 0 to the right of a node that splits at the last cutpoint (`C27_overflow`), and a decision node
with cutpoint 0, which means that it is a leaf, may be proposed. The proposal is always rejected if there is a minimum number of
datapoints per leaf, like in `gbart`. Otherwise, as is the case by default in `mcmcstep.init`, it may be accepted, which corrupts the state.
-/

set_option autoImplicit false

namespace Bartz
open Jax Spec

/-- The conditions on the arguments of `init`, without the one about overflows in `ValidArgs`; the values of the
predictors are within their bounds. -/
structure InRange {F : Type} [Zero F] [One F] [FltFun F] (a : InitArgs F) : Prop where
  depth_pos : 1 ≤ a.p_nonterminal.length
  depth_lt : a.p_nonterminal.length < 64
  predictors_pos : 0 < a.max_split.length
  predictors_lt : a.max_split.length < 2 ^ 64
  X_length : a.X.length = a.max_split.length
  X_row : ∀ row ∈ a.X, row.length = a.y.length
  X_le : ∀ v j, v < a.max_split.length → j < a.y.length → (a.X.getD v []).getD j 0 ≤ at0 a.max_split v
  max_split_fits : ∀ m ∈ a.max_split, m < 2 ^ a.split_bits
  split_bits : 8 ≤ a.split_bits
  nonterminal_pos : ∀ x ∈ a.p_nonterminal, FltFun.leb FltFun.tiny x = true ∧ FltFun.leb x 0 = false ∧
    FltFun.leb x 1 = true

theorem InRange.valid {F : Type} [Zero F] [One F] [FltFun F] {a : InitArgs F} (h : InRange a)
    (ho : NoOverflow a ∨ ∃ m, 1 ≤ m ∧ a.min_points_per_leaf = some m) : ValidArgs a where
  depth_pos := h.depth_pos
  depth_lt := h.depth_lt
  predictors_pos := h.predictors_pos
  predictors_lt := h.predictors_lt
  X_length := h.X_length
  X_row := h.X_row
  max_split_fits := h.max_split_fits
  split_bits := h.split_bits
  overflow := ho.imp_right fun hm => ⟨h.X_le, hm⟩
  nonterminal_pos := h.nonterminal_pos

/-- What is kept consistent by `step`: the trees are valid, the cutpoints are in range, and the cached leaf
indices are those found by traversing the trees. -/
def KeptConsistent {F : Type} (a : InitArgs F) (s : State F) : Prop :=
  s.leaf_indices = traverse_forest s.y.length s.X s.var_trees s.split_trees ∧
  ∀ t, t < a.num_trees → ValidSplit a.p_nonterminal.length (s.split_trees.getD t [])

/-- **C85**, full statement: all the states produced by `init` and `step` are consistent, for any number of
cutpoints that fits in the type. It is **false**, see `C85_overflow`. -/
def C85_statement (K F : Type) [KeyLike K] [Inhabited F] [Zero F] [One F] [Add F] [Sub F] [Mul F] [Div F] [Neg F]
    [NatCast F] [FltFun F] [FloatLaws F] : Prop :=
  ∀ (a : InitArgs F) (s : State F), InRange a → Reachable K a s → KeptConsistent a s

/-- **C85, partial**: all the states produced by `init` and `step` are consistent, for any number of
cutpoints that fits in the type, if there is a minimum number of datapoints per leaf, or the number of cutpoints is not the largest
value of the type. -/
theorem C85_partial {K F : Type} [KeyLike K] [Inhabited F] [Zero F] [One F] [Add F] [Sub F] [Mul F] [Div F] [Neg F]
    [NatCast F] [FltFun F] [FloatLaws F] {a : InitArgs F} {s : State F} (ha : InRange a)
    (ho : NoOverflow a ∨ ∃ m, 1 ≤ m ∧ a.min_points_per_leaf = some m) (hs : Reachable K a s) :
    KeptConsistent a s :=
  have hv := ha.valid ho
  ⟨C20_leaf_indices hv hs, fun t ht => ((C19_valid_trees hv hs).2.2.2 t ht).2.2.2⟩

/-! ### Counterexample -/

section
variable {K : Type} [KeyLike K]

/-- like `acc_eq`, without a minimum number of datapoints per leaf -/
theorem acc_eq_none (P : Binary32.Platform) (rng : Rng K Binary32) (s : State Binary32) (key : K)
    (hm : s.min_points_per_leaf = none) :
    let w := (letI := P; workOf rng s key 0)
    (letI := P; accOf rng s key 0).2.acc =
    (w.move.allowed && Binary32.le w.move.logu
      (if w.move.grow then P.log (priorArg s.min_points_per_leaf w) + (P.log (lkArg s.sigma2 w) / ((2 : Nat) : Binary32) +
        lkExp s.resid_batch_size (exp_factor s.leaf_trees.length s.sigma2) s.resid w) else
        -(P.log (priorArg s.min_points_per_leaf w) + (P.log (lkArg s.sigma2 w) / ((2 : Nat) : Binary32) +
        lkExp s.resid_batch_size (exp_factor s.leaf_trees.length s.sigma2) s.resid w)))) := by
  have h1 : (letI := P; workOf rng s key 0).log_trans_prior_ratio =
    P.log (priorArg s.min_points_per_leaf (letI := P; workOf rng s key 0)) := rfl
  have h2 : (letI := P; workOf rng s key 0).prelkv.sqrt_term =
    P.log (lkArg s.sigma2 (letI := P; workOf rng s key 0)) / ((2 : Nat) : Binary32) := rfl
  unfold accOf
  rw [residOf_zero]
  generalize (letI := P; workOf rng s key 0) = w at h1 h2 ⊢
  unfold accept_move_and_sample_leaves compute_likelihood_ratio
  dsimp only
  rw [h1, h2, hm]
  rfl

/-- like `acc_true`, without a minimum number of datapoints per leaf -/
theorem acc_true_none (P Q : Binary32.Platform) (hP : RoughLog P) (hc : P.cumsum = Q.cumsum) (rng : Rng K Binary32)
    (s : State Binary32) (key : K) (hm : s.min_points_per_leaf = none)
    (hu : (rng (KeyLike.split (KeyLike.split key 2 1) (1 + s.leaf_trees.length) 0)).uniform2 1 0 =
      1 - 1 / ((2 ^ 23 : Nat) : Binary32))
    (h : acceptable s 0 (letI := Q; workOf rng s key 0) = true) :
    (letI := P; accOf rng s key 0).2.acc = true := by
  have hf : ∀ w : TreeWork Binary32, acceptable s 0 w = acceptable s 0 w.forget := fun _ => rfl
  rw [hf, ← workOf_platform P Q hc, ← hf] at h
  rw [acc_eq_none P rng s key hm]
  have hlog : (letI := P; workOf rng s key 0).move.logu = P.log1p (-(1 - 1 / ((2 ^ 23 : Nat) : Binary32))) := by
    rw [← hu]; rfl
  rw [hlog]
  generalize (letI := P; workOf rng s key 0) = w at h ⊢
  unfold acceptable at h
  simp only [Bool.and_eq_true, decide_eq_true_eq] at h ⊢
  obtain ⟨⟨⟨⟨⟨⟨h1, h2⟩, h3⟩, h4⟩, h5⟩, _⟩, _⟩ := h
  refine ⟨h1, ?_⟩
  rw [if_pos h2, h5]
  exact Binary32.le_trans hP.log1p (bound (hP.log _ h3) (hP.log _ h4))

end

namespace ExV
open ExS

/-- sums from the left, and trivial logarithms -/
@[instance_reducible] def left : Binary32.Platform :=
  ⟨fun _ => 0, fun _ => .num true (Binary32.clip infBits), cumsum⟩

theorem left_rough : RoughLog left := ⟨cpu_rough.log, cpu_rough.log1p⟩

/-- four datapoints, a predictor with 255 cutpoints, a tree; the minimum number of datapoints per leaf is not set, which
is the default in `init` -/
def args : InitArgs Binary32 where
  X := [[0, 7, 255, 255]]
  y := [0, 0, 0, 0]
  max_split := [255]
  split_bits := 8
  num_trees := 1
  p_nonterminal := p
  sigma2_alpha := 1
  sigma2_beta := 1
  min_points_per_leaf := none
  resid_batch_size := none
  count_batch_size := none
  save_ratios := false
  nan := .nan

theorem args_range [Binary32.Platform] : InRange args where
  depth_pos := by decide
  depth_lt := by decide
  predictors_pos := by decide
  predictors_lt := by decide
  X_length := rfl
  X_row := by decide
  X_le := by
    intro v j hv hj
    have : v = 0 := by change v < 1 at hv; omega
    subst this
    change j < 4 at hj
    rcases j with _ | _ | _ | _ | j
    · decide
    · decide
    · decide
    · decide
    · omega
  max_split_fits := by decide
  split_bits := by decide
  nonterminal_pos := by
    show ∀ x ∈ p, Binary32.le (.num false ⟨0x00800000, _⟩) x = true ∧ Binary32.le x 0 = false ∧ Binary32.le x 1 = true
    decide +kernel

/-- a step that grows the tree, on any platform -/
theorem grow_step (P : Binary32.Platform) (hP : RoughLog P) (hc : ∀ w, P.cumsum w = cumsum w)
    (k : Fin (2 ^ 23)) (v : Nat) (s : State Binary32) (hr : s.ratios = none) (hn : s.leaf_trees.length = 1)
    (hm : s.min_points_per_leaf = none)
    (h1 : acceptable s 0 (letI := left; workOf (rng k v) s () 0) = true) :
    (letI := P; step (rng k v) s ()) = (letI := left; step (rng k v) s ()) := by
  have hc' : P.cumsum = left.cumsum := funext hc
  have hu : (rng k v ()).uniform2 1 0 = 1 - 1 / ((2 ^ 23 : Nat) : Binary32) := by
    show Binary32.uniform ⟨2 ^ 23 - 1, by decide⟩ 1 = _
    decide +kernel
  rw [step_platform P left hc' (rng k v) s () hr hn]
  rw [acc_true_none P left hP hc' (rng k v) s () hm hu h1, acc_true_none left left left_rough rfl (rng k v) s () hm hu h1]

/-- the state after growing the root with the last cutpoint -/
def s1 : State Binary32 := letI := left; step (rng 0 255) (init args) ()

/-- the state after growing the right leaf with cutpoint 0 -/
def s2 : State Binary32 := letI := left; step (rng ⟨2 ^ 23 - 1, by decide⟩ 0) s1 ()

theorem reachable (P : Binary32.Platform) (hP : RoughLog P) (hc : ∀ w, P.cumsum w = cumsum w) :
    ReachableJax Unit args s2 := by
  have h0 : (init args : State Binary32) = (letI := left; init args) := rfl
  have e1 : step (rng 0 255) (init args : State Binary32) () = s1 :=
    grow_step P hP hc 0 255 (init args) rfl rfl rfl (by rw [h0]; decide +kernel)
  have r1 : ReachableJax Unit args s1 := by rw [← e1]; exact .step _ _ .init (rng_jax _ _)
  have e2 : step (rng ⟨2 ^ 23 - 1, by decide⟩ 0) s1 () = s2 :=
    grow_step P hP hc _ 0 s1 rfl rfl rfl (by decide +kernel)
  rw [← e2]
  exact .step _ _ r1 (rng_jax _ _)

-- the tree is split only at the root, but the last two datapoints are recorded in node 7
example : s2.split_trees = [255 :: List.replicate 30 0 |>.cons 0] := by decide +kernel
example : s2.leaf_indices = [[2, 2, 7, 7]] := by decide +kernel

end ExV

open scoped ExS in
/-- **C85, negation**: in single precision, with sums from the left, and with any implementation of the logarithms that is not
grossly wrong, with 255 cutpoints, and without a minimum number of datapoints per leaf, `step` produces a state in which the cached leaf
indices are not those found by traversing the trees. -/
theorem C85_overflow (P : Binary32.Platform) (hP : RoughLog P) (hc : ∀ w, P.cumsum w = cumsum w) :
    ∃ (a : InitArgs Binary32) (s : State Binary32), InRange a ∧ a.max_split = [255] ∧ a.split_bits = 8 ∧
      a.min_points_per_leaf = none ∧ ReachableJax Unit a s ∧ ¬ KeptConsistent a s := by
  refine ⟨ExV.args, ExV.s2, ExV.args_range, rfl, rfl, rfl, ExV.reachable P hP hc, fun h => ?_⟩
  exact absurd h.1 (by decide +kernel)

-- the hypotheses can be satisfied
example : ∃ P : Binary32.Platform, RoughLog P ∧ ∀ w, P.cumsum w = cumsum w := ⟨ExV.left, ExV.left_rough, fun _ => rfl⟩

open scoped ExS in
theorem C85_not : letI := ExV.left; letI := Binary32.floatLaws (fun _ => rfl); ¬ C85_statement Unit Binary32 := by
  let _ := ExV.left
  let _ := Binary32.floatLaws (fun _ => rfl)
  intro h
  obtain ⟨a, s, h1, _, _, _, h2, h3⟩ := C85_overflow ExV.left ExV.left_rough fun _ => rfl
  exact h3 (h a s h1 (ReachableJax.reachable h2))

namespace ExV
open ExS

/-- the same data, with at least one datapoint per leaf -/
def args1 : InitArgs Binary32 := { args with min_points_per_leaf := some 1 }

theorem args1_range [Binary32.Platform] : InRange args1 :=
  { args_range with }

-- with the same random numbers, the first step is as before, the second one does nothing
example : letI := left
    let s1 := step (rng 0 255) (init args1) ()
    let s2 := step (rng ⟨2 ^ 23 - 1, by decide⟩ 0) s1 ()
    s1.leaf_indices = [[2, 2, 3, 3]] ∧ s2.leaf_indices = [[2, 2, 3, 3]] := by decide +kernel

example {s : State Binary32} (hs : letI := left; Reachable Unit args1 s) : KeptConsistent args1 s :=
  letI := left
  letI := Binary32.floatLaws (fun _ => rfl)
  C85_partial args1_range (Or.inr ⟨1, le_rfl, rfl⟩) hs

end ExV

end Bartz
