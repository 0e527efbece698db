import Verif.Props.Mcmc
import Verif.Lemmas.Batch
import Verif.Lemmas.InvGamma
import Verif.Model.BatchSize
import Verif.Spec.Real
/-!
# Properties C21, C31, C32, C33, C35, C38: what a step computes, in exact arithmetic

In C21 and C35 the numbers are any commutative ring with a division operation that may or may not
be the inverse of the multiplication; in the other theorems they are the real numbers.
-/

set_option autoImplicit false

namespace Bartz
open Jax Spec MeasureTheory ProbabilityTheory
open Ex

/-! ### C21 -/

section
variable {K F : Type} [KeyLike K] [Inhabited F] [CommRing F] [Div F] [FltFun F] [FloatLaws F]
  {a : InitArgs F} {s : State F}

/-- C21. The residuals are data minus forest. -/
theorem C21_residuals (ha : ValidArgs a) (hs : Reachable K a s) :
    s.resid = List.zipWith (· - ·) s.y
      (evaluate_forest s.y.length s.X s.leaf_trees s.var_trees s.split_trees) := by
  have h := reachable_inv ha hs
  have hr := reachable_resid ha hs
  have hl : (evaluate_forest s.y.length s.X s.leaf_trees s.var_trees s.split_trees).length =
      s.y.length := by unfold evaluate_forest; rw [length_vmap]
  apply List.ext_getElem
  · rw [List.length_zipWith, hl, h.resid_length, h.cfg.y]; simp
  · intro j h1 h2
    have hj : j < a.y.length := by rw [← h.resid_length]; exact h1
    have hj' : j < s.y.length := by rw [h.cfg.y]; exact hj
    have e := evaluate_train ha h hj
    rw [List.getElem_zipWith, ← List.getD_eq_getElem _ 0 h1, hr j hj, ← List.getD_eq_getElem s.y 0 hj',
      ← List.getD_eq_getElem _ 0 (by rw [hl]; exact hj'), h.cfg.y, h.cfg.X, e]

-- non trivial: the residuals have changed in a step
example : state1.resid ≠ state1.y ∧ state1.resid = List.zipWith (· - ·) state1.y
    (evaluate_forest 4 state1.X state1.leaf_trees state1.var_trees state1.split_trees) :=
  ⟨by decide, C21_residuals args_valid state1_reachable⟩

/-! ### C35 -/

/-- the state after a sequence of steps, each with its key and random draws -/
def steps (l : List (Rng K F × K)) (s : State F) : State F :=
  l.foldl (fun s rk => step rk.1 s rk.2) s

omit [FloatLaws F] in
/-- C35. Changing the batch sizes does not change anything else in the result of any number of
steps: the state is the same for all batch sizes. -/
theorem C35_batch_size (a : InitArgs F) (r c : Option Nat) (l : List (Rng K F × K)) :
    steps l (init { a with resid_batch_size := r, count_batch_size := c }) =
      { steps l (init a) with resid_batch_size := r, count_batch_size := c } := by
  have h0 : init { a with resid_batch_size := r, count_batch_size := c } =
      withBatch r c (init a) := rfl
  rw [h0]
  show steps l (withBatch r c (init a)) = withBatch r c (steps l (init a))
  generalize init a = s
  unfold steps
  induction l generalizing s with
  | nil => rfl
  | cons x l ih => rw [List.foldl_cons, List.foldl_cons, step_batch, ih]

end

/-- C35. The number of datapoints per leaf does not depend on the batch size, and is the number of
occurrences of each index (integers, so exact also with floating point numbers). -/
theorem C35_count (indices : List Nat) (size : Nat) (b : Option Nat) :
    count_datapoints_per_leaf indices size b = (List.range size).map fun k => indices.count k := by
  apply List.ext_getElem
  · rw [length_count]; simp
  · intro k h1 h2
    have hk : k < size := by rw [length_count] at h1; exact h1
    rw [← List.getD_eq_getElem _ 0 h1, count_getD _ _ _ _ hk]
    simp

/-- C35. The sum of residuals per leaf does not depend on the batch size. -/
theorem C35_sum {F : Type} [CommRing F] (resid : List F) (indices : List Nat) (size : Nat)
    (b : Option Nat) (h : resid.length = indices.length) :
    sum_resid resid indices size b = (List.range size).map fun k =>
      ∑ j ∈ Finset.range indices.length, if at0 indices j = k then resid.getD j 0 else 0 := by
  apply List.ext_getElem
  · rw [length_sum_resid]; simp
  · intro k h1 h2
    have hk : k < size := by rw [length_sum_resid] at h1; exact h1
    rw [← List.getD_eq_getElem _ 0 h1, sum_resid_getD _ _ _ _ _ hk, sumAt_eq _ _ _ h]
    simp

example : count_datapoints_per_leaf [1, 3, 3, 2, 3] 4 (some 2) = [0, 1, 1, 3] ∧
    sum_resid [1, 10, 100, 1000, 10000] [1, 3, 3, 2, 3] 4 (some 3) = [0, (1 : Int), 1000, 10110] := by
  decide

theorem two_zpow_max (k : ℤ) : ∃ m : ℕ, 1 ≤ m ∧ max 1 ((2 : ℚ) ^ k) = m := by
  rcases le_total 0 k with h | h
  · obtain ⟨n, rfl⟩ := Int.eq_ofNat_of_zero_le h
    refine ⟨2 ^ n, Nat.one_le_two_pow, ?_⟩
    have : (1 : ℚ) ≤ 2 ^ n := one_le_pow₀ (by norm_num)
    rw [zpow_natCast, max_eq_right this]
    push_cast; rfl
  · refine ⟨1, le_refl _, ?_⟩
    have : (2 : ℚ) ^ k ≤ 1 := zpow_le_one_of_nonpos₀ (by norm_num) h
    rw [max_eq_left this]; simp

/-- C35. The automatic choice is `None` or a positive integer; it works on cpu and gpu and fails
otherwise; on gpu the count batches are such that the memory used stays below 512 MiB. User
specified values are left alone. -/
theorem C35_auto (log2 : ℚ → ℚ) (size forest_size : Nat) (p : Platform) :
    (p = .other → choose_suffstat_batch_size log2 p .auto .auto size forest_size =
      .error "KeyError") ∧
    (p ≠ .other → ∃ r c, choose_suffstat_batch_size log2 p .auto .auto size forest_size = .ok (r, c) ∧
      (∃ m : ℕ, 1 ≤ m ∧ r = some (m : ℚ)) ∧
      ((p = .cpu ∧ c = none) ∨ (p = .gpu ∧ ∃ m : ℕ, 1 ≤ m ∧ c = some (m : ℚ) ∧
        forest_size * 4 * size ≤ m * 2 ^ 29))) ∧
    (∀ r c, choose_suffstat_batch_size log2 p (.given r) (.given c) size forest_size = .ok (r, c)) := by
  refine ⟨?_, ?_, fun r c => rfl⟩
  · rintro rfl; rfl
  · intro hp
    cases p with
    | other => exact absurd rfl hp
    | cpu =>
      obtain ⟨m, hm, e⟩ := two_zpow_max (pyRound (log2 (max 1 (size : ℚ) / 6)))
      refine ⟨_, _, rfl, ⟨m, hm, ?_⟩, Or.inl ⟨rfl, rfl⟩⟩
      show some _ = some _
      rw [← e]
    | gpu =>
      obtain ⟨m, hm, e⟩ := two_zpow_max (pyRound ((1 + log2 (max 1 (size : ℚ))) / 3))
      refine ⟨_, _, rfl, ⟨m, hm, ?_⟩, Or.inr ⟨rfl, ?_⟩⟩
      · show some _ = some _
        rw [← e]
      · obtain ⟨m1, hm1, e1⟩ := two_zpow_max (pyRound (log2 (max 1 (size : ℚ)) / 2 - 2))
        set x : ℚ := (forest_size : ℚ) * 4 * max 1 (size : ℚ) / 2 ^ 29 with hx
        have hx0 : 0 ≤ x := by positivity
        obtain ⟨m2, hm2⟩ := Int.eq_ofNat_of_zero_le (Int.ceil_nonneg hx0)
        refine ⟨max m1 m2, le_trans hm1 (le_max_left _ _), ?_, ?_⟩
        · show some (max 1 (max ((2 : ℚ) ^ pyRound (log2 (max 1 (size : ℚ)) / 2 - 2)) (⌈x⌉ : ℚ))) = _
          rw [← max_assoc, e1, hm2]
          push_cast; rfl
        · have h1 : x ≤ (⌈x⌉ : ℚ) := Int.le_ceil x
          rw [hm2] at h1
          have h2 : (forest_size : ℚ) * 4 * max 1 (size : ℚ) ≤ (m2 : ℚ) * 2 ^ 29 := by
            rw [hx, div_le_iff₀ (by positivity)] at h1
            simpa using h1
          have h3 : (forest_size : ℚ) * 4 * size ≤ forest_size * 4 * max 1 (size : ℚ) := by
            apply mul_le_mul_of_nonneg_left (le_max_right _ _) (by positivity)
          have h4 : ((m2 : ℕ) : ℚ) ≤ ((max m1 m2 : ℕ) : ℚ) := by
            exact_mod_cast le_max_right m1 m2
          have h5 : (forest_size : ℚ) * 4 * size ≤ ((max m1 m2 : ℕ) : ℚ) * 2 ^ 29 := by nlinarith
          exact_mod_cast h5

example : (choose_suffstat_batch_size (fun x => if x = 100 / 6 then 4 else 7) .cpu .auto .auto 100
    800) = .ok (some 16, none) := by
  have : pyRound 4 = 4 := by decide +kernel
  simp [choose_suffstat_batch_size, choose_resid_batch_size, choose_count_batch_size, get_platform,
    Bind.bind, Except.bind, this]
  norm_num

/-! ### The rest is about real numbers -/

namespace ExR

/-- the same data of `Ex.args`, with real numbers -/
noncomputable def args : InitArgs ℝ :=
  { X := [[0, 1, 2, 3], [2, 1, 0, 0]], y := [1, 2, 3, 4], max_split := [3, 2], split_bits := 8,
    num_trees := 2, p_nonterminal := [9 / 10, 1 / 2], sigma2_alpha := 3, sigma2_beta := 2,
    min_points_per_leaf := some 1, resid_batch_size := none, count_batch_size := some 3,
    save_ratios := true, nan := 0 }

theorem args_valid : ValidArgs args where
  depth_pos := by simp [args]
  depth_lt := by simp [args]
  predictors_pos := by simp [args]
  predictors_lt := by simp [args]
  X_length := rfl
  X_row := by simp [args]
  max_split_fits := by simp [args]
  split_bits := by simp [args]
  nonterminal_pos := by
    intro x hx
    simp only [args, List.mem_cons, List.not_mem_nil, or_false] at hx
    rcases hx with rfl | rfl <;> norm_num
  overflow := Or.inl (by unfold NoOverflow; decide)

noncomputable def rng : Rng Unit ℝ := fun _ =>
  { uniform2 := fun _ _ => 0, uniformTo := fun _ => 0, randint := fun lo _ => lo
    normal := fun _ _ => 1, gamma := fun _ => 1 }

theorem rng_lawful : LawfulRng rng := fun _ =>
  { uniform2_nonneg := fun _ _ => by simp [rng], uniform2_lt_one := fun _ _ => by simp [rng]
    uniformTo := fun hi h1 h2 _ => by simp at h1 h2; simp [rng, h2]
    randint_mem := fun lo hi h => ⟨le_refl _, h⟩, randint_empty := fun _ _ _ => rfl }

theorem reachable : Reachable Unit args (init args) := .init

theorem sigma2_pos : 0 < (init args).sigma2 := by
  simp only [init, args]
  norm_num

end ExR

section
variable {K : Type} [KeyLike K] {a : InitArgs ℝ} {s : State ℝ}

/-! ### C32 -/

/-- the value of a leaf after a step -/
theorem leaf_values_eq (ha : ValidArgs a) (h : StateInv a s) (hr : ResidInv a s) (hsig : 0 < s.sigma2)
    (rng : Rng K ℝ) (hrng : LawfulRng rng) (key : K) (t : Nat) (ht : t < a.num_trees) (i : Nat) :
    let s' := step rng s key
    let D := leafData s.X s.y.length (s'.var_trees.getD t []) (s'.split_trees.getD t [])
      (partialResid a.p_nonterminal.length a.num_trees s s' t) i
    IsLeaf (s'.split_trees.getD t []) i →
    (s'.leaf_trees.getD t []).getD i 0 =
        postVar (1 / (a.num_trees : ℝ)) s.sigma2 D.length * D.sum / s.sigma2 +
        Real.sqrt (postVar (1 / (a.num_trees : ℝ)) s.sigma2 D.length) * (rng (KeyLike.split (KeyLike.split key 2 1) 2 0)).normal t i := by
  have h' := stateInv_step ha h rng hrng key
  intro s' D hleaf
  have hnt : (0 : ℝ) < a.num_trees := by exact_mod_cast (by omega : 0 < a.num_trees)
  obtain ⟨e1, e2, e3, e4⟩ := leaf_step h rng key ht
  have hleaf' := hleaf
  rw [show s'.split_trees.getD t [] = _ from e4] at hleaf'
  have hL := leavesOf_getD ha h rng hrng (KeyLike.split key 2 1) ht hleaf'
  dsimp only at hL
  have hD : D = _ := leafData_of_idx (idx := s'.leaf_indices.getD t []) (fun j hj => by
    have hj' : j < a.y.length := by rw [← h.cfg.y]; exact hj
    have := idx_iff ha h' ht hj' i
    rw [h'.cfg.X, ← h.cfg.X] at this
    exact this)
  have hlen : D.length = ((Finset.range a.y.length).filter fun j =>
      at0 (idxOf rng s (KeyLike.split key 2 1) t) j = i).card := by
    rw [hD, length_filter_range, h.cfg.y, ← e2]
  have hsum : D.sum = ∑ j ∈ (Finset.range a.y.length).filter fun j =>
      at0 (idxOf rng s (KeyLike.split key 2 1) t) j = i,
      partResid rng s (KeyLike.split key 2 1) t j := by
    rw [hD, sum_filter_range, h.cfg.y, ← e2]
    apply Finset.sum_congr rfl
    intro j hj
    rw [Finset.mem_filter, Finset.mem_range] at hj
    exact (partResid_eq ha h hr rng hrng key ht hj.1).symm
  rw [show s'.leaf_trees.getD t [] = _ from e1, hL, ← hsum, ← hlen]
  have hv : postVar (1 / (a.num_trees : ℝ)) s.sigma2 D.length =
      1 / ((D.length : ℝ) / s.sigma2 + a.num_trees) := by
    unfold postVar; rw [one_div_one_div]
  rw [hv, Real.fltFun_sqrt]
  ring

/-- C32. In a step, the value of each leaf of each tree after the update is `m + sqrt v * z`, where
`z` is the standard normal variate for that leaf and `m` and `v` are the mean and variance of the
posterior of the leaf value given the datapoints in that leaf, i.e., data minus the other trees. -/
theorem C32_leaf_values (ha : ValidArgs a) (hs : Reachable K a s) (hsig : 0 < s.sigma2)
    (rng : Rng K ℝ) (hrng : LawfulRng rng) (key : K) (t : Nat) (ht : t < a.num_trees) (i : Nat) :
    let s' := step rng s key
    let D := leafData s.X s.y.length (s'.var_trees.getD t []) (s'.split_trees.getD t [])
      (partialResid a.p_nonterminal.length a.num_trees s s' t) i
    IsLeaf (s'.split_trees.getD t []) i →
    ∃ m v, IsLeafPosterior (1 / (a.num_trees : ℝ)) s.sigma2 D m v ∧
      (s'.leaf_trees.getD t []).getD i 0 =
        m + Real.sqrt v * (rng (KeyLike.split (KeyLike.split key 2 1) 2 0)).normal t i := by
  intro s' D hleaf
  have hnt : (0 : ℝ) < a.num_trees := by exact_mod_cast (by omega : 0 < a.num_trees)
  exact ⟨_, _, isLeafPosterior (by positivity) hsig D, leaf_values_eq ha (reachable_inv ha hs)
    (reachable_resid ha hs) hsig rng hrng key t ht i hleaf⟩

example := C32_leaf_values ExR.args_valid ExR.reachable ExR.sigma2_pos ExR.rng ExR.rng_lawful () 0
  (by simp [ExR.args])

/-! ### C31 -/

/-- C31. The likelihood ratio computed from the sufficient statistics of the left and right
datapoints is the log ratio of the marginal likelihoods. -/
theorem C31_likelihood_ratio (ntree : Nat) (hnt : 0 < ntree) (sigma2 : ℝ) (hsig : 0 < sigma2)
    (l r : List ℝ) :
    compute_likelihood_ratio (l.sum + r.sum) l.sum r.sum
      (precompute_likelihood_terms ntree sigma2
        { left := l.length, right := r.length, total := l.length + r.length })
      (exp_factor ntree sigma2) =
    Real.log (leafMarginal (1 / (ntree : ℝ)) sigma2 l * leafMarginal (1 / (ntree : ℝ)) sigma2 r /
      leafMarginal (1 / (ntree : ℝ)) sigma2 (l ++ r)) := by
  have hnt' : (0 : ℝ) < ntree := by exact_mod_cast hnt
  have ht : 0 < 1 / (ntree : ℝ) := by positivity
  rw [Real.log_div (mul_ne_zero (leafMarginal_pos ht hsig l).ne' (leafMarginal_pos ht hsig r).ne')
    (leafMarginal_pos ht hsig _).ne', Real.log_mul (leafMarginal_pos ht hsig l).ne'
    (leafMarginal_pos ht hsig r).ne', log_leafMarginal ht hsig, log_leafMarginal ht hsig,
    log_leafMarginal ht hsig]
  unfold compute_likelihood_ratio precompute_likelihood_terms exp_factor
  simp only [Real.fltFun_log, List.sum_append, List.length_append, sumSq, List.map_append]
  generalize 1 / (ntree : ℝ) = τ at ht
  push_cast
  have hl : 0 < sigma2 + (l.length : ℝ) * τ := by positivity
  have hr : 0 < sigma2 + (r.length : ℝ) * τ := by positivity
  have hlr : 0 < sigma2 + ((l.length : ℝ) + r.length) * τ := by positivity
  rw [Real.log_div (by positivity) (by positivity), Real.log_div hsig.ne' hl.ne',
    Real.log_div hsig.ne' hr.ne', Real.log_div hsig.ne' hlr.ne', Real.log_mul hsig.ne' hlr.ne',
    Real.log_mul hl.ne' hr.ne']
  ring

/-- the log likelihood ratio of a possible move -/
theorem loglik_eq (ha : ValidArgs a) (h : StateInv a s) (hr : ResidInv a s) (hsig : 0 < s.sigma2)
    (rng : Rng K ℝ) (hrng : LawfulRng rng) (key : K) (t : Nat) (ht : t < a.num_trees) (mv : Move ℝ)
    (hmv' : mv = moveOf rng s (KeyLike.split (KeyLike.split key 2 1) 2 1) t)
    (hallowed : mv.allowed = true) (hsplit : mv.grow = true → 1 ≤ mv.grow_split) :
    let s' := step rng s key
    let split := s.split_trees.getD t []
    let D := leafData s.X s.y.length mv.var_tree
      (if mv.grow then setDrop split mv.node mv.grow_split else split)
      (partialResid a.p_nonterminal.length a.num_trees s s' t)
    let M := leafMarginal (1 / (a.num_trees : ℝ)) s.sigma2
    (accOf rng s (KeyLike.split key 2 1) t).2.log_likelihood =
      Real.log (M (D (2 * mv.node)) * M (D (2 * mv.node + 1)) /
      M (D (2 * mv.node) ++ D (2 * mv.node + 1))) := by
  intro s' split D M
  set k := KeyLike.split key 2 1 with hk
  have hm := moveOf_ok ha h rng hrng (KeyLike.split k 2 1) ht
  have hT := h.tree t ht
  have hp : 2 ^ (a.p_nonterminal.length + 1) = 2 * 2 ^ a.p_nonterminal.length := by
    rw [pow_succ]; omega
  have hnode : mv.node < 2 ^ a.p_nonterminal.length := by
    rw [hmv'] at hallowed ⊢; exact allowed_node_lt hT hm hallowed
  have hpos : 1 ≤ mv.node := by
    cases hg : mv.grow with
    | true => rw [hmv'] at hg ⊢; exact (hm.grow_leaf hg).1.1.pos
    | false => rw [hmv'] at hg hallowed ⊢; exact (hm.prune_node hg hallowed).1.1.pos
  have hcl := length_residTree ha h rng hrng k ht
  have bl := big_stats ha h hr rng hrng key ht (hmv' ▸ hsplit) (2 * mv.node) (by omega) (by rw [← hk, ← hmv']; omega)
  have br := big_stats ha h hr rng hrng key ht (hmv' ▸ hsplit) (2 * mv.node + 1) (by omega)
    (by rw [← hk, ← hmv']; omega)
  rw [← hk, ← hmv'] at bl br
  have hDl : D (2 * mv.node) = leafData s.X a.y.length mv.var_tree (bigSplit split mv)
    (partialResid a.p_nonterminal.length a.num_trees s s' t) (2 * mv.node) := by
    simp only [D, bigSplit, h.cfg.y]
  have hDr : D (2 * mv.node + 1) = leafData s.X a.y.length mv.var_tree (bigSplit split mv)
    (partialResid a.p_nonterminal.length a.num_trees s s' t) (2 * mv.node + 1) := by
    simp only [D, bigSplit, h.cfg.y]
  rw [← C31_likelihood_ratio a.num_trees (by omega) s.sigma2 hsig, hDl, hDr, ← bl.1, ← br.1,
    ← bl.2, ← br.2]
  have hcw := counts_work ha h rng hrng k ht (by rw [← hmv']; exact hnode)
  rw [← hmv'] at hcw
  have hcounts : (workOf rng s k t).counts =
      { left := (gidx rng s k t).count (2 * mv.node), right := (gidx rng s k t).count (2 * mv.node + 1),
        total := (gidx rng s k t).count (2 * mv.node) + (gidx rng s k t).count (2 * mv.node + 1) } := by
    rw [← hcw.1, ← hcw.2.1]
    have := hcw.2.2
    rw [← hcw.1, ← hcw.2.1] at this
    rw [← this]
  rw [← hcounts, ← h.leaf_length]
  have hgl : gather (residTree rng s k t) mv.left = (residTree rng s k t).getD (2 * mv.node) 0 := by
    rw [gather_eq_getD (by rw [hcl, hmv', hm.left, ← hmv']; omega) 0, hmv', hm.left]
  have hgr : gather (residTree rng s k t) mv.right =
      (residTree rng s k t).getD (2 * mv.node + 1) 0 := by
    rw [gather_eq_getD (by rw [hcl, hmv', hm.right, ← hmv']; omega) 0, hmv', hm.right]
  rw [← hgl, ← hgr, hmv']
  rfl

/-- C31, for the ratios saved in the state. Consider a possible move of tree `t` at a node; let `l`
and `r` be the partial residuals of the datapoints left and right of the decision rule at the node
(the proposed one if growing, the existing one if pruning). Then the log likelihood ratio is the log
ratio of marginal likelihoods. The proposed cutpoint must not be 0 (`hsplit`), which happens only if the
range of the cutpoints overflows, see `C27_overflow`; it never happens if `NoOverflow a`, see
`C31_split_pos`. -/
theorem C31_in_step (ha : ValidArgs a) (hs : Reachable K a s) (hsig : 0 < s.sigma2)
    (rng : Rng K ℝ) (hrng : LawfulRng rng) (key : K) (t : Nat) (ht : t < a.num_trees) (mv : Move ℝ)
    (hmv : (sample_moves rng s (KeyLike.split (KeyLike.split key 2 1) 2 1))[t]? = some mv)
    (hallowed : mv.allowed = true) (hsplit : mv.grow = true → 1 ≤ mv.grow_split) (trans lik : List ℝ) :
    let s' := step rng s key
    let split := s.split_trees.getD t []
    let D := leafData s.X s.y.length mv.var_tree
      (if mv.grow then setDrop split mv.node mv.grow_split else split)
      (partialResid a.p_nonterminal.length a.num_trees s s' t)
    let M := leafMarginal (1 / (a.num_trees : ℝ)) s.sigma2
    s'.ratios = some (trans, lik) →
    lik.getD t 0 = Real.log (M (D (2 * mv.node)) * M (D (2 * mv.node + 1)) /
      M (D (2 * mv.node) ++ D (2 * mv.node + 1))) := by
  have h := reachable_inv ha hs
  intro s' split D M hrat
  set k := KeyLike.split key 2 1 with hk
  have hmv' : mv = moveOf rng s (KeyLike.split k 2 1) t := by
    rw [sample_moves_eq, h.leaf_length] at hmv
    simp [vmap, ht] at hmv
    exact hmv.symm
  have hlik : lik.getD t 0 = (accOf rng s k t).2.log_likelihood := by
    have : s'.ratios = s.ratios.map fun _ => (vmap s.leaf_trees.length fun t =>
        (accOf rng s k t).2.log_trans_prior, vmap s.leaf_trees.length fun t =>
        (accOf rng s k t).2.log_likelihood) := by
      simp only [s', step_eq, sample_trees_eq, sample_sigma]; rfl
    rw [this] at hrat
    cases hsr : s.ratios with
    | none => rw [hsr] at hrat; simp at hrat
    | some r0 =>
      rw [hsr] at hrat
      simp only [Option.map_some, Option.some.injEq, Prod.mk.injEq] at hrat
      rw [← hrat.2, getD_vmap (by rw [h.leaf_length]; exact ht)]
  rw [hlik]
  exact loglik_eq ha (reachable_inv ha hs) (reachable_resid ha hs) hsig rng hrng key t ht mv hmv' hallowed
    hsplit

/-- C31. If the largest cutpoint is not the largest number represented by the type, all the proposed
cutpoints are positive. -/
theorem C31_split_pos (ha : ValidArgs a) (hno : NoOverflow a) (hs : Reachable K a s) (rng : Rng K ℝ)
    (hrng : LawfulRng rng) (key : K) (t : Nat) (ht : t < a.num_trees) (mv : Move ℝ)
    (hmv : (sample_moves rng s (KeyLike.split (KeyLike.split key 2 1) 2 1))[t]? = some mv)
    (hg : mv.grow = true) : 1 ≤ mv.grow_split := by
  have h := reachable_inv ha hs
  have hmv' : mv = moveOf rng s (KeyLike.split (KeyLike.split key 2 1) 2 1) t := by
    rw [sample_moves_eq, h.leaf_length] at hmv
    simp [vmap, ht] at hmv
    exact hmv.symm
  have hm := moveOf_ok ha h rng hrng (KeyLike.split (KeyLike.split key 2 1) 2 1) ht
  rw [← hmv'] at hm
  exact (hm.grow_split hg (move_not_wraps ha hno (h.tree t ht) hm hg)).pos

-- hypotheses: the move in the example is allowed
example : (moveOf ExR.rng (init ExR.args) () 0).allowed = true := by
  have hg : (grow_move ExR.rng (init ExR.args).var_bits (init ExR.args).split_bits
      ((init ExR.args).var_trees.getD 0 [])
      ((init ExR.args).split_trees.getD 0 [])
      ((init ExR.args).affluence_trees.map fun a => a.getD 0 []) (init ExR.args).max_split
      (init ExR.args).p_nonterminal (init ExR.args).p_propose_grow
      (KeyLike.split (KeyLike.split () 3 1) 2 0)).num_growable = 1 := by
    show countNonzero (growable_leaves [0, 0, 0, 0] (some [false, true, false, false])) = 1
    decide
  show (FltFun.ltb (0 : ℝ) _ || _) = true
  simp only [Bool.or_eq_true]
  left
  rw [show (init ExR.args).leaf_trees.length = 2 from rfl]
  simp only [hg]
  split
  · simp [half]
  · simp

/-! ### C33 -/

/-- C33. The new noise variance is `b' / g`, where `g` is the random variate with distribution
Gamma(a') and `a'`, `b'` are the parameters of the inverse gamma posterior of the variance, given the
residuals of the new forest; if `g` has density Gamma(a'), `b' / g` has density InvGamma(a', b'). -/
theorem C33_sigma2 (ha : ValidArgs a) (hs : Reachable K a s) (halpha : 0 < a.sigma2_alpha)
    (hbeta : 0 < a.sigma2_beta) (rng : Rng K ℝ) (hrng : LawfulRng rng) (key : K) :
    let s' := step rng s key
    ∃ a' b', 0 < a' ∧ 0 < b' ∧
      IsSigmaPosterior a.sigma2_alpha a.sigma2_beta
        (List.zipWith (· - ·) s'.y
          (evaluate_forest s'.y.length s'.X s'.leaf_trees s'.var_trees s'.split_trees)) a' b' ∧
      s'.sigma2 = b' / (rng (KeyLike.split key 2 0)).gamma a' ∧
      (gammaMeasure a' 1).map (fun g => b' / g) =
        volume.withDensity (fun x => ENNReal.ofReal (invGammaPdf a' b' x)) := by
  have hs' : Reachable K a (step rng s key) := .step rng key hs hrng
  have h' := reachable_inv ha hs'
  have h := reachable_inv ha hs
  intro s'
  have hpost := isSigmaPosterior halpha hbeta s'.resid
  have hS : 0 ≤ sumSq s'.resid := by
    unfold sumSq
    apply List.sum_nonneg
    intro y hy
    rw [List.mem_map] at hy
    obtain ⟨z, _, rfl⟩ := hy
    exact mul_self_nonneg z
  have ha' : 0 < a.sigma2_alpha + s'.resid.length / 2 := by positivity
  have hb' : 0 < a.sigma2_beta + sumSq s'.resid / 2 := by positivity
  rw [← C21_residuals ha hs']
  refine ⟨_, _, ha', hb', hpost, ?_, map_div_gamma ha' hb'⟩
  have e : s'.sigma2 = (s.sigma2_beta + Jax.sum (s'.resid.map fun r => r * r) / ((2 : Nat) : ℝ)) /
      (rng (KeyLike.split key 2 0)).gamma (s.sigma2_alpha + (s'.resid.length : ℝ) / ((2 : Nat) : ℝ)) := rfl
  rw [e, h.cfg.sigma2_alpha, h.cfg.sigma2_beta, jaxSum_eq]
  push_cast
  rfl

example := C33_sigma2 ExR.args_valid ExR.reachable (by simp [ExR.args]) (by simp [ExR.args]) ExR.rng
  ExR.rng_lawful ()

/-! ### C38 -/

/-- C38. The initial variance is the prior scale over the prior shape, or 1 if that is not finite
and positive (with any numbers); for real numbers it is positive. -/
theorem C38_init :
    (∀ {F : Type} [Inhabited F] [Zero F] [One F] [Div F] [FltFun F] (a : InitArgs F),
      (FltFun.isFinite (a.sigma2_beta / a.sigma2_alpha) = true ∧
        FltFun.ltb 0 (a.sigma2_beta / a.sigma2_alpha) = true →
        (init a).sigma2 = a.sigma2_beta / a.sigma2_alpha) ∧
      (¬ (FltFun.isFinite (a.sigma2_beta / a.sigma2_alpha) = true ∧
        FltFun.ltb 0 (a.sigma2_beta / a.sigma2_alpha) = true) → (init a).sigma2 = 1)) ∧
    ∀ a : InitArgs ℝ, 0 < (init a).sigma2 := by
  refine ⟨fun a => ⟨?_, ?_⟩, fun a => ?_⟩
  · rintro ⟨h1, h2⟩; simp [init, h1, h2]
  · intro h
    simp only [init]
    rw [if_neg]
    simpa using h
  · simp only [init]
    split_ifs with h
    · simpa using h
    · exact one_pos

/-- C38. If the Gamma variates are positive and the prior scale is positive, the variance is
positive after any number of steps. If the prior scale is only non-negative, the variance is
positive after a step unless all residuals are zero. -/
theorem C38_positive (ha : ValidArgs a) (halpha : 0 < a.sigma2_alpha) (hbeta : 0 ≤ a.sigma2_beta)
    (l : List (Rng K ℝ × K)) (hl : ∀ rk ∈ l, LawfulRng rk.1)
    (hg : ∀ rk ∈ l, ∀ k x, 0 < x → 0 < (rk.1 k).gamma x) :
    (0 < a.sigma2_beta → 0 < (steps l (init a)).sigma2) ∧
    (l = [] ∨ (∃ r ∈ (steps l (init a)).resid, r ≠ 0) → 0 < (steps l (init a)).sigma2) := by
  rcases List.eq_nil_or_concat l with rfl | ⟨l', rk, rfl⟩
  · exact ⟨fun _ => C38_init.2 a, fun _ => C38_init.2 a⟩
  · have hreach : ∀ l0 : List (Rng K ℝ × K), (∀ rk ∈ l0, LawfulRng rk.1) →
        Reachable K a (steps l0 (init a)) := by
      intro l0
      induction l0 using List.reverseRecOn with
      | nil => intro _; exact .init
      | append_singleton l0 x ih =>
        intro h
        unfold steps
        rw [List.foldl_append]
        exact .step x.1 x.2 (ih fun rk hrk => h rk (by simp [hrk])) (h x (by simp))
    rw [List.concat_eq_append] at *
    set s := steps l' (init a) with hs
    have hs' : steps (l' ++ [rk]) (init a) = step rk.1 s rk.2 := by
      unfold steps; rw [List.foldl_append]; rfl
    have hR : Reachable K a s := hreach l' (fun rk hrk => hl rk (by simp [hrk]))
    have h := reachable_inv ha hR
    rw [hs']
    set s' := step rk.1 s rk.2 with hs''
    have e : s'.sigma2 = (s.sigma2_beta + Jax.sum (s'.resid.map fun r => r * r) / ((2 : Nat) : ℝ)) /
        (rk.1 (KeyLike.split rk.2 2 0)).gamma
          (s.sigma2_alpha + (s'.resid.length : ℝ) / ((2 : Nat) : ℝ)) := rfl
    rw [h.cfg.sigma2_alpha, h.cfg.sigma2_beta, jaxSum_eq] at e
    have hgam := hg rk (by simp) (KeyLike.split rk.2 2 0)
      (a.sigma2_alpha + (s'.resid.length : ℝ) / ((2 : Nat) : ℝ)) (by positivity)
    have hnn : ∀ y ∈ s'.resid.map fun r => r * r, 0 ≤ y := by
      intro y hy
      rw [List.mem_map] at hy
      obtain ⟨z, _, rfl⟩ := hy
      exact mul_self_nonneg z
    have hS := List.sum_nonneg hnn
    refine ⟨fun hb => ?_, ?_⟩
    · rw [e]; positivity
    · rintro (h0 | ⟨r, hr, hne⟩)
      · simp at h0
      · have : 0 < (s'.resid.map fun r => r * r).sum := by
          have h1 : r * r ≤ (s'.resid.map fun r => r * r).sum :=
            List.single_le_sum hnn _ (List.mem_map.2 ⟨r, hr, rfl⟩)
          have h2 : 0 < r * r := mul_self_pos.2 hne
          linarith
        rw [e]; positivity

example : 0 < (steps [(ExR.rng, ()), (ExR.rng, ())] (init ExR.args)).sigma2 :=
  (C38_positive ExR.args_valid (by simp [ExR.args]) (by simp [ExR.args]) _
    (by simp [ExR.rng_lawful]) (by simp [ExR.rng])).1 (by simp [ExR.args])

end
end Bartz
