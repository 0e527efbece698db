import Verif.Spec.Standard
import Verif.Lemmas.Weighted
import Verif.Model.Gbart
/-!
# Property C86: the posterior distribution is the one with the standard prior

With the largest number of cutpoints that fits in their type (255 by default in `gbart`), a variable which can not be split any more
because only its highest value is left is counted among the available ones (`C28_overflow`); so the a priori probability of the other
variables is lower than the standard one there. The MCMC is exact, but for this modified prior. The predictors without
cutpoints are counted as well (`C28_not_uniform`), at all nodes.
-/

set_option autoImplicit false

namespace Bartz
open Jax Spec MeasureTheory ProbabilityTheory
open scoped ENNReal

section
variable {K : Type} [KeyLike K] {a : InitArgs ℝ}

open Classical in
/-- the standard a priori probability of the decision rules -/
noncomputable def stdW (a : InitArgs ℝ) (T : Rules) : ℝ≥0∞ :=
  if PossibleTree a T then ENNReal.ofReal (standardPrior a.p_nonterminal a.max_split T.var T.split) else 0

theorem goodWeight_stdW (a : InitArgs ℝ) : GoodWeight a (stdW a) := by
  classical
  refine ⟨fun T => ?_, fun T hT => ?_⟩
  · unfold stdW
    split_ifs <;> simp
  · unfold stdW
    rw [if_neg hT]

theorem standardPosterior_eq (a : InitArgs ℝ) :
    standardPosterior a = (weightedJoint a (stdW a) Set.univ)⁻¹ • weightedJoint a (stdW a) := rfl

theorem hasSplit_of_avail {ms var split : List Nat} {i v s : Nat} (h : s ∈ availSplits ms var split i v) :
    HasSplit ms var split i v := by
  obtain ⟨⟨x, hx, hx', hxs⟩, ⟨y, hy, hy', hys⟩⟩ := h
  exact ⟨x, y, by omega, hy, hx', hy'⟩

/-! ### When the priors agree -/

theorem treePrior_root (p : List ℝ) (b : Nat) (ms : List Nat) (a : InitArgs ℝ) :
    treePrior p b ms (rootT a).var (rootT a).split = standardPrior p ms (rootT a).var (rootT a).split := by
  classical
  have h : ∀ k, ¬ IsDecision (rootT a).split k := fun k hk => hk.2 (at0_replicate _ k)
  unfold treePrior standardPrior shapePrior rulesPrior
  simp only [h, if_false]

theorem ruleW_root (a : InitArgs ℝ) : ruleW a (rootT a) = stdW a (rootT a) := by
  unfold ruleW stdW
  rw [if_pos (root_possible a), if_pos (root_possible a), treePrior_root]

theorem split_finite (ms var split : List Nat) (i : Nat) :
    {v | v < ms.length ∧ HasSplit ms var split i v}.Finite :=
  (Set.finite_lt_nat ms.length).subset fun _ h => h.1

theorem avail_finite (b : Nat) (ms var split : List Nat) (i : Nat) : (availVars b ms var split i).Finite :=
  (Set.finite_lt_nat ms.length).subset fun _ h => h.1

theorem not_hasSplit_of_miscounted {b : Nat} {ms var split : List Nat} {i v : Nat} (h : Miscounted b ms var split i v) :
    ¬ HasSplit ms var split i v := by
  rintro ⟨x, y, hxy, hy, hx', hy'⟩
  rcases h with h | h
  · have := h.2 x (by omega) hx'
    omega
  · omega

/-- the priors agree only if no variable is counted by mistake -/
theorem prior_eq_iff (ha : ValidArgs a) (hp : ProperSettings a) {T : Rules} (hT : PossibleTree a T) :
    treePrior a.p_nonterminal a.split_bits a.max_split T.var T.split =
      standardPrior a.p_nonterminal a.max_split T.var T.split ↔
    ∀ i v, IsDecision T.split i → v < a.max_split.length → ¬ Miscounted a.split_bits a.max_split T.var T.split i v := by
  classical
  have hu := usable_of ha hp
  have hpos := possible_treePrior_pos hu hp.nonterminal hT
  constructor
  · intro h i v hi hv ho
    unfold treePrior at hpos
    have hs : shapePrior a.p_nonterminal T.split ≠ 0 := left_ne_zero_of_mul hpos.ne'
    have hr : rulesPrior a.split_bits a.max_split T.var T.split ≠ 0 := right_ne_zero_of_mul hpos.ne'
    unfold treePrior standardPrior shapePrior at h
    unfold shapePrior at hs
    rw [mul_right_inj' hs] at h
    refine absurd h (ne_of_lt ?_)
    unfold rulesPrior at hr ⊢
    rw [Finset.prod_ne_zero_iff] at hr
    have hsub : ∀ k, {v | v < a.max_split.length ∧ HasSplit a.max_split T.var T.split k v} ⊆
        availVars a.split_bits a.max_split T.var T.split k := fun k v hv => ⟨hv.1, Or.inl hv.2⟩
    have hcard : ∀ k, IsDecision T.split k →
        0 < {v | v < a.max_split.length ∧ HasSplit a.max_split T.var T.split k v}.ncard := by
      intro k hk
      refine (Set.ncard_pos (split_finite _ _ _ _)).2 ⟨_, (hT.var_avail k hk).1, ?_⟩
      exact hasSplit_of_avail (hT.split_avail k hk)
    have hnn : ∀ k, (0 : ℝ) ≤ 1 / ((availSplits a.max_split T.var T.split k (at0 T.var k)).ncard : ℝ) := fun k => by positivity
    refine Finset.prod_lt_prod (fun k hk => ?_) (fun k _ => ?_) ⟨i, ?_, ?_⟩
    · have := hr k hk
      split_ifs at this ⊢ with hd
      · refine lt_of_le_of_ne ?_ this.symm
        unfold ruleProb
        positivity
      · exact one_pos
    · split_ifs with hd
      · unfold ruleProb
        refine mul_le_mul_of_nonneg_right ?_ (hnn k)
        refine one_div_le_one_div_of_le (by exact_mod_cast hcard k hd) ?_
        exact_mod_cast Set.ncard_le_ncard (hsub k) (avail_finite _ _ _ _ _)
      · exact le_refl _
    · have := hi.2
      rw [Finset.mem_range]
      by_contra hc
      refine this ?_
      unfold at0
      rw [List.getD_eq_default _ _ (by omega)]
    · have hmem : i ∈ Finset.range (2 * T.split.length) := by
        rw [Finset.mem_range]
        by_contra hc
        refine hi.2 ?_
        unfold at0
        rw [List.getD_eq_default _ _ (by omega)]
      have := hr i hmem
      rw [if_pos hi] at this ⊢
      rw [if_pos hi]
      unfold ruleProb at this ⊢
      have h2 := right_ne_zero_of_mul this
      refine mul_lt_mul_of_pos_right ?_ (lt_of_le_of_ne (hnn i) h2.symm)
      refine one_div_lt_one_div_of_lt (by exact_mod_cast hcard i hi) ?_
      refine Nat.cast_lt.2 (Set.ncard_lt_ncard ⟨hsub i, fun hc => ?_⟩ (avail_finite _ _ _ _ _))
      exact not_hasSplit_of_miscounted ho (hc ⟨hv, Or.inr ho⟩).2
  · intro h
    unfold treePrior standardPrior shapePrior rulesPrior
    congr 1
    refine Finset.prod_congr rfl fun i _ => ?_
    split_ifs with hi
    · unfold ruleProb
      rw [show availVars a.split_bits a.max_split T.var T.split i =
        {v | v < a.max_split.length ∧ HasSplit a.max_split T.var T.split i v} from Set.ext fun v =>
          ⟨fun hv => ⟨hv.1, hv.2.resolve_right (h i v hi hv.1)⟩, fun hv => ⟨hv.1, Or.inl hv.2⟩⟩]
    · rfl

/-! ### C86 -/

/-- C86. The posterior distribution that is invariant under `step` is the one with the standard prior if and only if no variable is
counted by mistake at the decision nodes of the trees with positive a priori probability. -/
theorem C86_iff (ha : ValidArgs a) (hp : ProperSettings a) :
    posterior a = standardPosterior a ↔ ¬ MiscountPossible a := by
  constructor
  · rintro h ⟨T, i, v, hT, hi, hv, ho⟩
    have hu := usable_of ha hp
    have h1 := weighted_cross hu hp (goodWeight_ruleW a) (goodWeight_stdW a) h (root_possible a) hT (ruleW_root a)
      (ruleW_ne_zero hu hp.nonterminal (root_possible a))
    have h0 := possible_treePrior_pos hu hp.nonterminal hT
    unfold ruleW stdW at h1
    rw [if_pos hT, if_pos hT] at h1
    have h3 : 0 < standardPrior a.p_nonterminal a.max_split T.var T.split := by
      rw [← ENNReal.ofReal_pos, ← h1, ENNReal.ofReal_pos]
      exact h0
    rw [ENNReal.ofReal_eq_ofReal_iff h0.le h3.le] at h1
    exact (prior_eq_iff ha hp hT).1 h1 i v hi hv ho
  · intro h
    have e : treeDist a = standardTreeDist a := by
      classical
      unfold treeDist standardTreeDist
      congr 1
      funext T
      congr 1
      split_ifs with hT
      · rw [(prior_eq_iff ha hp hT).2 fun i v hi hv ho => h ⟨T, i, v, hT, hi, hv, ho⟩]
      · rfl
    unfold posterior standardPosterior jointDist standardJoint priorDist
    rw [e]

/-- C86. If some predictor has no cutpoints, it is counted by mistake, unless there are no trees with decision nodes. -/
theorem C86_constant {v i : Nat} {T : Rules} (hv : v < a.max_split.length) (h0 : at0 a.max_split v = 0) (hT : PossibleTree a T)
    (hi : IsDecision T.split i) : MiscountPossible a :=
  ⟨T, i, v, hT, hi, hv, Or.inr h0⟩

/-- **C86**, full statement: the posterior distribution with the standard prior is invariant under a step. It is **false**, see
`C86_not`. -/
def C86_statement (K : Type) [KeyLike K] : Prop :=
  ∀ a : InitArgs ℝ, ValidArgs a → ProperSettings a →
    ∃ κ : Kernel (Params a.num_trees (nodes a)) (Params a.num_trees (nodes a)),
      IsMarkovKernel κ ∧ κ.Invariant (standardPosterior a) ∧
      ∀ (s : State ℝ) (key : K) (rng : StepDraws a.num_trees (nodes a) → Rng K ℝ),
        Consistent a s → 0 < s.sigma2 → StepSites a key rng →
        (stepDraws a).map (fun o => paramsOf a (step (rng o) s key)) = κ (paramsOf a s)

/-- **C86, partial**: the posterior distribution with the standard prior is invariant under a step, if all the predictors have
cutpoints, and none has a number of cutpoints equal to the largest value of the type. -/
theorem C86_partial (ha : ValidArgs a) (hp : ProperSettings a) (hc : ∀ m ∈ a.max_split, 1 ≤ m) (hno : NoOverflow a) :
    IsProbabilityMeasure (standardPosterior a) ∧
    ∃ κ : Kernel (Params a.num_trees (nodes a)) (Params a.num_trees (nodes a)),
      IsMarkovKernel κ ∧ κ.Invariant (standardPosterior a) ∧
      ∀ (s : State ℝ) (key : K) (rng : StepDraws a.num_trees (nodes a) → Rng K ℝ),
        Consistent a s → 0 < s.sigma2 → StepSites a key rng →
        (stepDraws a).map (fun o => paramsOf a (step (rng o) s key)) = κ (paramsOf a s) := by
  have e := (C86_iff ha hp).2 (by
    rintro ⟨T, i, v, _, _, hv, ho⟩
    have h0 := hc _ (List.getElem_mem hv)
    have := hno _ (List.getElem_mem hv)
    have e : at0 a.max_split v = a.max_split[v] := List.getD_eq_getElem _ _ hv
    rcases ho with ho | ho
    · have h1 := ho.1
      omega
    · omega)
  rw [← e]
  exact C68_invariant ha hp

/-- C86. With one tree, or a minimum number of datapoints per leaf, the posterior distribution with the standard prior is invariant
under a step if and only if no variable is counted by mistake at the decision nodes of the trees with positive a priori
probability. -/
theorem C86_invariant (ha : ValidArgs a) (hp : ProperSettings a)
    (hm : a.num_trees = 1 ∨ ∃ m, 1 ≤ m ∧ a.min_points_per_leaf = some m)
    {key : K} {rng : StepDraws a.num_trees (nodes a) → Rng K ℝ} (hr : StepSites a key rng)
    {κ : Kernel (Params a.num_trees (nodes a)) (Params a.num_trees (nodes a))}
    (hκ : ∀ s, Consistent a s → 0 < s.sigma2 →
      (stepDraws a).map (fun o => paramsOf a (step (rng o) s key)) = κ (paramsOf a s)) :
    κ.Invariant (standardPosterior a) ↔ ¬ MiscountPossible a := by
  have hu := usable_of ha hp
  have hpr : IsProbabilityMeasure (standardPosterior a) :=
    weighted_prob hu hp (goodWeight_stdW a) (root_possible a) (show stdW a (rootT a) ≠ 0 by
      rw [← ruleW_root]
      exact ruleW_ne_zero hu hp.nonterminal (root_possible a))
  have hae : ∀ᵐ θ ∂standardPosterior a, PossibleParams a θ := by
    rw [standardPosterior_eq]
    exact Measure.ae_smul_measure (weighted_ae hu hp (goodWeight_stdW a)) _
  rw [C70_unique ha hp hm hr hκ hae, ← C86_iff ha hp, eq_comm]

end

/-! ### Counterexample -/

namespace ExW
open ExB (FreeKey)

/-- two predictors, with 255 and 1 cutpoints; all the combinations of the extreme values of the first one and the values of the second
one -/
noncomputable def args : InitArgs ℝ :=
  { X := [[0, 0, 255, 255], [0, 1, 0, 1]], y := [1, 2, 3, 4], max_split := [255, 1], split_bits := 8,
    num_trees := 1, p_nonterminal := [1 / 2, 1 / 4], sigma2_alpha := 3, sigma2_beta := 2,
    min_points_per_leaf := some 1, resid_batch_size := none, count_batch_size := none,
    save_ratios := false, nan := 0 }

theorem X_le : ∀ v j, v < args.max_split.length → j < args.y.length →
    (args.X.getD v []).getD j 0 ≤ at0 args.max_split v := by
  have : ∀ v < 2, ∀ j < 4, (([[0, 0, 255, 255], [0, 1, 0, 1]] : List (List Nat)).getD v []).getD j 0 ≤ at0 [255, 1] v := by
    decide
  exact fun v j hv hj => this v hv j hj

theorem args_valid : ValidArgs args where
  depth_pos := by simp [args]
  depth_lt := by simp [args]
  predictors_pos := by simp [args]
  predictors_lt := by simp [args]
  X_length := rfl
  X_row := by simp [args]
  max_split_fits := by simp [args]
  split_bits := by simp [args]
  nonterminal_pos := by
    intro x hx
    simp only [args, List.mem_cons, List.not_mem_nil, or_false] at hx
    rcases hx with rfl | rfl <;> norm_num
  overflow := Or.inr ⟨X_le, 1, le_refl _, rfl⟩

theorem args_proper : ProperSettings args where
  trees := by simp [args]
  counts := Or.inl (by simp [args])
  nonterminal := by
    intro x hx
    simp only [args, List.mem_cons, List.not_mem_nil, or_false] at hx
    rcases hx with rfl | rfl <;> norm_num
  alpha := by norm_num [args]
  beta := by norm_num [args]
  rules := Or.inl ⟨X_le, 1, le_refl _, rfl⟩

/-- the root splits the first predictor at the last cutpoint, then its right child splits the other one -/
def T : Rules := ⟨[0, 0, 0, 1], [0, 255, 0, 1]⟩

theorem T_zero {k : Nat} (h1 : k ≠ 1) (h3 : k ≠ 3) : at0 T.split k = 0 := by
  match k with
  | 0 => rfl
  | 1 => exact absurd rfl h1
  | 2 => rfl
  | 3 => exact absurd rfl h3
  | k + 4 => simp [T, at0]

theorem T_dec {i : Nat} (h : IsDecision T.split i) : i = 1 ∨ i = 3 := by
  by_contra hc
  push Not at hc
  exact h.2 (T_zero hc.1 hc.2)

theorem ne1 : at0 T.split 1 ≠ 0 := by simp [T, at0]
theorem ne3 : at0 T.split 3 ≠ 0 := by simp [T, at0]

theorem reaches3 (x : Nat) : ValueReaches 1 x T.var T.split 3 :=
  .right (i := 1) .root (by simp [T, at0])

theorem T_possible : PossibleTree args T where
  split := by
    refine ⟨rfl, rfl, fun i hi h => ?_⟩
    by_cases h3 : i = 3
    · subst h3; exact ne1
    · exact absurd (T_zero (by omega) h3) h
  var_length := rfl
  var_unused := fun i h => by
    match i with
    | 0 => rfl
    | 1 => rfl
    | 2 => rfl
    | 3 => exact absurd ⟨.right (i := 1) .root ne1, ne3⟩ h
    | i + 4 => simp [T, at0]
  var_avail := fun i hi => by
    rcases T_dec hi with rfl | rfl
    · exact ⟨by simp [T, at0, args], Or.inl ⟨0, 1, by omega, by simp [T, at0, args], .root, .root⟩⟩
    · exact ⟨by simp [T, at0, args], Or.inl ⟨0, 1, by omega, by simp [T, at0, args], reaches3 0, reaches3 1⟩⟩
  split_avail := fun i hi => by
    rcases T_dec hi with rfl | rfl
    · exact ⟨⟨0, by simp, .root, by simp [T, at0]⟩, ⟨255, by simp [T, at0, args], .root, by simp [T, at0]⟩⟩
    · exact ⟨⟨0, by simp, reaches3 0, by simp [T, at0]⟩, ⟨1, by simp [T, at0, args], reaches3 1, by simp [T, at0]⟩⟩
  points := fun m hm _ i hi => by
    obtain rfl : 1 = m := by simpa [args] using hm
    have hfin : ∀ i, {j | j < args.y.length ∧ FallsInto (point args.X j) T.var T.split i}.Finite :=
      fun i => (Set.finite_lt_nat _).subset fun j hj => hj.1
    have h2 : i = 2 ∨ i = 6 ∨ i = 7 := by
      obtain ⟨hn, hz⟩ := hi
      cases hn with
      | root => exact absurd hz ne1
      | @left k _ hk =>
        by_cases h1 : k = 1
        · omega
        · by_cases h3 : k = 3
          · omega
          · exact absurd (T_zero h1 h3) hk
      | @right k _ hk =>
        by_cases h1 : k = 1
        · subst h1; exact absurd hz ne3
        · by_cases h3 : k = 3
          · omega
          · exact absurd (T_zero h1 h3) hk
    refine (Set.ncard_pos (hfin i)).2 ?_
    have f3 : ∀ j, 255 ≤ coord (point args.X j) 0 → Reaches (point args.X j) T.var T.split 3 := fun j hj =>
      .right (i := 1) .root ne1 (by simpa [T, at0] using hj)
    rcases h2 with rfl | rfl | rfl
    · exact ⟨0, by simp [args], ⟨.left .root ne1, T_zero (by omega) (by omega)⟩, .left .root ne1 (by
        simp [T, at0, coord, point, args])⟩
    · exact ⟨2, by simp [args], ⟨.left (.right (i := 1) .root ne1) ne3, T_zero (by omega) (by omega)⟩,
        .left (f3 2 (by simp [coord, point, args])) ne3 (by simp [T, at0, coord, point, args])⟩
    · exact ⟨3, by simp [args], ⟨.right (.right (i := 1) .root ne1) ne3, T_zero (by omega) (by omega)⟩,
        .right (f3 3 (by simp [coord, point, args])) ne3 (by simp [T, at0, coord, point, args])⟩

/-- the first predictor is counted at the right child of the root, where only the value 255 is left -/
theorem overflow : MiscountPossible args := by
  have key : ∀ x k, ValueReaches 0 x T.var T.split k → k = 3 → 255 ≤ x := by
    intro x k h hk
    cases h with
    | root => omega
    | left => omega
    | @right i _ h2 =>
      obtain rfl : i = 1 := by omega
      simpa [T, at0] using h2
  refine ⟨T, 3, 0, T_possible, ⟨.right (i := 1) .root ne1, ne3⟩, by simp [args], Or.inl ⟨by simp [args, at0], fun x hx h => ?_⟩⟩
  have h1 := key x 3 h rfl
  have h2 : x ≤ 255 := by simpa [args, at0] using hx
  show x = 255
  omega

end ExW

/-- C86. There are settings and data, with the number of cutpoints that `gbart` uses by default, such that the posterior distribution
with the standard prior is not invariant under a step; the posterior distribution to which the MCMC converges is another one. -/
theorem C86_not {K : Type} [KeyLike K] : ∃ a : InitArgs ℝ, ValidArgs a ∧ ProperSettings a ∧
    (∀ m ∈ a.max_split, m ≤ 255) ∧ a.split_bits = 8 ∧ a.min_points_per_leaf = some 1 ∧
    posterior a ≠ standardPosterior a ∧
    ∀ (key : K) (rng : StepDraws a.num_trees (nodes a) → Rng K ℝ), StepSites a key rng →
      ∀ κ : Kernel (Params a.num_trees (nodes a)) (Params a.num_trees (nodes a)),
        (∀ s, Consistent a s → 0 < s.sigma2 →
          (stepDraws a).map (fun o => paramsOf a (step (rng o) s key)) = κ (paramsOf a s)) →
        ¬ κ.Invariant (standardPosterior a) := by
  refine ⟨ExW.args, ExW.args_valid, ExW.args_proper, by simp [ExW.args], rfl, rfl, fun h => ?_, fun key rng hr κ hκ h => ?_⟩
  · exact (C86_iff ExW.args_valid ExW.args_proper).1 h ExW.overflow
  · exact (C86_invariant ExW.args_valid ExW.args_proper (Or.inl rfl) hr hκ).1 h ExW.overflow

/-- C86. By default (`usequants=False`, `numcut=255`) `gbart` uses 255 cutpoints for all the predictors, and 8 bits to represent
them, i.e., `NoOverflow` never holds. -/
theorem C86_default {F P : Type} [Field P] [LinearOrder P] (lib : Lib F P) (x_train : List (List F)) (n : Nat) {sp : Splits P}
    (h : determine_splits lib x_train n false 255 = some sp) : sp.bits = 8 ∧ ∀ m ∈ sp.max_split, m = 255 := by
  unfold determine_splits uniform_splits_from_matrix at h
  simp only [Bool.false_eq_true, if_false, Option.bind_eq_bind, Option.bind_eq_some_iff, Option.map_eq_some_iff] at h
  obtain ⟨_, ⟨l, hl, rfl⟩, h⟩ := h
  obtain rfl := Option.some.inj h
  refine ⟨show minimal_unsigned_dtype (((255 + 1 : Nat) : Int) - 1) = 8 by decide, fun m hm => ?_⟩
  have h1 : ∀ r ∈ l, r.2 = 255 := by
    clear hm h
    generalize x_train.map (fun row => row.map lib.exact) = X at hl
    induction X generalizing l with
    | nil =>
      obtain rfl : [] = l := by simpa using hl
      simp
    | cons x X ih =>
      rw [List.mapM_cons] at hl
      simp only [Option.bind_eq_bind, Option.bind_eq_some_iff, Option.pure_def, Option.some.injEq] at hl
      obtain ⟨r0, h0, l', hl', rfl⟩ := hl
      intro r hr
      rcases List.mem_cons.1 hr with rfl | hr
      · simp only [uniform_row, Option.bind_eq_bind, Option.bind_eq_some_iff, Option.pure_def, Option.some.injEq] at h0
        obtain ⟨_, _, _, _, _, _, rfl⟩ := h0
        show astype (minimal_unsigned_dtype (((255 + 1 : Nat) : Int) - 1)) 255 = 255
        decide
      · exact ih _ hl' r hr
  simp only [List.unzip_snd, List.mem_map] at hm
  obtain ⟨r, hr, rfl⟩ := hm
  exact h1 r hr

/-- the full statement of C86 is false -/
theorem C86_statement_false : ¬ C86_statement ExB.FreeKey := by
  intro h
  obtain ⟨κ, _, hinv, hκ⟩ := h ExW.args ExW.args_valid ExW.args_proper
  exact (C86_invariant ExW.args_valid ExW.args_proper (Or.inl rfl) (ExQ.oneRng_sites _)
    (fun s hc hs => hκ s [(2, 1)] ExQ.oneRng hc hs (ExQ.oneRng_sites _))).1 hinv ExW.overflow

namespace ExW

/-- a predictor without cutpoints, and another with one -/
noncomputable def argsC : InitArgs ℝ := { args with X := [[0, 0, 0, 0], [0, 1, 0, 1]], max_split := [0, 1] }

theorem argsC_le : ∀ v j, v < argsC.max_split.length → j < argsC.y.length →
    (argsC.X.getD v []).getD j 0 ≤ at0 argsC.max_split v := by
  have : ∀ v < 2, ∀ j < 4, (([[0, 0, 0, 0], [0, 1, 0, 1]] : List (List Nat)).getD v []).getD j 0 ≤ at0 [0, 1] v := by
    decide
  exact fun v j hv hj => this v hv j hj

theorem argsC_valid : ValidArgs argsC where
  depth_pos := args_valid.depth_pos
  depth_lt := args_valid.depth_lt
  predictors_pos := by simp [argsC, args]
  predictors_lt := by simp [argsC, args]
  X_length := rfl
  X_row := by simp [argsC, args]
  max_split_fits := by simp [argsC, args]
  split_bits := args_valid.split_bits
  nonterminal_pos := args_valid.nonterminal_pos
  overflow := Or.inl (by simp [argsC, args, NoOverflow])

theorem argsC_proper : ProperSettings argsC where
  trees := args_proper.trees
  counts := Or.inl (by simp [argsC, args])
  nonterminal := args_proper.nonterminal
  alpha := args_proper.alpha
  beta := args_proper.beta
  rules := Or.inl ⟨argsC_le, 1, le_refl _, rfl⟩

/-- the root splits the second predictor -/
def TC : Rules := ⟨[0, 1, 0, 0], [0, 1, 0, 0]⟩

theorem TC_zero {k : Nat} (h : k ≠ 1) : at0 TC.split k = 0 := by
  match k with
  | 0 => rfl
  | 1 => exact absurd rfl h
  | 2 => rfl
  | 3 => rfl
  | k + 4 => simp [TC, at0]

theorem TC_dec {i : Nat} (h : IsDecision TC.split i) : i = 1 := by
  by_contra hc
  exact h.2 (TC_zero hc)

theorem neC : at0 TC.split 1 ≠ 0 := by simp [TC, at0]

theorem TC_possible : PossibleTree argsC TC where
  split := ⟨rfl, rfl, fun i hi h => absurd (TC_zero (by omega)) h⟩
  var_length := rfl
  var_unused := fun i h => by
    match i with
    | 0 => rfl
    | 1 => exact absurd ⟨.root, neC⟩ h
    | 2 => rfl
    | 3 => rfl
    | i + 4 => simp [TC, at0]
  var_avail := fun i hi => by
    obtain rfl := TC_dec hi
    exact ⟨by simp [TC, at0, argsC], Or.inl ⟨0, 1, by omega, by simp [TC, at0, argsC], .root, .root⟩⟩
  split_avail := fun i hi => by
    obtain rfl := TC_dec hi
    exact ⟨⟨0, by simp, .root, by simp [TC, at0]⟩, ⟨1, by simp [TC, at0, argsC], .root, by simp [TC, at0]⟩⟩
  points := fun m hm _ i hi => by
    obtain rfl : 1 = m := by simpa [argsC, args] using hm
    have hfin : {j | j < argsC.y.length ∧ FallsInto (point argsC.X j) TC.var TC.split i}.Finite :=
      (Set.finite_lt_nat _).subset fun j hj => hj.1
    refine (Set.ncard_pos hfin).2 ?_
    obtain ⟨hn, hz⟩ := hi
    cases hn with
    | root => exact absurd hz neC
    | @left k _ hk =>
      obtain rfl : k = 1 := by
        by_contra hc
        exact hk (TC_zero hc)
      exact ⟨0, by simp [argsC, args], ⟨.left .root neC, TC_zero (by omega)⟩,
        .left .root neC (by simp [TC, at0, coord, point, argsC])⟩
    | @right k _ hk =>
      obtain rfl : k = 1 := by
        by_contra hc
        exact hk (TC_zero hc)
      exact ⟨1, by simp [argsC, args], ⟨.right .root neC, TC_zero (by omega)⟩,
        .right .root neC (by simp [TC, at0, coord, point, argsC])⟩

-- with a predictor without cutpoints, the posterior distribution is not the standard one
example : posterior argsC ≠ standardPosterior argsC := fun h =>
  (C86_iff argsC_valid argsC_proper).1 h
    (C86_constant (v := 0) (by simp [argsC]) (by simp [argsC, at0]) TC_possible ⟨.root, neC⟩)

end ExW

-- without the largest number of cutpoints, the posterior distribution is the standard one
example : posterior ExR.args = standardPosterior ExR.args := by
  refine (C86_iff ExR.args_valid ExQ.args_proper).2 ?_
  rintro ⟨T, i, v, _, _, hv, ho⟩
  have : v < 2 := hv
  rcases v with _ | _ | v
  · simp [ExR.args, at0, Miscounted, Overflows] at ho
  · simp [ExR.args, at0, Miscounted, Overflows] at ho
  · omega

end Bartz
