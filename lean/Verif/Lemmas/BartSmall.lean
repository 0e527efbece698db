import Verif.Lemmas.BartStay
import Mathlib.Analysis.SpecialFunctions.Log.NegMulLog
/-! # A tree may stay unchanged, because of the variance

If the variance is small, either the growth of the root or the pruning back to the root is sometimes
rejected. -/

set_option autoImplicit false

namespace Bartz
open Jax Spec MeasureTheory ProbabilityTheory Filter Topology
open scoped ENNReal

section
variable {a : InitArgs ℝ} {T T' : Rules} {R : Nat → ℝ} {v : ℝ} {i : Nat}

/-- if pruning is not always accepted, the tree may stay unchanged -/
theorem trans_stay_prune (hu : Usable a) (hT : PossibleTree a T) (hT' : PossibleTree a T') (hg : GrownT a T T' i)
    (hc : -(Real.log (tP a T T' i) + Real.log (lik a R v T' / lik a R v T)) < 0) :
    trans a R v T' T' ≠ 0 := by
  have ha := hu.valid
  have ht := hu.trees
  set c := -(Real.log (tP a T T' i) + Real.log (lik a R v T' / lik a R v T)) with hcdef
  obtain ⟨h1, _⟩ := canon_inv hu hT 1
  obtain ⟨h2, _⟩ := canon_inv hu hT' 1
  have hgs : Grown a.p_nonterminal.length (vaOf (canon a 1 T) 0) (spOf (canon a 1 T) 0)
      (vaOf (canon a 1 T') 0) (spOf (canon a 1 T') 0) i := by
    rw [canon_va 1 ht, canon_va 1 ht, canon_sp 1 ht, canon_sp 1 ht]; exact hg
  have hexp : Real.exp c < 1 := by rw [← Real.exp_zero]; exact Real.exp_lt_exp.2 hc
  have hpos := Real.exp_pos c
  have hbox := prob_box (P := fun w => ¬ w 0 < pG a T' ∧ pP a T' (w 5) = i ∧ w 1 ∈ Set.Ico 0 (1 - Real.exp c))
    (S := ![{x | x ∈ Set.Ico (0 : ℝ) 1 ∧ ¬ x < pGrow (canon a 1 T') 0},
      Set.Ico 0 (1 - Real.exp c), Set.Ico 0 1, Set.Ico 0 1,
      Set.Ico 0 1, {x | x ∈ Set.Ico (0 : ℝ) 1 ∧ prunePick (canon a 1 T') 0 x = i}])
    (by
      intro k
      fin_cases k
      · exact fun x hx => hx.1
      · exact fun x hx => ⟨hx.1, by have := hx.2; linarith⟩
      · exact subset_rfl
      · exact subset_rfl
      · exact subset_rfl
      · exact fun x hx => hx.1)
    (by
      intro w hw
      have hw' : ∀ k, w k ∈ Set.Ico (0 : ℝ) 1 := fun k => hw k (Set.mem_univ k)
      constructor
      · rintro ⟨e1, e2, e5⟩ k
        fin_cases k
        · exact ⟨hw' 0, e1⟩
        · exact e5
        · exact hw' 2
        · exact hw' 3
        · exact hw' 4
        · exact ⟨hw' 5, e2⟩
      · intro hk
        exact ⟨(hk 0).2, (hk 5).2, hk 1⟩)
  have hval : len {x | x ∈ Set.Ico (0 : ℝ) 1 ∧ ¬ x < pGrow (canon a 1 T') 0} * len (Set.Ico 0 (1 - Real.exp c)) *
      len (Set.Ico 0 1) * len (Set.Ico 0 1) * len (Set.Ico 0 1) *
      len {x | x ∈ Set.Ico (0 : ℝ) 1 ∧ prunePick (canon a 1 T') 0 x = i} ≠ 0 := by
    rw [len_ge_pGrow, len_unit, len_Ico (by linarith), len_prunePick ha h2 ht
      (hgs.parent (treeInv_of h1 ht).valid (treeInv_of h2 ht).valid), pGrow2 ha h1 h2 ht hgs]
    have hn := nPrune2_pos ha h1 h2 ht hgs
    have h3 : 1 - Real.exp c - 0 ≠ 0 := by linarith
    split_ifs <;> positivity
  refine prob_mono (P := fun w => _) ?_ (measurable_newRules_w a R v T' (measurableSet_singleton _))
    (hbox.trans_ne hval)
  rintro w hw ⟨e1, e2, e5⟩
  by_contra hne
  obtain ⟨hP, k, ⟨g, e⟩ | ⟨g, e⟩⟩ := (newRules_eq_iff hT' hne).1 rfl
  · exact e1 e.1
  · obtain rfl : i = k := e2.symm.trans e.2.1
    have hsame := grownT_left_unique hT hP hg g
    have hacc := e.2.2
    rw [← hsame] at hacc
    have h01 := hw 1 (Set.mem_univ _)
    rw [Real.log_le_iff_le_exp (by linarith [h01.2])] at hacc
    linarith [e5.2]

/-- the logarithm of the likelihood ratio for small variance -/
theorem small_variance {τ : ℝ} (hτ : 0 < τ) {n2 n3 : Nat} (h2 : 0 < n2) (h3 : 0 < n3) (K s2 s3 : ℝ) :
    (∀ᶠ v in 𝓝[>] (0 : ℝ), K + ((Real.log (v / (v + n2 * τ)) + Real.log (v / (v + n3 * τ)) -
        Real.log (v / (v + (n2 + n3 : Nat) * τ))) / 2 + ratioExp τ v n2 n3 s2 s3) < 0) ∨
    (∀ᶠ v in 𝓝[>] (0 : ℝ), 0 < K + ((Real.log (v / (v + n2 * τ)) + Real.log (v / (v + n3 * τ)) -
        Real.log (v / (v + (n2 + n3 : Nat) * τ))) / 2 + ratioExp τ v n2 n3 s2 s3)) := by
  have p2 : (0 : ℝ) < n2 := by exact_mod_cast h2
  have p3 : (0 : ℝ) < n3 := by exact_mod_cast h3
  set A : ℝ → ℝ := fun v => v + n2 * τ with hA
  set B : ℝ → ℝ := fun v => v + n3 * τ with hB
  set C : ℝ → ℝ := fun v => v + ((n2 : ℝ) + n3) * τ with hC
  have cA : Continuous A := by fun_prop
  have cB : Continuous B := by fun_prop
  have cC : Continuous C := by fun_prop
  have a0 : A 0 ≠ 0 := by simp only [hA, zero_add]; positivity
  have b0 : B 0 ≠ 0 := by simp only [hB, zero_add]; positivity
  have c0 : C 0 ≠ 0 := by simp only [hC, zero_add]; positivity
  have hpos : ∀ v : ℝ, 0 < v → 0 < A v ∧ 0 < B v ∧ 0 < C v := fun v hv =>
    ⟨by simp only [hA]; positivity, by simp only [hB]; positivity, by simp only [hC]; positivity⟩
  have hlog : ∀ v : ℝ, 0 < v → (Real.log (v / (v + n2 * τ)) + Real.log (v / (v + n3 * τ)) -
        Real.log (v / (v + (n2 + n3 : Nat) * τ))) / 2 =
      (Real.log v - Real.log (A v) - Real.log (B v) + Real.log (C v)) / 2 := by
    intro v hv
    obtain ⟨qa, qb, qc⟩ := hpos v hv
    have e : v + ((n2 + n3 : Nat) : ℝ) * τ = C v := by simp only [hC]; push_cast; ring
    rw [e, show v + n2 * τ = A v from rfl, show v + n3 * τ = B v from rfl,
      Real.log_div hv.ne' qa.ne', Real.log_div hv.ne' qb.ne', Real.log_div hv.ne' qc.ne']
    ring
  by_cases hq : s2 * n3 = s3 * n2
  · left
    -- the exponent is bounded
    have hexp : ∀ v : ℝ, 0 < v → ratioExp τ v n2 n3 s2 s3 =
        τ / 2 * ((v * (s2 - s3) ^ 2 - s2 ^ 2 * B v - s3 ^ 2 * A v) / (A v * B v * C v)) := by
      intro v hv
      obtain ⟨qa, qb, qc⟩ := hpos v hv
      have e : v + ((n2 + n3 : Nat) : ℝ) * τ = C v := by simp only [hC]; push_cast; ring
      unfold ratioExp
      rw [e, show v + n2 * τ = A v from rfl, show v + n3 * τ = B v from rfl]
      have hv' := hv.ne'
      have qa' := qa.ne'
      have qb' := qb.ne'
      have qc' := qc.ne'
      field_simp
      simp only [hA, hB, hC]
      have hq' : s2 * n3 - s3 * n2 = 0 := by linarith
      linear_combination (s2 * n3 - s3 * n2) * τ ^ 2 * hq' + 2 * (s2 - s3) * v * τ * hq'
    set G : ℝ → ℝ := fun v => K + ((- Real.log (A v) - Real.log (B v) + Real.log (C v)) / 2 +
      τ / 2 * ((v * (s2 - s3) ^ 2 - s2 ^ 2 * B v - s3 ^ 2 * A v) / (A v * B v * C v))) with hG
    have cG : ContinuousAt G 0 := by
      have l1 : ContinuousAt (fun v => Real.log (A v)) 0 := cA.continuousAt.log a0
      have l2 : ContinuousAt (fun v => Real.log (B v)) 0 := cB.continuousAt.log b0
      have l3 : ContinuousAt (fun v => Real.log (C v)) 0 := cC.continuousAt.log c0
      have l4 : ContinuousAt (fun v => (v * (s2 - s3) ^ 2 - s2 ^ 2 * B v - s3 ^ 2 * A v) / (A v * B v * C v)) 0 :=
        ContinuousAt.div (by fun_prop) (by fun_prop) (by simp [a0, b0, c0])
      exact continuousAt_const.add ((((l1.neg.sub l2).add l3).div_const 2).add (l4.const_mul _))
    have t1 : Tendsto G (𝓝[>] 0) (𝓝 (G 0)) := cG.tendsto.mono_left nhdsWithin_le_nhds
    have t2 : Tendsto (fun v => Real.log v / 2) (𝓝[>] 0) atBot :=
      Real.tendsto_log_nhdsGT_zero.atBot_div_const (by norm_num)
    have t3 := t2.atBot_add t1
    filter_upwards [t3.eventually_lt_atBot 0, self_mem_nhdsWithin] with v hv hv0
    rw [hlog v hv0, hexp v hv0]
    refine lt_of_eq_of_lt ?_ hv
    simp only [hG]
    ring
  · right
    set q : ℝ → ℝ := fun v => s2 * s2 / A v + s3 * s3 / B v - (s2 + s3) * (s2 + s3) / C v with hq'
    have hq0 : 0 < q 0 := by
      have e : q 0 = (s2 * n3 - s3 * n2) ^ 2 / (n2 * n3 * (n2 + n3) * τ) := by
        simp only [hq', hA, hB, hC, zero_add]
        field_simp
        ring
      rw [e]
      have : s2 * n3 - s3 * n2 ≠ 0 := sub_ne_zero.2 hq
      positivity
    set G : ℝ → ℝ := fun v => v * K + (v * Real.log v - v * Real.log (A v) - v * Real.log (B v) +
      v * Real.log (C v)) / 2 + τ / 2 * q v with hG
    have cG : ContinuousAt G 0 := by
      have l0 : ContinuousAt (fun v => v * Real.log v) 0 := Real.continuous_mul_log.continuousAt
      have l1 : ContinuousAt (fun v => v * Real.log (A v)) 0 := continuousAt_id.mul (cA.continuousAt.log a0)
      have l2 : ContinuousAt (fun v => v * Real.log (B v)) 0 := continuousAt_id.mul (cB.continuousAt.log b0)
      have l3 : ContinuousAt (fun v => v * Real.log (C v)) 0 := continuousAt_id.mul (cC.continuousAt.log c0)
      have l4 : ContinuousAt q 0 :=
        ((continuousAt_const.div cA.continuousAt a0).add (continuousAt_const.div cB.continuousAt b0)).sub
          (continuousAt_const.div cC.continuousAt c0)
      exact ((continuousAt_id.mul continuousAt_const).add ((((l0.sub l1).sub l2).add l3).div_const 2)).add
        (l4.const_mul _)
    have hG0 : 0 < G 0 := by
      simp only [hG, zero_mul, sub_zero, add_zero, zero_div, zero_add]
      positivity
    have h4 : ∀ᶠ v in 𝓝[>] (0 : ℝ), 0 < G v :=
      (cG.tendsto.mono_left nhdsWithin_le_nhds).eventually (lt_mem_nhds hG0)
    filter_upwards [h4, self_mem_nhdsWithin] with v hv hv0
    have hv0' : 0 < v := hv0
    rw [hlog v hv0]
    have e : G v = v * (K + ((Real.log v - Real.log (A v) - Real.log (B v) + Real.log (C v)) / 2 +
        ratioExp τ v n2 n3 s2 s3)) := by
      obtain ⟨qa, qb, qc⟩ := hpos v hv0
      have e : v + ((n2 + n3 : Nat) : ℝ) * τ = C v := by simp only [hC]; push_cast; ring
      unfold ratioExp
      rw [e, show v + n2 * τ = A v from rfl, show v + n3 * τ = B v from rfl]
      have hvt : v * (τ / (2 * v)) = τ / 2 := by field_simp
      simp only [hG, hq']
      linear_combination -(s2 * s2 / A v + s3 * s3 / B v - (s2 + s3) * (s2 + s3) / C v) * hvt
    rw [e] at hv
    exact (mul_pos_iff_of_pos_left hv0').1 hv

/-- If the variance is small enough, either the root stays unchanged with positive probability, or its
neighbour does. -/
theorem stay_small (hu : Usable a) (hm : ∃ m, 1 ≤ m ∧ a.min_points_per_leaf = some m)
    {T1 : Rules} (hT1 : PossibleTree a T1) (hg : GrownT a (rootT a) T1 i) (R : Nat → ℝ) :
    (∀ᶠ v in 𝓝[>] (0 : ℝ), trans a R v (rootT a) (rootT a) ≠ 0) ∨
    (∀ᶠ v in 𝓝[>] (0 : ℝ), trans a R v T1 T1 ≠ 0) := by
  obtain ⟨m, hm1, hm⟩ := hm
  have htau : (0 : ℝ) < 1 / (a.num_trees : ℝ) := by have := hu.trees; positivity
  have hi := grown_root hT1 hg
  have hr : at0 T1.split 1 ≠ 0 := hi ▸ hg.decision.2
  have p2 := hT1.points m hm hr _ hg.left
  have p3 := hT1.points m hm hr _ hg.right
  have e := fun v (hv : 0 < v) => log_lik_ratio (R := R) hu hv (root_possible a) hT1 hg (length_leafData _ _ _ _ _ _)
    (length_leafData _ _ _ _ _ _)
  rcases small_variance htau (n2 := pointsIn a.X a.y.length T1.var T1.split (2 * i))
    (n3 := pointsIn a.X a.y.length T1.var T1.split (2 * i + 1)) (by omega) (by omega)
    (Real.log (tP a (rootT a) T1 i)) (leafData a.X a.y.length T1.var T1.split R (2 * i)).sum
    (leafData a.X a.y.length T1.var T1.split R (2 * i + 1)).sum with h | h
  · left
    filter_upwards [h, self_mem_nhdsWithin] with v hv hv0
    refine trans_stay hu hT1 hg ?_
    rw [e v hv0]
    exact hv
  · right
    filter_upwards [h, self_mem_nhdsWithin] with v hv hv0
    refine trans_stay_prune hu (root_possible a) hT1 hg ?_
    rw [e v hv0]
    linarith

end
end Bartz
