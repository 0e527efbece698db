import Verif.Lemmas.BartPositive
/-! # A tree may stay unchanged, because of the values of the other trees -/

set_option autoImplicit false

namespace Bartz
open Jax Spec MeasureTheory ProbabilityTheory
open scoped ENNReal

section
variable {a : InitArgs ℝ} {T T' T1 : Rules} {v : ℝ} {i : Nat}

/-- open sets containing a vector that is zero away from the leaves have positive probability -/
theorem leafPrior_open (ht : 0 < a.num_trees) {U : Set (Fin (nodes a) → ℝ)} (hU : IsOpen U)
    {L : Fin (nodes a) → ℝ} (hL : L ∈ U) (hz : ∀ i : Fin (nodes a), ¬ IsLeaf T.split i → L i = 0) :
    leafPrior a T U ≠ 0 := by
  classical
  obtain ⟨u, hu, hsub⟩ := isOpen_pi_iff'.1 hU L hL
  intro h0
  have h1 : leafPrior a T (Set.univ.pi u) = 0 := measure_mono_null hsub h0
  have hpr : ∀ i : Fin (nodes a), IsProbabilityMeasure (if IsLeaf T.split i then
      gaussianReal 0 (1 / (a.num_trees : NNReal)) else Measure.dirac 0) := by
    intro i; split_ifs <;> infer_instance
  unfold leafPrior at h1
  rw [Measure.pi_pi, Finset.prod_eq_zero_iff] at h1
  obtain ⟨i, _, hi⟩ := h1
  have hvar : (1 / (a.num_trees : NNReal)) ≠ 0 := by
    have : (a.num_trees : NNReal) ≠ 0 := by exact_mod_cast ht.ne'
    positivity
  by_cases hl : IsLeaf T.split i
  · rw [if_pos hl] at hi
    have := gaussianReal_absolutelyContinuous' 0 hvar hi
    exact ((hu i).1.measure_pos volume ⟨_, (hu i).2⟩).ne' this
  · rw [if_neg hl, Measure.dirac_apply' _ (hu i).1.measurableSet] at hi
    have := (hu i).2
    rw [hz i hl] at this
    simp [this] at hi

theorem continuous_treeValue (j : Nat) : Continuous fun L : Fin (nodes a) → ℝ => treeValue a.X j (T, L) := by
  classical
  unfold treeValue
  refine continuous_finsetSum _ fun i _ => ?_
  by_cases h : FallsInto (point a.X j) T.var T.split i
  · simp only [h, if_true]; exact continuous_apply i
  · simp only [h, if_false]; exact continuous_const

/-- contribution of one tree to the residuals -/
theorem others_put {s t : Fin a.num_trees} (hst : s ≠ t) (x : Fin a.num_trees → Tree (nodes a))
    (L : Fin (nodes a) → ℝ) (j : Nat) :
    others a (Function.update x s (T, L)) t j =
      others a (Function.update x s (T, 0)) t j - treeValue a.X j (T, L) := by
  classical
  have hs : s ∈ Finset.univ.erase t := by simp [hst]
  unfold others
  rw [← Finset.add_sum_erase _ _ hs, ← Finset.add_sum_erase (Finset.univ.erase t)
    (fun u => treeValue a.X j (Function.update x s (T, (0 : Fin (nodes a) → ℝ)) u)) hs]
  rw [Function.update_self, Function.update_self]
  have h0 : treeValue a.X j (T, (0 : Fin (nodes a) → ℝ)) = 0 := by simp [treeValue]
  rw [h0]
  have : ∑ u ∈ (Finset.univ.erase t).erase s, treeValue a.X j (Function.update x s (T, L) u) =
      ∑ u ∈ (Finset.univ.erase t).erase s, treeValue a.X j (Function.update x s (T, (0 : Fin (nodes a) → ℝ)) u) := by
    refine Finset.sum_congr rfl fun u hu => ?_
    rw [Function.update_of_ne (Finset.ne_of_mem_erase hu), Function.update_of_ne (Finset.ne_of_mem_erase hu)]
  rw [this]
  ring

theorem length_leafData {F : Type} (X : List (List Nat)) (n : Nat) (var split : List Nat) (r : Nat → F) (i : Nat) :
    (leafData X n var split r i).length = pointsIn X n var split i := by
  classical
  unfold leafData pointsIn
  rw [List.length_map, ← List.toFinset_card_of_nodup (List.nodup_range.filter _), ← Set.ncard_coe_finset]
  congr 1
  ext j
  simp

theorem sum_sub_map {l : List Nat} {f g : Nat → ℝ} {c : ℝ} (h : ∀ j ∈ l, g j = c) :
    (l.map fun j => f j - g j).sum = (l.map f).sum - l.length * c := by
  induction l with
  | nil => simp
  | cons j l ih =>
    simp only [List.map_cons, List.sum_cons, List.length_cons]
    rw [ih fun k hk => h k (List.mem_cons_of_mem _ hk), h j (by simp)]
    push_cast
    ring

theorem continuous_sum_map {X : Type} [TopologicalSpace X] {l : List Nat} {g : X → Nat → ℝ}
    (h : ∀ j, Continuous fun x => g x j) : Continuous fun x => (l.map (g x)).sum := by
  induction l with
  | nil => simpa using continuous_const
  | cons j l ih => simp only [List.map_cons, List.sum_cons]; exact (h j).add ih

theorem grown_root (hT1 : PossibleTree a T1) (hg : GrownT a (rootT a) T1 i) : i = 1 := by
  by_contra hne
  have hnode := hg.leaf.1
  cases hnode with
  | root => exact hne rfl
  | left _ h => exact h (at0_replicate _ _)
  | right _ h => exact h (at0_replicate _ _)

/-- with positive probability, the values of another tree are such that the root is not always grown -/
theorem stay_core (hu : Usable a) (hm : ∃ m, 1 ≤ m ∧ a.min_points_per_leaf = some m) (hv : 0 < v)
    {s t : Fin a.num_trees} (hst : s ≠ t) (x : Fin a.num_trees → Tree (nodes a))
    (hT : PossibleTree a T) (hT1 : PossibleTree a T1) (hg : GrownT a (rootT a) T1 i) :
    leafPrior a T {L | trans a (others a (Function.update x s (T, L)) t) v (rootT a) (rootT a) ≠ 0} ≠ 0 := by
  classical
  obtain ⟨m, hm1, hm⟩ := hm
  have htau : (0 : ℝ) < 1 / (a.num_trees : ℝ) := by have := hu.trees; positivity
  have hi := grown_root hT1 hg
  have hr : at0 T1.split 1 ≠ 0 := hi ▸ hg.decision.2
  have p2 := hT1.points m hm hr _ hg.left
  have p3 := hT1.points m hm hr _ hg.right
  set n2 := pointsIn a.X a.y.length T1.var T1.split (2 * i) with hn2
  set n3 := pointsIn a.X a.y.length T1.var T1.split (2 * i + 1) with hn3
  set r0 := others a (Function.update x s (T, 0)) t with hr0
  set R : (Fin (nodes a) → ℝ) → Nat → ℝ := fun L j => r0 j - treeValue a.X j (T, L) with hR
  have eR : ∀ L, others a (Function.update x s (T, L)) t = R L := fun L => funext fun j => others_put hst x L j
  set K := Real.log (tP a (rootT a) T1 i) +
    (Real.log (v / (v + n2 * (1 / a.num_trees : ℝ))) + Real.log (v / (v + n3 * (1 / a.num_trees : ℝ))) -
        Real.log (v / (v + (n2 + n3 : Nat) * (1 / a.num_trees : ℝ)))) / 2 with hK
  set Φ : (Fin (nodes a) → ℝ) → ℝ := fun L => K + ratioExp (1 / a.num_trees : ℝ) v n2 n3
        (leafData a.X a.y.length T1.var T1.split (R L) (2 * i)).sum
        (leafData a.X a.y.length T1.var T1.split (R L) (2 * i + 1)).sum with hΦ
  have eΦ : ∀ L, Real.log (tP a (rootT a) T1 i) +
      Real.log (lik a (R L) v T1 / lik a (R L) v (rootT a)) = Φ L := by
    intro L
    rw [log_lik_ratio hu hv (root_possible a) hT1 hg (length_leafData _ _ _ _ _ _) (length_leafData _ _ _ _ _ _),
      ← add_assoc]
  have hcont : Continuous Φ := by
    have hs : ∀ k, Continuous fun L => (leafData a.X a.y.length T1.var T1.split (R L) k).sum := fun k =>
      continuous_sum_map fun j => continuous_const.sub (continuous_treeValue j)
    simp only [hΦ, ratioExp]
    have h2 := hs (2 * i)
    have h3 := hs (2 * i + 1)
    fun_prop
  obtain ⟨c, hc⟩ := exists_shift htau hv (n2 := n2) (n3 := n3) (by omega) (by omega) K
    (leafData a.X a.y.length T1.var T1.split r0 (2 * i)).sum
    (leafData a.X a.y.length T1.var T1.split r0 (2 * i + 1)).sum
  set L0 : Fin (nodes a) → ℝ := fun k => if IsLeaf T.split k then c else 0 with hL0
  have hval : ∀ j, j < a.y.length → treeValue a.X j (T, L0) = c := by
    intro j hj
    obtain ⟨k, hk⟩ := falls_possible hu hT hj
    have hkl := leaf_lt hT.split.length hk.1
    rw [treeValue_eq (x := (T, L0)) hu.valid.depth_lt hT.var_length hT.split.length ⟨k, hkl⟩ hk]
    simp [hL0, hk.1]
  have hsum : ∀ k, (leafData a.X a.y.length T1.var T1.split (R L0) k).sum =
      (leafData a.X a.y.length T1.var T1.split r0 k).sum - (pointsIn a.X a.y.length T1.var T1.split k : ℝ) * c := by
    intro k
    rw [← length_leafData a.X a.y.length T1.var T1.split r0 k]
    unfold leafData
    rw [List.length_map]
    refine sum_sub_map fun j hj => hval j ?_
    simpa using (List.mem_filter.1 hj).1
  have hΦ0 : Φ L0 < 0 := by
    simp only [hΦ, hsum]
    exact hc
  have hopen := leafPrior_open (T := T) hu.trees (hcont.isOpen_preimage _ (isOpen_Iio (a := (0 : ℝ)))) (L := L0) hΦ0 (by
    intro k hk; simp [hL0, hk])
  intro h0
  apply hopen
  refine measure_mono_null (fun L hL => ?_) h0
  show trans a (others a (Function.update x s (T, L)) t) v (rootT a) (rootT a) ≠ 0
  rw [eR]
  refine trans_stay hu hT1 hg ?_
  rw [eΦ]
  exact hL

end
end Bartz
