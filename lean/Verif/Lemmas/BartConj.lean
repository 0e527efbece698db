import Verif.Lemmas.BartMeas
import Mathlib.Data.Set.Finite.List
/-! # The full conditional distribution of the values of the leaves -/

set_option autoImplicit false

namespace Bartz
open Jax Spec MeasureTheory ProbabilityTheory
open scoped ENNReal

/-! ### One leaf -/

theorem gaussianReal_affine {m V : ℝ} (hV : 0 < V) :
    (gaussianReal 0 1).map (fun z => m + Real.sqrt V * z) = gaussianReal m V.toNNReal := by
  have e : (fun z : ℝ => m + Real.sqrt V * z) = (fun z => m + z) ∘ fun z => Real.sqrt V * z := rfl
  rw [e, ← Measure.map_map (by fun_prop) (by fun_prop), gaussianReal_map_const_mul,
    gaussianReal_map_const_add]
  congr 1
  · simp
  · ext
    simp [Real.sq_sqrt hV.le, Real.coe_toNNReal _ hV.le]

theorem leaf_withDensity {tau v : ℝ} (htau : 0 < tau) (hv : 0 < v) (r : List ℝ) :
    (gaussianReal 0 tau.toNNReal).withDensity
      (fun x => ENNReal.ofReal (r.map fun y => normalPdf x v y).prod) =
    ENNReal.ofReal (leafMarginal tau v r) • (gaussianReal 0 1).map
      (fun z => postVar tau v r.length * r.sum / v + Real.sqrt (postVar tau v r.length) * z) := by
  have hV := postVar_pos htau hv r.length
  have h1 : tau.toNNReal ≠ 0 := by simpa using htau
  have h2 : (postVar tau v r.length).toNNReal ≠ 0 := by simpa using hV
  have hmeas : Measurable fun x => ENNReal.ofReal (r.map fun y => normalPdf x v y).prod := by
    refine Measurable.ennreal_ofReal ?_
    induction r with
    | nil => simp
    | cons y r ih =>
      simp only [List.map_cons, List.prod_cons]
      exact (measurable_normalPdf measurable_id measurable_const measurable_const).mul
        (ih (postVar_pos htau hv r.length) (by simpa using postVar_pos htau hv r.length))
  rw [gaussianReal_affine hV, gaussianReal_of_var_ne_zero _ h1, gaussianReal_of_var_ne_zero _ h2,
    ← withDensity_mul _ (measurable_gaussianPDF _ _) hmeas, ← withDensity_smul _ (measurable_gaussianPDF _ _)]
  congr 1
  funext x
  simp only [Pi.mul_apply, Pi.smul_apply, smul_eq_mul, gaussianPDF]
  rw [← ENNReal.ofReal_mul (gaussianPDFReal_nonneg _ _ _),
    ← ENNReal.ofReal_mul (leafMarginal_pos htau hv r).le]
  congr 1
  exact (isLeafPosterior htau hv r).2 x

/-! ### All leaves -/

section
variable {a : InitArgs ℝ} {T : Rules} {R : Nat → ℝ} {v : ℝ}

/-- density of the data, given the contribution of the other trees -/
noncomputable def treeLik (a : InitArgs ℝ) (R : Nat → ℝ) (v : ℝ) (y : Tree (nodes a)) : ℝ≥0∞ :=
  ∏ j ∈ Finset.range a.y.length, ENNReal.ofReal (normalPdf (treeValue a.X j y) v (R j))

theorem normalPdf_nonneg (m v x : ℝ) : 0 ≤ normalPdf m v x := gaussianPDFReal_nonneg _ _ _

theorem falls_possible (hu : Usable a) (hT : PossibleTree a T) {j : Nat} (hj : j < a.y.length) :
    ∃ i, FallsInto (point a.X j) T.var T.split i := by
  have ht := hu.trees
  have h := (treeInv_of (canon_inv hu hT 1).1 ht).falls j hj
  rw [canon_va 1 ht, canon_sp 1 ht] at h
  exact ⟨_, h⟩

theorem list_prod_filter {l : List Nat} (p : Nat → Bool) (f : Nat → ℝ) (hf : ∀ j, 0 ≤ f j) :
    ENNReal.ofReal ((l.filter p).map f).prod =
      (l.map fun j => if p j = true then ENNReal.ofReal (f j) else 1).prod := by
  induction l with
  | nil => simp
  | cons j l ih =>
    rw [List.map_cons, List.prod_cons, ← ih]
    by_cases h : p j = true
    · rw [List.filter_cons_of_pos h, if_pos h, List.map_cons, List.prod_cons, ENNReal.ofReal_mul (hf j)]
    · rw [List.filter_cons_of_neg h, if_neg h, one_mul]

theorem list_prod_range (f : Nat → ℝ≥0∞) (n : Nat) :
    ((List.range n).map f).prod = ∏ j ∈ Finset.range n, f j := by
  induction n with
  | zero => simp
  | succ n ih => rw [List.range_succ, List.map_append, List.prod_append, ih, Finset.prod_range_succ]; simp

open Classical in
theorem treeLik_eq (hu : Usable a) (hT : PossibleTree a T) (z : Fin (nodes a) → ℝ) :
    treeLik a R v (T, z) = ∏ i : Fin (nodes a), ENNReal.ofReal
      ((leafData a.X a.y.length T.var T.split R i).map fun y => normalPdf (z i) v y).prod := by
  have e : ∀ i : Fin (nodes a), ENNReal.ofReal
      ((leafData a.X a.y.length T.var T.split R i).map fun y => normalPdf (z i) v y).prod =
      ∏ j ∈ Finset.range a.y.length, if FallsInto (point a.X j) T.var T.split i then
        ENNReal.ofReal (normalPdf (z i) v (R j)) else 1 := by
    intro i
    unfold leafData
    rw [List.map_map, show ((fun y => normalPdf (z i) v y) ∘ R) = fun j => normalPdf (z i) v (R j) from rfl,
      list_prod_filter _ _ (fun j => normalPdf_nonneg (z i) v (R j)), list_prod_range]
    simp only [decide_eq_true_eq]
  rw [Finset.prod_congr rfl fun i _ => e i, Finset.prod_comm]
  unfold treeLik
  refine Finset.prod_congr rfl fun j hj => ?_
  rw [Finset.mem_range] at hj
  obtain ⟨i, hi⟩ := falls_possible hu hT hj
  have hlt : i < nodes a := leaf_lt hT.split.length hi.1
  rw [treeValue_eq hu.valid.depth_lt hT.var_length hT.split.length ⟨i, hlt⟩ hi,
    Finset.prod_eq_single ⟨i, hlt⟩]
  · rw [if_pos hi]
  · intro k _ hk
    rw [if_neg]
    intro hf
    exact hk (Fin.ext (fallsInto_unique hu.valid.depth_lt hT.var_length hT.split.length hf hi))
  · intro h; exact absurd (Finset.mem_univ _) h

theorem leafPrior_withDensity (hu : Usable a) (hv : 0 < v) (hT : PossibleTree a T) :
    (leafPrior a T).withDensity (fun z => treeLik a R v (T, z)) =
      ENNReal.ofReal (lik a R v T) •
        (Measure.pi fun _ => gaussianReal 0 1).map (newLeaves a R v T) := by
  classical
  have htau : (0 : ℝ) < 1 / (a.num_trees : ℝ) := by have := hu.trees; positivity
  have htau' : (1 / (a.num_trees : NNReal)) = (1 / (a.num_trees : ℝ)).toNNReal := by
    ext; simp
  set D := fun i : Fin (nodes a) => leafData a.X a.y.length T.var T.split R i with hD
  have hmeas : ∀ i : Fin (nodes a), Measurable fun x =>
      ENNReal.ofReal ((D i).map fun y => normalPdf x v y).prod := by
    intro i
    refine Measurable.ennreal_ofReal ?_
    simp only [hD, leafData, List.map_map]
    exact measurable_list_prod (f := fun j x => normalPdf x v (R j)) fun j =>
      measurable_normalPdf measurable_id measurable_const measurable_const
  set c : Fin (nodes a) → ℝ≥0∞ := fun i => if IsLeaf T.split i then
    ENNReal.ofReal (leafMarginal (1 / (a.num_trees : ℝ)) v (D i)) else 1 with hc
  set f : Fin (nodes a) → ℝ → ℝ := fun i z => if IsLeaf T.split i then
    postVar (1 / (a.num_trees : ℝ)) v (D i).length * (D i).sum / v +
      Real.sqrt (postVar (1 / (a.num_trees : ℝ)) v (D i).length) * z else 0 with hf
  have hfm : ∀ i, Measurable (f i) := by
    intro i
    simp only [hf]
    split_ifs
    · fun_prop
    · exact measurable_const
  have hctop : ∀ i, c i ≠ ∞ := by
    intro i
    simp only [hc]
    split_ifs <;> simp
  have e : ∀ i : Fin (nodes a), (if IsLeaf T.split i then gaussianReal 0 (1 / (a.num_trees : NNReal))
      else Measure.dirac 0).withDensity (fun x => ENNReal.ofReal ((D i).map fun y => normalPdf x v y).prod)
      = c i • (gaussianReal 0 1).map (f i) := by
    intro i
    by_cases hl : IsLeaf T.split i
    · simp only [hc, hf, if_pos hl]
      rw [htau']
      exact leaf_withDensity htau hv (D i)
    · simp only [hc, hf, if_neg hl]
      have : D i = [] := by
        simp only [hD, leafData]
        rw [List.filter_eq_nil_iff.2 (fun j _ => by
          simp only [decide_eq_true_eq]
          exact fun h => hl h.1), List.map_nil]
      rw [this]
      simp only [List.map_nil, List.prod_nil, ENNReal.ofReal_one]
      rw [show (fun _ : ℝ => (1 : ℝ≥0∞)) = 1 from rfl, withDensity_one, Measure.map_const]
      simp
  have hsf : ∀ i : Fin (nodes a), IsProbabilityMeasure (if IsLeaf T.split i then
      gaussianReal 0 (1 / (a.num_trees : NNReal)) else Measure.dirac 0) := by
    intro i; split_ifs <;> infer_instance
  have hpm : ∀ i, IsProbabilityMeasure ((gaussianReal 0 1).map (f i)) := fun i =>
    Measure.isProbabilityMeasure_map (hfm i).aemeasurable
  have hfin : ∀ i, IsFiniteMeasure (c i • (gaussianReal 0 1).map (f i)) := fun i =>
    Measure.smul_finite _ (hctop i)
  have hwd : ∀ i : Fin (nodes a), SigmaFinite ((if IsLeaf T.split i then
      gaussianReal 0 (1 / (a.num_trees : NNReal)) else Measure.dirac 0).withDensity
      (fun x => ENNReal.ofReal ((D i).map fun y => normalPdf x v y).prod)) := by
    intro i; rw [e i]; infer_instance
  unfold leafPrior
  rw [show (fun z => treeLik a R v (T, z)) = fun z => ∏ i : Fin (nodes a), ENNReal.ofReal
    ((D i).map fun y => normalPdf (z i) v y).prod from funext fun z => treeLik_eq hu hT z,
    pi_withDensity hmeas, funext e, pi_smul hctop, ← Measure.pi_map_pi fun i => (hfm i).aemeasurable]
  congr 1
  unfold lik treeLikelihood
  rw [hT.split.length, show 2 * 2 ^ a.p_nonterminal.length = nodes a by unfold nodes; rw [pow_succ, mul_comm],
    ENNReal.ofReal_prod_of_nonneg, Finset.prod_range]
  · refine Finset.prod_congr rfl fun i _ => ?_
    simp only [hc, hD]
    split_ifs <;> simp
  · intro i _
    split_ifs
    · exact (leafMarginal_pos htau hv _).le
    · exact zero_le_one

theorem measurable_treeLik (a : InitArgs ℝ) (R : Nat → ℝ) (v : ℝ) : Measurable (treeLik a R v) := by
  unfold treeLik
  exact Finset.measurable_prod _ fun j _ => (measurable_normalPdf (measurable_treeValue a.X j)
    measurable_const measurable_const).ennreal_ofReal

theorem measurable_newLeaves_at (a : InitArgs ℝ) (R : Nat → ℝ) (v : ℝ) (T : Rules) :
    Measurable (newLeaves a R v T) := by
  have h : Measurable fun z : Fin (nodes a) → ℝ => (T, ((R, v), z)) :=
    measurable_const.prodMk (measurable_const.prodMk measurable_id)
  exact (measurable_newLeaves a).comp h

/-- integrate the values of the leaves -/
theorem leaf_integral (hu : Usable a) (hv : 0 < v) (hT : PossibleTree a T)
    {h : (Fin (nodes a) → ℝ) → ℝ≥0∞} (hh : Measurable h) :
    ∫⁻ z, treeLik a R v (T, z) * h z ∂leafPrior a T =
      ENNReal.ofReal (lik a R v T) *
        ∫⁻ z, h (newLeaves a R v T z) ∂Measure.pi fun _ => gaussianReal 0 1 := by
  have hm : Measurable fun z => treeLik a R v (T, z) :=
    (measurable_treeLik a R v).comp measurable_prodMk_left
  have := lintegral_withDensity_eq_lintegral_mul (leafPrior a T) hm hh
  rw [leafPrior_withDensity hu hv hT, lintegral_smul_measure,
    lintegral_map hh (measurable_newLeaves_at a R v T)] at this
  exact this.symm

/-! ### The a priori distribution is finite -/

open Classical in
/-- a priori probability of the rules -/
noncomputable def ruleW (a : InitArgs ℝ) (T : Rules) : ℝ≥0∞ :=
  if PossibleTree a T then ENNReal.ofReal (treePrior a.p_nonterminal a.split_bits a.max_split T.var T.split) else 0

theorem finite_bounded_lists (n B : Nat) : {l : List Nat | l.length = n ∧ ∀ x ∈ l, x < B}.Finite := by
  have hfin := List.finite_length_eq (Fin B) n
  refine (hfin.image (List.map Fin.val)).subset ?_
  rintro l ⟨hl, hb⟩
  refine ⟨l.pmap Fin.mk hb, ?_, ?_⟩
  · show (l.pmap Fin.mk hb).length = n
    simp [hl]
  · simp [List.map_pmap]

theorem finite_possible (a : InitArgs ℝ) : {T | PossibleTree a T}.Finite := by
  classical
  obtain ⟨B, hB⟩ : ∃ B, B = a.max_split.length + a.max_split.sum + 1 := ⟨_, rfl⟩
  have hms : ∀ v, at0 a.max_split v < B := by
    intro v
    unfold at0
    rcases Nat.lt_or_ge v a.max_split.length with h | h
    · rw [List.getD_eq_getElem _ _ h]
      have := List.single_le_sum (l := a.max_split) (fun _ _ => Nat.zero_le _) _ (List.getElem_mem h)
      omega
    · rw [List.getD_eq_default _ _ h]; omega
  have h1 := finite_bounded_lists (2 ^ a.p_nonterminal.length) B
  refine ((h1.prod h1).preimage (f := fun T : Rules => (T.var, T.split)) ?_).subset ?_
  · intro T1 _ T2 _ h
    rw [Prod.mk.injEq] at h
    exact Rules.ext h.1 h.2
  · intro T hT
    have hT' : PossibleTree a T := hT
    refine ⟨⟨hT'.var_length, ?_⟩, ⟨hT'.split.length, ?_⟩⟩
    · intro x hx
      obtain ⟨i, hi, rfl⟩ := List.getElem_of_mem hx
      have e : T.var[i] = at0 T.var i := (List.getD_eq_getElem _ _ hi).symm
      rw [e]
      by_cases hd : IsDecision T.split i
      · have := (hT'.var_avail i hd).1
        omega
      · rw [hT'.var_unused i hd]; omega
    · intro x hx
      obtain ⟨i, hi, rfl⟩ := List.getElem_of_mem hx
      have e : T.split[i] = at0 T.split i := (List.getD_eq_getElem _ _ hi).symm
      rw [e]
      by_cases h0 : at0 T.split i = 0
      · omega
      · have hd : IsDecision T.split i := hT'.split.isDecision_iff.2 h0
        obtain ⟨_, b, hb, _, hb'⟩ := hT'.split_avail i hd
        have := hms (at0 T.var i)
        omega

instance (a : InitArgs ℝ) (T : Rules) : IsProbabilityMeasure (leafPrior a T) := by
  classical
  unfold leafPrior
  have : ∀ i : Fin (nodes a), IsProbabilityMeasure (if IsLeaf T.split i then
      gaussianReal 0 (1 / (a.num_trees : NNReal)) else Measure.dirac 0) := by
    intro i; split_ifs <;> infer_instance
  infer_instance

/-- integrals under the a priori distribution of a tree -/
theorem lintegral_treeDist {f : Tree (nodes a) → ℝ≥0∞} (hf : Measurable f) :
    ∫⁻ y, f y ∂treeDist a = ∑' T, ruleW a T * ∫⁻ z, f (T, z) ∂leafPrior a T := by
  unfold treeDist
  rw [lintegral_sum_measure]
  congr 1
  funext T
  rw [lintegral_smul_measure, lintegral_map hf measurable_prodMk_left]
  rfl

theorem treeDist_univ (a : InitArgs ℝ) : treeDist a Set.univ = ∑' T, ruleW a T := by
  have := lintegral_treeDist (a := a) (f := fun _ => 1) measurable_const
  simpa using this

instance (a : InitArgs ℝ) : IsFiniteMeasure (treeDist a) := by
  classical
  constructor
  rw [treeDist_univ, tsum_eq_sum (s := (finite_possible a).toFinset)]
  · rw [ENNReal.sum_lt_top]
    intro T _
    unfold ruleW
    split_ifs <;> simp
  · intro T hT
    unfold ruleW
    rw [if_neg]
    simpa using hT

end
end Bartz
