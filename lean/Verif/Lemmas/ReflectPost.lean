import Verif.Spec.ReflectPost
import Verif.Lemmas.Relabel
/-! # Change of sign of the response, in the posterior distribution -/

set_option autoImplicit false

namespace Bartz
open Jax Spec MeasureTheory ProbabilityTheory
open scoped ENNReal

section
variable {a : InitArgs ℝ}

theorem possible_reflect (T : Rules) : PossibleTree (reflectInit a) T ↔ PossibleTree a T := by
  have hl : (reflectInit a).y.length = a.y.length := List.length_map _
  constructor
  · intro h
    exact ⟨h.split, h.var_length, h.var_unused, h.var_avail, h.split_avail, fun m hm h1 i hi => hl ▸ h.points m hm h1 i hi⟩
  · intro h
    exact ⟨h.split, h.var_length, h.var_unused, h.var_avail, h.split_avail, fun m hm h1 i hi => hl.symm ▸ h.points m hm h1 i hi⟩

theorem ruleW_reflect (T : Rules) : ruleW (reflectInit a) T = ruleW a T := by
  unfold ruleW
  by_cases h : PossibleTree a T
  · rw [if_pos h, if_pos ((possible_reflect T).2 h)]
  · rw [if_neg h, if_neg (fun h' => h ((possible_reflect T).1 h'))]

open Classical in
theorem leafPrior_neg (T : Rules) : (leafPrior a T).map (fun z i => -z i) = leafPrior a T := by
  unfold leafPrior
  have hs : ∀ i : Fin (nodes a), SigmaFinite ((if IsLeaf T.split i then gaussianReal 0 (1 / (a.num_trees : NNReal))
      else Measure.dirac 0 : Measure ℝ).map fun x => -x) := by
    intro i
    split
    · have := gaussianReal_map_neg (μ := 0) (v := 1 / (a.num_trees : NNReal))
      rw [this]
      infer_instance
    · rw [Measure.map_dirac' measurable_neg]
      infer_instance
  have hs' : ∀ i : Fin (nodes a), SigmaFinite ((if IsLeaf T.split i then gaussianReal 0 (1 / (a.num_trees : NNReal))
      else Measure.dirac 0 : Measure ℝ)) := by
    intro i
    split <;> infer_instance
  rw [Measure.pi_map_pi (fun _ => measurable_neg.aemeasurable)]
  congr 1
  funext i
  split
  · rw [gaussianReal_map_neg, neg_zero]
  · rw [Measure.map_dirac' measurable_neg, neg_zero]

theorem leafPrior_reflect (T : Rules) : leafPrior (reflectInit a) T = leafPrior a T := rfl

/-- the tree with the opposite leaves -/
def reflectTree {N : Nat} (x : Tree N) : Tree N := (x.1, fun i => -x.2 i)

theorem measurable_reflectTree {N : Nat} : Measurable (reflectTree : Tree N → Tree N) :=
  measurable_fst.prodMk (measurable_pi_lambda _ fun i => ((measurable_pi_apply i).comp measurable_snd).neg)

theorem treeDist_reflect : treeDist (reflectInit a) = (treeDist a).map reflectTree := by
  refine Measure.ext_of_lintegral _ fun f hf => ?_
  rw [lintegral_map hf measurable_reflectTree, lintegral_treeDist hf,
    lintegral_treeDist (a := a) (f := fun x => f (reflectTree x)) (hf.comp measurable_reflectTree)]
  refine tsum_congr fun T => ?_
  rw [ruleW_reflect, leafPrior_reflect]
  congr 1
  have hm : Measurable fun (z : Fin (nodes a) → ℝ) i => -z i :=
    measurable_pi_lambda _ fun i => (measurable_pi_apply i).neg
  conv_lhs => rw [← leafPrior_neg T]
  exact lintegral_map (f := fun z => f (T, z)) (hf.comp measurable_prodMk_left) hm

theorem measurable_reflectParams {nt N : Nat} : Measurable (reflectParams : Params nt N → Params nt N) :=
  Measurable.prodMk (f := fun θ : Params nt N => fun t => reflectTree (θ.1 t))
    (measurable_pi_lambda _ fun t => measurable_reflectTree.comp ((measurable_pi_apply t).comp measurable_fst))
    measurable_snd

theorem priorDist_reflect : priorDist (reflectInit a) = (priorDist a).map reflectParams := by
  unfold priorDist
  rw [treeDist_reflect]
  have e := Measure.pi_map_pi (ι := Fin a.num_trees) (μ := fun _ => treeDist a) (f := fun _ => reflectTree)
    (fun _ => measurable_reflectTree.aemeasurable)
  have hm : Measurable fun (x : Fin a.num_trees → Tree (nodes a)) i => reflectTree (x i) :=
    measurable_pi_lambda _ fun t => measurable_reflectTree.comp (measurable_pi_apply t)
  have e2 := Measure.map_prod_map (Measure.pi fun _ : Fin a.num_trees => treeDist a) (sigmaDist a) hm measurable_id
  rw [e, Measure.map_id] at e2
  exact e2

theorem treeValue_reflect {nt N : Nat} (X : List (List Nat)) (j : Nat) (θ : Params nt N) (t : Fin nt) :
    treeValue X j ((reflectParams θ).1 t) = -treeValue X j (θ.1 t) := by
  unfold treeValue
  rw [← Finset.sum_neg_distrib]
  refine Finset.sum_congr rfl fun i _ => ?_
  by_cases h : FallsInto (point X j) (θ.1 t).1.var (θ.1 t).1.split i
  · rw [if_pos h, if_pos (show FallsInto (point X j) ((reflectParams θ).1 t).1.var ((reflectParams θ).1 t).1.split i from h)]
    rfl
  · rw [if_neg h, if_neg (show ¬ FallsInto (point X j) ((reflectParams θ).1 t).1.var ((reflectParams θ).1 t).1.split i from h),
      neg_zero]

theorem dataDensity_reflect (θ : Params a.num_trees (nodes a)) :
    dataDensity (reflectInit a) (reflectParams θ) = dataDensity a θ := by
  unfold dataDensity
  rw [show (reflectInit a).y.length = a.y.length from List.length_map _]
  refine Finset.prod_congr rfl fun j _ => ?_
  congr 1
  have e1 : (reflectInit a).y.getD j 0 = -a.y.getD j 0 := by
    unfold reflectInit
    rw [List.getD_eq_getElem?_getD, List.getD_eq_getElem?_getD, List.getElem?_map]
    cases a.y[j]? with
    | some v => rfl
    | none => exact neg_zero.symm
  have e2 : ∑ t, treeValue (reflectInit a).X j ((reflectParams θ).1 t) = -∑ t, treeValue a.X j (θ.1 t) := by
    rw [← Finset.sum_neg_distrib]
    exact Finset.sum_congr rfl fun t _ => treeValue_reflect a.X j θ t
  rw [e1]
  refine (congrArg (fun m => normalPdf m θ.2 (-a.y.getD j 0)) e2).trans ?_
  unfold normalPdf gaussianPDFReal
  rw [show -a.y.getD j 0 - -∑ t, treeValue a.X j (θ.1 t) = -(a.y.getD j 0 - ∑ t, treeValue a.X j (θ.1 t)) by ring, neg_sq]

theorem jointDist_reflect : jointDist (reflectInit a) = (jointDist a).map reflectParams := by
  unfold jointDist
  rw [priorDist_reflect]
  refine (withDensity_map_eq _ measurable_reflectParams (measurable_dataDensity (reflectInit a))).trans ?_
  exact congrArg (fun d => ((priorDist a).withDensity d).map reflectParams) (funext fun θ => dataDensity_reflect (a := a) θ)

theorem posterior_reflect : posterior (reflectInit a) = (posterior a).map reflectParams := by
  unfold posterior
  rw [jointDist_reflect, Measure.map_apply measurable_reflectParams MeasurableSet.univ, Set.preimage_univ,
    Measure.map_smul]

end
end Bartz
