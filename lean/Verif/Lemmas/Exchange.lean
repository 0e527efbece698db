import Verif.Spec.Exchange
import Verif.Lemmas.BartMoments
import Verif.Lemmas.Relabel
/-! # Order of the trees -/

set_option autoImplicit false

namespace Bartz
open Jax Spec MeasureTheory ProbabilityTheory
open scoped ENNReal

section
variable {a : InitArgs ℝ}

theorem measurable_permuteTrees {nt N : Nat} (π : Equiv.Perm (Fin nt)) : Measurable (permuteTrees π : Params nt N → Params nt N) :=
  Measurable.prodMk (f := fun θ : Params nt N => fun t => θ.1 (π t))
    (measurable_pi_lambda _ fun t => (measurable_pi_apply (π t)).comp measurable_fst) measurable_snd

/-- independent variables with the same distribution, in another order -/
theorem pi_permute {nt : Nat} {α : Type} [MeasurableSpace α] (μ : Measure α) [SigmaFinite μ] (π : Equiv.Perm (Fin nt)) :
    (Measure.pi fun _ : Fin nt => μ).map (fun x t => x (π t)) = Measure.pi fun _ => μ := by
  have h := (measurePreserving_piCongrLeft (fun _ : Fin nt => μ) π.symm).map_eq
  have e : (fun (x : Fin nt → α) t => x (π t)) = MeasurableEquiv.piCongrLeft (fun _ => α) π.symm := by
    funext x t
    have := Equiv.piCongrLeft_apply_apply (P := fun _ : Fin nt => α) π.symm x (π t)
    rw [Equiv.symm_apply_apply] at this
    exact this.symm
  rw [e]
  exact h

theorem priorDist_permute (π : Equiv.Perm (Fin a.num_trees)) : (priorDist a).map (permuteTrees π) = priorDist a := by
  unfold priorDist
  have hm : Measurable fun (x : Fin a.num_trees → Tree (nodes a)) t => x (π t) :=
    measurable_pi_lambda _ fun t => measurable_pi_apply (π t)
  have e2 := Measure.map_prod_map (Measure.pi fun _ : Fin a.num_trees => treeDist a) (sigmaDist a) hm measurable_id
  rw [pi_permute, Measure.map_id] at e2
  exact e2.symm

theorem dataDensity_permute (π : Equiv.Perm (Fin a.num_trees)) (θ : Params a.num_trees (nodes a)) :
    dataDensity a (permuteTrees π θ) = dataDensity a θ := by
  unfold dataDensity
  refine Finset.prod_congr rfl fun j _ => ?_
  have e : ∑ t, treeValue a.X j ((permuteTrees π θ).1 t) = ∑ t, treeValue a.X j (θ.1 t) :=
    Equiv.sum_comp π fun t => treeValue a.X j (θ.1 t)
  rw [e]
  rfl

theorem jointDist_permute (π : Equiv.Perm (Fin a.num_trees)) : (jointDist a).map (permuteTrees π) = jointDist a := by
  unfold jointDist
  conv_rhs => rw [← priorDist_permute π, withDensity_map_eq _ (measurable_permuteTrees π) (measurable_dataDensity a)]
  simp only [dataDensity_permute]

theorem posterior_permute (π : Equiv.Perm (Fin a.num_trees)) : (posterior a).map (permuteTrees π) = posterior a := by
  unfold posterior
  rw [Measure.map_smul, jointDist_permute]

theorem memLp_tree (hu : Usable a) (hp : ∀ x ∈ a.p_nonterminal, x < 1) (hα : 0 < a.sigma2_alpha)
    (hβ : 0 < a.sigma2_beta) (X : List (List Nat)) (j : Nat) (t : Fin a.num_trees) (p : Nat) :
    MemLp (fun θ : Params a.num_trees (nodes a) => treeValue X j (θ.1 t)) p (posterior a) := by
  have hm : Measurable fun θ : Params a.num_trees (nodes a) => treeValue X j (θ.1 t) :=
    (measurable_treeValue X j).comp ((measurable_pi_apply t).comp measurable_fst)
  have h : MemLp (fun θ : Params a.num_trees (nodes a) => ∑ i, |(θ.1 t).2 i|) p (posterior a) :=
    memLp_finsetSum _ fun i _ => (memLp_leaf hu hp hα hβ t i p).abs
  refine h.mono hm.aestronglyMeasurable (ae_of_all _ fun θ => ?_)
  rw [Real.norm_eq_abs, Real.norm_eq_abs, abs_of_nonneg (a := ∑ i, |(θ.1 t).2 i|)
    (Finset.sum_nonneg fun _ _ => abs_nonneg _)]
  exact abs_treeValue_le X j (θ.1 t)

end
end Bartz
