import Verif.Lemmas.BartStep
import Mathlib.MeasureTheory.Function.StronglyMeasurable.Lemmas
import Mathlib.MeasureTheory.Integral.Prod
import Mathlib.MeasureTheory.Function.Floor
/-! # Measurability of the step -/

set_option autoImplicit false

namespace Bartz
open Jax Spec MeasureTheory ProbabilityTheory

instance : Countable Rules :=
  Function.Injective.countable (f := fun T : Rules => (T.var, T.split)) fun T1 T2 h => by
    rw [Prod.mk.injEq] at h
    exact Rules.ext h.1 h.2

instance : DiscreteMeasurableSpace Rules := ⟨fun _ => trivial⟩

section
variable {a : InitArgs ℝ} {Z : Type} [MeasurableSpace Z]

/-! ### Picks -/

theorem measurable_unifInt (lo hi : Nat) : Measurable fun x => unifInt x lo hi := by
  unfold unifInt
  split_ifs
  · exact (measurable_from_top (f := fun k : ℕ => lo + k)).comp
      ((Nat.measurable_floor (R := ℝ)).comp (measurable_id.const_mul _))
  · exact measurable_const

theorem measurable_bisect {l : List ℝ} {f : ℝ → ℝ} (hf : Measurable f) : ∀ levels low high,
    Measurable fun x => bisect (fun y => FltFun.leb y (f x)) l levels low high := by
  intro levels
  induction levels with
  | zero => intro low high; exact measurable_const
  | succ levels ih =>
    intro low high
    unfold bisect
    dsimp only
    cases l[(low + high) / 2]? with
    | none => exact ih _ _
    | some y =>
      dsimp only
      simp only [Real.leb_iff]
      exact Measurable.ite (measurableSet_le measurable_const hf) (ih _ _) (ih _ _)

theorem measurable_lP (a : InitArgs ℝ) (T : Rules) : Measurable (lP a T) := by
  unfold lP leafPick
  exact measurable_bisect (measurable_id.const_mul _) _ _ _

theorem measurable_vP (a : InitArgs ℝ) (T : Rules) (i : Nat) : Measurable (vP a T i) :=
  (measurable_from_top (f := fun k : ℕ => choose_variable (canon a 1 T).var_bits (canon a 1 T).split_bits (vaOf (canon a 1 T) 0) (spOf (canon a 1 T) 0)
    (canon a 1 T).max_split i (constRandint (F := ℝ) k))).comp (measurable_unifInt _ _)

theorem measurable_sP (a : InitArgs ℝ) (T : Rules) (i v : Nat) : Measurable (sP a T i v) :=
  measurable_unifInt _ _

theorem measurable_pP (a : InitArgs ℝ) (T : Rules) : Measurable (pP a T) :=
  (measurable_from_top (f := fun k : ℕ => randint_masked (constRandint (F := ℝ) k)
    (is_leaves_parent (spOf (canon a 1 T) 0)))).comp (measurable_unifInt _ _)

/-! ### Densities -/

theorem measurable_normalPdf {m v x : Z → ℝ} (hm : Measurable m) (hv : Measurable v) (hx : Measurable x) :
    Measurable fun z => normalPdf (m z) (v z) (x z) := by
  unfold normalPdf gaussianPDFReal
  have h1 : Measurable fun z => ((v z).toNNReal : ℝ) := measurable_coe_nnreal_real.comp hv.real_toNNReal
  exact ((h1.const_mul _).sqrt.inv).mul (((hx.sub hm).pow_const 2).neg.div (h1.const_mul _)).exp

theorem measurable_list_prod {l : List Nat} {f : Nat → Z → ℝ} (hf : ∀ j, Measurable (f j)) :
    Measurable fun z => (l.map fun j => f j z).prod := by
  induction l with
  | nil => simp
  | cons j l ih =>
    simp only [List.map_cons, List.prod_cons]
    exact (hf j).mul ih

theorem measurable_list_sum {l : List Nat} {f : Nat → Z → ℝ} (hf : ∀ j, Measurable (f j)) :
    Measurable fun z => (l.map fun j => f j z).sum := by
  induction l with
  | nil => simp
  | cons j l ih =>
    simp only [List.map_cons, List.sum_cons]
    exact (hf j).add ih

theorem measurable_leafMarginal (tau : ℝ) (l : List Nat) :
    Measurable fun p : (Nat → ℝ) × ℝ => leafMarginal tau p.2 (l.map p.1) := by
  unfold leafMarginal
  refine (StronglyMeasurable.integral_prod_right (f := fun (p : (Nat → ℝ) × ℝ) mu =>
    leafJoint tau p.2 (l.map p.1) mu) ?_).measurable
  apply Measurable.stronglyMeasurable
  show Measurable fun q : ((Nat → ℝ) × ℝ) × ℝ => leafJoint tau q.1.2 (l.map q.1.1) q.2
  unfold leafJoint
  refine (measurable_normalPdf measurable_const measurable_const measurable_snd).mul ?_
  simp only [List.map_map]
  exact measurable_list_prod (f := fun j (q : ((Nat → ℝ) × ℝ) × ℝ) => normalPdf q.2 q.1.2 (q.1.1 j))
    fun j => measurable_normalPdf measurable_snd (measurable_snd.comp measurable_fst)
      ((measurable_pi_apply j).comp (measurable_fst.comp measurable_fst))

theorem measurable_lik (a : InitArgs ℝ) (T : Rules) :
    Measurable fun p : (Nat → ℝ) × ℝ => lik a p.1 p.2 T := by
  unfold lik treeLikelihood
  refine Finset.measurable_prod _ fun i _ => ?_
  split_ifs
  · exact measurable_leafMarginal _ _
  · exact measurable_const

/-! ### The new tree -/

/-- residuals, variance, and uniform random numbers -/
abbrev MoveIn := ((Nat → ℝ) × ℝ) × (Fin 6 → ℝ)

theorem measurable_coord (k : Fin 6) : Measurable fun p : MoveIn => p.2 k :=
  (measurable_pi_apply k).comp measurable_snd

theorem measurable_likOf (a : InitArgs ℝ) (T : Rules) :
    Measurable fun p : MoveIn => lik a p.1.1 p.1.2 T := (measurable_lik a T).comp measurable_fst

theorem measurable_becomes (a : InitArgs ℝ) (T T' : Rules) :
    MeasurableSet {p : MoveIn | Becomes a p.1.1 p.1.2 T T' p.2} := by
  have hlog : ∀ T T' : Rules, Measurable fun p : MoveIn =>
      Real.log (lik a p.1.1 p.1.2 T' / lik a p.1.1 p.1.2 T) := fun T T' =>
    ((measurable_likOf a T').div (measurable_likOf a T)).log
  have hacc : Measurable fun p : MoveIn => Real.log (1 + -(p.2 1)) :=
    (measurable_const.add (measurable_coord 1).neg).log
  have hgrow : ∀ i, MeasurableSet {p : MoveIn | GrowEv a p.1.1 p.1.2 T T' i p.2} := by
    intro i
    refine (measurableSet_lt (measurable_coord 0) measurable_const).inter ?_
    refine MeasurableSet.inter (((measurable_lP a T).comp (measurable_coord 2))
      (measurableSet_singleton i)) ?_
    refine MeasurableSet.inter (((measurable_vP a T i).comp (measurable_coord 3))
      (measurableSet_singleton _)) ?_
    refine MeasurableSet.inter (((measurable_sP a T i _).comp (measurable_coord 4))
      (measurableSet_singleton _)) ?_
    exact measurableSet_le hacc (measurable_const.add (hlog T T'))
  have hprune : ∀ i, MeasurableSet {p : MoveIn | PruneEv a p.1.1 p.1.2 T' T i p.2} := by
    intro i
    refine (measurableSet_lt (measurable_coord 0) measurable_const).compl.inter ?_
    refine MeasurableSet.inter (((measurable_pP a T).comp (measurable_coord 5))
      (measurableSet_singleton i)) ?_
    exact measurableSet_le hacc (measurable_const.add (hlog T' T)).neg
  have e : {p : MoveIn | Becomes a p.1.1 p.1.2 T T' p.2} = {_p | PossibleTree a T'} ∩ ⋃ i,
      (({_p | GrownT a T T' i} ∩ {p : MoveIn | GrowEv a p.1.1 p.1.2 T T' i p.2}) ∪
        ({_p | GrownT a T' T i} ∩ {p : MoveIn | PruneEv a p.1.1 p.1.2 T' T i p.2})) := by
    ext p
    simp only [Set.mem_inter_iff, Set.mem_iUnion, Set.mem_union, Set.mem_ofPred_eq]
    rfl
  rw [e]
  refine (MeasurableSet.const _).inter (MeasurableSet.iUnion fun i => ?_)
  exact ((MeasurableSet.const _).inter (hgrow i)).union ((MeasurableSet.const _).inter (hprune i))

theorem measurable_newRules_at (a : InitArgs ℝ) (T : Rules) :
    Measurable fun p : MoveIn => newRules a p.1.1 p.1.2 T p.2 := by
  by_cases hT : PossibleTree a T
  · have hne : ∀ T', T' ≠ T →
        MeasurableSet ((fun p : MoveIn => newRules a p.1.1 p.1.2 T p.2) ⁻¹' {T'}) := by
      intro T' h
      have : (fun p : MoveIn => newRules a p.1.1 p.1.2 T p.2) ⁻¹' {T'} =
          {p : MoveIn | Becomes a p.1.1 p.1.2 T T' p.2} := by
        ext p; exact newRules_eq_iff hT h
      rw [this]; exact measurable_becomes a T T'
    refine measurable_to_countable' fun T' => ?_
    by_cases h : T' = T
    · subst h
      have : (fun p : MoveIn => newRules a p.1.1 p.1.2 T' p.2) ⁻¹' {T'} =
          (⋃ S : {S // S ≠ T'}, (fun p : MoveIn => newRules a p.1.1 p.1.2 T' p.2) ⁻¹' {S.1})ᶜ := by
        ext p
        simp only [Set.mem_preimage, Set.mem_singleton_iff, Set.mem_compl_iff, Set.mem_iUnion, not_exists]
        constructor
        · intro h S h'
          exact S.2 (h'.symm.trans h)
        · intro h
          by_contra hc
          exact h ⟨_, hc⟩ rfl
      rw [this]
      exact (MeasurableSet.iUnion fun (S : {S // S ≠ T'}) => hne S.1 S.2).compl
    · exact hne T' h
  · have : (fun p : MoveIn => newRules a p.1.1 p.1.2 T p.2) = fun _ => T :=
      funext fun p => newRules_not_possible hT
    rw [this]; exact measurable_const

theorem measurable_newRules (a : InitArgs ℝ) :
    Measurable fun p : Rules × MoveIn => newRules a p.2.1.1 p.2.1.2 p.1 p.2.2 :=
  measurable_from_prod_countable_right fun T => measurable_newRules_at a T

theorem measurable_newLeaves (a : InitArgs ℝ) :
    Measurable fun p : Rules × (((Nat → ℝ) × ℝ) × (Fin (nodes a) → ℝ)) =>
      newLeaves a p.2.1.1 p.2.1.2 p.1 p.2.2 := by
  refine measurable_from_prod_countable_right fun T => measurable_pi_lambda _ fun i => ?_
  dsimp only
  unfold newLeaves
  dsimp only
  have hR : ∀ j, Measurable fun q : ((Nat → ℝ) × ℝ) × (Fin (nodes a) → ℝ) => q.1.1 j := fun j =>
    (measurable_pi_apply j).comp (measurable_fst.comp measurable_fst)
  have hv : Measurable fun q : ((Nat → ℝ) × ℝ) × (Fin (nodes a) → ℝ) => q.1.2 :=
    measurable_snd.comp measurable_fst
  have hz : Measurable fun q : ((Nat → ℝ) × ℝ) × (Fin (nodes a) → ℝ) => q.2 i :=
    (measurable_pi_apply i).comp measurable_snd
  split_ifs
  · unfold leafData postVar
    simp only [List.length_map]
    have hs := measurable_list_sum (l := (List.range a.y.length).filter fun j =>
      @decide (FallsInto (point a.X j) T.var T.split i) (Classical.propDecidable _)) hR
    have hp : ∀ n : ℕ, Measurable fun q : ((Nat → ℝ) × ℝ) × (Fin (nodes a) → ℝ) =>
        1 / ((n : ℝ) / q.1.2 + 1 / (1 / (a.num_trees : ℝ))) := fun n =>
      measurable_const.div ((measurable_const.div hv).add measurable_const)
    exact (((hp _).mul hs).div hv).add ((hp _).sqrt.mul hz)
  · exact measurable_const

theorem measurable_newTree (a : InitArgs ℝ) :
    Measurable fun p : Rules × (((Nat → ℝ) × ℝ) × ((Fin 6 → ℝ) × (Fin (nodes a) → ℝ))) =>
      newTree a p.2.1.1 p.2.1.2 p.1 p.2.2 := by
  have h1 : Measurable fun p : Rules × (((Nat → ℝ) × ℝ) × ((Fin 6 → ℝ) × (Fin (nodes a) → ℝ))) =>
      newRules a p.2.1.1 p.2.1.2 p.1 p.2.2.1 :=
    (measurable_newRules a).comp (measurable_fst.prodMk ((measurable_fst.comp measurable_snd).prodMk
      (measurable_fst.comp (measurable_snd.comp measurable_snd))))
  refine h1.prodMk ((measurable_newLeaves a).comp (h1.prodMk
    ((measurable_fst.comp measurable_snd).prodMk (measurable_snd.comp (measurable_snd.comp measurable_snd)))))

theorem measurable_treeValue {N : Nat} (X : List (List Nat)) (j : Nat) :
    Measurable (treeValue (N := N) X j) := by
  refine measurable_from_prod_countable_right fun T => ?_
  unfold treeValue
  refine Finset.measurable_sum _ fun i _ => ?_
  dsimp only
  split_ifs
  · exact measurable_pi_apply i
  · exact measurable_const

theorem measurable_others (a : InitArgs ℝ) (t : Fin a.num_trees) : Measurable fun x => others a x t :=
  measurable_pi_lambda _ fun j => measurable_const.sub
    (Finset.measurable_sum _ fun u _ => (measurable_treeValue a.X j).comp (measurable_pi_apply u))

/-- update one tree, as a function of all the parameters -/
noncomputable def updParams (a : InitArgs ℝ) (θ : Params a.num_trees (nodes a)) (t : Fin a.num_trees)
    (d : (Fin 6 → ℝ) × (Fin (nodes a) → ℝ)) : Params a.num_trees (nodes a) :=
  (updTree a θ.2 θ.1 t d, θ.2)

theorem measurable_updParams (a : InitArgs ℝ) (t : Fin a.num_trees) :
    Measurable fun p : Params a.num_trees (nodes a) × ((Fin 6 → ℝ) × (Fin (nodes a) → ℝ)) =>
      updParams a p.1 t p.2 := by
  refine Measurable.prodMk ?_ (measurable_snd.comp measurable_fst)
  have hx : Measurable fun p : Params a.num_trees (nodes a) × ((Fin 6 → ℝ) × (Fin (nodes a) → ℝ)) =>
      p.1.1 := measurable_fst.comp measurable_fst
  have hn : Measurable fun p : Params a.num_trees (nodes a) × ((Fin 6 → ℝ) × (Fin (nodes a) → ℝ)) =>
      newTree a (others a p.1.1 t) p.1.2 (p.1.1 t).1 p.2 :=
    (measurable_newTree a).comp ((measurable_fst.comp ((measurable_pi_apply t).comp hx)).prodMk
      ((((measurable_others a t).comp hx).prodMk (measurable_snd.comp measurable_fst)).prodMk
        measurable_snd))
  refine measurable_pi_lambda _ fun u => ?_
  by_cases hut : u = t
  · subst hut
    simp only [updTree, Function.update_self]
    exact hn
  · simp only [updTree, Function.update_of_ne hut]
    exact (measurable_pi_apply u).comp hx

theorem sweep_updParams (a : InitArgs ℝ) (l : List (Fin a.num_trees)) (d) :
    ∀ θ : Params a.num_trees (nodes a),
      sweepL (updParams a) l θ d = (sweepL (updTree a θ.2) l θ.1 d, θ.2) := by
  induction l with
  | nil => intro θ; rfl
  | cons t l ih =>
    intro θ
    show sweepL (updParams a) l (updParams a θ t (d t)) d = _
    rw [ih]
    rfl

theorem measurable_sumSq (a : InitArgs ℝ) :
    Measurable fun x : Fin a.num_trees → Tree (nodes a) => sumSq (residList a x) := by
  unfold sumSq residList
  simp only [List.map_map]
  have h : ∀ j, Measurable fun x : Fin a.num_trees → Tree (nodes a) =>
      a.y.getD j 0 - ∑ t, treeValue a.X j (x t) := fun j => measurable_const.sub
    (Finset.measurable_sum _ fun u _ => (measurable_treeValue a.X j).comp (measurable_pi_apply u))
  exact measurable_list_sum (f := fun j (x : Fin a.num_trees → Tree (nodes a)) =>
    (a.y.getD j 0 - ∑ t, treeValue a.X j (x t)) * (a.y.getD j 0 - ∑ t, treeValue a.X j (x t)))
    fun j => (h j).mul (h j)

/-- update the variance -/
noncomputable def updSigma (a : InitArgs ℝ) (θ : Params a.num_trees (nodes a)) (g : ℝ) :
    Params a.num_trees (nodes a) :=
  (θ.1, (a.sigma2_beta + sumSq (residList a θ.1) / 2) / g)

theorem measurable_updSigma (a : InitArgs ℝ) :
    Measurable fun p : Params a.num_trees (nodes a) × ℝ => updSigma a p.1 p.2 := by
  have hx : Measurable fun p : Params a.num_trees (nodes a) × ℝ => p.1.1 :=
    measurable_fst.comp measurable_fst
  exact hx.prodMk ((measurable_const.add (((measurable_sumSq a).comp hx).div measurable_const)).div
    measurable_snd)

theorem stepFun_eq (a : InitArgs ℝ) (θ : Params a.num_trees (nodes a))
    (o : StepDraws a.num_trees (nodes a)) : stepFun a θ o =
    updSigma a (sweepL (updParams a) (List.finRange a.num_trees) θ o.1) o.2 := by
  rw [sweep_updParams]
  rfl

theorem measurable_stepFun (a : InitArgs ℝ) :
    Measurable fun p : Params a.num_trees (nodes a) × StepDraws a.num_trees (nodes a) =>
      stepFun a p.1 p.2 := by
  simp only [stepFun_eq]
  refine (measurable_updSigma a).comp (Measurable.prodMk ?_ (measurable_snd.comp measurable_snd))
  exact (measurable_sweepL (measurable_updParams a) (List.finRange a.num_trees)).comp
    (measurable_fst.prodMk (measurable_fst.comp measurable_snd))

theorem measurable_dataDensity (a : InitArgs ℝ) : Measurable (dataDensity a) := by
  unfold dataDensity
  refine Finset.measurable_prod _ fun j _ => Measurable.ennreal_ofReal ?_
  exact measurable_normalPdf (Finset.measurable_sum _ fun t _ => (measurable_treeValue a.X j).comp
    ((measurable_pi_apply t).comp measurable_fst)) measurable_snd measurable_const

end
end Bartz
