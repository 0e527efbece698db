import Verif.Props.Opposite
/-!
# C105: the methods for inspection
-/

set_option autoImplicit false
set_option linter.unusedSectionVars false

namespace Bartz
open Jax Spec

section
variable {F P : Type} [Inhabited F] [Zero F] [One F] [Add F] [Sub F] [Mul F] [Div F] [Neg F] [NatCast F] [FltFun F]
variable [Field P] [LinearOrder P] {lib : Lib F P} {R : F → F → Prop}

theorem mapM_rel {α : Type} {f : Value F → Option α} (hf : ∀ v, f (.floatTrees v) = none) {l l' : List (Value F)}
    (h : List.Forall₂ (OppositeValue R) l l') : l'.mapM f = l.mapM f := by
  induction h with
  | nil => rfl
  | @cons v v' l l' hv _ ih =>
    rw [List.mapM_cons, List.mapM_cons, ih]
    have : f v' = f v := by
      cases v with
      | floatTrees v => obtain ⟨v', rfl, -⟩ := hv; rw [hf, hf]
      | _ => cases hv; rfl
    rw [this]

theorem ints_rel {tr tr' : Trace F} (ht : OppositeTrace R tr tr') (key : String) : trace_ints tr' key = trace_ints tr key := by
  unfold trace_ints
  have h1 := rel_lookup ht key
  revert h1
  generalize List.lookup key tr = a
  generalize List.lookup key tr' = a'
  intro h1
  cases h1 with
  | none => rfl
  | @some l l' h1 => exact mapM_rel (fun _ => rfl) h1

theorem mapM_trees {l l' : List (Value F)} (h : List.Forall₂ (OppositeValue R) l l') :
    Option.Rel (List.Forall₂ (List.Forall₂ (List.Forall₂ R))) (l.mapM Value.floatTrees?) (l'.mapM Value.floatTrees?) := by
  induction h with
  | nil => exact .some .nil
  | @cons v v' l l' hv _ ih =>
    rw [List.mapM_cons, List.mapM_cons]
    cases v with
    | floatTrees v =>
      obtain ⟨v', rfl, hv⟩ := hv
      revert ih
      generalize l.mapM Value.floatTrees? = m
      generalize l'.mapM Value.floatTrees? = m'
      intro ih
      cases ih with
      | none => exact .none
      | some ih => exact .some (.cons hv ih)
    | _ => cases hv; exact .none

theorem forests_rel {tr tr' : Trace F} (ht : OppositeTrace R tr tr') :
    Option.Rel (fun x x' => List.Forall₂ (List.Forall₂ (List.Forall₂ R)) x.1 x'.1 ∧ x'.2 = x.2) (trace_forests tr) (trace_forests tr') := by
  unfold trace_forests
  have h1 := rel_lookup ht "leaf_trees"
  have h2 := rel_lookup ht "var_trees"
  have h3 := rel_lookup ht "split_trees"
  revert h1 h2 h3
  generalize List.lookup "leaf_trees" tr = a
  generalize List.lookup "leaf_trees" tr' = a'
  generalize List.lookup "var_trees" tr = b
  generalize List.lookup "var_trees" tr' = b'
  generalize List.lookup "split_trees" tr = c
  generalize List.lookup "split_trees" tr' = c'
  intro h1 h2 h3
  cases h1 with
  | none => exact .none
  | some h1 =>
    cases h2 with
    | none => exact .none
    | some h2 =>
      cases h3 with
      | none => exact .none
      | some h3 =>
        have e1 := mapM_trees h1
        have e2 := mapM_rel (f := Value.intTrees?) (fun _ => rfl) h2
        have e3 := mapM_rel (f := Value.intTrees?) (fun _ => rfl) h3
        simp only [Option.bind_eq_bind, Option.bind_some, e2, e3]
        revert e1
        generalize List.mapM Value.floatTrees? _ = o
        generalize List.mapM Value.floatTrees? _ = o'
        intro e1
        cases e1 with
        | none => exact .none
        | some e1 =>
          simp only [Option.bind_some]
          generalize List.mapM Value.intTrees? _ = p
          cases p with
          | none => exact .none
          | some p =>
            simp only [Option.bind_some]
            generalize List.mapM Value.intTrees? _ = q
            cases q with
            | none => exact .none
            | some q => exact .some ⟨e1, rfl⟩

theorem inspect_rel (h : SignRel R) {g g' : Gbart F P} (hg : OppositeFit R lib g g') :
    (∀ prior, g'.sigma_harmonic_mean prior = g.sigma_harmonic_mean prior) ∧
    List.Forall₂ R g.compare_resid.1 g'.compare_resid.1 ∧ List.Forall₂ R g.compare_resid.2 g'.compare_resid.2 ∧
    g'.avg_acc = g.avg_acc ∧ g'.avg_prop = g.avg_prop ∧ g'.avg_move = g.avg_move ∧
    g'.depth_distr = g.depth_distr ∧ g'.points_per_leaf_distr = g.points_per_leaf_distr := by
  have hs := hg.mcmc_state
  have e1 : g'.mcmc_state.sigma2_alpha = g.mcmc_state.sigma2_alpha := by rw [hs.same]
  have e2 : g'.mcmc_state.sigma2_beta = g.mcmc_state.sigma2_beta := by rw [hs.same]
  have e3 : g'.mcmc_state.X = g.mcmc_state.X := by rw [hs.same]
  have e4 : g'.mcmc_state.var_trees = g.mcmc_state.var_trees := by rw [hs.same]
  have e5 : g'.mcmc_state.split_trees = g.mcmc_state.split_trees := by rw [hs.same]
  have e6 : g'.scale = g.scale := by rw [hg.same]
  have e7 : g'.maxdepth = g.maxdepth := by rw [hg.same]
  have hacc : g'.avg_acc = g.avg_acc := by unfold Gbart.avg_acc; simp only [ints_rel hg.main_trace]
  have hprop : g'.avg_prop = g.avg_prop := by unfold Gbart.avg_prop; simp only [ints_rel hg.main_trace]
  have hf := forests_rel hg.main_trace
  refine ⟨fun prior => ?_, hs.resid, ?_, hacc, hprop, ?_, ?_, ?_⟩
  · unfold Gbart.sigma_harmonic_mean
    have e : g'.mcmc_state.resid.map (fun x => x * x) = g.mcmc_state.resid.map (fun x => x * x) := h.squares hs.resid
    simp only [e, e1, e2, e6, ← hs.resid.length_eq]
  · unfold Gbart.compare_resid
    dsimp only
    rw [e3, e4, e5, ← hs.y.length_eq]
    refine forall2_zipWith (fun x x' y y' => h.sub x x' y y') hs.y ?_
    unfold evaluate_forest
    exact forall2_vmap fun j _ => h.sum (forall2_map (R := List.Forall₂ R) (fun r r' hr => h.gather hr j)
      (evaluate_trees_rel h _ _ _ _ hs.leaf_trees))
  · unfold Gbart.avg_move
    rw [hacc, hprop]
  · unfold Gbart.depth_distr
    rw [e7]
    revert hf
    generalize trace_forests g.main_trace = o
    generalize trace_forests g'.main_trace = o'
    intro hf
    cases hf with
    | none => rfl
    | @some x x' hf =>
      obtain ⟨l, v, s⟩ := x
      obtain ⟨l', v', s'⟩ := x'
      obtain ⟨-, hf⟩ := hf
      cases hf
      rfl
  · unfold Gbart.points_per_leaf_distr
    rw [e3, ← hs.y.length_eq]
    revert hf
    generalize trace_forests g.main_trace = o
    generalize trace_forests g'.main_trace = o'
    intro hf
    cases hf with
    | none => rfl
    | @some x x' hf =>
      obtain ⟨l, v, s⟩ := x
      obtain ⟨l', v', s'⟩ := x'
      obtain ⟨-, hf⟩ := hf
      cases hf
      rfl

end

/-- C105. The methods for inspection give the same results with the opposite response: the harmonic mean of the error variance, the averages
of the acceptances and of the proposals, the distributions of the depth of the trees and of the number of datapoints in the leaves. The
residuals compared by `_compare_resid` are opposite. -/
theorem C105_inspect [Jax.Binary32.Platform] {P : Type} [Field P] [LinearOrder P] {lib : Lib Binary32 P} {g g' : Gbart Binary32 P}
    (hg : OppositeFit Opposite lib g g') :
    (∀ prior, g'.sigma_harmonic_mean prior = g.sigma_harmonic_mean prior) ∧
    List.Forall₂ Opposite g.compare_resid.1 g'.compare_resid.1 ∧ List.Forall₂ Opposite g.compare_resid.2 g'.compare_resid.2 ∧
    g'.avg_acc = g.avg_acc ∧ g'.avg_prop = g.avg_prop ∧ g'.avg_move = g.avg_move ∧
    g'.depth_distr = g.depth_distr ∧ g'.points_per_leaf_distr = g.points_per_leaf_distr :=
  inspect_rel opposite_rel hg

namespace ExU
local instance : KeyLike Unit := ⟨fun _ _ _ => ()⟩
attribute [local instance] platform

/-- the condition is met by the results of the example -/
example : ∃ g g', gbart lib rng (args 1) = some g ∧ gbart lib (reflectRng rng) (reflectArgs (args 1)) = some g' ∧
    g'.avg_acc = g.avg_acc ∧ g'.depth_distr = g.depth_distr := by
  have h := C105_negate (lib := lib) (rng := rng) even (a := args 1) (by decide +kernel)
    (Or.inr ⟨((1 : Nat) : Binary32), by decide +kernel, by decide +kernel, by decide +kernel⟩)
  have hr : (gbart lib rng (args 1)).isSome = true := runs
  revert h hr
  generalize gbart lib rng (args 1) = o
  generalize gbart lib (reflectRng rng) (reflectArgs (args 1)) = o'
  intro h hr
  cases h with
  | none => cases hr
  | some h =>
    obtain ⟨-, -, -, h1, -, -, h2, -⟩ := C105_inspect h
    exact ⟨_, _, rfl, rfl, h1, h2⟩

end ExU

end Bartz
