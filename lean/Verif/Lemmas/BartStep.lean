import Verif.Lemmas.BartBalance
import Verif.Lemmas.MeasurePi
/-! # The step as a function of the parameters and of the random numbers -/

set_option autoImplicit false

namespace Bartz
open Jax Spec MeasureTheory

section
variable {K : Type} [KeyLike K] {a : InitArgs ℝ} {s : State ℝ} {key : K}

open Classical in
/-- the new values of the nodes -/
noncomputable def newLeaves (a : InitArgs ℝ) (R : Nat → ℝ) (v : ℝ) (T : Rules)
    (z : Fin (nodes a) → ℝ) : Fin (nodes a) → ℝ := fun i =>
  let D := leafData a.X a.y.length T.var T.split R i
  if IsLeaf T.split i then postVar (1 / (a.num_trees : ℝ)) v D.length * D.sum / v +
    Real.sqrt (postVar (1 / (a.num_trees : ℝ)) v D.length) * z i else 0

/-- the new tree -/
noncomputable def newTree (a : InitArgs ℝ) (R : Nat → ℝ) (v : ℝ) (T : Rules)
    (d : (Fin 6 → ℝ) × (Fin (nodes a) → ℝ)) : Tree (nodes a) :=
  (newRules a R v T d.1, newLeaves a R v (newRules a R v T d.1) d.2)

/-- the data minus the other trees -/
noncomputable def others (a : InitArgs ℝ) (x : Fin a.num_trees → Tree (nodes a)) (t : Fin a.num_trees)
    (j : Nat) : ℝ :=
  a.y.getD j 0 - ∑ u ∈ Finset.univ.erase t, treeValue a.X j (x u)

/-- update one tree -/
noncomputable def updTree (a : InitArgs ℝ) (v : ℝ) (x : Fin a.num_trees → Tree (nodes a))
    (t : Fin a.num_trees) (d : (Fin 6 → ℝ) × (Fin (nodes a) → ℝ)) : Fin a.num_trees → Tree (nodes a) :=
  Function.update x t (newTree a (others a x t) v (x t).1 d)

/-- the residuals -/
noncomputable def residList (a : InitArgs ℝ) (x : Fin a.num_trees → Tree (nodes a)) : List ℝ :=
  (List.range a.y.length).map fun j => a.y.getD j 0 - ∑ t, treeValue a.X j (x t)

/-- update all parameters -/
noncomputable def stepFun (a : InitArgs ℝ) (θ : Params a.num_trees (nodes a))
    (o : StepDraws a.num_trees (nodes a)) : Params a.num_trees (nodes a) :=
  let x := sweepL (updTree a θ.2) (List.finRange a.num_trees) θ.1 o.1
  (x, (a.sigma2_beta + sumSq (residList a x) / 2) / o.2)

/-! ### Sweeps over all the trees -/

theorem foldl_finRange {n : Nat} {Y : Type} {f : (Fin n → Y) → Fin n → (Fin n → Y)} {x y : Fin n → Y}
    (h : ∀ t : Fin n, f (fun u => if u < t then y u else x u) t =
      fun u => if u ≤ t then y u else x u) : (List.finRange n).foldl f x = y := by
  have key : ∀ k, k ≤ n → ((List.finRange n).take k).foldl f x =
      fun u : Fin n => if (u : Nat) < k then y u else x u := by
    intro k
    induction k with
    | zero => intro _; simp
    | succ k ih =>
      intro hk
      have hk' : k < n := hk
      rw [List.take_add_one, List.foldl_append, ih (by omega), List.getElem?_eq_getElem (by simpa using hk')]
      simp only [Option.toList, List.getElem_finRange, List.foldl_cons, List.foldl_nil]
      have := h ⟨k, hk'⟩
      simp only [Fin.lt_def, Fin.le_def] at this
      simp only [Fin.cast_mk]
      rw [this]
      funext u
      congr 1
      simp only [eq_iff_iff]
      omega
  have := key n (le_refl n)
  rw [List.take_of_length_le (by simp)] at this
  rw [this]
  funext u
  rw [if_pos u.2]

/-! ### The step -/

section
variable {rng : StepDraws a.num_trees (nodes a) → Rng K ℝ}
  (hu : Usable a) (hc : Consistent a s) (hsig : 0 < s.sigma2) (hsites : StepSites a key rng)
  {o : StepDraws a.num_trees (nodes a)} (ho : ∀ t, (o.1 t).1 ∈ unitCube)
include hu hc hsig hsites ho

theorem step_tree (t : Fin a.num_trees) {R : Nat → ℝ}
    (hR : ∀ j, j < a.y.length →
      partialResid a.p_nonterminal.length a.num_trees s (step (rng o) s key) t j = R j) :
    treeOf a (step (rng o) s key) t = newTree a R s.sigma2 (treeOf a s t).1 (o.1 t) := by
  classical
  have ha := hu.valid
  obtain ⟨hs, hr⟩ := Consistent.inv hu hc
  have hl := hsites.lawful o ho
  have hs' := stateInv_step ha hs (rng o) hl key
  have ho' : (Function.update o.1 t ((o.1 t).1, (o.1 t).2), o.2) = o := by
    rw [show ((o.1 t).1, (o.1 t).2) = o.1 t from rfl, Function.update_eq_self]
  have hw : ∀ w ∈ unitCube, LawfulRng (rng (Function.update o.1 t (w, (o.1 t).2), o.2)) := by
    intro w hw
    apply hsites.lawful
    intro u
    by_cases hut : u = t
    · subst hut; simpa using hw
    · simpa [Function.update_of_ne hut] using ho u
  have hrules := step_rules (rng := fun w => rng (Function.update o.1 t (w, (o.1 t).2), o.2))
    (key := key) (w := (o.1 t).1) (R := R) hu hs hr hsig t.2 (hsites.tree t o) hw (ho t)
    (by rw [ho']; exact hR) rfl
  rw [ho'] at hrules
  refine Prod.ext hrules ?_
  show (treeOf a (step (rng o) s key) t).2 = newLeaves a R s.sigma2 (newRules a R s.sigma2
    (treeOf a s t).1 (o.1 t).1) (o.1 t).2
  rw [← hrules]
  funext i
  have hval := leaf_values_eq ha hs hr hsig (rng o) hl key t t.2 i
  dsimp only at hval
  have hD : leafData s.X s.y.length ((step (rng o) s key).var_trees.getD t [])
      ((step (rng o) s key).split_trees.getD t [])
      (partialResid a.p_nonterminal.length a.num_trees s (step (rng o) s key) t) i =
      leafData a.X a.y.length (treeOf a (step (rng o) s key) t).1.var
        (treeOf a (step (rng o) s key) t).1.split R i := by
    rw [hs.cfg.X, hs.cfg.y]
    symm
    refine leafData_congr ?_ (fun j hj => (hR j hj).symm) i
    intro j hd
    exact agree_treeOf (treeInv_of hs' t.2).valid.length j hd
  rw [hD] at hval
  by_cases hlf : IsLeaf ((step (rng o) s key).split_trees.getD t []) i
  · rw [hsites.normal o t i] at hval
    refine Eq.trans (if_pos hlf) ((hval hlf).trans (if_pos ?_).symm)
    exact hlf
  · exact (if_neg hlf).trans (if_neg hlf).symm

theorem step_params : paramsOf a (step (rng o) s key) = stepFun a (paramsOf a s) o := by
  classical
  have ha := hu.valid
  obtain ⟨hs, hr⟩ := Consistent.inv hu hc
  have hl := hsites.lawful o ho
  have hs' := stateInv_step ha hs (rng o) hl key
  have hr' := residInv_step ha hs hr (rng o) hl key
  have hc' := consistent_of_inv hu hs' hr'
  have hx : sweepL (updTree a s.sigma2) (List.finRange a.num_trees) (paramsOf a s).1 o.1 =
      (paramsOf a (step (rng o) s key)).1 := by
    unfold sweepL
    apply foldl_finRange
    intro t
    have htree := step_tree hu hc hsig hsites ho t
      (R := others a (fun u => if u < t then (paramsOf a (step (rng o) s key)).1 u
        else (paramsOf a s).1 u) t) (by
        intro j hj
        unfold partialResid others
        rw [hs.cfg.y, hs.cfg.X, sub_sub]
        congr 1
        have e1 : ∀ u ∈ Finset.range (t : Nat), treeAt a.p_nonterminal.length (step (rng o) s key) u
            (point a.X j) = treeValue a.X j (treeOf a (step (rng o) s key) u) := by
          intro u hu'
          rw [Finset.mem_range] at hu'
          have := treeAt_eq ha hs' (t := u) (by omega) hj
          rwa [hs'.cfg.X] at this
        have e2 : ∀ u ∈ Finset.Ico ((t : Nat) + 1) a.num_trees, treeAt a.p_nonterminal.length s u
            (point a.X j) = treeValue a.X j (treeOf a s u) := by
          intro u hu'
          rw [Finset.mem_Ico] at hu'
          have := treeAt_eq ha hs (t := u) hu'.2 hj
          rwa [hs.cfg.X] at this
        rw [Finset.sum_congr rfl e1, Finset.sum_congr rfl e2]
        set g : Nat → ℝ := fun u => if u < t then treeValue a.X j (treeOf a (step (rng o) s key) u)
          else treeValue a.X j (treeOf a s u) with hg
        have e3 : ∑ u ∈ Finset.range (t : Nat), treeValue a.X j (treeOf a (step (rng o) s key) u) =
            ∑ u ∈ Finset.range (t : Nat), g u :=
          Finset.sum_congr rfl fun u hu' => by
            rw [Finset.mem_range] at hu'; simp only [hg]; rw [if_pos hu']
        have e4 : ∑ u ∈ Finset.Ico ((t : Nat) + 1) a.num_trees, treeValue a.X j (treeOf a s u) =
            ∑ u ∈ Finset.Ico ((t : Nat) + 1) a.num_trees, g u :=
          Finset.sum_congr rfl fun u hu' => by
            rw [Finset.mem_Ico] at hu'; simp only [hg]; rw [if_neg (by omega)]
        rw [e3, e4]
        have e5 : ∀ u : Fin a.num_trees, treeValue a.X j (if u < t then
            (paramsOf a (step (rng o) s key)).1 u else (paramsOf a s).1 u) = g u := by
          intro u
          simp only [hg, Fin.lt_def]
          split_ifs <;> rfl
        rw [Finset.sum_congr rfl (fun u _ => e5 u)]
        have e6 := Finset.add_sum_erase Finset.univ (fun u : Fin a.num_trees => g u) (Finset.mem_univ t)
        have e7 : ∑ u : Fin a.num_trees, g u = ∑ u ∈ Finset.range a.num_trees, g u :=
          (Finset.sum_range g).symm
        have e8 := Finset.sum_range_add_sum_Ico g (Nat.le_of_lt t.2)
        have e9 := Finset.sum_eq_sum_Ico_succ_bot t.2 g
        linarith)
    unfold updTree
    funext u
    by_cases hut : u = t
    · subst hut
      rw [Function.update_self, if_pos (le_refl _)]
      dsimp only
      rw [if_neg (lt_irrefl u)]
      exact htree.symm
    · rw [Function.update_of_ne hut]
      have : (u ≤ t) = (u < t) := by rw [eq_iff_iff]; exact ⟨fun h => lt_of_le_of_ne h hut, le_of_lt⟩
      simp only [this]
  have hres : (step (rng o) s key).resid = residList a (paramsOf a (step (rng o) s key)).1 := by
    apply List.ext_getElem
    · rw [hc'.resid_length]; simp [residList]
    · intro j h1 h2
      have hj : j < a.y.length := by rw [hc'.resid_length] at h1; exact h1
      rw [← List.getD_eq_getElem _ 0 h1, hc'.resid j hj]
      simp only [residList, List.getElem_map, List.getElem_range]
      rw [Finset.sum_range]
      rfl
  refine Prod.ext hx.symm ?_
  show (step (rng o) s key).sigma2 = (a.sigma2_beta + sumSq (residList a (sweepL (updTree a s.sigma2)
    (List.finRange a.num_trees) (paramsOf a s).1 o.1)) / 2) / o.2
  rw [hx, ← hres]
  have e : (step (rng o) s key).sigma2 = (s.sigma2_beta + Jax.sum ((step (rng o) s key).resid.map
      fun r => r * r) / ((2 : Nat) : ℝ)) / (rng o (KeyLike.split key 2 0)).gamma
        (s.sigma2_alpha + ((step (rng o) s key).resid.length : ℝ) / ((2 : Nat) : ℝ)) := rfl
  rw [e, hs.cfg.sigma2_alpha, hs.cfg.sigma2_beta, jaxSum_eq, hs'.resid_length]
  push_cast
  rw [hsites.gamma]
  rfl

end
end
end Bartz
