import Verif.Spec.Reflect
import Verif.Lemmas.Counts
import Verif.Lemmas.StepForm
import Verif.Spec.Real
/-! # Change of sign of the data and of the leaves in a step of the MCMC -/

set_option autoImplicit false

namespace Bartz
open Jax Spec

theorem gather_neg (l : List ℝ) (i : Nat) : gather (l.map (-·)) i = -gather l i := by
  unfold gather
  rw [List.length_map, List.getD_eq_getElem?_getD, List.getD_eq_getElem?_getD, List.getElem?_map]
  cases l[min i (l.length - 1)]? with
  | some v => rfl
  | none => exact neg_zero.symm

theorem setDrop_neg (l : List ℝ) (i : Nat) (v : ℝ) : setDrop (l.map (-·)) i (-v) = (setDrop l i v).map (-·) := by
  unfold setDrop
  rw [List.map_set]

theorem zipWith_add_neg (l l' : List ℝ) :
    List.zipWith (· + ·) (l.map (-·)) (l'.map (-·)) = (List.zipWith (· + ·) l l').map (-·) := by
  rw [List.zipWith_map, List.map_zipWith]
  congr 1
  funext a b
  ring

theorem zipWith_sub_neg (l l' : List ℝ) :
    List.zipWith (· - ·) (l.map (-·)) (l'.map (-·)) = (List.zipWith (· - ·) l l').map (-·) := by
  rw [List.zipWith_map, List.map_zipWith]
  congr 1
  funext a b
  ring

theorem zipWith_mul_neg (l l' : List ℝ) :
    List.zipWith (· * ·) (l.map (-·)) l' = (List.zipWith (· * ·) l l').map (-·) := by
  rw [List.zipWith_map_left, List.map_zipWith]
  congr 1
  funext a b
  ring

theorem zipWith_count_neg (l : List Nat) (l' : List ℝ) :
    List.zipWith (fun (c : Nat) v => (c : ℝ) * v) l (l'.map (-·)) =
      (List.zipWith (fun (c : Nat) v => (c : ℝ) * v) l l').map (-·) := by
  rw [List.zipWith_map_right, List.map_zipWith]
  congr 1
  funext a b
  ring

theorem sumAt_neg (idx : List Nat) (l : List ℝ) (k : Nat) : sumAt idx (l.map (-·)) k = -sumAt idx l k := by
  unfold sumAt
  induction idx generalizing l with
  | nil => simp
  | cons i idx ih =>
    cases l with
    | nil => simp
    | cons v l =>
      simp only [List.map_cons, List.zipWith_cons_cons, List.sum_cons, ih]
      split <;> ring

theorem sum_resid_neg (resid : List ℝ) (idx : List Nat) (size : Nat) (b : Option Nat) :
    sum_resid (resid.map (-·)) idx size b = (sum_resid resid idx size b).map (-·) := by
  have key : aggregate_scatter (resid.map (-·)) idx size = (aggregate_scatter resid idx size).map (-·) := by
    apply List.ext_getElem
    · rw [length_aggregate_scatter, List.length_map, length_aggregate_scatter]
    · intro k h1 h2
      have hk : k < size := by rw [length_aggregate_scatter] at h1; exact h1
      have e1 := aggregate_scatter_getD (resid.map (-·)) idx size k hk
      have e2 := aggregate_scatter_getD resid idx size k hk
      rw [List.getD_eq_getElem _ _ h1] at e1
      rw [List.getD_eq_getElem _ _ (by rw [length_aggregate_scatter]; exact hk)] at e2
      rw [e1, List.getElem_map, e2, sumAt_neg]
  unfold sum_resid
  cases b with
  | none => exact key
  | some b => simp only [aggregate_batched_eq]; exact key

theorem compute_likelihood_ratio_neg (t l r : ℝ) (p : Prelkv ℝ) (e : ℝ) :
    compute_likelihood_ratio (-t) (-l) (-r) p e = compute_likelihood_ratio t l r p e := by
  unfold compute_likelihood_ratio
  simp only [neg_mul_neg]

/-- the computations for a tree with the opposite leaves -/
def reflectWork (w : TreeWork ℝ) : TreeWork ℝ :=
  { w with
    leaf_tree := w.leaf_tree.map (-·)
    prelf := { w.prelf with centered_leaves := w.prelf.centered_leaves.map (-·) } }

/-- the outcome for a tree with the opposite leaves -/
def reflectAcc (o : Accepted ℝ) : Accepted ℝ := { o with leaf_tree := o.leaf_tree.map (-·) }

theorem accept_reflect (b mp : Option Nat) (e : ℝ) (resid : List ℝ) (w : TreeWork ℝ) :
    accept_move_and_sample_leaves b mp e (resid.map (-·)) (reflectWork w) =
      ((accept_move_and_sample_leaves b mp e resid w).1.map (-·), reflectAcc (accept_move_and_sample_leaves b mp e resid w).2) := by
  unfold accept_move_and_sample_leaves reflectWork reflectAcc
  dsimp only
  simp only [List.length_map, sum_resid_neg, zipWith_count_neg, zipWith_add_neg, gather_neg, ← neg_add, setDrop_neg,
    compute_likelihood_ratio_neg, zipWith_mul_neg, zipWith_sub_neg]
  refine Prod.ext ?_ rfl
  dsimp only
  rw [List.zipWith_map_left, List.map_zipWith]
  congr 1
  funext r i
  ring

section
variable {K : Type} [KeyLike K] {rng : Rng K ℝ} {s : State ℝ} {key : K} {t : Nat}

theorem moveOf_reflect : moveOf (reflectRng rng) (reflectState s) key t = moveOf rng s key t := by
  unfold moveOf reflectState
  simp only [List.length_map]
  rfl

theorem getD_map_neg (l : List (List ℝ)) (t : Nat) : (l.map fun tree => tree.map (-·)).getD t [] = (l.getD t []).map (-·) := by
  rw [List.getD_eq_getElem?_getD, List.getD_eq_getElem?_getD, List.getElem?_map]
  cases l[t]? <;> rfl

theorem workOf_reflect : workOf (reflectRng rng) (reflectState s) key t = reflectWork (workOf rng s key t) := by
  unfold workOf
  rw [moveOf_reflect]
  generalize moveOf rng s (KeyLike.split key 2 1) t = m
  unfold parallel_stage_tree reflectWork reflectState
  dsimp only
  have h1 : adapt_leaf_tree_to_grow_indices ((s.leaf_trees.getD t []).map (-·)) m =
      (adapt_leaf_tree_to_grow_indices (s.leaf_trees.getD t []) m).map (-·) := by
    unfold adapt_leaf_tree_to_grow_indices
    simp only [gather_neg, List.length_map, setDrop_neg]
  have h2 : ∀ (n : Nat) (c : List Nat) (v : ℝ), precompute_leaf_terms n c v ((reflectRng rng (KeyLike.split key 2 0)).normal t) =
      { precompute_leaf_terms n c v ((rng (KeyLike.split key 2 0)).normal t) with
        centered_leaves := (precompute_leaf_terms n c v ((rng (KeyLike.split key 2 0)).normal t)).centered_leaves.map (-·) } := by
    intro n c v
    unfold precompute_leaf_terms reflectRng
    rw [Prelf.mk.injEq]
    refine ⟨rfl, ?_⟩
    apply List.ext_getElem
    · simp
    · intro i h1 h2
      simp
  rw [getD_map_neg, h1, h2, List.length_map]

theorem residOf_reflect (ht : t ≤ s.leaf_trees.length) :
    residOf (reflectRng rng) (reflectState s) key t = (residOf rng s key t).map (-·) := by
  induction t with
  | zero => rw [residOf_zero, residOf_zero]; rfl
  | succ t ih =>
    have hlen : (reflectState s).leaf_trees.length = s.leaf_trees.length := List.length_map _
    rw [residOf_succ _ (reflectState s) _ (by rw [hlen]; omega), residOf_succ _ _ _ (by omega)]
    unfold accOf
    rw [ih (by omega), workOf_reflect, hlen]
    exact congrArg Prod.fst (accept_reflect _ _ _ _ _)

theorem accOf_reflect (ht : t < s.leaf_trees.length) :
    (accOf (reflectRng rng) (reflectState s) key t).2 = reflectAcc (accOf rng s key t).2 := by
  have hlen : (reflectState s).leaf_trees.length = s.leaf_trees.length := List.length_map _
  unfold accOf
  rw [residOf_reflect ht.le, workOf_reflect, hlen]
  exact congrArg Prod.snd (accept_reflect _ _ _ _ _)

/-- the state after the update of the trees -/
def assemble {F : Type} (s : State F) (mv : Nat → Move F) (w : Nat → TreeWork F) (resid : List F) (ac : Nat → Accepted F) (nt : Nat) :
    State F :=
  { s with
    var_trees := vmap nt fun t => (mv t).var_tree
    affluence_trees := match s.min_points_per_leaf with
      | none => s.affluence_trees
      | some m => some (vmap nt fun t =>
        ((w t).count_tree.take (s.var_trees.getD 0 []).length).map fun c => decide (c ≥ 2 * m))
    grow_prop_count := countNonzero (vmap nt fun t => (mv t).grow)
    prune_prop_count := countNonzero (vmap nt fun t => (mv t).allowed && !(mv t).grow)
    resid := resid
    leaf_trees := vmap nt fun t => (ac t).leaf_tree
    ratios := s.ratios.map fun _ =>
      (vmap nt fun t => (ac t).log_trans_prior, vmap nt fun t => (ac t).log_likelihood)
    grow_acc_count := countNonzero (vmap nt fun t => (ac t).acc && (mv t).grow)
    prune_acc_count := countNonzero (vmap nt fun t => (ac t).acc && !(mv t).grow)
    leaf_indices := vmap nt fun t => apply_moves_to_leaf_indices s.idx_bits (w t).leaf_indices (mv t) (ac t).to_prune
    split_trees := vmap nt fun t => apply_moves_to_split_tree s.split_bits (s.split_trees.getD t []) (mv t) (ac t).to_prune }

theorem sample_trees_assemble {F : Type} [Inhabited F] [Zero F] [One F] [Add F] [Sub F] [Mul F] [Div F] [Neg F] [NatCast F] [FltFun F]
    (rng : Rng K F) (s : State F) (key : K) :
    sample_trees rng s key = assemble s (moveOf rng s (KeyLike.split key 2 1)) (workOf rng s key) (residOf rng s key s.leaf_trees.length)
      (fun t => (accOf rng s key t).2) s.leaf_trees.length := sample_trees_eq rng s key

omit [KeyLike K] in
theorem assemble_congr {mv : Nat → Move ℝ} {w : Nat → TreeWork ℝ} {resid : List ℝ} {ac ac' : Nat → Accepted ℝ} {nt : Nat}
    (h : ∀ t, t < nt → ac' t = ac t) : assemble s mv w resid ac' nt = assemble s mv w resid ac nt := by
  have c : ∀ {β : Type} (f : Nat → Accepted ℝ → β), vmap nt (fun t => f t (ac' t)) = vmap nt (fun t => f t (ac t)) := fun f =>
    vmap_congr fun t ht => by rw [h t ht]
  unfold assemble
  rw [c fun _ o => o.leaf_tree, c fun _ o => o.log_trans_prior, c fun _ o => o.log_likelihood, c fun t o => o.acc && (mv t).grow,
    c fun t o => o.acc && !(mv t).grow, c fun t o => apply_moves_to_leaf_indices s.idx_bits (w t).leaf_indices (mv t) o.to_prune,
    c fun t o => apply_moves_to_split_tree s.split_bits (s.split_trees.getD t []) (mv t) o.to_prune]

omit [KeyLike K] in
theorem assemble_reflect (mv : Nat → Move ℝ) (w : Nat → TreeWork ℝ) (resid : List ℝ) (ac : Nat → Accepted ℝ) (nt : Nat) :
    assemble (reflectState s) mv (fun t => reflectWork (w t)) (resid.map (-·)) (fun t => reflectAcc (ac t)) nt =
      reflectState (assemble s mv w resid ac nt) := by
  unfold assemble reflectState
  dsimp only
  rw [map_vmap]
  rfl

theorem sample_trees_reflect : sample_trees (reflectRng rng) (reflectState s) key = reflectState (sample_trees rng s key) := by
  have hlen : (reflectState s).leaf_trees.length = s.leaf_trees.length := List.length_map _
  have h1 : moveOf (reflectRng rng) (reflectState s) (KeyLike.split key 2 1) = moveOf rng s (KeyLike.split key 2 1) :=
    funext fun t => moveOf_reflect
  have h2 : workOf (reflectRng rng) (reflectState s) key = fun t => reflectWork (workOf rng s key t) := funext fun t => workOf_reflect
  rw [sample_trees_assemble, sample_trees_assemble, hlen, h1, h2, residOf_reflect le_rfl,
    assemble_congr fun t ht => accOf_reflect ht, assemble_reflect]

/-- A step of the MCMC with the opposite data and normal variates. -/
theorem step_reflect : step (reflectRng rng) (reflectState s) key = reflectState (step rng s key) := by
  rw [step_eq, step_eq, sample_trees_reflect]
  generalize sample_trees rng s (KeyLike.split key 2 1) = s'
  unfold sample_sigma reflectState
  simp only [List.length_map, List.map_map, Function.comp_def, neg_mul_neg]
  rfl

end

end Bartz
