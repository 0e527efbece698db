import Verif.Spec.Reorder
import Verif.Lemmas.Counts
import Verif.Lemmas.StateInv
/-! # Reordering of the datapoints -/

set_option autoImplicit false

namespace Bartz
open Jax Spec

section
variable {α β γ : Type} [Inhabited α] [Inhabited β] [Inhabited γ] {σ : List Nat} {n : Nat}

@[simp] theorem length_reorder (σ : List Nat) (l : List α) : (reorder σ l).length = σ.length := by
  simp [reorder]

theorem mem_of_perm (hσ : σ.Perm (List.range n)) {i : Nat} (hi : i ∈ σ) : i < n :=
  List.mem_range.1 (hσ.mem_iff.1 hi)

theorem reorder_perm (hσ : σ.Perm (List.range n)) {l : List α} (hl : l.length = n) : (reorder σ l).Perm l := by
  refine (hσ.map _).trans (List.Perm.of_eq ?_)
  apply List.ext_getElem
  · simp [hl]
  · intro i h1 h2
    rw [List.getElem_map, List.getElem_range, List.getD_eq_getElem _ _ h2]

theorem reorder_map (hσ : σ.Perm (List.range n)) {l : List α} (hl : l.length = n) (f : α → β) :
    reorder σ (l.map f) = (reorder σ l).map f := by
  simp only [reorder, List.map_map]
  refine List.map_congr_left fun i hi => ?_
  have hi := mem_of_perm hσ hi
  simp only [Function.comp]
  rw [List.getD_eq_getElem _ _ (by simp; omega), List.getD_eq_getElem _ _ (by omega), List.getElem_map]

theorem reorder_zipWith (hσ : σ.Perm (List.range n)) {l : List α} {l' : List β} (hl : l.length = n)
    (hl' : l'.length = n) (f : α → β → γ) :
    List.zipWith f (reorder σ l) (reorder σ l') = reorder σ (List.zipWith f l l') := by
  apply List.ext_getElem
  · simp
  · intro k h1 h2
    simp only [length_reorder] at h2
    have hi := mem_of_perm hσ (List.getElem_mem h2)
    simp only [reorder, List.getElem_zipWith, List.getElem_map]
    rw [List.getD_eq_getElem _ _ (by omega), List.getD_eq_getElem _ _ (by omega),
      List.getD_eq_getElem _ _ (by simp; omega), List.getElem_zipWith]

theorem reorder_replicate (hσ : σ.Perm (List.range n)) (v : α) :
    reorder σ (List.replicate n v) = List.replicate n v := by
  apply List.ext_getElem
  · simp [hσ.length_eq]
  · intro k h1 h2
    simp only [length_reorder] at h1
    have hi := mem_of_perm hσ (List.getElem_mem h1)
    simp only [reorder, List.getElem_map, List.getElem_replicate]
    rw [List.getD_eq_getElem _ _ (by simpa using hi), List.getElem_replicate]

end

section
variable {α : Type} [Inhabited α] [AddCommMonoid α] {σ : List Nat} {n : Nat}

theorem sumAt_reorder (hσ : σ.Perm (List.range n)) {idx : List Nat} {l : List α} (hi : idx.length = n)
    (hl : l.length = n) (k : Nat) : sumAt (reorder σ idx) (reorder σ l) k = sumAt idx l k := by
  unfold sumAt
  rw [reorder_zipWith hσ hi hl]
  exact (reorder_perm hσ (by simp [hi, hl])).sum_eq

theorem aggregate_scatter_reorder (hσ : σ.Perm (List.range n)) {idx : List Nat} {l : List α} (hi : idx.length = n)
    (hl : l.length = n) (size : Nat) :
    aggregate_scatter (reorder σ l) (reorder σ idx) size = aggregate_scatter l idx size := by
  apply List.ext_getElem
  · rw [length_aggregate_scatter, length_aggregate_scatter]
  · intro k h1 h2
    have hk : k < size := by rw [length_aggregate_scatter] at h2; exact h2
    have e1 := aggregate_scatter_getD (reorder σ l) (reorder σ idx) size k hk
    have e2 := aggregate_scatter_getD l idx size k hk
    rw [List.getD_eq_getElem _ _ h1] at e1
    rw [List.getD_eq_getElem _ _ h2] at e2
    rw [e1, e2, sumAt_reorder hσ hi hl]

theorem jaxSum_reorder (hσ : σ.Perm (List.range n)) {l : List α} (hl : l.length = n) :
    Jax.sum (reorder σ l) = Jax.sum l := by
  rw [jaxSum_eq, jaxSum_eq, (reorder_perm hσ hl).sum_eq]

end

theorem count_datapoints_reorder {σ : List Nat} {n : Nat} (hσ : σ.Perm (List.range n)) {idx : List Nat}
    (hi : idx.length = n) (size : Nat) (b : Option Nat) :
    count_datapoints_per_leaf (reorder σ idx) size b = count_datapoints_per_leaf idx size b := by
  have key : aggregate_scatter (List.replicate n 1) (reorder σ idx) size =
      aggregate_scatter (List.replicate n 1) idx size := by
    have := aggregate_scatter_reorder hσ (l := List.replicate n (1 : Nat)) hi (by simp) size
    rwa [reorder_replicate hσ] at this
  have hlen : σ.length = n := by simpa using hσ.length_eq
  unfold count_datapoints_per_leaf
  cases b with
  | none => simp only [length_reorder, hlen, hi]; exact key
  | some b => simp only [aggregate_batched_eq, length_reorder, hlen, hi]; exact key

section
variable {K F : Type} [KeyLike K] [Inhabited F] [Field F] [FltFun F] {σ : List Nat} {n : Nat}

omit [KeyLike K] in
theorem sum_resid_reorder (hσ : σ.Perm (List.range n)) {resid : List F} {idx : List Nat} (hr : resid.length = n)
    (hi : idx.length = n) (size : Nat) (b : Option Nat) :
    sum_resid (reorder σ resid) (reorder σ idx) size b = sum_resid resid idx size b := by
  unfold sum_resid
  cases b with
  | none => exact aggregate_scatter_reorder hσ hi hr size
  | some b => simp only [aggregate_batched_eq]; exact aggregate_scatter_reorder hσ hi hr size

/-- the computations for a tree, with the datapoints in another order -/
def reorderWork (σ : List Nat) (w : TreeWork F) : TreeWork F := { w with leaf_indices := reorder σ w.leaf_indices }

omit [KeyLike K] [Field F] [FltFun F] in
theorem gather_reorder {X : List (List Nat)} (hX : 0 < X.length) (i : Nat) :
    gather (X.map (reorder σ)) i = reorder σ (gather X i) := by
  unfold gather
  rw [List.length_map, List.getD_eq_getElem _ _ (by simp; omega), List.getD_eq_getElem _ _ (by omega),
    List.getElem_map]

theorem gather_row {X : List (List Nat)} (hX : 0 < X.length) (hrow : ∀ row ∈ X, row.length = n) (i : Nat) :
    (gather X i).length = n := by
  unfold gather
  rw [List.getD_eq_getElem _ _ (by omega)]
  exact hrow _ (List.getElem_mem _)

omit [KeyLike K] [Inhabited F] [Field F] [FltFun F] in
theorem length_apply_grow (bits : Nat) (move : Move F) {idx : List Nat} {X : List (List Nat)} (hX : 0 < X.length)
    (hrow : ∀ row ∈ X, row.length = n) (hi : idx.length = n) :
    (apply_grow_to_indices bits move idx X).length = n := by
  unfold apply_grow_to_indices
  simp [hi, gather_row hX hrow]

omit [KeyLike K] [Inhabited F] [Field F] [FltFun F] in
theorem apply_grow_reorder (hσ : σ.Perm (List.range n)) (bits : Nat) (move : Move F) {idx : List Nat}
    {X : List (List Nat)} (hX : 0 < X.length) (hrow : ∀ row ∈ X, row.length = n) (hi : idx.length = n) :
    apply_grow_to_indices bits move (reorder σ idx) (X.map (reorder σ)) =
      reorder σ (apply_grow_to_indices bits move idx X) := by
  unfold apply_grow_to_indices
  dsimp only
  rw [gather_reorder hX, reorder_zipWith hσ hi (gather_row hX hrow _)]

section
variable {a : InitArgs F} {s : State F} {t : Nat} {key : K} {rng : Rng K F} [FloatLaws F]

omit [FloatLaws F] in
theorem workOf_reorder (hσ : σ.Perm (List.range a.y.length)) (ha : ValidArgs a) (hs : StateInv a s)
    (ht : t < a.num_trees) :
    workOf rng (reorderState σ s) key t = reorderWork σ (workOf rng s key t) ∧
      (workOf rng s key t).leaf_indices.length = a.y.length := by
  have hX : 0 < s.X.length := by
    rw [hs.cfg.X, ha.X_length]; exact ha.predictors_pos
  have hrow : ∀ row ∈ s.X, row.length = a.y.length := by rw [hs.cfg.X]; exact ha.X_row
  have hidx : (s.leaf_indices.getD t []).length = a.y.length := (hs.tree t ht).idx_len
  have hget : (s.leaf_indices.map (reorder σ)).getD t [] = reorder σ (s.leaf_indices.getD t []) := by
    have := hs.idx_length
    rw [List.getD_eq_getElem _ _ (by simp; omega), List.getD_eq_getElem _ _ (by omega), List.getElem_map]
  have hmv : moveOf rng (reorderState σ s) (KeyLike.split key 2 1) t = moveOf rng s (KeyLike.split key 2 1) t := rfl
  unfold workOf
  rw [hmv]
  generalize moveOf rng s (KeyLike.split key 2 1) t = m
  have hg := apply_grow_reorder hσ s.idx_bits m hX hrow hidx
  have hlen := length_apply_grow s.idx_bits m hX hrow hidx
  refine ⟨?_, hlen⟩
  have hc : compute_count_tree (reorder σ (apply_grow_to_indices s.idx_bits m (s.leaf_indices.getD t []) s.X)) m
      s.count_batch_size =
      compute_count_tree (apply_grow_to_indices s.idx_bits m (s.leaf_indices.getD t []) s.X) m
      s.count_batch_size := by
    unfold compute_count_tree
    dsimp only
    rw [count_datapoints_reorder hσ hlen]
  unfold parallel_stage_tree
  dsimp only [reorderState]
  rw [hget, hg, hc]
  rfl

omit [FloatLaws F] in
theorem accept_reorder (hσ : σ.Perm (List.range n)) {resid : List F} {w : TreeWork F} (hr : resid.length = n)
    (hw : w.leaf_indices.length = n) (b mp : Option Nat) (e : F) :
    accept_move_and_sample_leaves b mp e (reorder σ resid) (reorderWork σ w) =
      (reorder σ (accept_move_and_sample_leaves b mp e resid w).1,
        (accept_move_and_sample_leaves b mp e resid w).2) ∧
    (accept_move_and_sample_leaves b mp e resid w).1.length = n := by
  have h1 := sum_resid_reorder hσ hr hw w.leaf_tree.length b
  constructor
  · unfold accept_move_and_sample_leaves
    dsimp only [reorderWork]
    rw [h1, reorder_zipWith hσ hr hw]
    rfl
  · unfold accept_move_and_sample_leaves
    simp [hr, hw]

variable (hσ : σ.Perm (List.range a.y.length)) (ha : ValidArgs a) (hs : StateInv a s)
include hσ ha hs

omit [FloatLaws F] in
theorem residOf_reorder (ht : t ≤ a.num_trees) :
    residOf rng (reorderState σ s) key t = reorder σ (residOf rng s key t) ∧
      (residOf rng s key t).length = a.y.length := by
  induction t with
  | zero => rw [residOf_zero, residOf_zero]; exact ⟨rfl, hs.resid_length⟩
  | succ t ih =>
    have hlen := hs.leaf_length
    rw [residOf_succ _ (reorderState σ s) _ (show t < s.leaf_trees.length by omega), residOf_succ _ _ _ (by omega)]
    obtain ⟨h1, h2⟩ := ih (by omega)
    obtain ⟨h3, h4⟩ := workOf_reorder (rng := rng) (key := key) hσ ha hs (by omega : t < a.num_trees)
    have h5 := accept_reorder hσ h2 h4 s.resid_batch_size s.min_points_per_leaf
      (exp_factor s.leaf_trees.length s.sigma2)
    unfold accOf
    rw [h1, h3]
    exact ⟨congrArg Prod.fst h5.1, h5.2⟩

omit [FloatLaws F] in
theorem accOf_reorder (ht : t < a.num_trees) :
    (accOf rng (reorderState σ s) key t).2 = (accOf rng s key t).2 := by
  obtain ⟨h1, h2⟩ := residOf_reorder (rng := rng) (key := key) hσ ha hs ht.le
  obtain ⟨h3, h4⟩ := workOf_reorder (rng := rng) (key := key) hσ ha hs ht
  unfold accOf
  rw [h1, h3]
  have h5 := (accept_reorder hσ h2 h4 s.resid_batch_size s.min_points_per_leaf
      (exp_factor s.leaf_trees.length s.sigma2)).1
  exact (congrArg Prod.snd h5).trans rfl

omit [FloatLaws F] in
theorem sample_trees_reorder :
    sample_trees rng (reorderState σ s) key = reorderState σ (sample_trees rng s key) := by
  have hw : ∀ t, t < s.leaf_trees.length → _ := fun t ht =>
    workOf_reorder (t := t) (rng := rng) (key := key) hσ ha hs (hs.leaf_length ▸ ht)
  have hac : ∀ t, t < s.leaf_trees.length → _ := fun t ht =>
    accOf_reorder (t := t) (rng := rng) (key := key) hσ ha hs (hs.leaf_length ▸ ht)
  have hres := (residOf_reorder (rng := rng) (key := key) hσ ha hs hs.leaf_length.le).1
  have c : ∀ {β : Type} (f : Nat → Accepted F → β),
      vmap s.leaf_trees.length (fun t => f t (accOf rng (reorderState σ s) key t).2) =
        vmap s.leaf_trees.length (fun t => f t (accOf rng s key t).2) := fun f =>
    vmap_congr fun t ht => by rw [hac t ht]
  rw [sample_trees_eq, sample_trees_eq]
  unfold reorderState
  dsimp only
  change State.mk _ _ _ _ _ _ _ _ _ _ _ _ _ _ _ _ _ _ _ _ _ _ _ _ _ = _
  rw [State.mk.injEq]
  refine ⟨c fun _ o => o.leaf_tree, rfl, ?_, hres, rfl, rfl, ?_, rfl, ?_, rfl, rfl, rfl, rfl, rfl, rfl, rfl, ?_,
    rfl, ?_, rfl, rfl, ?_, rfl, rfl, rfl⟩
  · exact c fun t o => apply_moves_to_split_tree s.split_bits (s.split_trees.getD t [])
      (moveOf rng s (KeyLike.split key 2 1) t) o.to_prune
  · exact congrArg countNonzero (c fun t o => o.acc && (moveOf rng s (KeyLike.split key 2 1) t).grow)
  · exact congrArg countNonzero (c fun t o => o.acc && !(moveOf rng s (KeyLike.split key 2 1) t).grow)
  · rw [map_vmap]
    refine vmap_congr fun t ht => ?_
    obtain ⟨h1, h2⟩ := hw t ht
    change apply_moves_to_leaf_indices s.idx_bits (workOf rng (reorderState σ s) key t).leaf_indices
      (moveOf rng s (KeyLike.split key 2 1) t) (accOf rng (reorderState σ s) key t).2.to_prune = _
    rw [h1, hac t ht]
    unfold apply_moves_to_leaf_indices
    exact (reorder_map hσ h2 _).symm
  · cases s.min_points_per_leaf with
    | none => rfl
    | some m =>
      refine congrArg some (vmap_congr fun t ht => ?_)
      obtain ⟨h1, h2⟩ := hw t ht
      change List.map _ (List.take _ (workOf rng (reorderState σ s) key t).count_tree) = _
      rw [h1]
      rfl
  · have e1 := c fun _ o => o.log_trans_prior
    have e2 := c fun _ o => o.log_likelihood
    cases s.ratios with
    | none => rfl
    | some r => exact congrArg some (Prod.ext e1 e2)

omit [FloatLaws F] in
theorem step_reorder [FloatLaws F] (hrng : LawfulRng rng) :
    step rng (reorderState σ s) key = reorderState σ (step rng s key) := by
  rw [step_eq, step_eq, sample_trees_reorder hσ ha hs]
  have hlen : (sample_trees rng s (KeyLike.split key 2 1)).resid.length = a.y.length := by
    have := (stateInv_step ha hs rng hrng key).resid_length
    rw [step_eq] at this
    exact this
  generalize sample_trees rng s (KeyLike.split key 2 1) = s' at hlen ⊢
  have hl : σ.length = a.y.length := by simpa using hσ.length_eq
  unfold sample_sigma reorderState
  simp only [length_reorder]
  rw [← reorder_map hσ hlen, jaxSum_reorder hσ (by simpa using hlen), hl, hlen]

end
end

end Bartz
