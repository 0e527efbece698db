import Verif.Model.Counts32
import Verif.Lemmas.Counts
/-! # The counts of all the trees in 32 bit arithmetic -/

set_option autoImplicit false

namespace Bartz
open Jax Spec

section
variable {α : Type} [Add α]

/-- the updates of the tree `t` -/
theorem foldl_addAt3 (t : Nat) (v : α) (idx : List Nat) : ∀ (bs : List Nat) (a : List (List (List α))),
    (List.zipWith (fun i b => (t, i, b)) idx bs).foldl (fun a p => addAt3 a p.1 p.2.1 p.2.2 v) a =
      a.modify t fun m => scatterAdd2 m idx bs (List.replicate idx.length v) := by
  induction idx with
  | nil => intro bs a; simp only [List.zipWith_nil_left, List.foldl_nil, scatterAdd2]; exact (List.modify_id _ _).symm
  | cons i idx ih =>
    intro bs a
    cases bs with
    | nil =>
      simp only [List.zipWith_nil_right, List.foldl_nil, scatterAdd2]
      exact (List.modify_id _ _).symm
    | cons b bs =>
      rw [List.zipWith_cons_cons, List.foldl_cons, ih, addAt3, List.modify_modify_eq]
      rfl

end

/-- changing all the rows one at a time -/
theorem foldl_modify {β : Type} (g : Nat → β → β) (a : List β) (m k : Nat) :
    ((List.range m).foldl (fun a t => a.modify t (g t)) a)[k]? = if k < m then a[k]?.map (g k) else a[k]? := by
  induction m with
  | zero => simp
  | succ m ih =>
    rw [List.range_succ, List.foldl_append, List.foldl_cons, List.foldl_nil, List.getElem?_modify, ih]
    rcases Nat.lt_trichotomy k m with h | h | h
    · have h' : ¬ m = k := by omega
      rw [if_pos h, if_pos (by omega)]; simp [h']
    · subst h; rw [if_neg (by omega), if_pos (by omega)]; simp
    · have h' : ¬ m = k := by omega
      rw [if_neg (by omega), if_neg (by omega)]; simp [h']

theorem alltrees_eq {α : Type} [Zero α] [Add α] (v : α) {indices : List (List Nat)} {n : Nat} (hn : ∀ idx ∈ indices, idx.length = n)
    (size b : Nat) :
    aggregate_batched_alltrees v indices n size b =
      indices.map fun idx => aggregate_batched_onetree (List.replicate idx.length v) idx size b := by
  unfold aggregate_batched_alltrees
  simp only [List.foldl_flatMap, foldl_addAt3]
  apply List.ext_getElem?
  intro k
  rw [List.getElem?_map, foldl_modify (fun t m => scatterAdd2 m (indices.getD t []) ((List.range n).map (· % num_batches n b))
    (List.replicate (indices.getD t []).length v)), List.getElem?_map]
  by_cases hk : k < indices.length
  · rw [if_pos hk, List.getElem?_replicate, if_pos hk, List.getElem?_eq_getElem hk, List.getD_eq_getElem _ _ hk]
    simp only [Option.map_some]
    unfold aggregate_batched_onetree
    rw [hn _ (List.getElem_mem hk)]
  · rw [if_neg hk, List.getElem?_replicate, if_neg hk, List.getElem?_eq_none (by omega)]
    rfl

theorem scan_unit {X Y : Type} (f : X → Y) (xs : List X) : (scan (fun (_ : Unit) x => ((), f x)) () xs).2 = xs.map f := by
  induction xs with
  | nil => rfl
  | cons x xs ih => simp only [scan, List.map_cons, ih]

theorem sumAt_ones32 (idx : List Nat) (k : Nat) :
    sumAt idx (List.replicate idx.length (1 : BitVec 32)) k = BitVec.ofNat 32 (idx.count k) := by
  unfold sumAt
  induction idx with
  | nil => simp
  | cons i idx ih =>
    rw [List.length_cons, List.replicate_succ, List.zipWith_cons_cons, List.sum_cons, ih, List.count_cons]
    by_cases h : i = k
    · rw [if_pos h, if_pos (by simp [h]), BitVec.ofNat_add, add_comm]
      rfl
    · rw [if_neg h, if_neg (by simp [h]), zero_add, add_zero]

theorem count32_eq {leaf_indices : List (List Nat)} {n : Nat} (hn : ∀ idx ∈ leaf_indices, idx.length = n) (size : Nat)
    (b : Option Nat) :
    count_datapoints_per_leaf32 leaf_indices n size b =
      leaf_indices.map fun idx => (count_datapoints_per_leaf idx size b).map (BitVec.ofNat 32) := by
  have key : ∀ idx : List Nat, aggregate_scatter (List.replicate idx.length (1 : BitVec 32)) idx size =
      (count_datapoints_per_leaf idx size b).map (BitVec.ofNat 32) := by
    intro idx
    apply List.ext_getElem
    · rw [length_aggregate_scatter, List.length_map, length_count]
    · intro k h1 h2
      have hk : k < size := by rw [length_aggregate_scatter] at h1; exact h1
      have e1 := aggregate_scatter_getD (List.replicate idx.length (1 : BitVec 32)) idx size k hk
      have e2 := count_getD idx size b k hk
      rw [List.getD_eq_getElem _ _ h1, sumAt_ones32] at e1
      rw [List.getD_eq_getElem _ _ (by rw [length_count]; exact hk)] at e2
      rw [List.getElem_map, e2]
      exact e1
  unfold count_datapoints_per_leaf32
  cases b with
  | none =>
    simp only [count_scan]
    rw [scan_unit]
    exact List.map_congr_left fun idx _ => key idx
  | some b =>
    simp only [count_vec]
    rw [alltrees_eq 1 hn]
    refine List.map_congr_left fun idx _ => ?_
    rw [aggregate_batched_eq]
    exact key idx

theorem toNat_ofNat {n : Nat} (h : n < 2 ^ 32) : (BitVec.ofNat 32 n).toNat = n := by
  rw [BitVec.toNat_ofNat, Nat.mod_eq_of_lt h]

theorem toInt_ofNat {n : Nat} (h : n < 2 ^ 31) : (BitVec.ofNat 32 n).toInt = n := by
  rw [BitVec.toInt_eq_toNat_of_lt (by rw [toNat_ofNat (by omega)]; omega), toNat_ofNat (by omega)]

theorem gather_map {α β : Type} [Inhabited α] [Inhabited β] (f : α → β) (l : List α) (hl : l ≠ []) (i : Nat) :
    gather (l.map f) i = f (gather l i) := by
  have h : min i (l.length - 1) < l.length := by
    have := List.length_pos_of_ne_nil hl
    omega
  unfold gather
  rw [List.length_map, List.getD_eq_getElem _ _ (by simpa using h), List.getD_eq_getElem _ _ h, List.getElem_map]

/-- the counts are not larger than the number of datapoints -/
theorem count_le {idx : List Nat} {size : Nat} {b : Option Nat} {c : Nat} (hc : c ∈ count_datapoints_per_leaf idx size b) :
    c ≤ idx.length := by
  obtain ⟨k, hk, rfl⟩ := List.getElem_of_mem hc
  have hk' : k < size := by rwa [length_count] at hk
  have := count_getD idx size b k hk'
  rw [List.getD_eq_getElem _ _ hk] at this
  rw [this]
  exact List.count_le_length

end Bartz
