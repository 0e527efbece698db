import Verif.Lemmas.Tree
import Verif.Model.Mcmcstep
import Mathlib.Algebra.BigOperators.Group.List.Basic
import Mathlib.Data.List.GetD
/-! # Scatter sums: number of datapoints and sum of residuals per leaf -/

set_option autoImplicit false

namespace Bartz
open Jax Spec

variable {α : Type} [AddCommMonoid α]

/-- sum of the values whose index is `k` -/
def sumAt (idx : List Nat) (values : List α) (k : Nat) : α :=
  (List.zipWith (fun i v => if i = k then v else 0) idx values).sum

theorem getD_modify (a : List α) (i k : Nat) (f : α → α) (hk : k < a.length) :
    (a.modify i f).getD k 0 = if i = k then f (a.getD k 0) else a.getD k 0 := by
  rw [List.getD_eq_getElem _ _ (by simpa using hk), List.getD_eq_getElem _ _ hk,
    List.getElem_modify]

theorem scatterAdd_getD (idx : List Nat) : ∀ (values : List α) (a : List α) (k : Nat),
    k < a.length → (scatterAdd a idx values).getD k 0 = a.getD k 0 + sumAt idx values k := by
  induction idx with
  | nil => intro values a k hk; simp [scatterAdd, sumAt]
  | cons i idx ih =>
    intro values a k hk
    cases values with
    | nil => simp [scatterAdd, sumAt]
    | cons v vs =>
      rw [scatterAdd, ih vs _ k (by simpa using hk), getD_modify _ _ _ _ hk]
      simp only [sumAt, List.zipWith_cons_cons, List.sum_cons]
      split_ifs
      · rw [add_assoc]
      · simp

omit [AddCommMonoid α] in
theorem length_scatterAdd [Add α] (idx : List Nat) : ∀ (values : List α) (a : List α),
    (scatterAdd a idx values).length = a.length := by
  induction idx with
  | nil => intro values a; simp [scatterAdd]
  | cons i idx ih =>
    intro values a
    cases values with
    | nil => simp [scatterAdd]
    | cons v vs => rw [scatterAdd, ih]; simp

theorem jaxSum_eq (a : List α) : Jax.sum a = a.sum := by
  unfold Jax.sum
  rw [List.sum_eq_foldl]

theorem sum_modify (row : List α) (v : α) : ∀ b, b < row.length →
    (row.modify b (· + v)).sum = row.sum + v := by
  induction row with
  | nil => intro b hb; simp at hb
  | cons x xs ih =>
    intro b hb
    cases b with
    | zero => simp [List.modify_cons]; rw [add_right_comm]
    | succ b =>
      rw [List.modify_succ_cons, List.sum_cons, List.sum_cons, ih b (by simpa using hb), add_assoc]

omit [AddCommMonoid α] in
theorem length_scatterAdd2 [Add α] (idx : List Nat) : ∀ (bs : List Nat) (values : List α)
    (a : List (List α)), (scatterAdd2 a idx bs values).length = a.length := by
  induction idx with
  | nil => intro bs values a; simp [scatterAdd2]
  | cons i idx ih =>
    intro bs values a
    cases bs with
    | nil => simp [scatterAdd2]
    | cons b bs =>
      cases values with
      | nil => simp [scatterAdd2]
      | cons v vs => rw [scatterAdd2, ih]; simp

theorem scatterAdd2_getD (nb : Nat) (idx : List Nat) : ∀ (bs : List Nat) (values : List α)
    (a : List (List α)) (k : Nat), k < a.length → (∀ row ∈ a, row.length = nb) →
    (∀ b ∈ bs, b < nb) → idx.length ≤ bs.length →
    ((scatterAdd2 a idx bs values).getD k []).sum = (a.getD k []).sum + sumAt idx values k := by
  induction idx with
  | nil => intro bs values a k hk _ _ _; simp [scatterAdd2, sumAt]
  | cons i idx ih =>
    intro bs values a k hk hrow hbs hlen
    cases bs with
    | nil => simp at hlen
    | cons b bs =>
      cases values with
      | nil => simp [scatterAdd2, sumAt]
      | cons v vs =>
        have hb : b < nb := hbs b (by simp)
        rw [scatterAdd2, ih bs vs _ k (by simpa using hk) ?_ ?_ (by simpa using hlen)]
        · rw [List.getD_eq_getElem _ _ (by simpa using hk), List.getD_eq_getElem _ _ hk,
            List.getElem_modify]
          simp only [sumAt, List.zipWith_cons_cons, List.sum_cons]
          split_ifs
          · rw [sum_modify _ _ _ (by rw [hrow _ (List.getElem_mem hk)]; exact hb), add_assoc]
          · simp
        · intro row hr
          obtain ⟨j, hj, rfl⟩ := List.getElem_of_mem hr
          rw [List.getElem_modify]
          have hj' : j < a.length := by simpa using hj
          split_ifs
          · rw [List.length_modify]; exact hrow _ (List.getElem_mem hj')
          · exact hrow _ (List.getElem_mem hj')
        · intro b' hb'; exact hbs b' (by simp [hb'])

theorem num_batches_pos {n b : Nat} (hn : 0 < n) : 0 < num_batches n b := by
  unfold num_batches
  generalize hq : n / b = q
  by_cases h : n % b = 0
  · have h1 := Nat.div_add_mod n b
    rw [h, hq] at h1
    rcases Nat.eq_zero_or_pos q with h0 | h0
    · rw [h0] at h1; simp at h1; omega
    · exact Nat.add_pos_left h0 _
  · rw [if_pos h]; exact Nat.succ_pos _

theorem aggregate_scatter_getD (values : List α) (idx : List Nat) (size k : Nat) (hk : k < size) :
    (aggregate_scatter values idx size).getD k 0 = sumAt idx values k := by
  unfold aggregate_scatter
  rw [scatterAdd_getD _ _ _ _ (by simpa using hk)]
  simp [hk]

theorem aggregate_batched_getD (values : List α) (idx : List Nat) (size b k : Nat) (hk : k < size) :
    (aggregate_batched_onetree values idx size b).getD k 0 = sumAt idx values k := by
  unfold aggregate_batched_onetree
  dsimp only
  set nb := num_batches idx.length b with hnb
  have hlen : k < (scatterAdd2 (List.replicate size (List.replicate nb (0 : α))) idx
      ((List.range idx.length).map (· % nb)) values).length := by
    rw [length_scatterAdd2]; simpa using hk
  rw [List.getD_eq_getElem _ _ (by simpa using hlen), List.getElem_map, jaxSum_eq]
  have := scatterAdd2_getD nb idx ((List.range idx.length).map (· % nb)) values
    (List.replicate size (List.replicate nb (0 : α))) k (by simpa using hk)
    (by intro row hr; rw [List.mem_replicate] at hr; rw [hr.2]; simp)
    (by
      intro c hc
      rw [List.mem_map] at hc
      obtain ⟨j, hj, rfl⟩ := hc
      have : 0 < idx.length := by simp at hj; omega
      exact Nat.mod_lt _ (num_batches_pos this))
    (by simp)
  rw [List.getD_eq_getElem _ _ hlen] at this
  rw [this]
  simp [hk]

omit [AddCommMonoid α] in
theorem length_aggregate_scatter [Zero α] [Add α] (values : List α) (idx : List Nat) (size : Nat) :
    (aggregate_scatter values idx size).length = size := by
  unfold aggregate_scatter; rw [length_scatterAdd]; simp

omit [AddCommMonoid α] in
theorem length_aggregate_batched [Zero α] [Add α] (values : List α) (idx : List Nat) (size b : Nat) :
    (aggregate_batched_onetree values idx size b).length = size := by
  unfold aggregate_batched_onetree; simp [length_scatterAdd2]

theorem aggregate_batched_eq (values : List α) (idx : List Nat) (size b : Nat) :
    aggregate_batched_onetree values idx size b = aggregate_scatter values idx size := by
  apply List.ext_getElem
  · rw [length_aggregate_scatter, length_aggregate_batched]
  · intro k h1 h2
    have hk : k < size := by rw [length_aggregate_scatter] at h2; exact h2
    have e1 := aggregate_batched_getD values idx size b k hk
    have e2 := aggregate_scatter_getD values idx size k hk
    rw [List.getD_eq_getElem _ _ h1] at e1
    rw [List.getD_eq_getElem _ _ h2] at e2
    rw [e1, e2]

theorem sumAt_ones (idx : List Nat) (k : Nat) :
    sumAt idx (List.replicate idx.length 1) k = idx.count k := by
  unfold sumAt
  induction idx with
  | nil => simp
  | cons i idx ih =>
    rw [List.length_cons, List.replicate_succ, List.zipWith_cons_cons, List.sum_cons, ih,
      List.count_cons]
    by_cases h : i = k
    · simp [h]; omega
    · simp [h]

theorem count_getD (idx : List Nat) (size : Nat) (b : Option Nat) (k : Nat) (hk : k < size) :
    (count_datapoints_per_leaf idx size b).getD k 0 = idx.count k := by
  unfold count_datapoints_per_leaf
  rw [← sumAt_ones]
  cases b with
  | none => exact aggregate_scatter_getD _ _ _ _ hk
  | some b => exact aggregate_batched_getD _ _ _ _ _ hk

theorem length_count (idx : List Nat) (size : Nat) (b : Option Nat) :
    (count_datapoints_per_leaf idx size b).length = size := by
  unfold count_datapoints_per_leaf
  cases b with
  | none => exact length_aggregate_scatter _ _ _
  | some b => exact length_aggregate_batched _ _ _ _

end Bartz
