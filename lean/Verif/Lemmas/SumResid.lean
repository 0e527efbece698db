import Verif.Lemmas.AnySum
import Verif.Lemmas.Close32
import Verif.Lemmas.Counts
/-! # The sums of residuals and of squared residuals in single precision -/

set_option autoImplicit false

namespace Bartz
open Jax Spec Jax.Binary32

/-- the values at the indices equal to `k`, in order -/
def valuesAt (idx : List Nat) (values : List Binary32) (k : Nat) : List Binary32 :=
  (List.zip idx values).filterMap fun p => if p.1 = k then some p.2 else none

theorem valuesAt_cons (i : Nat) (idx : List Nat) (v : Binary32) (values : List Binary32) (k : Nat) :
    valuesAt (i :: idx) (v :: values) k = (if i = k then [v] else []) ++ valuesAt idx values k := by
  unfold valuesAt
  rw [List.zip_cons_cons, List.filterMap_cons]
  by_cases h : i = k <;> simp [h]

theorem getD_modify32 (a : List Binary32) (i k : Nat) (f : Binary32 → Binary32) (hk : k < a.length) :
    (a.modify i f).getD k 0 = if i = k then f (a.getD k 0) else a.getD k 0 := by
  rw [List.getD_eq_getElem _ _ (by simpa using hk), List.getD_eq_getElem _ _ hk, List.getElem_modify]

theorem sums_scatter (k : Nat) : ∀ (idx : List Nat) (values a : List Binary32) (L : List Binary32), k < a.length →
    Sums L (a.getD k 0) → Sums (L ++ valuesAt idx values k) ((scatterAdd a idx values).getD k 0) := by
  intro idx
  induction idx with
  | nil => intro values a L _ h; simpa [scatterAdd, valuesAt] using h
  | cons i idx ih =>
    intro values a L hk h
    cases values with
    | nil => simpa [scatterAdd, valuesAt] using h
    | cons v vs =>
      rw [valuesAt_cons, ← List.append_assoc]
      unfold scatterAdd
      refine ih vs _ _ (by simpa using hk) ?_
      rw [getD_modify32 _ _ _ _ hk]
      by_cases hi : i = k
      · rw [if_pos hi, if_pos hi]
        exact h.add (.one v)
      · rw [if_neg hi, if_neg hi, List.append_nil]
        exact h

theorem sums_row {Ls : List (List Binary32)} {row : List Binary32} (h : List.Forall₂ Sums Ls row) :
    Sums Ls.flatten (Jax.sum row) := by
  have H : ∀ {Ls : List (List Binary32)} {row : List Binary32}, List.Forall₂ Sums Ls row → ∀ (L : List Binary32) (s : Binary32),
      Sums L s → Sums (L ++ Ls.flatten) (row.foldl (· + ·) s) := by
    intro Ls row h
    induction h with
    | nil => intro L s hs; simpa using hs
    | cons h _ ih =>
      intro L s hs
      rw [List.flatten_cons, ← List.append_assoc, List.foldl_cons]
      exact ih _ _ (hs.add h)
  exact H h [] 0 .zero

theorem forall₂_modify {Ls : List (List Binary32)} {row : List Binary32} (h : List.Forall₂ Sums Ls row) (v : Binary32) :
    ∀ b, List.Forall₂ Sums (Ls.modify b (· ++ [v])) (row.modify b (· + v)) := by
  induction h with
  | nil => intro b; simp
  | cons h ht ih =>
    intro b
    cases b with
    | zero => exact .cons (h.add (.one v)) ht
    | succ b => exact .cons h (ih b)

theorem flatten_modify (v : Binary32) : ∀ (Ls : List (List Binary32)) (b : Nat), b < Ls.length →
    (Ls.modify b (· ++ [v])).flatten.Perm (Ls.flatten ++ [v]) := by
  intro Ls
  induction Ls with
  | nil => intro b hb; simp at hb
  | cons L Ls ih =>
    intro b hb
    cases b with
    | zero =>
      simp only [List.modify_zero_cons, List.flatten_cons, List.append_assoc]
      exact List.Perm.append_left _ List.perm_append_comm
    | succ b =>
      simp only [List.modify_succ_cons, List.flatten_cons, List.append_assoc]
      exact (ih b (by simpa using hb)).append_left _

theorem sums_scatter2 (k nb : Nat) : ∀ (idx bs : List Nat) (values : List Binary32) (a : List (List Binary32)) (Ls : List (List Binary32))
    (L : List Binary32), k < a.length → (∀ b ∈ bs, b < nb) → idx.length ≤ bs.length → Ls.length = nb →
    List.Forall₂ Sums Ls (a.getD k []) → Ls.flatten.Perm L →
    ∃ Ls' : List (List Binary32), List.Forall₂ Sums Ls' ((scatterAdd2 a idx bs values).getD k []) ∧
      Ls'.flatten.Perm (L ++ valuesAt idx values k) := by
  intro idx
  induction idx with
  | nil => intro bs values a Ls L _ _ _ _ h hp; exact ⟨Ls, by simpa [scatterAdd2] using h, by simpa [valuesAt] using hp⟩
  | cons i idx ih =>
    intro bs values a Ls L hk hbs hlen hnb h hp
    cases bs with
    | nil => simp at hlen
    | cons b bs =>
      cases values with
      | nil => exact ⟨Ls, by simpa [scatterAdd2] using h, by simpa [valuesAt] using hp⟩
      | cons v vs =>
        rw [valuesAt_cons, ← List.append_assoc]
        unfold scatterAdd2
        have hb : b < nb := hbs b (by simp)
        have e : (a.modify i fun row => row.modify b (· + v)).getD k [] =
            if i = k then (a.getD k []).modify b (· + v) else a.getD k [] := by
          rw [List.getD_eq_getElem _ _ (by simpa using hk), List.getD_eq_getElem _ _ hk, List.getElem_modify]
        by_cases hi : i = k
        · refine ih bs vs _ (Ls.modify b (· ++ [v])) _ (by simpa using hk) (fun x hx => hbs x (by simp [hx])) (by simpa using hlen)
            (by simpa using hnb) ?_ ?_
          · rw [e, if_pos hi]
            exact forall₂_modify h v b
          · rw [if_pos hi]
            exact (flatten_modify v Ls b (by omega)).trans (hp.append_right _)
        · refine ih bs vs _ Ls _ (by simpa using hk) (fun x hx => hbs x (by simp [hx])) (by simpa using hlen) hnb ?_ ?_
          · rw [e, if_neg hi]
            exact h
          · rw [if_neg hi, List.append_nil]
            exact hp

theorem length_scatterAdd2' (idx : List Nat) : ∀ (bs : List Nat) (values : List Binary32) (a : List (List Binary32)),
    (scatterAdd2 a idx bs values).length = a.length := by
  induction idx with
  | nil => intro bs values a; simp [scatterAdd2]
  | cons i idx ih =>
    intro bs values a
    cases bs with
    | nil => simp [scatterAdd2]
    | cons b bs =>
      cases values with
      | nil => simp [scatterAdd2]
      | cons v vs => unfold scatterAdd2; rw [ih]; simp

/-- `sum_resid` adds the residuals in each leaf in some order, whether it uses batches or not -/
theorem sums_sum_resid (resid : List Binary32) (idx : List Nat) (size : Nat) (batch : Option Nat) {k : Nat} (hk : k < size) :
    Sums (valuesAt idx resid k) ((sum_resid resid idx size batch).getD k 0) := by
  unfold sum_resid
  cases batch with
  | none =>
    have := sums_scatter k idx resid (List.replicate size 0) [] (by simpa using hk) (by
      rw [List.getD_eq_getElem _ _ (by simpa using hk), List.getElem_replicate]
      exact .zero)
    simpa [aggregate_scatter] using this
  | some b =>
    dsimp only
    unfold aggregate_batched_onetree
    dsimp only
    set nb := num_batches idx.length b with hnb
    have hbs : ∀ x ∈ (List.range idx.length).map (· % nb), x < nb := by
      intro x hx
      obtain ⟨j, hj, rfl⟩ := List.mem_map.1 hx
      have hj := List.mem_range.1 hj
      refine Nat.mod_lt _ ?_
      rw [hnb]
      unfold num_batches
      rcases Nat.eq_zero_or_pos b with h0 | h0
      · subst h0
        rw [Nat.mod_zero, if_pos (by omega)]
        omega
      · by_cases h1 : idx.length % b = 0
        · have := Nat.div_pos (Nat.le_of_dvd (by omega) (Nat.dvd_of_mod_eq_zero h1)) h0
          omega
        · rw [if_pos h1]
          exact Nat.succ_pos _
    obtain ⟨Ls', h1, h2⟩ := sums_scatter2 k nb idx ((List.range idx.length).map (· % nb)) resid
      (List.replicate size (List.replicate nb 0)) (List.replicate nb []) [] (by simpa using hk) hbs (by simp) (by simp)
      (by
        rw [List.getD_eq_getElem _ _ (by simpa using hk), List.getElem_replicate]
        clear hnb hbs
        induction nb with
        | zero => exact .nil
        | succ n ih => exact .cons .zero ih)
      (by simp)
    have e : ∀ l : List (List Binary32), k < l.length → (l.map Jax.sum).getD k 0 = Jax.sum (l.getD k []) := by
      intro l hl
      rw [List.getD_eq_getElem _ _ (by simpa using hl), List.getElem_map, List.getD_eq_getElem _ _ hl]
    rw [e _ (by rw [length_scatterAdd2']; simpa using hk)]
    rw [List.nil_append] at h2
    exact (sums_row h1).perm h2

end Bartz
