import Verif.Model.Mcmcloop
import Verif.Spec.Chain
import Verif.Lemmas.StateInv
import Mathlib.Data.List.Basic
/-!
# Lemmas on the loops in `run_mcmc`
-/

set_option autoImplicit false

namespace Bartz
open Jax Spec

section
variable {K F : Type} [KeyLike K] [Inhabited F] [Zero F] [One F] [Add F] [Sub F] [Mul F] [Div F]
  [Neg F] [NatCast F] [FltFun F]
variable (rng : Rng K F) (n : Iterations) (s : State F) (key : K)

/-- the call at iteration `t` -/
def callAt (burnin : Bool) (t i_skip : Nat) : Call F :=
  { bart := chain (step rng) s key (t + 1), burnin := burnin, i_total := t, i_skip := i_skip
    n_burn := n.n_burn, n_save := n.n_save, n_skip := n.n_skip }

theorem inner_scan (tracelist : List String) (burnin : Bool) (m : Nat) :
    ∀ (t i : Nat) (c : List (Call F)), scan (inner_loop rng n tracelist burnin)
      { bart := chain (step rng) s key t, i_total := t, i_skip := i, key := chainKey key t, calls := c }
      (List.replicate m ()) =
      ({ bart := chain (step rng) s key (t + m), i_total := t + m, i_skip := i + m
         key := chainKey key (t + m)
         calls := ((List.range m).map fun j => callAt rng n s key burnin (t + j) (i + j)).reverse ++ c },
       (List.range m).map fun j => select_fields (chain (step rng) s key (t + j + 1)) tracelist) := by
  induction m with
  | zero => intro t i c; rfl
  | succ m ih =>
    intro t i c
    rw [List.replicate_succ, scan_cons]
    have e : inner_loop rng n tracelist burnin
      { bart := chain (step rng) s key t, i_total := t, i_skip := i, key := chainKey key t, calls := c } () =
      ({ bart := chain (step rng) s key (t + 1), i_total := t + 1, i_skip := i + 1
         key := chainKey key (t + 1), calls := callAt rng n s key burnin t i :: c },
        select_fields (chain (step rng) s key (t + 1)) tracelist) := rfl
    rw [e]
    dsimp only
    rw [ih (t + 1) (i + 1)]
    have h1 : t + 1 + m = t + (m + 1) := by omega
    have h2 : i + 1 + m = i + (m + 1) := by omega
    have h3 : ∀ j, t + 1 + j = t + (j + 1) := by intro j; omega
    have h4 : ∀ j, i + 1 + j = i + (j + 1) := by intro j; omega
    simp only [h1, h2, h3, h4, List.range_succ_eq_map, List.map_cons, List.map_map, List.reverse_cons,
      List.append_assoc, List.singleton_append, Function.comp_def, Nat.succ_eq_add_one, Nat.add_zero]

theorem outer_scan (m : Nat) : ∀ (t : Nat) (c : List (Call F)), scan (outer_loop rng n)
      { bart := chain (step rng) s key t, i_total := t, key := chainKey key t, calls := c }
      (List.replicate m ()) =
      ({ bart := chain (step rng) s key (t + m * n.n_skip), i_total := t + m * n.n_skip
         key := chainKey key (t + m * n.n_skip)
         calls := ((List.range (m * n.n_skip)).map fun j =>
           callAt rng n s key false (t + j) (j % n.n_skip)).reverse ++ c },
       (List.range m).map fun j =>
         select_fields (chain (step rng) s key (t + (j + 1) * n.n_skip)) tracelist_main) := by
  induction m with
  | zero => intro t c; simp [scan]
  | succ m ih =>
    intro t c
    rw [List.replicate_succ, scan_cons]
    have e : outer_loop rng n
      { bart := chain (step rng) s key t, i_total := t, key := chainKey key t, calls := c } () =
      ({ bart := chain (step rng) s key (t + n.n_skip), i_total := t + n.n_skip
         key := chainKey key (t + n.n_skip)
         calls := ((List.range n.n_skip).map fun j => callAt rng n s key false (t + j) (0 + j)).reverse ++ c },
        select_fields (chain (step rng) s key (t + n.n_skip)) tracelist_main) := by
      unfold outer_loop
      simp only [inner_scan]
    rw [e]
    dsimp only
    rw [ih (t + n.n_skip)]
    have h1 : t + n.n_skip + m * n.n_skip = t + (m + 1) * n.n_skip := by rw [Nat.succ_mul]; omega
    have h2 : ∀ j, t + n.n_skip + (j + 1) * n.n_skip = t + (j + 1 + 1) * n.n_skip := by
      intro j; rw [Nat.succ_mul (j + 1)]; omega
    have h3 : (m + 1) * n.n_skip = n.n_skip + m * n.n_skip := by rw [Nat.succ_mul]; omega
    have h4 : (List.range ((m + 1) * n.n_skip)).map (fun j =>
        callAt rng n s key false (t + j) (j % n.n_skip)) =
        ((List.range n.n_skip).map fun j => callAt rng n s key false (t + j) (0 + j)) ++
        ((List.range (m * n.n_skip)).map fun j =>
          callAt rng n s key false (t + n.n_skip + j) (j % n.n_skip)) := by
      rw [h3, List.range_add, List.map_append, List.map_map]
      congr 1
      · apply List.map_congr_left
        intro j hj
        rw [List.mem_range] at hj
        rw [Nat.mod_eq_of_lt hj, Nat.zero_add]
      · apply List.map_congr_left
        intro j _
        simp only [Function.comp, Nat.add_mod_left, Nat.add_assoc]
    rw [h1, h4]
    simp only [h2, List.range_succ_eq_map, List.map_cons, List.map_map, List.reverse_append,
      List.append_assoc, Function.comp_def, Nat.succ_eq_add_one, Nat.zero_add, Nat.one_mul]

/-- the result of `run_mcmc` in terms of the chain -/
theorem run_mcmc_eq (n_burn n_save n_skip : Nat) :
    run_mcmc rng s n_burn n_save n_skip key =
    { bart := chain (step rng) s key (n_burn + n_save * n_skip)
      burnin_trace := if n_burn > 0 then stack_outputs ((List.range n_burn).map fun j =>
        select_fields (chain (step rng) s key (j + 1)) tracelist_burnin)
        else empty_trace s tracelist_burnin
      main_trace := if n_save > 0 then stack_outputs ((List.range n_save).map fun j =>
        select_fields (chain (step rng) s key (n_burn + (j + 1) * n_skip)) tracelist_main)
        else empty_trace (chain (step rng) s key n_burn) tracelist_main
      calls := (List.range (n_burn + n_save * n_skip)).map fun j =>
        callAt rng ⟨n_burn, n_save, n_skip⟩ s key (decide (j < n_burn)) j
          (if j < n_burn then j else (j - n_burn) % n_skip) } := by
  have e0 : ∀ t, (List.range n_burn).map (fun j =>
      callAt rng ⟨n_burn, n_save, n_skip⟩ s key true (0 + j) (0 + j)) ++
      (List.range t).map (fun j =>
        callAt rng ⟨n_burn, n_save, n_skip⟩ s key false (n_burn + j) (j % n_skip)) =
      (List.range (n_burn + t)).map fun j =>
        callAt rng ⟨n_burn, n_save, n_skip⟩ s key (decide (j < n_burn)) j
          (if j < n_burn then j else (j - n_burn) % n_skip) := by
    intro t
    rw [List.range_add, List.map_append, List.map_map]
    congr 1
    · apply List.map_congr_left
      intro j hj
      rw [List.mem_range] at hj
      simp only [hj, decide_true, if_true, Nat.zero_add]
    · apply List.map_congr_left
      intro j _
      have : ¬ n_burn + j < n_burn := by omega
      simp only [Function.comp, this, decide_false, if_false, Nat.add_sub_cancel_left]
  have ha := inner_scan rng ⟨n_burn, n_save, n_skip⟩ s key tracelist_burnin true n_burn 0 0 []
  have hb := outer_scan rng ⟨n_burn, n_save, n_skip⟩ s key n_save n_burn
  dsimp only at hb
  unfold run_mcmc
  have h1 : (if n_burn > 0 then
      let carry : InnerCarry K F := { bart := s, i_total := 0, i_skip := 0, key := key, calls := [] }
      let (carry, outputs) := scan (inner_loop rng ⟨n_burn, n_save, n_skip⟩ tracelist_burnin true) carry
        (List.replicate n_burn ())
      ({ bart := carry.bart, i_total := carry.i_total, key := carry.key, calls := carry.calls },
        stack_outputs outputs)
    else
      (({ bart := s, i_total := 0, key := key, calls := [] } : OuterCarry K F),
        empty_trace s tracelist_burnin)) =
    (({ bart := chain (step rng) s key n_burn, i_total := n_burn, key := chainKey key n_burn
        calls := ((List.range n_burn).map fun j =>
          callAt rng ⟨n_burn, n_save, n_skip⟩ s key true (0 + j) (0 + j)).reverse } : OuterCarry K F),
      if n_burn > 0 then stack_outputs ((List.range n_burn).map fun j =>
        select_fields (chain (step rng) s key (j + 1)) tracelist_burnin)
        else empty_trace s tracelist_burnin) := by
    by_cases hn : n_burn > 0
    · rw [if_pos hn, if_pos hn]
      have e1 : chain (step rng) s key 0 = s := rfl
      have e2 : chainKey key 0 = key := rfl
      rw [e1, e2] at ha
      simp only [ha, Nat.zero_add, List.append_nil]
    · rw [if_neg hn, if_neg hn]
      obtain rfl : n_burn = 0 := by omega
      rfl
  simp only [h1, hb]
  by_cases hn : n_save > 0
  · simp only [if_pos hn, List.reverse_append, List.reverse_reverse, e0]
  · obtain rfl : n_save = 0 := by omega
    have := e0 0
    simp only [List.range_zero, List.map_nil, List.append_nil] at this
    simp only [gt_iff_lt, Nat.lt_irrefl, if_false, Nat.zero_mul, List.reverse_reverse, this,
      Nat.add_zero]

theorem ratios_step (k : K) : (step rng s k).ratios.isSome = s.ratios.isSome := by
  simp only [step_eq, sample_trees_eq, sample_sigma, Option.isSome_map]

theorem ratios_chain (t : Nat) : (chain (step rng) s key t).ratios.isSome = s.ratios.isSome := by
  induction t with
  | zero => rfl
  | succ t ih => exact (ratios_step rng _ _).trans ih

end

/-! ### Dictionaries -/

section
variable {F : Type}

theorem lookup_filterMap {α : Type} (g : String → Option α) (f : String) (l : List String) :
    (l.filterMap fun k => (g k).map fun v => (k, v)).lookup f = if f ∈ l then g f else none := by
  induction l with
  | nil => simp
  | cons k l ih =>
    rw [List.filterMap_cons]
    cases hg : g k with
    | none =>
      simp only [Option.map_none]
      rw [ih]
      by_cases hf : f = k
      · subst hf; simp [hg]
      · simp [hf]
    | some v =>
      simp only [Option.map_some]
      rw [List.lookup_cons]
      by_cases hf : f = k
      · subst hf; simp [hg]
      · have : (f == k) = false := by simpa using hf
        rw [this, ih]; simp [hf]

theorem lookup_map_key {α β : Type} (l : List (String × α)) (h : String → β) (f : String) :
    (l.map fun (k, _) => (k, h k)).lookup f = (l.lookup f).map fun _ => h f := by
  induction l with
  | nil => rfl
  | cons p l ih =>
    obtain ⟨k, v⟩ := p
    rw [List.map_cons, List.lookup_cons, List.lookup_cons, ih]
    by_cases hf : f = k
    · subst hf; simp
    · have : (f == k) = false := by simpa using hf
      rw [this]

theorem lookup_select (s : State F) (l : List String) (f : String) :
    (select_fields s l).lookup f = if f ∈ l then s.dict.lookup f else none :=
  lookup_filterMap _ f l

theorem lookup_empty (s : State F) (l : List String) (f : String) :
    (empty_trace s l).lookup f = (s.dict.lookup f).map fun _ => [] :=
  lookup_map_key s.dict (fun _ => []) f

/-- lookup in the stack of dictionaries -/
theorem lookup_stack (S : Nat → State F) (m : Nat) (l : List String) (f : String) (hf : f ∈ l) :
    (stack_outputs ((List.range (m + 1)).map fun j => select_fields (S j) l)).lookup f =
      ((S 0).dict.lookup f).map fun _ =>
        (List.range (m + 1)).map fun j => ((S j).dict.lookup f).getD .none := by
  rw [List.range_succ_eq_map, List.map_cons, stack_outputs]
  refine (lookup_map_key (select_fields (S 0) l) (fun key => List.map (fun output : Dict F =>
    (output.lookup key).getD Value.none) (select_fields (S 0) l :: List.map (fun j =>
      select_fields (S j) l) (List.map Nat.succ (List.range m)))) f).trans ?_
  rw [lookup_select, if_pos hf]
  congr 1
  funext _
  rw [← List.map_cons (f := fun j => select_fields (S j) l), List.map_map]
  apply List.map_congr_left
  intro j _
  simp only [Function.comp, lookup_select, if_pos hf]

theorem keys_select (s : State F) (l : List String) :
    (select_fields s l).map Prod.fst = l.filter fun f => (s.dict.lookup f).isSome := by
  unfold select_fields
  induction l with
  | nil => rfl
  | cons k l ih =>
    rw [List.filterMap_cons, List.filter_cons]
    cases hg : s.dict.lookup k with
    | none => simp [ih]
    | some v => simp [ih]

theorem keys_stack (S : Nat → State F) (m : Nat) (l : List String) :
    (stack_outputs ((List.range (m + 1)).map fun j => select_fields (S j) l)).map Prod.fst =
      l.filter fun f => ((S 0).dict.lookup f).isSome := by
  rw [List.range_succ_eq_map, List.map_cons, stack_outputs, List.map_map, ← keys_select]
  rfl

end

/-! ### Batched evaluation -/

section
variable {F : Type} [Inhabited F]

theorem flatMap_range {α : Type} (g : Nat → α) (b : Nat) (m : Nat) :
    (List.range m).flatMap (fun i => (List.range b).map fun t => g (i * b + t)) =
      (List.range (m * b)).map g := by
  induction m with
  | zero => simp
  | succ m ih =>
    rw [List.range_succ, List.flatMap_append, ih, Nat.succ_mul, List.range_add, List.map_append,
      List.map_map]
    simp [Function.comp_def]

theorem getD_chunk {α : Type} (l : List α) (a b t : Nat) (ht : t < b) (d : α) :
    ((l.drop a).take b).getD t d = l.getD (a + t) d := by
  simp only [List.getD_eq_getElem?_getD]
  rw [List.getElem?_take_of_lt ht, List.getElem?_drop]

end
end Bartz
