import Verif.Lemmas.Mcmcloop
import Verif.Lemmas.Autobatch
import Verif.Spec.Trace
import Verif.Props.Grove
import Verif.Props.Mcmc
/-!
# Properties C42-C45: the MCMC loop

`chain (step rng) s key t` is the state after `t` steps.
-/

set_option autoImplicit false

namespace Bartz
open Jax Spec

section
variable {K F : Type} [KeyLike K] [Inhabited F] [Zero F] [One F] [Add F] [Sub F] [Mul F] [Div F]
  [Neg F] [NatCast F] [FltFun F]
variable (rng : Rng K F) (s : State F) (key : K) (n_burn n_save n_skip : Nat)

omit [Inhabited F] [Zero F] [One F] [Add F] [Sub F] [Mul F] [Div F] [Neg F] [NatCast F] [FltFun F] in
theorem dict_fields (s : State F) (p : String × (State F → Value F))
    (hp : p ∈ burninFields ++ treeFields) : s.dict.lookup p.1 = some (p.2 s) := by
  simp only [burninFields, treeFields, List.cons_append, List.nil_append, List.mem_cons,
    List.not_mem_nil, or_false] at hp
  unfold State.dict
  rw [List.cons_append]
  rcases hp with rfl | rfl | rfl | rfl | rfl | rfl | rfl | rfl <;> rfl

omit [Inhabited F] [Zero F] [One F] [Add F] [Sub F] [Mul F] [Div F] [Neg F] [NatCast F] [FltFun F] in
theorem dict_ratios (s : State F) : s.dict.lookup "ratios" =
    if s.ratios.isSome then some (ratiosOf s) else none := by
  unfold State.dict ratiosOf
  cases h : s.ratios with
  | none => rfl
  | some r => rfl

/-! ### C42 -/

/-- C42. The final state is the one after `n_burn + n_save * n_skip` steps. -/
theorem C42_final : (run_mcmc rng s n_burn n_save n_skip key).bart =
    chain (step rng) s key (n_burn + n_save * n_skip) := by
  rw [run_mcmc_eq]

/-- C42. The traces contain the states after `k + 1` and `n_burn + (k + 1) * n_skip` steps. -/
theorem C42_trace :
    (∀ p ∈ burninFields, (run_mcmc rng s n_burn n_save n_skip key).burnin_trace.lookup p.1 =
      some ((List.range n_burn).map fun k => p.2 (chain (step rng) s key (k + 1)))) ∧
    (∀ p ∈ burninFields ++ treeFields,
      (run_mcmc rng s n_burn n_save n_skip key).main_trace.lookup p.1 =
      some ((List.range n_save).map fun k => p.2 (chain (step rng) s key (n_burn + (k + 1) * n_skip)))) := by
  rw [run_mcmc_eq]
  constructor
  · intro p hp
    have hp' : p ∈ burninFields ++ treeFields := List.mem_append_left _ hp
    have hk : p.1 ∈ tracelist_burnin := by
      simp only [burninFields, List.mem_cons, List.not_mem_nil, or_false] at hp
      rcases hp with rfl | rfl | rfl | rfl | rfl <;> simp [tracelist_burnin]
    cases n_burn with
    | zero =>
      simp only [gt_iff_lt, Nat.lt_irrefl, if_false]
      rw [lookup_empty, dict_fields s p hp']
      rfl
    | succ m =>
      simp only [gt_iff_lt, Nat.zero_lt_succ, if_true]
      rw [lookup_stack (fun j => chain (step rng) s key (j + 1)) m _ _ hk, dict_fields _ p hp',
        Option.map_some]
      simp only [dict_fields _ p hp', Option.getD_some]
  · intro p hp
    have hk : p.1 ∈ tracelist_main := by
      simp only [burninFields, treeFields, List.cons_append, List.nil_append, List.mem_cons,
        List.not_mem_nil, or_false] at hp
      rcases hp with rfl | rfl | rfl | rfl | rfl | rfl | rfl | rfl <;>
        simp [tracelist_main, tracelist_burnin]
    cases n_save with
    | zero =>
      simp only [gt_iff_lt, Nat.lt_irrefl, if_false]
      rw [lookup_empty, dict_fields _ p hp]
      rfl
    | succ m =>
      simp only [gt_iff_lt, Nat.zero_lt_succ, if_true]
      rw [lookup_stack (fun j => chain (step rng) s key (n_burn + (j + 1) * n_skip)) m _ _ hk,
        dict_fields _ p hp, Option.map_some]
      simp only [dict_fields _ p hp, Option.getD_some]

/-- C42. The acceptance ratios are in the traces if and only if they are saved in the state. -/
theorem C42_ratios :
    (run_mcmc rng s n_burn n_save n_skip key).burnin_trace.lookup "ratios" =
      (if s.ratios.isSome then
        some ((List.range n_burn).map fun k => ratiosOf (chain (step rng) s key (k + 1))) else none) ∧
    (run_mcmc rng s n_burn n_save n_skip key).main_trace.lookup "ratios" =
      if s.ratios.isSome then some ((List.range n_save).map fun k =>
        ratiosOf (chain (step rng) s key (n_burn + (k + 1) * n_skip))) else none := by
  rw [run_mcmc_eq]
  constructor
  · cases n_burn with
    | zero =>
      simp only [gt_iff_lt, Nat.lt_irrefl, if_false]
      rw [lookup_empty, dict_ratios]
      cases s.ratios.isSome <;> rfl
    | succ m =>
      simp only [gt_iff_lt, Nat.zero_lt_succ, if_true]
      rw [lookup_stack (fun j => chain (step rng) s key (j + 1)) m _ _ (by decide)]
      simp only [dict_ratios, ratios_chain]
      cases s.ratios.isSome <;> rfl
  · cases n_save with
    | zero =>
      simp only [gt_iff_lt, Nat.lt_irrefl, if_false]
      rw [lookup_empty, dict_ratios, ratios_chain]
      cases s.ratios.isSome <;> rfl
    | succ m =>
      simp only [gt_iff_lt, Nat.zero_lt_succ, if_true]
      rw [lookup_stack (fun j => chain (step rng) s key (n_burn + (j + 1) * n_skip)) m _ _ (by decide)]
      simp only [dict_ratios, ratios_chain]
      cases s.ratios.isSome <;> rfl

/-- C42. Two runs from the same state and key, with different lengths of the phases and thinning,
save the same values whenever they save at the same iteration; it does not matter if the iterations
before are burn-in, saved or skipped. -/
theorem C42_same_chain (n_burn' n_save' n_skip' : Nat) (k k' : Nat) (hk : k < n_save) (hk' : k' < n_save')
    (h : n_burn + (k + 1) * n_skip = n_burn' + (k' + 1) * n_skip') (f : String)
    (hf : f ∈ (burninFields ++ treeFields : List (String × (State F → Value F))).map Prod.fst) :
    ∃ u u' : List (Value F),
      (run_mcmc rng s n_burn n_save n_skip key).main_trace.lookup f = some u ∧
      (run_mcmc rng s n_burn' n_save' n_skip' key).main_trace.lookup f = some u' ∧
      u.length = n_save ∧ u'.length = n_save' ∧ u[k]? = u'[k']? := by
  obtain ⟨p, hp, rfl⟩ := List.mem_map.1 hf
  refine ⟨_, _, (C42_trace rng s key n_burn n_save n_skip).2 p hp,
    (C42_trace rng s key n_burn' n_save' n_skip').2 p hp, by simp, by simp, ?_⟩
  simp [hk, hk', h]

/-- C42. The burn-in trace continues into the main trace: with no thinning, what is saved after
`n_burn` burn-in iterations is what would be saved without distinguishing burn-in. -/
theorem C42_burnin (k : Nat) (hk : k < n_burn) (n_save' : Nat) (hn : n_burn ≤ n_save')
    (p : String × (State F → Value F)) (hp : p ∈ burninFields) :
    ∃ u u' : List (Value F),
      (run_mcmc rng s n_burn n_save n_skip key).burnin_trace.lookup p.1 = some u ∧
      (run_mcmc rng s 0 n_save' 1 key).main_trace.lookup p.1 = some u' ∧
      u.length = n_burn ∧ u'.length = n_save' ∧ u[k]? = u'[k]? := by
  refine ⟨_, _, (C42_trace rng s key n_burn n_save n_skip).1 p hp,
    (C42_trace rng s key 0 n_save' 1).2 p (List.mem_append_left _ hp), by simp, by simp, ?_⟩
  have : k < n_save' := by omega
  simp [hk, this]

/-- C42. All the states are reachable, so all the invariants proved for reachable states hold during
the run. -/
theorem C42_reachable {a : InitArgs F} (hs : Reachable K a s) (hrng : LawfulRng rng) (t : Nat) :
    Reachable K a (chain (step rng) s key t) := by
  induction t with
  | zero => exact hs
  | succ t ih => exact .step rng _ ih hrng

/-! ### C43 -/

/-- C43. The callback is called once per iteration, with the right arguments. -/
theorem C43_calls :
    (run_mcmc rng s n_burn n_save n_skip key).calls.length = n_burn + n_save * n_skip ∧
    ∀ j, j < n_burn + n_save * n_skip → ∃ c,
      (run_mcmc rng s n_burn n_save n_skip key).calls[j]? = some c ∧
      c.bart = chain (step rng) s key (j + 1) ∧ c.i_total = j ∧ (c.burnin = true ↔ j < n_burn) ∧
      (j < n_burn → c.i_skip = j) ∧
      (∀ k i, k < n_save → i < n_skip → j = n_burn + k * n_skip + i → c.i_skip = i) ∧
      c.n_burn = n_burn ∧ c.n_save = n_save ∧ c.n_skip = n_skip := by
  rw [run_mcmc_eq]
  refine ⟨by simp, fun j hj => ⟨_, by simp [hj]; rfl, rfl, rfl, ?_, ?_, ?_, rfl, rfl, rfl⟩⟩
  · simp [callAt]
  · intro h; simp [callAt, h]
  · intro k i _ hi he
    have h1 : ¬ j < n_burn := by omega
    have h2 : j - n_burn = i + n_skip * k := by rw [Nat.mul_comm]; omega
    simp only [callAt, h1, if_false, h2, Nat.add_mul_mod_self_left, Nat.mod_eq_of_lt hi]

/-- C43. The default callback prints at the iterations whose number, counting from 1, is a multiple of
`printevery`; it prints the number of the iteration, the total number and if it is a burn-in one. -/
theorem C43_print (printevery : Nat) (j : Nat) (hj : j < n_burn + n_save * n_skip) :
    ∃ c, (run_mcmc rng s n_burn n_save n_skip key).calls[j]? = some c ∧
      (printevery ∣ j + 1 → simple_print_callback printevery c =
        some (j + 1, n_burn + n_save * n_skip, decide (j < n_burn))) ∧
      (¬ printevery ∣ j + 1 → simple_print_callback printevery c = none) := by
  rw [run_mcmc_eq]
  refine ⟨_, by simp [hj]; rfl, ?_, ?_⟩
  · intro h
    simp [simple_print_callback, callAt, Nat.mod_eq_zero_of_dvd h]
  · intro h
    have : (j + 1) % printevery ≠ 0 := fun e => h (Nat.dvd_of_mod_eq_zero e)
    simp [simple_print_callback, callAt, this]

/-! ### C44 -/

/-- C44 (partial). If there is at least one iteration, the traces contain exactly the documented
fields. What is missing is the case without iterations, see `C44_not_burnin`. -/
theorem C44_fields_partial :
    (0 < n_burn → ((run_mcmc rng s n_burn n_save n_skip key).burnin_trace.map Prod.fst) =
      (burninFields (F := F)).map Prod.fst ++ if s.ratios.isSome then ["ratios"] else []) ∧
    (0 < n_save → ((run_mcmc rng s n_burn n_save n_skip key).main_trace.map Prod.fst) =
      (burninFields (F := F)).map Prod.fst ++ (if s.ratios.isSome then ["ratios"] else []) ++
        (treeFields (F := F)).map Prod.fst) := by
  rw [run_mcmc_eq]
  have key : ∀ s' : State F, s'.ratios.isSome = s.ratios.isSome →
      (tracelist_burnin.filter fun f => (s'.dict.lookup f).isSome) = (burninFields (F := F)).map Prod.fst ++
        (if s.ratios.isSome then ["ratios"] else []) ∧
      (tracelist_main.filter fun f => (s'.dict.lookup f).isSome) = (burninFields (F := F)).map Prod.fst ++
        (if s.ratios.isSome then ["ratios"] else []) ++ (treeFields (F := F)).map Prod.fst := by
    intro s' hs'
    rw [← hs']
    unfold State.dict
    cases h : s'.ratios with
    | none => exact ⟨rfl, rfl⟩
    | some r => exact ⟨rfl, rfl⟩
  constructor
  · intro h
    obtain ⟨m, rfl⟩ : ∃ m, n_burn = m + 1 := ⟨n_burn - 1, by omega⟩
    simp only [gt_iff_lt, Nat.zero_lt_succ, if_true]
    rw [keys_stack (fun j => chain (step rng) s _ (j + 1))]
    exact (key _ (ratios_chain rng s _ _)).1
  · intro h
    obtain ⟨m, rfl⟩ : ∃ m, n_save = m + 1 := ⟨n_save - 1, by omega⟩
    simp only [gt_iff_lt, Nat.zero_lt_succ, if_true]
    rw [keys_stack (fun j => chain (step rng) s _ (n_burn + (j + 1) * n_skip))]
    exact (key _ (ratios_chain rng s _ _)).2

/-- C44 is false: without burn-in iterations, the burn-in trace contains also the undocumented fields
of the state, for example the trees and the data. -/
theorem C44_not_burnin : ∀ f ∈ ["leaf_trees", "resid", "X", "y"],
    (run_mcmc rng s 0 n_save n_skip key).burnin_trace.lookup f = some [] := by
  rw [run_mcmc_eq]
  simp only [gt_iff_lt, Nat.lt_irrefl, if_false, lookup_empty]
  unfold State.dict
  simp only [List.cons_append, List.mem_cons, List.not_mem_nil, or_false]
  rintro f (rfl | rfl | rfl | rfl) <;> rfl

/-- C44 is false: without saved iterations, the main trace contains all the fields of the state. -/
theorem C44_not_main :
    (run_mcmc rng s n_burn 0 n_skip key).main_trace.map Prod.fst =
      (run_mcmc rng s n_burn 0 n_skip key).bart.dict.map Prod.fst ∧
    (run_mcmc rng s n_burn 0 n_skip key).main_trace.lookup "resid" = some [] := by
  rw [run_mcmc_eq]
  simp only [gt_iff_lt, Nat.lt_irrefl, if_false, lookup_empty, Nat.zero_mul, Nat.add_zero]
  constructor
  · unfold empty_trace
    rw [List.map_map]
    rfl
  · unfold State.dict
    simp only [List.cons_append]
    rfl

end

/-! ### Examples: two burn-in iterations, two saved ones with one skipped before each -/

namespace Ex

example : ((run_mcmc rng (init args) 2 2 2 ()).calls.map fun c => (c.burnin, c.i_total, c.i_skip)) =
    [(true, 0, 0), (true, 1, 1), (false, 2, 0), (false, 3, 1), (false, 4, 0), (false, 5, 1)] := by decide

example : ((run_mcmc rng (init args) 2 2 2 ()).calls.map fun c => simple_print_callback 3 c) =
    [none, none, some (3, 6, false), none, none, some (6, 6, false)] := by decide

example : (run_mcmc rng (init args) 2 2 2 ()).main_trace.map Prod.fst =
    ["sigma2", "grow_prop_count", "grow_acc_count", "prune_prop_count", "prune_acc_count", "ratios",
      "leaf_trees", "var_trees", "split_trees"] := by decide

example : Reachable Unit args (chain (step rng) (init args) () 6) :=
  C42_reachable _ _ _ .init rng_lawful 6

example := C42_same_chain rng (init args) () 2 2 2 1 5 1 0 2 (by decide) (by decide) rfl "sigma2" (by decide)

end Ex

/-! ### C45 -/

section
variable {F : Type} [Inhabited F]

/-- batching does not change the evaluation of the trees -/
theorem evaluate_trees_batched_eq (nb n m h : Nat) (h64 : h < 64) (hnb : nb ∣ m)
    (X : List (List Nat)) (leaf_trees : List (List F)) (var_trees split_trees : List (List Nat))
    (hml : leaf_trees.length = m) (hmv : var_trees.length = m) (hms : split_trees.length = m)
    (hl : ∀ t < m, (leaf_trees.getD t []).length = 2 ^ (h + 1))
    (hv : ∀ t < m, (var_trees.getD t []).length = 2 ^ h)
    (hs : ∀ t < m, (split_trees.getD t []).length = 2 ^ h) :
    evaluate_trees_batched nb n X leaf_trees var_trees split_trees =
      evaluate_forest_trees n X leaf_trees var_trees split_trees := by
  obtain ⟨b, rfl⟩ := hnb
  rw [C03_evaluate_trees n _ h h64 X leaf_trees var_trees split_trees hml hmv hl hv hs]
  unfold evaluate_trees_batched
  rcases Nat.eq_zero_or_pos nb with rfl | hpos
  · simp
  have hb : leaf_trees.length / nb = b := by rw [hml, Nat.mul_div_cancel_left _ hpos]
  simp only [hb]
  rw [← flatMap_range _ b nb]
  apply List.flatMap_congr
  intro i hi
  rw [List.mem_range] at hi
  have hib : ∀ t, t < b → i * b + t < nb * b := by
    intro t ht
    have : (i + 1) * b ≤ nb * b := Nat.mul_le_mul_right _ hi
    rw [Nat.succ_mul] at this
    omega
  have hlen : ∀ {α : Type} (l : List α), l.length = nb * b → ((l.drop (i * b)).take b).length = b := by
    intro α l hl
    rw [List.length_take, List.length_drop, hl]
    have : (i + 1) * b ≤ nb * b := Nat.mul_le_mul_right _ hi
    rw [Nat.succ_mul] at this
    omega
  rw [C03_evaluate_trees n b h h64 X _ _ _ (hlen _ hml) (hlen _ hmv)
    (fun t ht => by rw [getD_chunk _ _ _ _ ht]; exact hl _ (hib t ht))
    (fun t ht => by rw [getD_chunk _ _ _ _ ht]; exact hv _ (hib t ht))
    (fun t ht => by rw [getD_chunk _ _ _ _ ht]; exact hs _ (hib t ht))]
  apply List.map_congr_left
  intro t ht
  rw [List.mem_range] at ht
  rw [getD_chunk _ _ _ _ ht, getD_chunk _ _ _ _ ht, getD_chunk _ _ _ _ ht]

theorem mapM_eq_some_map {α β : Type} (f : α → Option β) (g : α → β) (l : List α) (h : ∀ x ∈ l, f x = some (g x)) :
    l.mapM f = some (l.map g) := by
  induction l with
  | nil => rfl
  | cons x l ih =>
    rw [List.mapM_cons, h x (List.mem_cons_self ..), ih fun y hy => h y (List.mem_cons_of_mem _ hy)]
    rfl

variable [Zero F] [Add F]

/-- C45. `evaluate_trace` evaluates the sum of the trees for each forest in the trace, at each column of
`X`, for any memory occupation of each tree and any integer square root used in choosing the batches. -/
theorem C45_evaluate_trace (isqrt : Nat → Nat) (nbytes n m h : Nat) (h64 : h < 64)
    (X : List (List Nat)) (trace : Trace F) (L : List (List (List F))) (V S : List (List (List Nat)))
    (htl : trace.lookup "leaf_trees" = some (L.map .floatTrees))
    (htv : trace.lookup "var_trees" = some (V.map .intTrees))
    (hts : trace.lookup "split_trees" = some (S.map .intTrees))
    (hVL : V.length = L.length) (hSL : S.length = L.length)
    (hl : ∀ k < L.length, (L.getD k []).length = m ∧
      ∀ t < m, ((L.getD k []).getD t []).length = 2 ^ (h + 1))
    (hv : ∀ k < L.length, (V.getD k []).length = m ∧ ∀ t < m, ((V.getD k []).getD t []).length = 2 ^ h)
    (hs : ∀ k < L.length, (S.getD k []).length = m ∧ ∀ t < m, ((S.getD k []).getD t []).length = 2 ^ h) :
    evaluate_trace isqrt nbytes n trace X =
      some ((List.range L.length).map fun k => (List.range n).map fun j => ((List.range m).map fun t =>
        (readTree default ((L.getD k []).getD t []) ((V.getD k []).getD t []) ((S.getD k []).getD t [])
          h 1).eval (X.map fun row => row.getD j 0)).foldl (· + ·) 0) := by
  unfold evaluate_trace
  rw [htl, htv, hts]
  simp only [Option.bind_eq_bind, Option.bind_some, List.length_map]
  rw [guard, if_pos ⟨hVL, hSL⟩]
  simp only [Option.pure_def, Option.bind_some]
  apply mapM_eq_some_map
  intro k hk
  rw [List.mem_range] at hk
  have e1 : (L.map Value.floatTrees).getD k .none = .floatTrees (L.getD k []) := by
    simp [List.getD_eq_getElem?_getD, hk]
  have e2 : (V.map (Value.intTrees (F := F))).getD k .none = .intTrees (V.getD k []) := by
    simp [List.getD_eq_getElem?_getD, hVL, hk]
  have e3 : (S.map (Value.intTrees (F := F))).getD k .none = .intTrees (S.getD k []) := by
    simp [List.getD_eq_getElem?_getD, hSL, hk]
  rw [e1, e2, e3]
  unfold evaluate_trace_loop
  obtain ⟨nb, w, hc, _, _, hdvd, _⟩ := choose_nbatches_spec isqrt (L.getD k []).length nbytes (2 ^ 29)
    (by decide)
  rw [(hl k hk).1] at hdvd
  simp only [hc, Option.bind_eq_bind, Option.bind_some, Option.pure_def, Option.some.injEq]
  rw [evaluate_trees_batched_eq nb n m h h64 hdvd X _ _ _ (hl k hk).1 (hv k hk).1 (hs k hk).1
    (hl k hk).2 (hv k hk).2 (hs k hk).2]
  exact C03_evaluate_forest n m h h64 X _ _ _ (hl k hk).1 (hv k hk).1 (hl k hk).2 (hv k hk).2 (hs k hk).2

end

section
variable {K F : Type} [KeyLike K] [Inhabited F] [Zero F] [One F] [Add F] [Sub F] [Mul F] [Div F]
  [Neg F] [NatCast F] [FltFun F] [FloatLaws F] {a : InitArgs F} {s : State F}

/-- C45. Evaluation of the trace produced by `run_mcmc` starting from a reachable state. -/
theorem C45_run (ha : ValidArgs a) (hs : Reachable K a s) (rng : Rng K F) (hrng : LawfulRng rng) (key : K)
    (n_burn n_save n_skip : Nat) (isqrt : Nat → Nat) (nbytes n : Nat) (X : List (List Nat)) :
    evaluate_trace isqrt nbytes n (run_mcmc rng s n_burn n_save n_skip key).main_trace X =
      some ((List.range n_save).map fun k =>
        let s' := chain (step rng) s key (n_burn + (k + 1) * n_skip)
        (List.range n).map fun j => ((List.range a.num_trees).map fun t =>
          (readTree default (s'.leaf_trees.getD t []) (s'.var_trees.getD t []) (s'.split_trees.getD t [])
            a.p_nonterminal.length 1).eval (X.map fun row => row.getD j 0)).foldl (· + ·) 0) := by
  have h := (C42_trace rng s key n_burn n_save n_skip).2
  set S := fun k => chain (step rng) s key (n_burn + (k + 1) * n_skip) with hS
  have hr : ∀ k, Reachable K a (S k) := fun k => C42_reachable rng s key hs hrng _
  have hget : ∀ {α : Type} (f : State F → List (List α)) (k : Nat), k < n_save →
      ((List.range n_save).map fun k => f (S k)).getD k [] = f (S k) := by
    intro α f k hk
    simp [List.getD_eq_getElem?_getD, hk]
  rw [C45_evaluate_trace isqrt nbytes n a.num_trees a.p_nonterminal.length ha.depth_lt X
    (run_mcmc rng s n_burn n_save n_skip key).main_trace
    ((List.range n_save).map fun k => (S k).leaf_trees)
    ((List.range n_save).map fun k => (S k).var_trees)
    ((List.range n_save).map fun k => (S k).split_trees)
    (by rw [h ("leaf_trees", fun s => .floatTrees s.leaf_trees) (by simp [treeFields])]
        simp [Function.comp_def, hS])
    (by rw [h ("var_trees", fun s => .intTrees s.var_trees) (by simp [treeFields])]
        simp [Function.comp_def, hS])
    (by rw [h ("split_trees", fun s => .intTrees s.split_trees) (by simp [treeFields])]
        simp [Function.comp_def, hS])
    (by simp) (by simp)
    (by
      intro k hk
      rw [List.length_map, List.length_range] at hk
      rw [hget _ k hk]
      have := C19_valid_trees ha (hr k)
      exact ⟨this.1, fun t ht => (this.2.2.2 t ht).1⟩)
    (by
      intro k hk
      rw [List.length_map, List.length_range] at hk
      rw [hget _ k hk]
      have := C19_valid_trees ha (hr k)
      exact ⟨this.2.1, fun t ht => (this.2.2.2 t ht).2.1⟩)
    (by
      intro k hk
      rw [List.length_map, List.length_range] at hk
      rw [hget _ k hk]
      have := C19_valid_trees ha (hr k)
      exact ⟨this.2.2.1, fun t ht => (this.2.2.2 t ht).2.2.2.length⟩)]
  rw [List.length_map, List.length_range]
  congr 1
  apply List.map_congr_left
  intro k hk
  rw [List.mem_range] at hk
  rw [hget _ k hk, hget _ k hk, hget _ k hk]

end

namespace Ex

-- the forests after 3 and 5 iterations are two stumps each, evaluated at two points not in the training set
example : evaluate_trace Nat.sqrt 100 2 (run_mcmc rng (init args) 1 2 2 ()).main_trace [[0, 3], [1, 1]] =
    some [[2, 2], [2, 2]] :=
  (C45_run args_valid .init rng rng_lawful () 1 2 2 Nat.sqrt 100 2 [[0, 3], [1, 1]]).trans (by decide)

end Ex

end Bartz
