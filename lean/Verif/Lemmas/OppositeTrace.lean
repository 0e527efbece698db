import Verif.Lemmas.Opposite
import Verif.Lemmas.Mcmcloop
/-! # The trace and the predictions with opposite data -/

set_option autoImplicit false
set_option linter.unusedSectionVars false

namespace Bartz
open Jax Spec

section
variable {α β : Type} {S : α → β → Prop}

theorem forall2_take {l : List α} {l' : List β} (h : List.Forall₂ S l l') (n : Nat) : List.Forall₂ S (l.take n) (l'.take n) :=
  List.forall₂_take n h

theorem forall2_drop {l : List α} {l' : List β} (h : List.Forall₂ S l l') (n : Nat) : List.Forall₂ S (l.drop n) (l'.drop n) :=
  List.forall₂_drop n h

theorem forall2_flatMap {γ : Type} {f : γ → List α} {f' : γ → List β} (h : ∀ i, List.Forall₂ S (f i) (f' i)) (l : List γ) :
    List.Forall₂ S (l.flatMap f) (l.flatMap f') := by
  induction l with
  | nil => exact .nil
  | cons i l ih =>
    rw [List.flatMap_cons, List.flatMap_cons]
    exact List.rel_append (h i) ih

theorem rel_mapM {γ : Type} {f : γ → Option α} {f' : γ → Option β} (h : ∀ i, Option.Rel S (f i) (f' i)) (l : List γ) :
    Option.Rel (List.Forall₂ S) (l.mapM f) (l.mapM f') := by
  induction l with
  | nil => exact .some .nil
  | cons i l ih =>
    rw [List.mapM_cons, List.mapM_cons]
    have h0 := h i
    revert h0 ih
    generalize f i = o
    generalize f' i = o'
    generalize l.mapM f = m
    generalize l.mapM f' = m'
    intro ih h0
    cases h0 with
    | none => exact .none
    | some h0 =>
      cases ih with
      | none => exact .none
      | some ih => exact .some (.cons h0 ih)

theorem rel_map {γ δ : Type} {T : γ → δ → Prop} {f : α → γ} {f' : β → δ} (h : ∀ x y, S x y → T (f x) (f' y)) {o : Option α} {o' : Option β}
    (ho : Option.Rel S o o') : Option.Rel T (o.map f) (o'.map f') := by
  cases ho with
  | none => exact .none
  | some h0 => exact .some (h _ _ h0)

theorem rel_lookup {l : List (String × α)} {l' : List (String × β)} (h : List.Forall₂ (fun kv kv' => kv'.1 = kv.1 ∧ S kv.2 kv'.2) l l')
    (key : String) : Option.Rel S (l.lookup key) (l'.lookup key) := by
  induction h with
  | nil => exact .none
  | @cons a b l l' hab _ ih =>
    obtain ⟨k, v⟩ := a
    obtain ⟨k', v'⟩ := b
    obtain ⟨h1, h2⟩ := hab
    dsimp only at h1 h2
    subst h1
    rw [List.lookup_cons, List.lookup_cons]
    cases key == k' with
    | true => exact .some h2
    | false => exact ih

end

section
variable {F : Type} [Inhabited F] [Zero F] [One F] [Add F] [Sub F] [Mul F] [Div F] [Neg F] [NatCast F] [FltFun F]
variable {R : F → F → Prop} {K : Type} [KeyLike K] {rng : Rng K F} {s s' : State F} {key : K}

theorem chain_rel (h : SignRel R) (hs : OppositeState R s s') (t : Nat) :
    OppositeState R (chain (step rng) s key t) (chain (step (reflectRng rng)) s' key t) := by
  induction t with
  | zero => exact hs
  | succ t ih => exact step_rel h ih

/-- dictionaries with opposite leaves -/
def OppositeDict (R : F → F → Prop) (d d' : Dict F) : Prop :=
  List.Forall₂ (fun kv kv' => kv'.1 = kv.1 ∧ OppositeValue R kv.2 kv'.2) d d'

theorem burnin_rel (hs : OppositeState R s s') : OppositeDict R (select_fields s tracelist_burnin) (select_fields s' tracelist_burnin) := by
  rw [hs.same]
  obtain ⟨_, _, _, _, _, _, _, _, _, _, _, _, _, _, _, _, _, _, _, _, _, ratios, _, _, _⟩ := s
  cases ratios with
  | none => exact .cons ⟨rfl, rfl⟩ (.cons ⟨rfl, rfl⟩ (.cons ⟨rfl, rfl⟩ (.cons ⟨rfl, rfl⟩ (.cons ⟨rfl, rfl⟩ .nil))))
  | some r => exact .cons ⟨rfl, rfl⟩ (.cons ⟨rfl, rfl⟩ (.cons ⟨rfl, rfl⟩ (.cons ⟨rfl, rfl⟩ (.cons ⟨rfl, rfl⟩ (.cons ⟨rfl, rfl⟩ .nil)))))

theorem main_rel (hs : OppositeState R s s') : OppositeDict R (select_fields s tracelist_main) (select_fields s' tracelist_main) := by
  have e : ∀ s : State F, select_fields s tracelist_main = select_fields s tracelist_burnin ++
      [("leaf_trees", .floatTrees s.leaf_trees), ("var_trees", .intTrees s.var_trees), ("split_trees", .intTrees s.split_trees)] := by
    intro s
    unfold select_fields tracelist_main
    rw [List.filterMap_append]
    rfl
  rw [e, e]
  refine List.rel_append (burnin_rel hs) ?_
  have e1 : s'.var_trees = s.var_trees := by rw [hs.same]
  have e2 : s'.split_trees = s.split_trees := by rw [hs.same]
  rw [e1, e2]
  exact .cons ⟨rfl, _, rfl, hs.leaf_trees⟩ (.cons ⟨rfl, rfl⟩ (.cons ⟨rfl, rfl⟩ .nil))

theorem empty_rel (hs : OppositeState R s s') (l l' : List String) : OppositeTrace R (empty_trace s l) (empty_trace s' l') := by
  have e : empty_trace s' l' = empty_trace s l := by
    rw [hs.same]
    obtain ⟨_, _, _, _, _, _, _, _, _, _, _, _, _, _, _, _, _, _, _, _, _, ratios, _, _, _⟩ := s
    cases ratios <;> rfl
  rw [e]
  unfold empty_trace OppositeTrace
  exact forall2_map (R := Eq) (fun x y h => h ▸ ⟨rfl, .nil⟩) (forall2_refl (fun _ => rfl) _)

theorem stack_rel {l l' : List (Dict F)} (h : List.Forall₂ (OppositeDict R) l l') : OppositeTrace R (stack_outputs l) (stack_outputs l') := by
  cases h with
  | nil => exact .nil
  | @cons d d' l l' h0 h1 =>
    have hall : List.Forall₂ (OppositeDict R) (d :: l) (d' :: l') := .cons h0 h1
    refine forall2_map (fun kv kv' hk => ?_) h0
    obtain ⟨k, v⟩ := kv
    obtain ⟨k', v'⟩ := kv'
    obtain ⟨h2, -⟩ := hk
    dsimp only at h2
    subst h2
    refine ⟨rfl, ?_⟩
    refine forall2_map (fun d d' hd => ?_) hall
    have := rel_lookup hd k'
    revert this
    generalize List.lookup k' d = o
    generalize List.lookup k' d' = o'
    intro ho
    cases ho with
    | none => exact rfl
    | some h => exact h

theorem run_rel (h : SignRel R) (hs : OppositeState R s s') (n_burn n_save n_skip : Nat) :
    OppositeState R (run_mcmc rng s n_burn n_save n_skip key).bart (run_mcmc (reflectRng rng) s' n_burn n_save n_skip key).bart ∧
    OppositeTrace R (run_mcmc rng s n_burn n_save n_skip key).burnin_trace
      (run_mcmc (reflectRng rng) s' n_burn n_save n_skip key).burnin_trace ∧
    OppositeTrace R (run_mcmc rng s n_burn n_save n_skip key).main_trace
      (run_mcmc (reflectRng rng) s' n_burn n_save n_skip key).main_trace := by
  rw [run_mcmc_eq, run_mcmc_eq]
  dsimp only
  refine ⟨chain_rel h hs _, ?_, ?_⟩
  · split
    · refine stack_rel (forall2_map (R := Eq) (fun j j' hj => ?_) (forall2_refl (fun _ => rfl) _))
      subst hj
      exact burnin_rel (chain_rel h hs _)
    · exact empty_rel hs _ _
  · split
    · refine stack_rel (forall2_map (R := Eq) (fun j j' hj => ?_) (forall2_refl (fun _ => rfl) _))
      subst hj
      exact main_rel (chain_rel h hs _)
    · exact empty_rel (chain_rel h hs _) _ _

theorem evaluate_trees_rel (h : SignRel R) (n : Nat) (X vt st : List (List Nat)) {l l' : List (List F)}
    (hl : List.Forall₂ (List.Forall₂ R) l l') :
    List.Forall₂ (List.Forall₂ R) (evaluate_forest_trees n X l vt st) (evaluate_forest_trees n X l' vt st) := by
  unfold evaluate_forest_trees
  dsimp only
  rw [← hl.length_eq]
  exact forall2_vmap fun t _ => forall2_vmap fun j _ => h.gather (forall2_getD hl .nil t) _

theorem loop_rel (h : SignRel R) (isqrt : Nat → Nat) (nbytes n : Nat) (X : List (List Nat)) {l l' v v' w w' : Value F}
    (hl : OppositeValue R l l') (hv : OppositeValue R v v') (hw : OppositeValue R w w') :
    Option.Rel (List.Forall₂ R) (evaluate_trace_loop isqrt nbytes n X l v w) (evaluate_trace_loop isqrt nbytes n X l' v' w') := by
  cases l with
  | floatTrees l =>
    obtain ⟨l', rfl, hl⟩ := hl
    cases v with
    | intTrees v =>
      cases hv
      cases w with
      | intTrees w =>
        cases hw
        unfold evaluate_trace_loop
        dsimp only
        rw [← hl.length_eq]
        cases choose_nbatches isqrt l.length (l.length * nbytes) (2 ^ 29) with
        | none => exact .none
        | some b =>
          refine .some (forall2_vmap fun j _ => h.sum (forall2_map (R := List.Forall₂ R) (fun r r' hr => h.gather hr j) ?_))
          unfold evaluate_trees_batched
          dsimp only
          rw [← hl.length_eq]
          exact forall2_flatMap (fun i => evaluate_trees_rel h _ _ _ _ (forall2_take (forall2_drop hl _) _)) _
      | floatTrees w => obtain ⟨w', rfl, -⟩ := hw; exact .none
      | _ => cases hw; exact .none
    | floatTrees v => obtain ⟨v', rfl, -⟩ := hv; exact .none
    | _ => cases hv; exact .none
  | _ => cases hl; exact .none

theorem evaluate_trace_rel (h : SignRel R) (isqrt : Nat → Nat) (nbytes n : Nat) (X : List (List Nat)) {tr tr' : Trace F}
    (ht : OppositeTrace R tr tr') :
    Option.Rel (List.Forall₂ (List.Forall₂ R)) (evaluate_trace isqrt nbytes n tr X) (evaluate_trace isqrt nbytes n tr' X) := by
  unfold evaluate_trace
  have h1 := rel_lookup ht "leaf_trees"
  have h2 := rel_lookup ht "var_trees"
  have h3 := rel_lookup ht "split_trees"
  revert h1 h2 h3
  generalize List.lookup "leaf_trees" tr = a
  generalize List.lookup "leaf_trees" tr' = a'
  generalize List.lookup "var_trees" tr = b
  generalize List.lookup "var_trees" tr' = b'
  generalize List.lookup "split_trees" tr = c
  generalize List.lookup "split_trees" tr' = c'
  intro h1 h2 h3
  cases h1 with
  | none => exact .none
  | some h1 =>
    cases h2 with
    | none => exact .none
    | some h2 =>
      cases h3 with
      | none => exact .none
      | some h3 =>
        simp only [Option.bind_eq_bind, Option.bind_some, ← h1.length_eq, ← h2.length_eq, ← h3.length_eq]
        unfold guard
        split
        · have hn : OppositeValue R (.none : Value F) .none := rfl
          exact rel_mapM (fun k => loop_rel h _ _ _ _ (forall2_getD h1 hn k) (forall2_getD h2 hn k) (forall2_getD h3 hn k)) _
        · exact .none

theorem extract_rel {tr tr' : Trace F} (ht : OppositeTrace R tr tr') (scale : F) : extract_sigma tr' scale = extract_sigma tr scale := by
  unfold extract_sigma
  have h1 := rel_lookup ht "sigma2"
  revert h1
  generalize List.lookup "sigma2" tr = a
  generalize List.lookup "sigma2" tr' = a'
  intro h1
  cases h1 with
  | none => rfl
  | @some l l' h1 =>
    have e : l'.mapM Value.float? = l.mapM Value.float? := by
      induction h1 with
      | nil => rfl
      | @cons v v' l l' hv _ ih =>
        rw [List.mapM_cons, List.mapM_cons, ih]
        have : Value.float? v' = Value.float? v := by
          cases v with
          | floatTrees v => obtain ⟨v', rfl, -⟩ := hv; rfl
          | _ => cases hv; rfl
        rw [this]
    simp only [Option.bind_eq_bind, Option.bind_some, e]

theorem init_rel (h : SignRel R) {a a' : InitArgs F} (hy : List.Forall₂ R a.y a'.y) (ha : a' = { a with y := a'.y }) :
    OppositeState R (init a) (init a') := by
  rw [ha]
  refine ⟨?_, hy, hy, ?_⟩
  · exact forall2_vmap fun t _ => forall2_replicate h.zero _
  · unfold init
    dsimp only
    rw [← hy.length_eq]

end
end Bartz
