import Verif.Spec.Opposite
import Verif.Lemmas.Reflect
/-! # Steps of the MCMC with opposite data -/

set_option autoImplicit false
set_option linter.unusedSectionVars false

namespace Bartz
open Jax Spec

section
variable {α β γ α' β' γ' : Type}

theorem forall2_getD {R : α → α' → Prop} {l : List α} {l' : List α'} {d : α} {d' : α'} (h : List.Forall₂ R l l') (hd : R d d') (i : Nat) :
    R (l.getD i d) (l'.getD i d') := by
  induction h generalizing i with
  | nil => simpa using hd
  | cons h1 _ ih =>
    cases i with
    | zero => simpa using h1
    | succ i => simpa using ih i

theorem forall2_set {R : α → α' → Prop} {l : List α} {l' : List α'} {v : α} {v' : α'} (h : List.Forall₂ R l l') (hv : R v v') (i : Nat) :
    List.Forall₂ R (l.set i v) (l'.set i v') := by
  induction h generalizing i with
  | nil => exact .nil
  | cons h1 h2 ih =>
    cases i with
    | zero => exact .cons hv h2
    | succ i => exact .cons h1 (ih i)

theorem forall2_modify {R : α → α' → Prop} {l : List α} {l' : List α'} {f : α → α} {f' : α' → α'} (h : List.Forall₂ R l l')
    (hf : ∀ x x', R x x' → R (f x) (f' x')) (i : Nat) : List.Forall₂ R (l.modify i f) (l'.modify i f') := by
  induction h generalizing i with
  | nil => simp
  | cons h1 h2 ih =>
    cases i with
    | zero => exact .cons (hf _ _ h1) h2
    | succ i => exact .cons h1 (ih i)

theorem forall2_zipWith {R : α → α' → Prop} {S : β → β' → Prop} {T : γ → γ' → Prop} {f : α → β → γ} {f' : α' → β' → γ'}
    (hf : ∀ x x' y y', R x x' → S y y' → T (f x y) (f' x' y')) {l : List α} {l' : List α'} {m : List β} {m' : List β'}
    (h : List.Forall₂ R l l') (hm : List.Forall₂ S m m') : List.Forall₂ T (List.zipWith f l m) (List.zipWith f' l' m') := by
  induction h generalizing m m' with
  | nil => exact .nil
  | cons h1 _ ih =>
    cases hm with
    | nil => exact .nil
    | cons h3 h4 => exact .cons (hf _ _ _ _ h1 h3) (ih h4)

theorem forall2_refl {R : α → α → Prop} (h : ∀ x, R x x) (l : List α) : List.Forall₂ R l l := by
  induction l with
  | nil => exact .nil
  | cons x l ih => exact .cons (h x) ih

theorem forall2_map {R : α → α' → Prop} {S : β → β' → Prop} {f : α → β} {f' : α' → β'} (hf : ∀ x x', R x x' → S (f x) (f' x'))
    {l : List α} {l' : List α'} (h : List.Forall₂ R l l') : List.Forall₂ S (l.map f) (l'.map f') := by
  induction h with
  | nil => exact .nil
  | cons h1 _ ih => exact .cons (hf _ _ h1) ih

theorem forall2_replicate {R : α → α' → Prop} {v : α} {v' : α'} (h : R v v') (n : Nat) :
    List.Forall₂ R (List.replicate n v) (List.replicate n v') := by
  induction n with
  | zero => exact .nil
  | succ n ih => exact .cons h ih

theorem forall2_vmap {R : α → α' → Prop} {n : Nat} {f : Nat → α} {f' : Nat → α'} (h : ∀ t, t < n → R (f t) (f' t)) :
    List.Forall₂ R (vmap n f) (vmap n f') := by
  rw [List.forall₂_iff_get]
  refine ⟨by simp, fun i h1 h2 => ?_⟩
  simpa [vmap] using h i (by simpa using h1)

end

section
variable {F : Type} [Inhabited F] [Zero F] [One F] [Add F] [Sub F] [Mul F] [Div F] [Neg F] [NatCast F] [FltFun F]

/-- The arithmetic operations are compatible with the relation between opposite numbers. -/
structure SignRel (R : F → F → Prop) : Prop where
  zero : R 0 0
  default_ : R default default
  neg : ∀ x, R x (-x)
  add : ∀ x x' y y', R x x' → R y y' → R (x + y) (x' + y')
  sub : ∀ x x' y y', R x x' → R y y' → R (x - y) (x' - y')
  mul_right : ∀ x x' c, R x x' → R (x * c) (x' * c)
  mul_left : ∀ c x x', R x x' → R (c * x) (c * x')
  div : ∀ x x' c, R x x' → R (x / c) (x' / c)
  sq : ∀ x x', R x x' → x * x = x' * x'

variable {R : F → F → Prop}

theorem SignRel.gather (h : SignRel R) {l l' : List F} (hl : List.Forall₂ R l l') (i : Nat) : R (gather l i) (gather l' i) := by
  unfold Jax.gather
  rw [← hl.length_eq]
  exact forall2_getD hl h.default_ _

theorem SignRel.setDrop {l l' : List F} (hl : List.Forall₂ R l l') {v v' : F} (hv : R v v') (i : Nat) :
    List.Forall₂ R (setDrop l i v) (setDrop l' i v') := forall2_set hl hv i

theorem SignRel.scatterAdd (h : SignRel R) {a a' v v' : List F} (ha : List.Forall₂ R a a') (hv : List.Forall₂ R v v') (is : List Nat) :
    List.Forall₂ R (scatterAdd a is v) (scatterAdd a' is v') := by
  induction hv generalizing a a' is with
  | nil => cases is <;> exact ha
  | cons h1 _ ih =>
    cases is with
    | nil => exact ha
    | cons i is => exact ih (forall2_modify ha (fun _ _ hx => h.add _ _ _ _ hx h1) i) is

theorem SignRel.scatterAdd2 (h : SignRel R) {a a' : List (List F)} {v v' : List F} (ha : List.Forall₂ (List.Forall₂ R) a a')
    (hv : List.Forall₂ R v v') (is bs : List Nat) :
    List.Forall₂ (List.Forall₂ R) (scatterAdd2 a is bs v) (scatterAdd2 a' is bs v') := by
  induction hv generalizing a a' is bs with
  | nil => cases is <;> cases bs <;> exact ha
  | cons h1 _ ih =>
    cases is with
    | nil => exact ha
    | cons i is =>
      cases bs with
      | nil => exact ha
      | cons b bs =>
        exact ih (forall2_modify ha (fun _ _ hrow => forall2_modify hrow (fun _ _ hx => h.add _ _ _ _ hx h1) b) i) is bs

theorem SignRel.foldl (h : SignRel R) {l l' : List F} (hl : List.Forall₂ R l l') {x x' : F} (hx : R x x') :
    R (l.foldl (· + ·) x) (l'.foldl (· + ·) x') := by
  induction hl generalizing x x' with
  | nil => exact hx
  | cons h1 _ ih => exact ih (h.add _ _ _ _ hx h1)

theorem SignRel.sum (h : SignRel R) {l l' : List F} (hl : List.Forall₂ R l l') : R (Jax.sum l) (Jax.sum l') := h.foldl hl h.zero

theorem SignRel.sum_resid (h : SignRel R) {l l' : List F} (hl : List.Forall₂ R l l') (idx : List Nat) (size : Nat) (b : Option Nat) :
    List.Forall₂ R (sum_resid l idx size b) (sum_resid l' idx size b) := by
  unfold Bartz.sum_resid
  cases b with
  | none => exact h.scatterAdd (forall2_replicate h.zero _) hl _
  | some b => exact forall2_map (R := List.Forall₂ R) (fun _ _ hx => h.sum hx) (h.scatterAdd2 (forall2_replicate (forall2_replicate h.zero _) _) hl _ _)

theorem SignRel.squares (h : SignRel R) {l l' : List F} (hl : List.Forall₂ R l l') :
    l'.map (fun x => x * x) = l.map (fun x => x * x) := by
  induction hl with
  | nil => rfl
  | cons h1 _ ih => rw [List.map_cons, List.map_cons, ih, h.sq _ _ h1]

theorem SignRel.likelihood (h : SignRel R) {t t' l l' r r' : F} (ht : R t t') (hl : R l l') (hr : R r r') (p : Prelkv F) (e : F) :
    compute_likelihood_ratio t l r p e = compute_likelihood_ratio t' l' r' p e := by
  unfold compute_likelihood_ratio
  rw [h.sq _ _ ht, h.sq _ _ hl, h.sq _ _ hr]

/-- the computations for a tree with the opposite leaves -/
structure WorkRel (R : F → F → Prop) (w w' : TreeWork F) : Prop where
  leaf : List.Forall₂ R w.leaf_tree w'.leaf_tree
  centered : List.Forall₂ R w.prelf.centered_leaves w'.prelf.centered_leaves
  move : w'.move = w.move
  leaf_indices : w'.leaf_indices = w.leaf_indices
  count_tree : w'.count_tree = w.count_tree
  counts : w'.counts = w.counts
  ratio : w'.log_trans_prior_ratio = w.log_trans_prior_ratio
  prelkv : w'.prelkv = w.prelkv
  mean_factor : w'.prelf.mean_factor = w.prelf.mean_factor

/-- the outcome for a tree with the opposite leaves -/
structure AccRel (R : F → F → Prop) (o o' : Accepted F) : Prop where
  leaf : List.Forall₂ R o.leaf_tree o'.leaf_tree
  same : o' = { o with leaf_tree := o'.leaf_tree }

theorem accept_rel (h : SignRel R) (b mp : Option Nat) (e : F) {resid resid' : List F} (hr : List.Forall₂ R resid resid')
    {w w' : TreeWork F} (hw : WorkRel R w w') :
    List.Forall₂ R (accept_move_and_sample_leaves b mp e resid w).1 (accept_move_and_sample_leaves b mp e resid' w').1 ∧
      AccRel R (accept_move_and_sample_leaves b mp e resid w).2 (accept_move_and_sample_leaves b mp e resid' w').2 := by
  obtain ⟨move, li, leaf, ct, counts, ratio, prelkv, ⟨mf, cl⟩⟩ := w
  obtain ⟨move', li', leaf', ct', counts', ratio', prelkv', ⟨mf', cl'⟩⟩ := w'
  obtain ⟨hleaf, hcent, h1, h2, h3, h4, h5, h6, h7⟩ := hw
  dsimp only at hleaf hcent h1 h2 h3 h4 h5 h6 h7
  subst h1 h2 h3 h4 h5 h6 h7
  have hrt : List.Forall₂ R
      (List.zipWith (· + ·) (sum_resid resid li' leaf.length b) (List.zipWith (fun (c : Nat) v => (c : F) * v) ct' leaf))
      (List.zipWith (· + ·) (sum_resid resid' li' leaf'.length b) (List.zipWith (fun (c : Nat) v => (c : F) * v) ct' leaf')) := by
    rw [hleaf.length_eq]
    refine forall2_zipWith (fun x x' y y' => h.add x x' y y') (h.sum_resid hr _ _ _) ?_
    exact forall2_zipWith (R := Eq) (fun x x' y y' hx hy => hx ▸ h.mul_left _ _ _ hy) (forall2_refl (fun _ => rfl) _) hleaf
  unfold accept_move_and_sample_leaves
  dsimp only
  revert hrt
  generalize List.zipWith (· + ·) (sum_resid resid li' leaf.length b) (List.zipWith (fun (c : Nat) v => (c : F) * v) ct' leaf) = rt
  generalize List.zipWith (· + ·) (sum_resid resid' li' leaf'.length b) (List.zipWith (fun (c : Nat) v => (c : F) * v) ct' leaf') = rt'
  intro hrt
  have htot := h.add _ _ _ _ (h.gather hrt move'.left) (h.gather hrt move'.right)
  rw [← h.likelihood htot (h.gather hrt move'.left) (h.gather hrt move'.right)]
  generalize compute_likelihood_ratio _ _ _ prelkv' e = lk
  have hnew : List.Forall₂ R
      (List.zipWith (· + ·) (List.zipWith (· * ·) (Jax.setDrop rt move'.node (gather rt move'.left + gather rt move'.right)) mf') cl)
      (List.zipWith (· + ·) (List.zipWith (· * ·) (Jax.setDrop rt' move'.node (gather rt' move'.left + gather rt' move'.right)) mf') cl') := by
    refine forall2_zipWith (fun x x' y y' => h.add x x' y y') ?_ hcent
    exact forall2_zipWith (S := Eq) (fun x x' y y' hx hy => hy ▸ h.mul_right _ _ _ hx) (forall2_set hrt htot _)
      (forall2_refl (fun _ => rfl) _)
  revert hnew
  generalize List.zipWith (· + ·) (List.zipWith (· * ·) (Jax.setDrop rt move'.node (gather rt move'.left + gather rt move'.right)) mf') cl = nl
  generalize List.zipWith (· + ·) (List.zipWith (· * ·) (Jax.setDrop rt' move'.node (gather rt' move'.left + gather rt' move'.right)) mf') cl' = nl'
  intro hnew
  rw [← hnew.length_eq]
  have hfin : ∀ i j, List.Forall₂ R (Jax.setDrop (Jax.setDrop nl i (gather nl move'.node)) j (gather nl move'.node))
      (Jax.setDrop (Jax.setDrop nl' i (gather nl' move'.node)) j (gather nl' move'.node)) := fun i j =>
    forall2_set (forall2_set hnew (h.gather hnew _) _) (h.gather hnew _) _
  refine ⟨?_, hfin _ _, rfl⟩
  refine forall2_zipWith (S := Eq) (fun x x' y y' hx hy => ?_) hr (forall2_refl (fun _ => rfl) li')
  subst hy
  exact h.add _ _ _ _ hx (h.gather (forall2_zipWith (fun x x' y y' => h.sub x x' y y') hleaf (hfin _ _)) _)

variable {K : Type} [KeyLike K] {rng : Rng K F} {s s' : State F} {key : K} {t : Nat}

theorem moveOf_rel (hs : OppositeState R s s') : moveOf (reflectRng rng) s' key t = moveOf rng s key t := by
  have hl := hs.leaf_trees.length_eq
  rw [hs.same]
  unfold moveOf
  dsimp only
  rw [← hl]
  rfl

theorem adapt_rel (h : SignRel R) {l l' : List F} (hl : List.Forall₂ R l l') (m : Move F) :
    List.Forall₂ R (adapt_leaf_tree_to_grow_indices l m) (adapt_leaf_tree_to_grow_indices l' m) := by
  unfold adapt_leaf_tree_to_grow_indices
  dsimp only
  rw [← hl.length_eq]
  exact forall2_set (forall2_set hl (h.gather hl _) _) (h.gather hl _) _

theorem workOf_rel (h : SignRel R) (hs : OppositeState R s s') : WorkRel R (workOf rng s key t) (workOf (reflectRng rng) s' key t) := by
  have hm : moveOf (reflectRng rng) s' (KeyLike.split key 2 1) t = moveOf rng s (KeyLike.split key 2 1) t := moveOf_rel hs
  unfold workOf
  rw [hm]
  generalize moveOf rng s (KeyLike.split key 2 1) t = m
  have hl := hs.leaf_trees.length_eq
  have hlt := hs.leaf_trees
  rw [hs.same]
  generalize s'.leaf_trees = lt at hl hlt
  unfold parallel_stage_tree
  dsimp only
  rw [← hl]
  refine ⟨?_, ?_, rfl, rfl, rfl, rfl, rfl, rfl, rfl⟩
  · exact adapt_rel h (forall2_getD hlt .nil t) m
  · unfold precompute_leaf_terms reflectRng
    dsimp only
    rw [List.forall₂_iff_get]
    refine ⟨by simp, fun i h1 h2 => ?_⟩
    simp only [List.get_eq_getElem, List.getElem_mapIdx]
    exact h.mul_right _ _ _ (h.neg _)

theorem residOf_rel (h : SignRel R) (hs : OppositeState R s s') (ht : t ≤ s.leaf_trees.length) :
    List.Forall₂ R (residOf rng s key t) (residOf (reflectRng rng) s' key t) := by
  have hl := hs.leaf_trees.length_eq
  induction t with
  | zero => rw [residOf_zero, residOf_zero]; exact hs.resid
  | succ t ih =>
    rw [residOf_succ _ s' _ (by omega), residOf_succ _ _ _ (by omega)]
    unfold accOf
    have e1 : s'.resid_batch_size = s.resid_batch_size := by rw [hs.same]
    have e2 : s'.min_points_per_leaf = s.min_points_per_leaf := by rw [hs.same]
    have e3 : s'.sigma2 = s.sigma2 := by rw [hs.same]
    rw [e1, e2, e3, ← hl]
    exact (accept_rel h _ _ _ (ih (by omega)) (workOf_rel h hs)).1

theorem accOf_rel (h : SignRel R) (hs : OppositeState R s s') (ht : t < s.leaf_trees.length) :
    AccRel R (accOf rng s key t).2 (accOf (reflectRng rng) s' key t).2 := by
  unfold accOf
  have e1 : s'.resid_batch_size = s.resid_batch_size := by rw [hs.same]
  have e2 : s'.min_points_per_leaf = s.min_points_per_leaf := by rw [hs.same]
  have e3 : s'.sigma2 = s.sigma2 := by rw [hs.same]
  rw [e1, e2, e3, ← hs.leaf_trees.length_eq]
  exact (accept_rel h _ _ _ (residOf_rel h hs ht.le) (workOf_rel h hs)).2

theorem assemble_rel {mv : Nat → Move F} {w w' : Nat → TreeWork F} {resid resid' : List F} {ac ac' : Nat → Accepted F} {nt : Nat}
    (hs : OppositeState R s s') (hw : ∀ t, WorkRel R (w t) (w' t)) (hr : List.Forall₂ R resid resid')
    (ha : ∀ t, t < nt → AccRel R (ac t) (ac' t)) : OppositeState R (assemble s mv w resid ac nt) (assemble s' mv w' resid' ac' nt) := by
  have c : ∀ {β : Type} (f : Nat → Accepted F → β), (∀ t o l, f t { o with leaf_tree := l } = f t o) →
      vmap nt (fun t => f t (ac' t)) = vmap nt (fun t => f t (ac t)) := by
    intro β f hf
    refine vmap_congr fun t ht => ?_
    rw [(ha t ht).same, hf]
  have e1 : ∀ t, (w' t).count_tree = (w t).count_tree := fun t => (hw t).count_tree
  have e2 : ∀ t, (w' t).leaf_indices = (w t).leaf_indices := fun t => (hw t).leaf_indices
  refine ⟨forall2_vmap fun t ht => (ha t ht).leaf, hr, hs.y, ?_⟩
  generalize hl : (assemble s' mv w' resid' ac' nt).leaf_trees = L
  have hL : vmap nt (fun t => (ac' t).leaf_tree) = L := hl
  obtain ⟨-, -, -, hsame⟩ := hs
  rw [hsame]
  unfold assemble
  simp only [e1, e2]
  rw [c (fun _ o => o.log_trans_prior) fun _ _ _ => rfl, c (fun _ o => o.log_likelihood) fun _ _ _ => rfl,
    c (fun t o => o.acc && (mv t).grow) fun _ _ _ => rfl, c (fun t o => o.acc && !(mv t).grow) fun _ _ _ => rfl,
    c (fun t o => apply_moves_to_leaf_indices s.idx_bits (w t).leaf_indices (mv t) o.to_prune) fun _ _ _ => rfl,
    c (fun t o => apply_moves_to_split_tree s.split_bits (s.split_trees.getD t []) (mv t) o.to_prune) fun _ _ _ => rfl, hL]

theorem sample_trees_rel (h : SignRel R) (hs : OppositeState R s s') :
    OppositeState R (sample_trees rng s key) (sample_trees (reflectRng rng) s' key) := by
  have h1 : moveOf (reflectRng rng) s' (KeyLike.split key 2 1) = moveOf rng s (KeyLike.split key 2 1) :=
    funext fun t => moveOf_rel hs
  rw [sample_trees_assemble, sample_trees_assemble, h1, ← hs.leaf_trees.length_eq]
  exact assemble_rel hs (fun t => workOf_rel h hs) (residOf_rel h hs le_rfl) fun t ht => accOf_rel h hs ht

/-- A step of the MCMC with the opposite data and normal variates. -/
theorem step_rel (h : SignRel R) (hs : OppositeState R s s') : OppositeState R (step rng s key) (step (reflectRng rng) s' key) := by
  rw [step_eq, step_eq]
  have hs1 := sample_trees_rel (rng := rng) (key := KeyLike.split key 2 1) h hs
  revert hs1
  generalize sample_trees rng s (KeyLike.split key 2 1) = r
  generalize sample_trees (reflectRng rng) s' (KeyLike.split key 2 1) = r'
  intro hr
  have e : r'.resid.map (fun x => x * x) = r.resid.map (fun x => x * x) := h.squares hr.resid
  have e2 : r'.sigma2_alpha = r.sigma2_alpha := by rw [hr.same]
  have e3 : r'.sigma2_beta = r.sigma2_beta := by rw [hr.same]
  refine ⟨hr.leaf_trees, hr.resid, hr.y, ?_⟩
  unfold sample_sigma
  dsimp only
  rw [e, e2, e3, ← hr.resid.length_eq]
  conv_lhs => rw [hr.same]
  rfl

end
end Bartz
