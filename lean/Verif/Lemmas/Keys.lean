import Verif.Spec.Program
import Verif.Spec.Chain
import Verif.Lemmas.StepForm
import Mathlib.Data.List.Basic
/-!
# The step as a program that asks for random numbers
-/

set_option autoImplicit false

namespace Spec.Prog
open Jax Spec
variable {K F A B : Type}

theorem run_bind (rng : Rng K F) (p : Prog K F A) (f : A → Prog K F B) :
    run rng (bind p f) = run rng (f (run rng p)) := by
  induction p with
  | pure a => rfl
  | uniform2 key cont ih => exact ih _
  | uniformTo key hi cont ih => exact ih _
  | randint key lo hi cont ih => exact ih _
  | normal key cont ih => exact ih _
  | gamma key alpha cont ih => exact ih _

theorem run_collect (rng : Rng K F) (f : Nat → Prog K F A) (n : Nat) :
    run rng (collect f n) = vmap n fun t => run rng (f t) := by
  induction n with
  | zero => rfl
  | succ n ih =>
    simp only [collect, run_bind, ih, run, vmap, List.range_succ, List.map_append, List.map_cons,
      List.map_nil]

theorem Exec.pure_inv {a b : A} {l : List (K × Answer F)} (h : Exec (.pure a : Prog K F A) l b) :
    l = [] ∧ b = a := by
  cases h; exact ⟨rfl, rfl⟩

theorem Exec.bind_inv {p : Prog K F A} {f : A → Prog K F B} : ∀ {l : List (K × Answer F)} {b : B},
    Exec (bind p f) l b → ∃ l1 l2 a, l = l1 ++ l2 ∧ Exec p l1 a ∧ Exec (f a) l2 b := by
  induction p with
  | pure a => intro l b h; exact ⟨[], l, a, rfl, .pure a, h⟩
  | uniform2 key cont ih =>
    intro l b h
    cases h with
    | uniform2 _ _ x l _ h =>
      obtain ⟨l1, l2, a, rfl, h1, h2⟩ := ih x h
      exact ⟨_ :: l1, l2, a, rfl, .uniform2 key cont x l1 a h1, h2⟩
  | uniformTo key hi cont ih =>
    intro l b h
    cases h with
    | uniformTo _ _ _ x l _ h =>
      obtain ⟨l1, l2, a, rfl, h1, h2⟩ := ih x h
      exact ⟨_ :: l1, l2, a, rfl, .uniformTo key hi cont x l1 a h1, h2⟩
  | randint key lo hi cont ih =>
    intro l b h
    cases h with
    | randint _ _ _ _ x l _ h =>
      obtain ⟨l1, l2, a, rfl, h1, h2⟩ := ih x h
      exact ⟨_ :: l1, l2, a, rfl, .randint key lo hi cont x l1 a h1, h2⟩
  | normal key cont ih =>
    intro l b h
    cases h with
    | normal _ _ x l _ h =>
      obtain ⟨l1, l2, a, rfl, h1, h2⟩ := ih x h
      exact ⟨_ :: l1, l2, a, rfl, .normal key cont x l1 a h1, h2⟩
  | gamma key alpha cont ih =>
    intro l b h
    cases h with
    | gamma _ _ _ x l _ h =>
      obtain ⟨l1, l2, a, rfl, h1, h2⟩ := ih x h
      exact ⟨_ :: l1, l2, a, rfl, .gamma key alpha cont x l1 a h1, h2⟩

/-- if the generator gives those numbers, the execution is that one -/
theorem Exec.run_eq {rng : Rng K F} {p : Prog K F A} {l : List (K × Answer F)} {a : A}
    (h : Exec p l a) (hag : ∀ x ∈ l, Agrees (rng x.1) x.2) : run rng p = a := by
  induction h with
  | pure a => rfl
  | uniform2 key cont x l a h ih =>
    have e : (rng key).uniform2 = x := hag (key, .uniform2 x) (List.mem_cons_self ..)
    unfold run
    rw [e]
    exact ih fun y hy => hag y (List.mem_cons_of_mem _ hy)
  | uniformTo key hi cont x l a h ih =>
    have e : (rng key).uniformTo hi = x := hag (key, .uniformTo hi x) (List.mem_cons_self ..)
    unfold run
    rw [e]
    exact ih fun y hy => hag y (List.mem_cons_of_mem _ hy)
  | randint key lo hi cont x l a h ih =>
    have e : (rng key).randint lo hi = x := hag (key, .randint lo hi x) (List.mem_cons_self ..)
    unfold run
    rw [e]
    exact ih fun y hy => hag y (List.mem_cons_of_mem _ hy)
  | normal key cont x l a h ih =>
    have e : (rng key).normal = x := hag (key, .normal x) (List.mem_cons_self ..)
    unfold run
    rw [e]
    exact ih fun y hy => hag y (List.mem_cons_of_mem _ hy)
  | gamma key alpha cont x l a h ih =>
    have e : (rng key).gamma alpha = x := hag (key, .gamma alpha x) (List.mem_cons_self ..)
    unfold run
    rw [e]
    exact ih fun y hy => hag y (List.mem_cons_of_mem _ hy)

/-- conversely, running with a generator is one of the possible executions -/
theorem exec_run (rng : Rng K F) (p : Prog K F A) :
    ∃ l, Exec p l (run rng p) ∧ ∀ x ∈ l, Agrees (rng x.1) x.2 := by
  induction p with
  | pure a => exact ⟨[], .pure a, by simp⟩
  | uniform2 key cont ih =>
    obtain ⟨l, h, hl⟩ := ih (rng key).uniform2
    refine ⟨_, .uniform2 key cont _ l _ h, ?_⟩
    intro x hx
    rcases List.mem_cons.1 hx with rfl | hx
    · rfl
    · exact hl x hx
  | uniformTo key hi cont ih =>
    obtain ⟨l, h, hl⟩ := ih ((rng key).uniformTo hi)
    refine ⟨_, .uniformTo key hi cont _ l _ h, ?_⟩
    intro x hx
    rcases List.mem_cons.1 hx with rfl | hx
    · rfl
    · exact hl x hx
  | randint key lo hi cont ih =>
    obtain ⟨l, h, hl⟩ := ih ((rng key).randint lo hi)
    refine ⟨_, .randint key lo hi cont _ l _ h, ?_⟩
    intro x hx
    rcases List.mem_cons.1 hx with rfl | hx
    · rfl
    · exact hl x hx
  | normal key cont ih =>
    obtain ⟨l, h, hl⟩ := ih (rng key).normal
    refine ⟨_, .normal key cont _ l _ h, ?_⟩
    intro x hx
    rcases List.mem_cons.1 hx with rfl | hx
    · rfl
    · exact hl x hx
  | gamma key alpha cont ih =>
    obtain ⟨l, h, hl⟩ := ih ((rng key).gamma alpha)
    refine ⟨_, .gamma key alpha cont _ l _ h, ?_⟩
    intro x hx
    rcases List.mem_cons.1 hx with rfl | hx
    · rfl
    · exact hl x hx

theorem Exec.collect_keys {f : Nat → Prog K F A} {G : Nat → List K}
    (hf : ∀ t l a, Exec (f t) l a → l.map Prod.fst = G t) (n : Nat) :
    ∀ {l : List (K × Answer F)} {as : List A}, Exec (collect f n) l as →
      l.map Prod.fst = (List.range n).flatMap G ∧ as.length = n := by
  induction n with
  | zero =>
    intro l as h
    obtain ⟨rfl, rfl⟩ := h.pure_inv
    exact ⟨rfl, rfl⟩
  | succ n ih =>
    intro l as h
    obtain ⟨l1, l2, a1, rfl, h1, h2⟩ := h.bind_inv
    obtain ⟨l3, l4, a3, rfl, h3, h4⟩ := h2.bind_inv
    obtain ⟨rfl, rfl⟩ := h4.pure_inv
    obtain ⟨e1, e2⟩ := ih h1
    refine ⟨?_, by simp [e2]⟩
    rw [List.map_append, e1, List.append_nil, hf _ _ _ h3, List.range_succ, List.flatMap_append]
    simp

end Spec.Prog

namespace Bartz
open Jax Spec

section
variable {K F : Type} [KeyLike K] [Inhabited F] [Zero F] [One F] [Add F] [Sub F] [Mul F] [Div F]
  [Neg F] [NatCast F] [FltFun F]

/-- draws that give always the same number -/
def constDraws (x : F) (i : Nat) (z : Nat → Nat → F) : Draws F :=
  { uniform2 := z, uniformTo := fun _ => x, randint := fun _ _ => i, normal := z, gamma := fun _ => x }

/-- the upper bound of the uniform number used in `choose_leaf` -/
def leafTotal (split_tree : List Nat) (affluence_tree : Option (List Bool)) (p_propose_grow : List F) : F :=
  last (FltFun.cumsum (List.zipWith (fun g p => if g then p else 0)
    (growable_leaves split_tree affluence_tree) p_propose_grow))

/-- the upper bound of the integer used in `choose_variable` -/
def numAllowed (var_bits split_bits : Nat) (var_tree split_tree max_split : List Nat) (leaf_index : Nat) : Nat :=
  let exclude := fully_used_variables var_bits split_bits var_tree split_tree max_split leaf_index
  let exclude := Jax.unique exclude exclude.length max_split.length
  max_split.length - (exclude.countP fun i => decide (i < max_split.length))

/-- `grow_move` as a program -/
def growProg (var_bits split_bits : Nat) (var_tree split_tree : List Nat)
    (affluence_tree : Option (List Bool)) (max_split : List Nat)
    (p_nonterminal p_propose_grow : List F) (key : K) : Prog K F (GrowMove F) :=
  .uniformTo (KeyLike.split key 3 0) (leafTotal split_tree affluence_tree p_propose_grow) fun x =>
  let chosen := choose_leaf split_tree affluence_tree p_propose_grow (constDraws x 0 fun _ _ => 0)
  .randint (KeyLike.split key 3 1) 0 (numAllowed var_bits split_bits var_tree split_tree max_split
    chosen.leaf_to_grow) fun i =>
  let var := choose_variable var_bits split_bits var_tree split_tree max_split chosen.leaf_to_grow
    (constDraws (0 : F) i fun _ _ => 0)
  let var_tree := setDrop var_tree chosen.leaf_to_grow (astype var_bits var)
  let lr := split_range split_bits var_tree split_tree max_split chosen.leaf_to_grow
    (gather var_tree chosen.leaf_to_grow)
  .randint (KeyLike.split key 3 2) lr.1 lr.2 fun split =>
  .pure { num_growable := chosen.num_growable, node := chosen.leaf_to_grow, var, split,
          partial_ratio := compute_partial_ratio chosen.prob_choose chosen.num_prunable p_nonterminal
            chosen.leaf_to_grow
          var_tree }

theorem run_growProg (rng : Rng K F) (var_bits split_bits : Nat) (var_tree split_tree : List Nat)
    (affluence_tree : Option (List Bool)) (max_split : List Nat)
    (p_nonterminal p_propose_grow : List F) (key : K) :
    (growProg var_bits split_bits var_tree split_tree affluence_tree max_split p_nonterminal p_propose_grow
      key).run rng =
    grow_move rng var_bits split_bits var_tree split_tree affluence_tree max_split p_nonterminal
      p_propose_grow key := rfl

/-- `prune_move` as a program -/
def pruneProg (split_tree : List Nat) (affluence_tree : Option (List Bool))
    (p_nonterminal p_propose_grow : List F) (key : K) : Prog K F (PruneMove F) :=
  .randint key 0 (last (cumsum ((is_leaves_parent split_tree).map Bool.toNat))) fun i =>
  .pure (prune_move (fun _ => constDraws (0 : F) i fun _ _ => 0) split_tree affluence_tree p_nonterminal
    p_propose_grow key)

theorem run_pruneProg (rng : Rng K F) (split_tree : List Nat) (affluence_tree : Option (List Bool))
    (p_nonterminal p_propose_grow : List F) (key : K) :
    (pruneProg split_tree affluence_tree p_nonterminal p_propose_grow key).run rng =
    prune_move rng split_tree affluence_tree p_nonterminal p_propose_grow key := rfl

/-- `sample_moves` as a program -/
def movesProg (bart : State F) (key : K) : Prog K F (List (Move F)) :=
  let ntree := bart.leaf_trees.length
  .uniform2 (KeyLike.split key (1 + ntree) 0) fun u =>
  .collect (fun t =>
    let subkey := KeyLike.split key (1 + ntree) (1 + t)
    let affluence_tree := bart.affluence_trees.map fun a => a.getD t []
    .bind (growProg bart.var_bits bart.split_bits (bart.var_trees.getD t []) (bart.split_trees.getD t []) affluence_tree
      bart.max_split bart.p_nonterminal bart.p_propose_grow (KeyLike.split subkey 2 0)) fun grow =>
    .bind (pruneProg (bart.split_trees.getD t []) affluence_tree bart.p_nonterminal bart.p_propose_grow
      (KeyLike.split subkey 2 1)) fun prune =>
    .pure (combine_moves grow prune (u 0 t) (u 1 t))) ntree

theorem run_movesProg (rng : Rng K F) (bart : State F) (key : K) :
    (movesProg bart key).run rng = sample_moves rng bart key := by
  rw [sample_moves_eq]
  unfold movesProg
  simp only [Prog.run, Prog.run_collect, Prog.run_bind, run_growProg, run_pruneProg]
  rfl

/-- `step` as a program -/
def stepProg (bart : State F) (key : K) : Prog K F (State F) :=
  let subkey := KeyLike.split key 2 1
  .bind (movesProg bart (KeyLike.split subkey 2 1)) fun moves =>
  .normal (KeyLike.split subkey 2 0) fun z =>
  let bart := accept_moves_and_sample_leaves (fun _ => constDraws 0 0 z) bart moves subkey
  .gamma (KeyLike.split key 2 0) (bart.sigma2_alpha + (bart.resid.length : F) / ((2 : Nat) : F)) fun g =>
  .pure (sample_sigma (fun _ => constDraws g 0 fun _ _ => 0) bart key)

theorem accept_congr (rng rng' : Rng K F) (bart : State F) (moves : List (Move F)) (key key' : K)
    (h : (rng key).normal = (rng' key').normal) :
    accept_moves_and_sample_leaves rng bart moves key =
      accept_moves_and_sample_leaves rng' bart moves key' := by
  unfold accept_moves_and_sample_leaves parallel_stage_tree
  rw [h]

theorem run_stepProg (rng : Rng K F) (bart : State F) (key : K) :
    (stepProg bart key).run rng = step rng bart key := by
  unfold stepProg step sample_trees
  simp only [Prog.run, Prog.run_bind, run_movesProg]
  rw [accept_congr (fun _ => constDraws 0 0 (rng (KeyLike.split (KeyLike.split key 2 1) 2 0)).normal) rng
    bart _ (KeyLike.split key 2 1) (KeyLike.split (KeyLike.split key 2 1) 2 0) rfl]
  rfl

/-- the chain as a program -/
def chainProg (bart : State F) (key : K) : Nat → Prog K F (State F)
  | 0 => .pure bart
  | t + 1 => .bind (stepProg bart (KeyLike.split key 2 1)) fun bart =>
      chainProg bart (KeyLike.split key 2 0) t

omit [Inhabited F] [Zero F] [One F] [Add F] [Sub F] [Mul F] [Div F] [Neg F] [NatCast F] [FltFun F] in
theorem chain_shift {S : Type} (step : S → K → S) (s : S) (key : K) (t : Nat) :
    chainKey key (t + 1) = chainKey (KeyLike.split key 2 0) t ∧
    chain step s key (t + 1) = chain step (step s (KeyLike.split key 2 1)) (KeyLike.split key 2 0) t := by
  induction t with
  | zero => exact ⟨rfl, rfl⟩
  | succ t ih =>
    have h1 : chainKey key (t + 1 + 1) = chainKey (KeyLike.split key 2 0) (t + 1) := by
      show KeyLike.split (chainKey key (t + 1)) 2 0 = _
      rw [ih.1]; rfl
    refine ⟨h1, ?_⟩
    show step (chain step s key (t + 1)) (KeyLike.split (chainKey key (t + 1)) 2 1) = _
    rw [ih.2, ih.1]
    rfl

theorem run_chainProg (rng : Rng K F) (t : Nat) : ∀ (bart : State F) (key : K),
    (chainProg bart key t).run rng = chain (step rng) bart key t := by
  induction t with
  | zero => intro bart key; rfl
  | succ t ih =>
    intro bart key
    rw [(chain_shift (step rng) bart key t).2]
    unfold chainProg
    rw [Prog.run_bind, run_stepProg, ih]

/-! ### Keys used -/

/-- keys used for one tree -/
def treePaths (p : Path) : List Path :=
  [p ++ [(2, 0), (3, 0)], p ++ [(2, 0), (3, 1)], p ++ [(2, 0), (3, 2)], p ++ [(2, 1)]]

/-- keys used in `sample_moves` -/
def movesPaths (ntree : Nat) (p : Path) : List Path :=
  (p ++ [(1 + ntree, 0)]) :: (List.range ntree).flatMap fun t => treePaths (p ++ [(1 + ntree, 1 + t)])

/-- keys used in `step` -/
def stepPaths (ntree : Nat) (p : Path) : List Path :=
  movesPaths ntree (p ++ [(2, 1), (2, 1)]) ++ [p ++ [(2, 1), (2, 0)], p ++ [(2, 0)]]

/-- keys used in `t` steps -/
def chainPaths (ntree : Nat) (p : Path) : Nat → List Path
  | 0 => []
  | t + 1 => stepPaths ntree (p ++ [(2, 1)]) ++ chainPaths ntree (p ++ [(2, 0)]) t

omit [Inhabited F] [Zero F] [One F] [Add F] [Sub F] [Mul F] [Div F] [Neg F] [NatCast F] [FltFun F] in
theorem derive_append (key : K) (p q : Path) : derive key (p ++ q) = derive (derive key p) q := by
  unfold derive; rw [List.foldl_append]

theorem keys_tree (bart : State F) (key : K) (p : Path) (u : Nat → Nat → F) (t : Nat)
    (affluence_tree : Option (List Bool)) {l : List (K × Prog.Answer F)} {m : Move F}
    (h : Prog.Exec (.bind (growProg bart.var_bits bart.split_bits (bart.var_trees.getD t []) (bart.split_trees.getD t [])
      affluence_tree bart.max_split bart.p_nonterminal bart.p_propose_grow
        (KeyLike.split (derive key p) 2 0)) fun grow =>
      .bind (pruneProg (bart.split_trees.getD t []) affluence_tree bart.p_nonterminal bart.p_propose_grow
        (KeyLike.split (derive key p) 2 1)) fun prune =>
      .pure (combine_moves grow prune (u 0 t) (u 1 t))) l m) :
    l.map Prod.fst = (treePaths p).map (derive key) := by
  obtain ⟨l1, l2, g, rfl, h1, h2⟩ := h.bind_inv
  obtain ⟨l3, l4, q, rfl, h3, h4⟩ := h2.bind_inv
  obtain ⟨rfl, rfl⟩ := h4.pure_inv
  unfold growProg at h1
  cases h1 with
  | uniformTo _ _ _ x l _ h1 =>
  cases h1 with
  | randint _ _ _ _ x l _ h1 =>
  cases h1 with
  | randint _ _ _ _ x l _ h1 =>
  obtain ⟨rfl, rfl⟩ := h1.pure_inv
  unfold pruneProg at h3
  cases h3 with
  | randint _ _ _ _ x l _ h3 =>
  obtain ⟨rfl, rfl⟩ := h3.pure_inv
  simp only [treePaths, List.map_cons, List.map_nil, derive_append, List.append_nil,
    List.cons_append, List.nil_append]
  rfl

theorem keys_moves (bart : State F) (key : K) (p : Path) {l : List (K × Prog.Answer F)}
    {moves : List (Move F)} (h : Prog.Exec (movesProg bart (derive key p)) l moves) :
    l.map Prod.fst = (movesPaths bart.leaf_trees.length p).map (derive key) ∧
    moves.length = bart.leaf_trees.length := by
  unfold movesProg at h
  cases h with
  | uniform2 _ _ u l _ h =>
  have := Prog.Exec.collect_keys (G := fun t => (treePaths (p ++ [(1 + bart.leaf_trees.length, 1 + t)])).map
    (derive key)) (fun t l m h => by
      have e : KeyLike.split (derive key p) (1 + bart.leaf_trees.length) (1 + t) =
        derive key (p ++ [(1 + bart.leaf_trees.length, 1 + t)]) := by rw [derive_append]; rfl
      simp only [e] at h
      exact keys_tree bart key _ u t _ h) _ h
  refine ⟨?_, this.2⟩
  rw [List.map_cons, this.1]
  unfold movesPaths
  rw [List.map_cons, List.map_flatMap, derive_append]
  rfl

omit [KeyLike K] in
theorem length_accept (rng : Rng K F) (bart : State F) (moves : List (Move F)) (key : K) :
    (accept_moves_and_sample_leaves rng bart moves key).leaf_trees.length = moves.length := by
  unfold accept_moves_and_sample_leaves
  simp only [List.length_map, scan_length, List.length_mapIdx]

theorem keys_step (bart : State F) (key : K) (p : Path) {l : List (K × Prog.Answer F)}
    {bart' : State F} (h : Prog.Exec (stepProg bart (derive key p)) l bart') :
    l.map Prod.fst = (stepPaths bart.leaf_trees.length p).map (derive key) ∧
    bart'.leaf_trees.length = bart.leaf_trees.length := by
  obtain ⟨l1, l2, moves, rfl, h1, h2⟩ := h.bind_inv
  have e : KeyLike.split (KeyLike.split (derive key p) 2 1) 2 1 = derive key (p ++ [(2, 1), (2, 1)]) := by
    rw [derive_append]; rfl
  rw [e] at h1
  have hm := keys_moves bart key _ h1
  cases h2 with
  | normal _ _ z l _ h2 =>
  cases h2 with
  | gamma _ _ _ g l _ h2 =>
  obtain ⟨rfl, rfl⟩ := h2.pure_inv
  constructor
  · unfold stepPaths
    rw [List.map_append, hm.1, List.map_append]
    congr 1
    simp only [List.map_cons, List.map_nil, derive_append]
    rfl
  · show (accept_moves_and_sample_leaves _ bart moves _).leaf_trees.length = _
    rw [length_accept, hm.2]

theorem keys_chain (t : Nat) : ∀ (bart : State F) (key : K) (p : Path) {l : List (K × Prog.Answer F)}
    {bart' : State F}, Prog.Exec (chainProg bart (derive key p) t) l bart' →
    l.map Prod.fst = (chainPaths bart.leaf_trees.length p t).map (derive key) := by
  induction t with
  | zero =>
    intro bart key p l bart' h
    obtain ⟨rfl, rfl⟩ := h.pure_inv
    rfl
  | succ t ih =>
    intro bart key p l bart' h
    obtain ⟨l1, l2, b, rfl, h1, h2⟩ := h.bind_inv
    have e : ∀ i, KeyLike.split (derive key p) 2 i = derive key (p ++ [(2, i)]) := by
      intro i; rw [derive_append]; rfl
    rw [e] at h1
    simp only [e] at h2
    have hs := keys_step bart key _ h1
    rw [List.map_append, hs.1, ih b key _ h2, hs.2, chainPaths, List.map_append]

end

/-! ### The keys diverge -/

theorem diverge_of (r : Path) (n i j : Nat) (u v : Path) (hi : i < n) (hj : j < n) (hij : i ≠ j) :
    Diverge (r ++ (n, i) :: u) (r ++ (n, j) :: v) := ⟨r, n, i, j, u, v, hij, hi, hj, rfl, rfl⟩

theorem Diverge.symm {p q : Path} (h : Diverge p q) : Diverge q p := by
  obtain ⟨r, n, i, j, u, v, h1, h2, h3, h4, h5⟩ := h
  exact ⟨r, n, j, i, v, u, h1.symm, h3, h2, h5, h4⟩

theorem Diverge.ne {p q : Path} (h : Diverge p q) : p ≠ q := by
  obtain ⟨r, n, i, j, u, v, h1, h2, h3, rfl, rfl⟩ := h
  intro e
  have := List.append_cancel_left e
  simp at this
  exact h1 this.1

theorem mem_treePaths {p q : Path} (h : q ∈ treePaths p) : ∃ u, q = p ++ u := by
  unfold treePaths at h
  simp only [List.mem_cons, List.not_mem_nil, or_false] at h
  rcases h with rfl | rfl | rfl | rfl <;> exact ⟨_, rfl⟩

theorem pairwise_tree (p : Path) : (treePaths p).Pairwise Diverge := by
  unfold treePaths
  simp only [List.pairwise_cons, List.mem_cons, List.not_mem_nil, or_false, forall_eq_or_imp, forall_eq,
    false_imp_iff, implies_true, List.Pairwise.nil, and_true]
  have a : ∀ i j, i < 3 → j < 3 → i ≠ j → Diverge (p ++ [(2, 0), (3, i)]) (p ++ [(2, 0), (3, j)]) := by
    intro i j hi hj hij
    have := diverge_of (p ++ [(2, 0)]) 3 i j [] [] hi hj hij
    simpa using this
  have b : ∀ u, Diverge (p ++ (2, 0) :: u) (p ++ [(2, 1)]) := fun u =>
    diverge_of p 2 0 1 u [] (by decide) (by decide) (by decide)
  exact ⟨⟨a _ _ (by decide) (by decide) (by decide), a _ _ (by decide) (by decide) (by decide), b _⟩,
    ⟨a _ _ (by decide) (by decide) (by decide), b _⟩, b _⟩

theorem mem_movesPaths {n : Nat} {p q : Path} (h : q ∈ movesPaths n p) : ∃ u, q = p ++ u := by
  unfold movesPaths at h
  rcases List.mem_cons.1 h with rfl | h
  · exact ⟨_, rfl⟩
  · obtain ⟨t, _, ht⟩ := List.mem_flatMap.1 h
    obtain ⟨u, rfl⟩ := mem_treePaths ht
    exact ⟨_, List.append_assoc ..⟩

theorem pairwise_moves (n : Nat) (p : Path) : (movesPaths n p).Pairwise Diverge := by
  unfold movesPaths
  rw [List.pairwise_cons]
  constructor
  · intro q hq
    obtain ⟨t, ht, hq⟩ := List.mem_flatMap.1 hq
    rw [List.mem_range] at ht
    obtain ⟨u, rfl⟩ := mem_treePaths hq
    rw [List.append_assoc]
    exact diverge_of p (1 + n) 0 (1 + t) [] u (by omega) (by omega) (by omega)
  · rw [List.pairwise_flatMap]
    refine ⟨fun t _ => pairwise_tree _, ?_⟩
    refine List.pairwise_lt_range.imp_of_mem ?_
    intro t t' ht ht' htt x hx y hy
    rw [List.mem_range] at ht ht'
    obtain ⟨u, rfl⟩ := mem_treePaths hx
    obtain ⟨v, rfl⟩ := mem_treePaths hy
    rw [List.append_assoc, List.append_assoc]
    exact diverge_of p (1 + n) (1 + t) (1 + t') u v (by omega) (by omega) (by omega)

theorem mem_stepPaths {n : Nat} {p q : Path} (h : q ∈ stepPaths n p) : ∃ u, q = p ++ u := by
  unfold stepPaths at h
  rcases List.mem_append.1 h with h | h
  · obtain ⟨u, rfl⟩ := mem_movesPaths h
    exact ⟨_, List.append_assoc ..⟩
  · simp only [List.mem_cons, List.not_mem_nil, or_false] at h
    rcases h with rfl | rfl <;> exact ⟨_, rfl⟩

theorem pairwise_step (n : Nat) (p : Path) : (stepPaths n p).Pairwise Diverge := by
  unfold stepPaths
  rw [List.pairwise_append]
  refine ⟨pairwise_moves _ _, ?_, ?_⟩
  · simp only [List.pairwise_cons, List.mem_cons, List.not_mem_nil, or_false, forall_eq,
      false_imp_iff, implies_true, List.Pairwise.nil, and_true]
    exact diverge_of p 2 1 0 _ [] (by decide) (by decide) (by decide)
  · intro x hx y hy
    obtain ⟨u, rfl⟩ := mem_movesPaths hx
    simp only [List.mem_cons, List.not_mem_nil, or_false] at hy
    rcases hy with rfl | rfl
    · have := diverge_of (p ++ [(2, 1)]) 2 1 0 u [] (by decide) (by decide) (by decide)
      simpa using this
    · have := diverge_of p 2 1 0 ((2, 1) :: u) [] (by decide) (by decide) (by decide)
      simpa using this

theorem mem_chainPaths {n t : Nat} : ∀ {p q : Path}, q ∈ chainPaths n p t → ∃ u, q = p ++ u := by
  induction t with
  | zero => intro p q h; simp [chainPaths] at h
  | succ t ih =>
    intro p q h
    rcases List.mem_append.1 h with h | h
    · obtain ⟨u, rfl⟩ := mem_stepPaths h
      exact ⟨_, List.append_assoc ..⟩
    · obtain ⟨u, rfl⟩ := ih h
      exact ⟨_, List.append_assoc ..⟩

theorem pairwise_chain (n t : Nat) : ∀ p : Path, (chainPaths n p t).Pairwise Diverge := by
  induction t with
  | zero => intro p; exact List.Pairwise.nil
  | succ t ih =>
    intro p
    rw [chainPaths, List.pairwise_append]
    refine ⟨pairwise_step _ _, ih _, ?_⟩
    intro x hx y hy
    obtain ⟨u, rfl⟩ := mem_stepPaths hx
    obtain ⟨v, rfl⟩ := mem_chainPaths hy
    rw [List.append_assoc, List.append_assoc]
    exact diverge_of p 2 1 0 u v (by decide) (by decide) (by decide)

end Bartz
