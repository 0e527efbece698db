import Verif.Lemmas.Update32
import Verif.Props.Move32
import Verif.Lemmas.BartStay
/-!
# Property C100: probability of modifying a tree in single precision

The proposal (C99) and the decision (C93) together: the probability that the tree is modified in a given way.
-/

set_option autoImplicit false

namespace Bartz
open Jax Spec

section
variable {K K' : Type} [KeyLike K] [KeyLike K'] [P : Binary32.Platform] {a : InitArgs Binary32} {s : State Binary32}

/-- the tree after the step -/
theorem step_split (hi : StateInv a s) (rng : Rng K Binary32) (key : K) {t : Nat} (ht : t < a.num_trees) :
    (step rng s key).split_trees.getD t [] = apply_moves_to_split_tree a.split_bits (s.split_trees.getD t [])
      (moveOf rng s (KeyLike.split (KeyLike.split key 2 1) 2 1) t) ((accOf rng s (KeyLike.split key 2 1) t).2.acc ^^
      (moveOf rng s (KeyLike.split (KeyLike.split key 2 1) 2 1) t).grow) := by
  rw [step_eq, sample_trees_eq]
  simp only [sample_sigma, hi.leaf_length]
  rw [getD_vmap ht, hi.cfg.split_bits, accOf_to_prune]
  rfl

/-- the decision on a proposal to grow a leaf -/
theorem grow_changed (ha : ValidArgs a) (hi : StateInv a s) {rng : Rng K Binary32} {key : K} {t : Nat} (ht : t < a.num_trees)
    (hok : MoveOK (cfgOf a) (s.var_trees.getD t []) (s.split_trees.getD t []) (s.affluence_trees.map fun x => x.getD t [])
      (moveOf rng s (KeyLike.split (KeyLike.split key 2 1) 2 1) t)) {mv : Move Binary32}
    (hmv : mv = moveOf rng s (KeyLike.split (KeyLike.split key 2 1) 2 1) t) (hg : mv.grow = true) (hsplit : 1 ≤ mv.grow_split) :
    (step rng s key).split_trees.getD t [] ≠ s.split_trees.getD t [] ↔
      Binary32.le mv.logu ((accOf rng s (KeyLike.split key 2 1) t).2.log_trans_prior +
        (accOf rng s (KeyLike.split key 2 1) t).2.log_likelihood) = true ∧
      EnoughPoints a (setDrop (s.var_trees.getD t []) mv.node mv.grow_var)
        (setDrop (s.split_trees.getD t []) mv.node mv.grow_split) mv.node := by
  have hT := hi.tree t ht
  rw [step_split hi rng key ht]
  have hgl := hok.grow_leaf (by rw [← hmv]; exact hg)
  have hall := hok.grow_allowed (by rw [← hmv]; exact hg)
  have hvt := hok.grow_tree (by rw [← hmv]; exact hg)
  have hnode : mv.node < 2 ^ a.p_nonterminal.length := by rw [hmv]; exact hgl.2.1
  have hpos : (moveOf rng s (KeyLike.split (KeyLike.split key 2 1) 2 1) t).grow = true →
      1 ≤ (moveOf rng s (KeyLike.split (KeyLike.split key 2 1) 2 1) t).grow_split := by
    rw [← hmv]
    exact fun _ => hsplit
  obtain ⟨-, ll⟩ := leafData_stats ha hi rng (KeyLike.split key 2 1) ht hok hpos (fun _ => 0) (2 * mv.node)
  obtain ⟨-, lr⟩ := leafData_stats ha hi rng (KeyLike.split key 2 1) ht hok hpos (fun _ => 0) (2 * mv.node + 1)
  have hcw := counts_work_of rng (KeyLike.split key 2 1) hok (by rw [← hmv]; exact hnode)
  rw [length_leafData] at ll lr
  rw [← hmv, count_eq_card, count_eq_card, length_gidx ha hi rng (KeyLike.split key 2 1) ht, ← ll, ← lr, hvt, ← hmv, hi.cfg.X] at hcw
  unfold bigSplit at hcw
  rw [if_pos hg] at hcw
  have hacc := acc_iff32 rng s (KeyLike.split key 2 1) t
  rw [← hmv, hi.cfg.min_points_per_leaf, hcw.1, hcw.2.1, if_pos hg] at hacc
  rw [← hmv] at hok hall hgl ⊢
  have hsf := split_final (cfgOf_ok ha) hok (accOf rng s (KeyLike.split key 2 1) t).2.acc
  change apply_moves_to_split_tree a.split_bits _ _ _ = _ at hsf
  rw [hsf]
  constructor
  · intro hne
    have h1 : (accOf rng s (KeyLike.split key 2 1) t).2.acc = true := by
      by_contra hc
      exact hne (if_neg hc)
    exact (hacc.1 h1).2
  · intro h1
    rw [if_pos (hacc.2 ⟨hall, h1⟩), if_pos hg]
    intro he
    have h2 := at0_grow hT.valid hgl.2.1 (s := mv.grow_split) (i := mv.node)
    rw [he, if_pos rfl] at h2
    have h3 : at0 (s.split_trees.getD t []) mv.node = 0 := hgl.1.2
    omega

/-- the decision on a proposal to prune a node -/
theorem prune_changed (ha : ValidArgs a) (hi : StateInv a s) {rng : Rng K Binary32} {key : K} {t : Nat} (ht : t < a.num_trees)
    {mv : Move Binary32} (hmv : mv = moveOf rng s (KeyLike.split (KeyLike.split key 2 1) 2 1) t) (hg : mv.grow = false)
    (hall : mv.allowed = true) (hnode : IsLeafParent (s.split_trees.getD t []) mv.node) :
    (step rng s key).split_trees.getD t [] ≠ s.split_trees.getD t [] ↔
      Binary32.le mv.logu (-((accOf rng s (KeyLike.split key 2 1) t).2.log_trans_prior +
        (accOf rng s (KeyLike.split key 2 1) t).2.log_likelihood)) = true ∧
      EnoughPoints a (s.var_trees.getD t []) (s.split_trees.getD t []) mv.node := by
  have hT := hi.tree t ht
  have hlt : mv.node < 2 ^ a.p_nonterminal.length := hnode.1.lt hT.valid.length
  have hvl : mv.var_tree.length = 2 ^ a.p_nonterminal.length := by
    rw [hmv]
    show (setDrop _ _ _).length = _
    rw [length_setDrop]
    exact hT.var_len
  have hidx : gidx rng s (KeyLike.split key 2 1) t = s.leaf_indices.getD t [] := by
    unfold gidx
    rw [workOf_idx hi, ← hmv]
    have hl := length_grow_idx (mv := mv) (cfgOf_ok ha) hT.idx_len
    refine List.ext_getElem (hl.trans hT.idx_len.symm) fun j h1 h2 => ?_
    have hlt := hT.idx_lt (j := j) (by rw [← hT.idx_len]; exact h2)
    unfold at0 at hlt
    rw [List.getD_eq_getElem _ _ h2, pow_succ] at hlt
    have e : (if mv.grow = true then mv.node else 2 * mv.var_tree.length) = 2 * 2 ^ a.p_nonterminal.length := by
      rw [hg, hvl, if_neg (by simp)]
    refine (List.getElem_zipWith (h := h1)).trans (if_neg fun hcon => ?_)
    have h3 := hcon.trans e
    change _ < 2 ^ a.p_nonterminal.length * 2 at hlt
    omega
  have hleft : mv.left = 2 * mv.node := by
    rw [hmv]
    exact (Nat.shiftLeft_eq _ _).trans (mul_comm _ _)
  have hright : mv.right = 2 * mv.node + 1 := by
    rw [hmv]
    exact congrArg (· + 1) ((Nat.shiftLeft_eq _ _).trans (mul_comm _ _))
  have hcw := counts_lr (mv := mv) (s.leaf_indices.getD t []) a.p_nonterminal.length hvl hleft
    hright s.count_batch_size hlt
  have e2 : (workOf rng s (KeyLike.split key 2 1) t).counts = (compute_count_tree (s.leaf_indices.getD t []) mv s.count_batch_size).2 := by
    rw [← hidx, hmv]
    rfl
  have hcount : ∀ k, (s.leaf_indices.getD t []).count k = pointsIn a.X a.y.length (s.var_trees.getD t []) (s.split_trees.getD t []) k :=
    fun k => TreeInv.count_eq (cfgOf_ok ha) hT k
  rw [← e2, hcount, hcount] at hcw
  have hacc := acc_iff32 rng s (KeyLike.split key 2 1) t
  rw [← hmv, hi.cfg.min_points_per_leaf, hcw.1, hcw.2.1, if_neg (by rw [hg]; simp)] at hacc
  rw [step_split hi rng key ht, ← hmv, hg, Bool.xor_false]
  unfold apply_moves_to_split_tree
  dsimp only
  rw [hg, if_neg (by simp), setDrop_of_le le_rfl]
  constructor
  · intro hne
    have h1 : (accOf rng s (KeyLike.split key 2 1) t).2.acc = true := by
      by_contra hc
      refine hne ?_
      rw [if_neg hc, setDrop_of_le le_rfl]
    exact (hacc.1 h1).2
  · intro h1
    rw [if_pos (hacc.2 ⟨hall, h1⟩)]
    intro he
    have h2 := at0_prune hT.valid hnode (i := mv.node)
    rw [he, if_pos rfl] at h2
    exact hnode.1.2 h2

open scoped Classical in
/-- **C100**: in single precision, with `jnp.cumsum` implemented like on CPU and logarithms of accuracy `δ`, from a state of the MCMC in
which all the choices made so far are of growable leaves, consider the update of the tree `t` in a step. Let `ℓ i v c` be the log
of the Metropolis-Hastings ratio to grow the leaf `i` with variable `v` and cutpoint `c`, `ℓ' i` the one to prune the node `i`, and
suppose that the ratio calculated has error at most `b` (see C93). The probability that the tree is modified by growing a leaf with a
decision rule such that `E`, or by pruning a node such that `D`, is the one intended with error at most
`2 ** h (4 h + 1) / 2 ** 22 + 2 ** -47 + 2 (b + 17 δ) + 2 ** -22`: the sum over the moves of the probability of proposing the move, times
the minimum between 1 and the Metropolis-Hastings ratio if the leaves would have the minimum number of datapoints, 0 otherwise. -/
theorem C100_update {δ : ℝ} (hlog : LogError P δ) (hδ : 0 ≤ δ) (hc : ∀ w, Binary32.Platform.cumsum w = associativeScan w)
    (ha : ValidArgs a) (hs : ReachablePicks K' a s) {rng : UpdateBits → Rng K Binary32} {key : K} {t : Nat} (ht : t < a.num_trees)
    (hrng : UsesUpdateBits rng (KeyLike.split (KeyLike.split key 2 1) 2 1) a.num_trees t) (hjax : ∀ ω key, JaxDraws (rng ω key))
    {q : Nat → ℝ} (hq : ∀ d (h : d < a.p_nonterminal.length), HasValue a.p_nonterminal[d] (q d) ∧ 1 / 2 ^ 125 ≤ q d)
    (hP : a.max_split.length ≤ 2 ^ 16) (hm : ∀ m ∈ a.max_split, m < 2 ^ 16) (hdepth : a.p_nonterminal.length ≤ 16)
    (hf : FillerOK a.max_split)
    (hrules : ((∀ v j, v < a.max_split.length → j < a.y.length → (a.X.getD v []).getD j 0 ≤ at0 a.max_split v) ∧
        ∃ m, 1 ≤ m ∧ a.min_points_per_leaf = some m) ∨ ∀ v, v < a.max_split.length → 1 ≤ at0 a.max_split v)
    {E : Nat → Nat → Nat → Prop} {D : Nat → Prop} {ℓ : Nat → Nat → Nat → ℝ} {ℓ' : Nat → ℝ} {b : ℝ} (hb : 0 ≤ b) :
    let h := a.p_nonterminal.length
    let var := s.var_trees.getD t []
    let split := s.split_trees.getD t []
    let aff := s.affluence_trees.map fun x => x.getD t []
    let G := (Finset.range (2 ^ h)).filter fun i => (growable_leaves split aff).getD i false = true
    let kind := fun m : Move Binary32 => if m.grow then E m.node m.grow_var m.grow_split else m.allowed = true ∧ D m.node
    (∀ i v c, E i v c → i ∈ G ∧ 1 ≤ c ∧ (availVars a.split_bits a.max_split var split i).Nonempty ∧
      (v ∈ availVars a.split_bits a.max_split var split i → (availSplits a.max_split var split i v).Nonempty)) →
    (∀ i, D i → IsLeafParent split i) →
    (∀ ω m, (sample_moves (rng ω) s (KeyLike.split (KeyLike.split key 2 1) 2 1))[t]? = some m → kind m →
      ∃ trans lik ρ, (step (rng ω) s key).ratios = some (trans, lik) ∧ HasValue (trans.getD t 0 + lik.getD t 0) ρ ∧
        |ρ - if m.grow then ℓ m.node m.grow_var m.grow_split else -ℓ' m.node| ≤ b) →
    |updateProb (fun ω => ∃ m, (sample_moves (rng ω) s (KeyLike.split (KeyLike.split key 2 1) 2 1))[t]? = some m ∧ kind m ∧
        (step (rng ω) s key).split_trees.getD t [] ≠ split) -
      moveExp q G a.split_bits a.max_split var split
        (fun i v c => if E i v c ∧ EnoughPoints a (setDrop var i v) (setDrop split i c) i then min 1 (Real.exp (ℓ i v c)) else 0)
        (fun i => if D i ∧ EnoughPoints a var split i then min 1 (Real.exp (ℓ' i)) else 0)| ≤
      2 ^ h * ((4 * h + 1) / 2 ^ 22) + 1 / 2 ^ 47 + (2 * (b + 17 * δ) + 1 / 2 ^ 22) := by
  intro h var split aff G kind hE hD hscore
  have hi := ReachablePicks.inv ha hs
  have hT := hi.tree t ht
  have hnt := hi.leaf_length
  have hβ : 0 ≤ 2 * (b + 17 * δ) + 1 / 2 ^ 22 := by positivity
  obtain ⟨mk, hmk⟩ : ∃ mk, mk = KeyLike.split (KeyLike.split key 2 1) 2 1 := ⟨_, rfl⟩
  have hmoves : ∀ ω, (sample_moves (rng ω) s mk)[t]? = some (moveOf (rng ω) s mk t) := by
    intro ω
    rw [sample_moves_eq, vmap, List.getElem?_map, List.getElem?_range (by rw [hnt]; exact ht)]
    rfl
  rw [← hmk] at hrng
  -- the proposal does not depend on the bits for the decision
  obtain ⟨M, hM⟩ : ∃ M : MoveBits → Move Binary32, ∀ ω, M ω = moveOf (rng (ω, 0)) s mk t := ⟨_, fun _ => rfl⟩
  have hsame : ∀ ω k, moveOf (rng (ω, k)) s mk t = { M ω with logu := FltFun.log1p (-(Binary32.uniform k 1)) } := by
    intro ω k
    obtain ⟨d0, -, e0⟩ := hrng.leaf
    obtain ⟨d1, -, e1⟩ := hrng.var
    obtain ⟨d2, -, e2⟩ := hrng.cut
    obtain ⟨d3, -, e3⟩ := hrng.prune
    rw [hM]
    unfold moveOf
    rw [hnt, hrng.kind, hrng.kind, hrng.decision, hrng.decision]
    unfold grow_move prune_move
    simp only [e0, e1, e2, e3]
    rfl
  have hmb : UsesMoveBits (fun ω => rng (ω, 0)) mk a.num_trees t :=
    { kind := fun ω => hrng.kind (ω, 0)
      leaf := by obtain ⟨d, h1, h2⟩ := hrng.leaf; exact ⟨d, h1, fun g => h2 (g, 0)⟩
      var := by obtain ⟨d, h1, h2⟩ := hrng.var; exact ⟨d, h1, fun g => h2 (g, 0)⟩
      cut := by obtain ⟨d, h1, h2⟩ := hrng.cut; exact ⟨d, h1, fun g => h2 (g, 0)⟩
      prune := by obtain ⟨d, h1, h2⟩ := hrng.prune; exact ⟨d, h1, fun g => h2 (g, 0)⟩ }
  have hα : ∀ x : ℝ, 0 ≤ min 1 (Real.exp x) ∧ min 1 (Real.exp x) ≤ 1 := fun x => ⟨le_min zero_le_one (Real.exp_pos x).le, min_le_left _ _⟩
  have hmean := move_mean hc ha hs ht hmb hq hP hm hdepth hf hrules
    (g := fun i v c => if E i v c ∧ EnoughPoints a (setDrop var i v) (setDrop split i c) i then min 1 (Real.exp (ℓ i v c)) else 0)
    (fun i v c => by split_ifs; exacts [hα _, ⟨le_rfl, zero_le_one⟩])
    (d := fun i => if D i ∧ EnoughPoints a var split i then min 1 (Real.exp (ℓ' i)) else 0)
    (fun i => by split_ifs; exacts [hα _, ⟨le_rfl, zero_le_one⟩])
    fun i _ v c hcon => by
      have h1 : E i v c := by
        by_contra h0
        exact hcon (if_neg fun h2 => h0 h2.1)
      exact (hE i v c h1).2.2
  simp only [← hM] at hmean
  rw [updateProb_mean]
  refine (abs_sub_le _ _ _).trans ((add_le_add (moveMean_near (ε := 2 * (b + 17 * δ) + 1 / 2 ^ 22) fun ω => ?_) hmean).trans
    (le_of_eq (add_comm _ _)))
  -- the decision given the proposal
  have hnode : ∀ k, (moveOf (rng (ω, k)) s mk t).node = (M ω).node := fun k => by rw [hsame]
  have hgrow : ∀ k, (moveOf (rng (ω, k)) s mk t).grow = (M ω).grow := fun k => by rw [hsame]
  have hvar : ∀ k, (moveOf (rng (ω, k)) s mk t).grow_var = (M ω).grow_var := fun k => by rw [hsame]
  have hcut : ∀ k, (moveOf (rng (ω, k)) s mk t).grow_split = (M ω).grow_split := fun k => by rw [hsame]
  have hall : ∀ k, (moveOf (rng (ω, k)) s mk t).allowed = (M ω).allowed := fun k => by rw [hsame]
  have hlogu : ∀ k, (moveOf (rng (ω, k)) s mk t).logu = FltFun.log1p (-(Binary32.uniform k 1)) := fun k => by rw [hsame]
  have hkind : ∀ k, kind (moveOf (rng (ω, k)) s mk t) ↔ kind (M ω) := by
    intro k
    show (if (moveOf (rng (ω, k)) s mk t).grow then E _ _ _ else _ ∧ D _) ↔ _
    rw [hgrow, hnode, hvar, hcut, hall]
  have hev : ∀ k, (∃ m, (sample_moves (rng (ω, k)) s (KeyLike.split (KeyLike.split key 2 1) 2 1))[t]? = some m ∧ kind m ∧
      (step (rng (ω, k)) s key).split_trees.getD t [] ≠ split) ↔ kind (M ω) ∧ (step (rng (ω, k)) s key).split_trees.getD t [] ≠ split := by
    intro k
    rw [← hmk, hmoves]
    simp only [Option.some.injEq, exists_eq_left', hkind]
  simp only [hev]
  -- the ratio
  have hratio : kind (M ω) → ∀ k, ∃ ρ, HasValue ((accOf (rng (ω, k)) s (KeyLike.split key 2 1) t).2.log_trans_prior +
      (accOf (rng (ω, k)) s (KeyLike.split key 2 1) t).2.log_likelihood) ρ ∧
      |ρ - if (M ω).grow then ℓ (M ω).node (M ω).grow_var (M ω).grow_split else -ℓ' (M ω).node| ≤ b := by
    intro hk k
    obtain ⟨trans, lik, ρ, h1, h2, h3⟩ := hscore (ω, k) (moveOf (rng (ω, k)) s mk t) (by rw [← hmk]; exact hmoves _) ((hkind k).2 hk)
    obtain ⟨e1, e2⟩ := saved_ratios hi (rng (ω, k)) key ht h1
    rw [e1, e2] at h2
    rw [hgrow, hnode, hvar, hcut] at h3
    exact ⟨ρ, h2, h3⟩
  have hzero : bitsProb (fun _ => False) = 0 := by
    rw [bitsProb_eq, Finset.filter_false, Finset.card_empty, Nat.cast_zero, zero_div]
  by_cases hk : kind (M ω)
  · have hr := hratio hk
    have hk' : if (M ω).grow then E (M ω).node (M ω).grow_var (M ω).grow_split else (M ω).allowed = true ∧ D (M ω).node := hk
    simp only [hk, true_and]
    cases hg : (M ω).grow with
    | true =>
      rw [hg, if_pos rfl] at hk'
      obtain ⟨hG, hc1, -, -⟩ := hE _ _ _ hk'
      simp only [hg, if_true] at hr
      have hch : ∀ k, (step (rng (ω, k)) s key).split_trees.getD t [] ≠ split ↔
          Binary32.le (FltFun.log1p (-(Binary32.uniform k 1))) ((accOf (rng (ω, k)) s (KeyLike.split key 2 1) t).2.log_trans_prior +
            (accOf (rng (ω, k)) s (KeyLike.split key 2 1) t).2.log_likelihood) = true ∧
          EnoughPoints a (setDrop var (M ω).node (M ω).grow_var) (setDrop split (M ω).node (M ω).grow_split) (M ω).node := by
        intro k
        have hlaw : LawfulRng (rng (ω, k)) := fun k' => JaxDraws.lawful (hjax (ω, k) k')
        have hok := moveOf_ok_of ha hi (rng (ω, k)) hlaw mk ht (by
          intro _
          have hn : (M ω).node = (choose_leaf split aff s.p_propose_grow (rng (ω, k)
              (KeyLike.split (KeyLike.split (KeyLike.split mk (1 + s.leaf_trees.length) (1 + t)) 2 0) 3 0))).leaf_to_grow := by
            rw [← hnode k]
            have hgk := hgrow k
            rw [hg] at hgk
            unfold moveOf combine_moves at hgk ⊢
            dsimp only at hgk ⊢
            rw [if_pos hgk]
            rfl
          rw [← hn]
          exact (Finset.mem_filter.1 hG).2) (by
          rw [Binary32.addLaws.lt_iff _ _ ((hlaw _).uniform2_nonneg _ _) Binary32.addLaws.zero_le_zero, (hlaw _).uniform2_nonneg]
          rfl)
        rw [hmk] at hok
        have := grow_changed ha hi ht hok (mv := moveOf (rng (ω, k)) s mk t) (by rw [hmk]) ((hgrow k).trans hg)
          (by rw [hcut]; exact hc1)
        rw [hnode, hvar, hcut, hlogu] at this
        exact this
      simp only [hch, if_true]
      by_cases hen : EnoughPoints a (setDrop var (M ω).node (M ω).grow_var) (setDrop split (M ω).node (M ω).grow_split) (M ω).node
      · simp only [hen, and_true, hk', if_true]
        exact accept_near hlog hδ hb hr
      · simp only [hen, and_false, if_false, hzero, sub_zero, abs_zero]
        exact hβ
    | false =>
      rw [hg, if_neg (by simp)] at hk'
      simp only [hg, Bool.false_eq_true, if_false] at hr
      have hch : ∀ k, (step (rng (ω, k)) s key).split_trees.getD t [] ≠ split ↔
          Binary32.le (FltFun.log1p (-(Binary32.uniform k 1))) (-((accOf (rng (ω, k)) s (KeyLike.split key 2 1) t).2.log_trans_prior +
            (accOf (rng (ω, k)) s (KeyLike.split key 2 1) t).2.log_likelihood)) = true ∧ EnoughPoints a var split (M ω).node := by
        intro k
        have := prune_changed ha hi ht (mv := moveOf (rng (ω, k)) s mk t) (by rw [hmk]) ((hgrow k).trans hg) ((hall k).trans hk'.1)
          (by rw [hnode]; exact hD _ hk'.2)
        rw [hnode, hlogu] at this
        exact this
      simp only [hch, Bool.false_eq_true, if_false, hk'.1, if_true]
      by_cases hen : EnoughPoints a var split (M ω).node
      · simp only [hen, and_true, hk'.2, if_true]
        refine accept_near hlog hδ hb fun k => ?_
        obtain ⟨ρ, h1, h2⟩ := hr k
        refine ⟨-ρ, hasValue_neg h1, ?_⟩
        rw [← abs_neg, neg_sub, sub_neg_eq_add, add_comm, ← sub_neg_eq_add]
        exact h2
      · simp only [hen, and_false, if_false, hzero, sub_zero, abs_zero]
        exact hβ
  · have hv : (if (M ω).grow then (if E (M ω).node (M ω).grow_var (M ω).grow_split ∧ EnoughPoints a (setDrop var (M ω).node (M ω).grow_var)
        (setDrop split (M ω).node (M ω).grow_split) (M ω).node then min 1 (Real.exp (ℓ (M ω).node (M ω).grow_var (M ω).grow_split)) else 0)
        else if (M ω).allowed then (if D (M ω).node ∧ EnoughPoints a var split (M ω).node then min 1 (Real.exp (ℓ' (M ω).node)) else 0)
        else 0) = 0 := by
      have hk' : ¬ if (M ω).grow then E (M ω).node (M ω).grow_var (M ω).grow_split else (M ω).allowed = true ∧ D (M ω).node := hk
      cases hg : (M ω).grow with
      | true =>
        rw [hg, if_pos rfl] at hk'
        rw [if_pos rfl, if_neg fun h0 => hk' h0.1]
      | false =>
        rw [hg, if_neg (by simp)] at hk'
        rw [if_neg (by simp)]
        split_ifs with h1 h2
        · exact absurd ⟨h1, h2.1⟩ hk'
        · rfl
        · rfl
    simp only [hk, false_and, hzero]
    rw [hv, sub_zero, abs_zero]
    exact hβ

end

/-! ### Example -/

namespace ExE
open scoped ExS

/-- the variates made by JAX from the given random bits -/
def drawOf (k0 k1 k2 : Fin (2 ^ 23)) (w : Words) : Draws Binary32 :=
  { uniform2 := fun r _ => Binary32.uniform (if r = 0 then k0 else k1) 1, uniformTo := fun hi => Binary32.uniform k2 hi
    randint := fun lo hi => randint32 w.1 w.2 lo hi, normal := fun _ _ => 0, gamma := fun _ => 1 }

theorem drawOf_jax (k0 k1 k2 : Fin (2 ^ 23)) (w : Words) : JaxDraws (drawOf k0 k1 k2 w) where
  uniform2 := ⟨fun r _ => if r = 0 then k0 else k1, fun _ _ => rfl⟩
  uniformTo := ⟨k2, fun _ => rfl⟩
  randint_mem lo hi h := by
    show lo ≤ randint32 w.1 w.2 lo hi ∧ randint32 w.1 w.2 lo hi < hi
    unfold randint32
    simp only [if_neg (not_le.2 h)]
    generalize astype 32 _ = x
    have := Nat.mod_lt x (show 0 < hi - lo by omega)
    omega
  randint_empty lo hi h := by
    show randint32 w.1 w.2 lo hi = lo
    unfold randint32
    simp only [if_pos h, Nat.mod_one, Nat.add_zero]

/-- the variates made by JAX from separate random bits for each key -/
def updateRng (ω : UpdateBits) : Rng Spec.Path Binary32 := fun key =>
  if key.getLast? = some (3, 0) then drawOf 0 0 ω.1.2.1.1 (0, 0) else if key.getLast? = some (3, 1) then drawOf 0 0 0 ω.1.2.1.2.1 else
  if key.getLast? = some (3, 2) then drawOf 0 0 0 ω.1.2.1.2.2 else if key.getLast? = some (2, 1) then drawOf 0 0 0 ω.1.2.2 else
  drawOf ω.1.1 ω.2 0 (0, 0)

theorem updateRng_jax (ω : UpdateBits) (key : Spec.Path) : JaxDraws (updateRng ω key) := by
  unfold updateRng
  split_ifs <;> exact drawOf_jax _ _ _ _

theorem updateRng_uses (key : Spec.Path) : UsesUpdateBits updateRng key 1 0 where
  kind ω := by simp [updateRng, KeyLike.split, drawOf]
  decision ω := by simp [updateRng, KeyLike.split, drawOf]
  leaf := ⟨fun k => drawOf 0 0 k (0, 0), fun _ _ => rfl, fun ω => by simp [updateRng, KeyLike.split]⟩
  var := ⟨drawOf 0 0 0, fun _ _ _ _ _ => rfl, fun ω => by simp [updateRng, KeyLike.split]⟩
  cut := ⟨drawOf 0 0 0, fun _ _ _ _ _ => rfl, fun ω => by simp [updateRng, KeyLike.split]⟩
  prune := ⟨drawOf 0 0 0, fun _ _ _ _ _ => rfl, fun ω => by simp [updateRng, KeyLike.split]⟩

/-- the ratios are determined by the proposal -/
theorem ratios_of_move {K : Type} [KeyLike K] (r : Rng K Binary32) (key : K) {L : Binary32} : letI := good
    moveOf r first (KeyLike.split key 2 1) 0 = { move with logu := L } →
    (accOf r first key 0).2.log_trans_prior = (accOf rng first () 0).2.log_trans_prior ∧
    (accOf r first key 0).2.log_likelihood = (accOf rng first () 0).2.log_likelihood := by
  let _ := good
  intro h
  constructor
  · show complete_ratio (moveOf r first (KeyLike.split key 2 1) 0) (workOf r first key 0).counts first.min_points_per_leaf = _
    have e : (workOf r first key 0).counts = (compute_count_tree (apply_grow_to_indices first.idx_bits (moveOf r first (KeyLike.split key 2 1) 0) (first.leaf_indices.getD 0 []) first.X) (moveOf r first (KeyLike.split key 2 1) 0) first.count_batch_size).2 := rfl
    rw [e, h]
    rfl
  · show (accept_move_and_sample_leaves first.resid_batch_size first.min_points_per_leaf
      (exp_factor first.leaf_trees.length first.sigma2) (residOf r first key 0)
      (parallel_stage_tree r first (KeyLike.split key 2 0) 0 (moveOf r first (KeyLike.split key 2 1) 0))).2.log_likelihood = _
    rw [h, residOf_zero]
    rfl

/-- the proposal is determined by the kind of move and the decision rule -/
theorem move_of_rule {K K' : Type} [KeyLike K] [KeyLike K'] [Binary32.Platform] (r : Rng K Binary32) (r' : Rng K' Binary32) (s : State Binary32)
    (key : K) (key' : K') (t : Nat) (g : (moveOf r s key t).grow = true) (g' : (moveOf r' s key' t).grow = true)
    (h2 : (moveOf r s key t).node = (moveOf r' s key' t).node) (h3 : (moveOf r s key t).grow_var = (moveOf r' s key' t).grow_var)
    (h4 : (moveOf r s key t).grow_split = (moveOf r' s key' t).grow_split) :
    moveOf r s key t = { moveOf r' s key' t with logu := (moveOf r s key t).logu } := by
  have hleaf : ∀ {K : Type} [KeyLike K] (r : Rng K Binary32) (key : K), (moveOf r s key t).grow = true →
      (moveOf r s key t).node = (choose_leaf (s.split_trees.getD t []) (s.affluence_trees.map fun x => x.getD t []) s.p_propose_grow
      (r (KeyLike.split (KeyLike.split (KeyLike.split key (1 + s.leaf_trees.length) (1 + t)) 2 0) 3 0))).leaf_to_grow := by
    intro K _ r key h1
    unfold moveOf combine_moves at h1 ⊢
    dsimp only at h1 ⊢
    rw [if_pos h1]
    rfl
  -- the leaf
  have hc : ∀ d d' : Draws Binary32, (choose_leaf (s.split_trees.getD t []) (s.affluence_trees.map fun x => x.getD t [])
      s.p_propose_grow d).leaf_to_grow = (choose_leaf (s.split_trees.getD t []) (s.affluence_trees.map fun x => x.getD t [])
      s.p_propose_grow d').leaf_to_grow → choose_leaf (s.split_trees.getD t []) (s.affluence_trees.map fun x => x.getD t [])
      s.p_propose_grow d = choose_leaf (s.split_trees.getD t []) (s.affluence_trees.map fun x => x.getD t [])
      s.p_propose_grow d' := by
    intro d d' h
    unfold choose_leaf categorical at h ⊢
    dsimp only at h ⊢
    rw [h]
  have hgm := hc _ _ (((hleaf r key g).symm.trans h2).trans (hleaf r' key' g'))
  have e1 : (moveOf r s key t).num_growable = (moveOf r' s key' t).num_growable := by
    exact congrArg (fun c => c.num_growable) hgm
  have e2 : (moveOf r s key t).partial_ratio = (moveOf r' s key' t).partial_ratio := by
    unfold moveOf combine_moves at g g' ⊢
    dsimp only at g g' ⊢
    rw [if_pos g, if_pos g']
    unfold grow_move
    dsimp only
    rw [hgm]
  have a1 : ∀ {K : Type} [KeyLike K] (r : Rng K Binary32) (key : K), (moveOf r s key t).grow = true → (moveOf r s key t).var_tree =
      setDrop (s.var_trees.getD t []) (moveOf r s key t).node (astype s.var_bits (moveOf r s key t).grow_var) := by
    intro K _ r key h
    rw [hleaf r key h]
    rfl
  have e3 : (moveOf r s key t).var_tree = (moveOf r' s key' t).var_tree := by
    rw [a1 r key g, a1 r' key' g', h2, h3]
  have l1 : (moveOf r s key t).left = (moveOf r' s key' t).left := congrArg (· <<< 1) h2
  have r1 : (moveOf r s key t).right = (moveOf r' s key' t).right := congrArg (· <<< 1 + 1) h2
  have al : ∀ {K : Type} [KeyLike K] (r : Rng K Binary32) (key : K), (moveOf r s key t).grow = true →
      (moveOf r s key t).allowed = true := by
    intro K _ r key h
    show ((moveOf r s key t).grow || _) = true
    rw [h, Bool.true_or]
  have al' := (al r key g).trans (al r' key' g').symm
  have gg := g.trans g'.symm
  generalize moveOf r s key t = m at *
  generalize moveOf r' s key' t = m' at *
  obtain ⟨_, _, _, _, _, _, _, _, _, _, _⟩ := m
  obtain ⟨_, _, _, _, _, _, _, _, _, _, _⟩ := m'
  dsimp only at al' gg h2 h3 h4 e1 e2 e3 l1 r1 ⊢
  rw [al', gg, h2, h3, h4, e1, e2, e3, l1, r1]

theorem first_splits : availSplits [1] [0, 0] [0, 0] 1 0 = {1} := by
  ext c
  show NonRedundant _ _ _ 1 0 c ↔ _
  rw [nonRedundant_iff (by norm_num)]
  simp [interval, at0]
  omega

theorem first_vars : availVars 8 [1] [0, 0] [0, 0] 1 = {0} := by
  ext v
  constructor
  · rintro ⟨h, -⟩
    exact Nat.lt_one_iff.1 h
  · rintro rfl
    have h : 1 ∈ availSplits [1] [0, 0] [0, 0] 1 0 := by
      rw [first_splits]
      rfl
    obtain ⟨⟨u, -, hu, h1⟩, ⟨w, h2, hw, h3⟩⟩ := h
    exact ⟨Nat.zero_lt_one, Or.inl ⟨u, w, by omega, h2, hu, hw⟩⟩

theorem first_var : first.var_trees.getD 0 [] = [0, 0] := by decide +kernel

theorem move_var : move.grow_var = 0 := by decide +kernel

theorem first_growable : ∀ i < 2, (growable_leaves (first.split_trees.getD 0 []) (first.affluence_trees.map fun x => x.getD 0 [])).getD i
    false = true ↔ i = 1 := by decide +kernel

theorem first_no_parent (i : Nat) : ¬ IsLeafParent [0, 0] i := by
  rintro ⟨⟨-, h⟩, -⟩
  match i, h with
  | 0, h => exact h rfl
  | 1, h => exact h rfl
  | i + 2, h => exact h (at0_of_le (by simp))

open scoped Classical in
-- The only possible move is to grow the root, which should be accepted with certainty, and is with probability near 1. (The bound is
-- large because the logarithms of the platform of the example are not very accurate.)
example : letI := good
    |updateProb (fun ω => ∃ m, (sample_moves (updateRng ω) first [(2, 1), (2, 1)])[0]? = some m ∧
        (if m.grow then m.node = 1 ∧ m.grow_var = 0 ∧ m.grow_split = 1 else m.allowed = true ∧ False) ∧
        (step (updateRng ω) first []).split_trees.getD 0 [] ≠ first.split_trees.getD 0 []) - 1| ≤ 1 / 29 := by
  let _ := good
  have hG : ((Finset.range (2 ^ args.p_nonterminal.length)).filter fun i => (growable_leaves (first.split_trees.getD 0 [])
      (first.affluence_trees.map fun x => x.getD 0 [])).getD i false = true) = {1} := by
    ext i
    rw [Finset.mem_filter, Finset.mem_range, Finset.mem_singleton]
    constructor
    · rintro ⟨h1, h2⟩
      exact (first_growable i h1).1 h2
    · rintro rfl
      exact ⟨by decide, (first_growable 1 (by decide)).2 rfl⟩
  have h := C100_update (K' := Unit) (s := first) good_log (by norm_num) (fun _ => rfl) args_valid (.init : ReachablePicks Unit args first) (t := 0) (by decide)
    (key := ([] : Spec.Path)) (updateRng_uses _) updateRng_jax (q := fun _ => 1 / 2) (by
      intro d hd
      obtain rfl : d = 0 := Nat.lt_one_iff.1 hd
      exact ⟨root_value, by norm_num⟩) (by decide) (by decide) (by decide)
    (Or.inr (by decide)) (Or.inr (by decide)) (E := fun i v c => i = 1 ∧ v = 0 ∧ c = 1) (D := fun _ => False) (ℓ := fun _ _ _ => 0)
    (ℓ' := fun _ => 0) (b := 0) le_rfl
  dsimp only at h
  have hv : availVars args.split_bits args.max_split (first.var_trees.getD 0 []) (first.split_trees.getD 0 []) 1 = {0} := by
    rw [first_var, first_split]
    exact first_vars
  have hs : availSplits args.max_split (first.var_trees.getD 0 []) (first.split_trees.getD 0 []) 1 0 = {1} := by
    rw [first_var, first_split]
    exact first_splits
  have hp : ¬ ∃ i, IsLeafParent (first.split_trees.getD 0 []) i := by
    rw [first_split]
    exact fun ⟨i, h⟩ => first_no_parent i h
  have hen : ∀ var split i, EnoughPoints args var split i := fun _ _ _ m hm => by cases hm
  rw [hG] at h
  unfold moveExp growExp at h
  dsimp only at h
  rw [if_pos ⟨1, Finset.mem_singleton_self 1⟩, if_neg hp, Finset.sum_singleton, Finset.sum_singleton, hv, ← Finset.coe_singleton,
    avg_finset, Finset.sum_singleton, hs, ← Finset.coe_singleton, avg_finset, Finset.sum_singleton, if_pos ⟨⟨rfl, rfl, rfl⟩, hen _ _ _⟩,
    Real.exp_zero, min_self, Finset.card_singleton, Finset.card_singleton, Nat.cast_one, div_one,
    div_self (by norm_num : (1 / 2 : ℝ) ≠ 0), one_mul, one_mul, one_mul] at h
  refine (h ?_ ?_ ?_).trans ?_
  · rintro i v c ⟨rfl, rfl, rfl⟩
    rw [hv, hs]
    exact ⟨Finset.mem_singleton_self 1, le_rfl, ⟨0, rfl⟩, fun _ => ⟨1, rfl⟩⟩
  · exact fun _ h => h.elim
  · intro ω m hm hk
    have hi : StateInv args first := ReachablePicks.inv args_valid (.init : ReachablePicks Unit args first)
    obtain rfl := moves_step hi _ _ (by decide) hm
    have hg : (moveOf (updateRng ω) first (KeyLike.split (KeyLike.split ([] : Spec.Path) 2 1) 2 1) 0).grow = true := by
      by_contra hg
      rw [if_neg hg] at hk
      exact hk.2
    rw [if_pos hg] at hk
    have hmv := ratios_of_move (updateRng ω) (KeyLike.split ([] : Spec.Path) 2 1) (move_of_rule _ rng first _ () 0 hg move_allowed.2.1
      (hk.1.trans move_allowed.2.2.1.symm) (hk.2.1.trans move_var.symm) (hk.2.2.trans move_allowed.2.2.2.symm))
    have hz := saved_ratios hi rng () (t := 0) (by decide) next_ratios
    have hex : ∃ tr li, (step (updateRng ω) first ([] : Spec.Path)).ratios = some (tr, li) := by
      have e : (step (updateRng ω) first ([] : Spec.Path)).ratios = first.ratios.map fun _ =>
          (vmap first.leaf_trees.length fun t => (accOf (updateRng ω) first (KeyLike.split ([] : Spec.Path) 2 1) t).2.log_trans_prior,
          vmap first.leaf_trees.length fun t => (accOf (updateRng ω) first (KeyLike.split ([] : Spec.Path) 2 1) t).2.log_likelihood) := by
        simp only [step_eq, sample_trees_eq, sample_sigma]
      have h0 : first.ratios.isSome = true := hi.cfg.ratios
      obtain ⟨x, hx⟩ := Option.isSome_iff_exists.1 h0
      rw [hx] at e
      exact ⟨_, _, e⟩
    obtain ⟨tr, li, hr⟩ := hex
    obtain ⟨e1, e2⟩ := saved_ratios hi (updateRng ω) ([] : Spec.Path) (t := 0) (by decide) hr
    refine ⟨tr, li, 0, hr, ?_, ?_⟩
    · rw [e1, e2, hmv.1, hmv.2]
      have z1 : (accOf rng first () 0).2.log_trans_prior = 0 := hz.1.symm
      have z2 : (accOf rng first () 0).2.log_likelihood = 0 := hz.2.symm
      rw [z1, z2, show (0 + 0 : Binary32) = 0 by decide +kernel]
      exact hasValue_zero
    · rw [neg_zero, ite_self, sub_zero, abs_zero]
  · show (2 : ℝ) ^ 1 * ((4 * (1 : Nat) + 1) / 2 ^ 22) + 1 / 2 ^ 47 + (2 * (0 + 17 * (1 / 2 ^ 10)) + 1 / 2 ^ 22) ≤ 1 / 29
    norm_num

end ExE

end Bartz
