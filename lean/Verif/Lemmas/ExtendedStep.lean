import Verif.Lemmas.Extended
import Verif.Lemmas.Proposal
/-! # A step with real numbers, infinities and NaN -/

set_option autoImplicit false

namespace Bartz
open Jax Spec XReal

theorem half_lift : (half : XReal) = num half := by
  unfold half
  rw [XReal.cast_eq, one_eq, div_num _ (by norm_num)]

theorem ite_lift (c : Prop) [Decidable c] (x y : ℝ) : (if c then num x else num y) = num (if c then x else y) := by
  split_ifs <;> rfl

theorem zipWith2_lift {f : XReal → XReal → XReal} {g : ℝ → ℝ → ℝ} (h : ∀ x y, f (num x) (num y) = num (g x y))
    (a b : List ℝ) : List.zipWith f (lift a) (lift b) = lift (List.zipWith g a b) := by
  rw [List.zipWith_map, lift, List.map_zipWith]
  simp only [h]

theorem zipWithL_lift {α : Type} {f : XReal → α → XReal} {g : ℝ → α → ℝ} (h : ∀ x y, f (num x) y = num (g x y))
    (a : List ℝ) (b : List α) : List.zipWith f (lift a) b = lift (List.zipWith g a b) := by
  rw [List.zipWith_map_left, lift, List.map_zipWith]
  simp only [h]

theorem zipWithR_lift {α : Type} {f : α → XReal → XReal} {g : α → ℝ → ℝ} (h : ∀ x y, f x (num y) = num (g x y))
    (a : List α) (b : List ℝ) : List.zipWith f a (lift b) = lift (List.zipWith g a b) := by
  rw [List.zipWith_map_right, lift, List.map_zipWith]
  simp only [h]

/-- the same state in the larger type, with arbitrary values for the ratios -/
noncomputable def liftState (r : Option (List XReal × List XReal)) (s : State ℝ) : State XReal :=
  { leaf_trees := lift2 s.leaf_trees
    var_trees := s.var_trees
    split_trees := s.split_trees
    resid := lift s.resid
    sigma2 := num s.sigma2
    grow_prop_count := s.grow_prop_count
    grow_acc_count := s.grow_acc_count
    prune_prop_count := s.prune_prop_count
    prune_acc_count := s.prune_acc_count
    p_nonterminal := lift s.p_nonterminal
    p_propose_grow := lift s.p_propose_grow
    sigma2_alpha := num s.sigma2_alpha
    sigma2_beta := num s.sigma2_beta
    max_split := s.max_split
    y := lift s.y
    X := s.X
    leaf_indices := s.leaf_indices
    min_points_per_leaf := s.min_points_per_leaf
    affluence_trees := s.affluence_trees
    resid_batch_size := s.resid_batch_size
    count_batch_size := s.count_batch_size
    ratios := r
    var_bits := s.var_bits
    split_bits := s.split_bits
    idx_bits := s.idx_bits }

theorem eq_liftState {x : State XReal} {s : State ℝ} (h1 : x.leaf_trees = lift2 s.leaf_trees)
    (h2 : x.var_trees = s.var_trees) (h3 : x.split_trees = s.split_trees) (h4 : x.resid = lift s.resid)
    (h5 : x.sigma2 = num s.sigma2) (h6 : x.grow_prop_count = s.grow_prop_count)
    (h7 : x.grow_acc_count = s.grow_acc_count) (h8 : x.prune_prop_count = s.prune_prop_count)
    (h9 : x.prune_acc_count = s.prune_acc_count) (h10 : x.p_nonterminal = lift s.p_nonterminal)
    (h11 : x.p_propose_grow = lift s.p_propose_grow) (h12 : x.sigma2_alpha = num s.sigma2_alpha)
    (h13 : x.sigma2_beta = num s.sigma2_beta) (h14 : x.max_split = s.max_split) (h15 : x.y = lift s.y)
    (h16 : x.X = s.X) (h17 : x.leaf_indices = s.leaf_indices) (h18 : x.min_points_per_leaf = s.min_points_per_leaf)
    (h19 : x.affluence_trees = s.affluence_trees) (h20 : x.resid_batch_size = s.resid_batch_size)
    (h21 : x.count_batch_size = s.count_batch_size) (h22 : x.var_bits = s.var_bits) (h23 : x.split_bits = s.split_bits)
    (h24 : x.idx_bits = s.idx_bits) : x = liftState x.ratios s := by
  cases x
  simp only at *
  unfold liftState
  subst h1 h2 h3 h4 h5 h6 h7 h8 h9 h10 h11 h12 h13 h14 h15 h16 h17 h18 h19 h20 h21 h22 h23 h24
  rfl

/-- the same move in the larger type, with an arbitrary value for the ratio -/
noncomputable def liftMove (q : XReal) (m : Move ℝ) : Move XReal :=
  { allowed := m.allowed
    grow := m.grow
    num_growable := m.num_growable
    node := m.node
    left := m.left
    right := m.right
    partial_ratio := q
    grow_var := m.grow_var
    grow_split := m.grow_split
    var_tree := m.var_tree
    logu := num m.logu }

/-- the ratio is right if the move is allowed -/
def GoodMove (q : XReal) (m : Move ℝ) : Prop :=
  m.allowed = true → q = num m.partial_ratio ∧ 0 < m.partial_ratio

theorem combine_lift {gX : GrowMove XReal} {g : GrowMove ℝ} {pX : PruneMove XReal} {p : PruneMove ℝ} {u l : ℝ}
    (hg : gX.num_growable = g.num_growable ∧ gX.node = g.node ∧ gX.var = g.var ∧ gX.split = g.split ∧
      gX.var_tree = g.var_tree ∧ (g.num_growable ≠ 0 → gX.partial_ratio = num g.partial_ratio ∧ 0 < g.partial_ratio))
    (hp : pX.allowed = p.allowed ∧ pX.node = p.node ∧
      (p.allowed = true → pX.partial_ratio = num p.partial_ratio ∧ 0 < p.partial_ratio))
    (hu : 0 ≤ u) (hl : l < 1) :
    ∃ q, combine_moves gX pX (num u) (num l) = liftMove q (combine_moves g p u l) ∧
      GoodMove q (combine_moves g p u l) := by
  obtain ⟨h1, h2, h3, h4, h5, h6⟩ := hg
  obtain ⟨k1, k2, k3⟩ := hp
  have hpg : (if (decide (g.num_growable ≠ 0) && p.allowed) = true then (half : XReal) else
      if decide (g.num_growable ≠ 0) = true then 1 else 0) =
      num (if (decide (g.num_growable ≠ 0) && p.allowed) = true then half else
      if decide (g.num_growable ≠ 0) = true then 1 else 0) := by
    rw [half_lift, one_eq, zero_eq, ite_lift, ite_lift]
  refine ⟨(combine_moves gX pX (num u) (num l)).partial_ratio, ?_, ?_⟩
  · unfold combine_moves liftMove
    simp only [h1, h2, h3, h4, h5, k1, k2, hpg, ltb_num, neg_num]
    rw [log1p_num (by linarith)]
  · intro hall
    unfold combine_moves at hall ⊢
    simp only [h1, k1, hpg, ltb_num] at hall ⊢
    by_cases hgr : FltFun.ltb u (if (decide (g.num_growable ≠ 0) && p.allowed) = true then half else
      if decide (g.num_growable ≠ 0) = true then 1 else 0) = true
    · rw [if_pos hgr, if_pos hgr]
      apply h6
      intro h0
      simp [h0] at hgr
      linarith
    · rw [if_neg hgr, if_neg hgr]
      apply k3
      rw [Bool.eq_false_iff.2 hgr] at hall
      simpa using hall

section
variable {K : Type} [KeyLike K] {a : InitArgs ℝ} {s : State ℝ} {t : Nat} {key : K} {rngX : Rng K XReal}
  {rng : Rng K ℝ} {r : Option (List XReal × List XReal)}

theorem moveHyp (ha : ValidArgs a) (hs : StateInv a s) (ht : t < a.num_trees) :
    MoveHyp a.p_nonterminal.length (s.split_trees.getD t []) (s.affluence_trees.map fun x => x.getD t [])
      s.p_propose_grow :=
  ⟨(hs.tree t ht).valid, ha.depth_pos, ha.depth_lt, (hs.tree t ht).aff_len, (ppg_real ha hs).1, (ppg_real ha hs).2,
    ppg_le_one ha hs⟩

theorem nonTerm (ha : ValidArgs a) (hp : ∀ x ∈ a.p_nonterminal, x < 1) (hs : StateInv a s) :
    NonTerm a.p_nonterminal.length s.p_nonterminal := by
  have e : s.p_nonterminal = a.p_nonterminal ++ [0] := by rw [hs.cfg.p_nonterminal]; rfl
  refine ⟨by rw [e]; simp, ?_, ?_⟩
  · intro x hx
    rw [e, List.mem_append] at hx
    rcases hx with hx | hx
    · exact hp x hx
    · simp at hx; rw [hx]; norm_num
  · intro i hi
    have hq := ppg_real ha hs
    have e2 : s.p_propose_grow = (tree_depths (2 ^ (s.p_nonterminal.length - 1))).map
        fun d => gather s.p_nonterminal d := by
      rw [hs.cfg.p_propose_grow, hs.cfg.p_nonterminal]
      rfl
    apply hq.2
    rw [e2]
    refine List.mem_map.2 ⟨_, ?_, rfl⟩
    have hlen : (tree_depths (2 ^ (s.p_nonterminal.length - 1))).length = 2 ^ a.p_nonterminal.length := by
      rw [length_tree_depths, e]; simp
    rw [gather_eq_getD (by rw [hlen]; exact hi) 0, List.getD_eq_getElem _ _ (by rw [hlen]; exact hi)]
    exact List.getElem_mem _

theorem moveOf_lift (hr : ∀ k, ExtendsDraws (rngX k) (rng k)) (hl : LawfulRng rng) (ha : ValidArgs a)
    (hp : ∀ x ∈ a.p_nonterminal, x < 1) (hs : StateInv a s) (ht : t < a.num_trees) :
    ∃ q, moveOf rngX (liftState r s) key t = liftMove q (moveOf rng s key t) ∧ GoodMove q (moveOf rng s key t) := by
  have H := moveHyp ha hs ht
  have hn := nonTerm ha hp hs
  unfold moveOf
  have hlen : (liftState r s).leaf_trees.length = s.leaf_trees.length := List.length_map _
  rw [hlen, (hr _).uniform2, (hr _).uniform2]
  refine combine_lift (grow_move_lift hr hl H hn _ _ _ _) (prune_move_lift hr hl H hn _) ?_ ?_
  · simpa using (hl _).uniform2_nonneg 0 t
  · simpa using (hl _).uniform2_lt_one 1 t

/-- the same computations in the larger type, with arbitrary values for the ratios -/
noncomputable def liftWork (q q' : XReal) (w : TreeWork ℝ) : TreeWork XReal :=
  { move := liftMove q w.move
    leaf_indices := w.leaf_indices
    leaf_tree := lift w.leaf_tree
    count_tree := w.count_tree
    counts := w.counts
    log_trans_prior_ratio := q'
    prelkv :=
      { sigma2_left := num w.prelkv.sigma2_left
        sigma2_right := num w.prelkv.sigma2_right
        sigma2_total := num w.prelkv.sigma2_total
        sqrt_term := num w.prelkv.sqrt_term }
    prelf :=
      { mean_factor := lift w.prelf.mean_factor
        centered_leaves := lift w.prelf.centered_leaves } }

/-- the ratio is right if the move is allowed -/
def GoodWork (q' : XReal) (w : TreeWork ℝ) : Prop :=
  (w.move.allowed = true → q' = num w.log_trans_prior_ratio) ∧
  w.prelkv.sigma2_left ≠ 0 ∧ w.prelkv.sigma2_right ≠ 0 ∧ w.prelkv.sigma2_total ≠ 0

omit [KeyLike K] in
theorem precompute_likelihood_terms_lift {n : Nat} {sigma2 : ℝ} (hn : 0 < n) (hs : 0 < sigma2) (c : MoveCounts) :
    precompute_likelihood_terms n (num sigma2) c =
      { sigma2_left := num (precompute_likelihood_terms n sigma2 c).sigma2_left
        sigma2_right := num (precompute_likelihood_terms n sigma2 c).sigma2_right
        sigma2_total := num (precompute_likelihood_terms n sigma2 c).sigma2_total
        sqrt_term := num (precompute_likelihood_terms n sigma2 c).sqrt_term } ∧
    0 < (precompute_likelihood_terms n sigma2 c).sigma2_left ∧
    0 < (precompute_likelihood_terms n sigma2 c).sigma2_right ∧
    0 < (precompute_likelihood_terms n sigma2 c).sigma2_total := by
  have hn' : (0 : ℝ) < n := by exact_mod_cast hn
  have hp : ∀ k : Nat, 0 < sigma2 + (k : ℝ) * (1 / (n : ℝ)) := fun k => by positivity
  refine ⟨?_, hp _, hp _, hp _⟩
  unfold precompute_likelihood_terms
  simp only [XReal.cast_eq, one_eq]
  rw [div_num _ hn'.ne']
  simp only [mul_num, add_num]
  rw [div_num _ (mul_pos (hp _) (hp _)).ne', log_num (div_pos (mul_pos hs (hp _)) (mul_pos (hp _) (hp _))),
    div_num _ (by norm_num)]

omit [KeyLike K] in
theorem precompute_leaf_terms_lift {n : Nat} {sigma2 : ℝ} (hn : 0 < n) (hs : 0 < sigma2) (c : List Nat)
    {z : Nat → XReal} {z' : Nat → ℝ} (hz : ∀ i, z i = num (z' i)) :
    precompute_leaf_terms n c (num sigma2) z =
      { mean_factor := lift (precompute_leaf_terms n c sigma2 z').mean_factor
        centered_leaves := lift (precompute_leaf_terms n c sigma2 z').centered_leaves } := by
  have hn' : (0 : ℝ) < n := by exact_mod_cast hn
  have hp : ∀ k : Nat, 0 < (k : ℝ) / sigma2 + n := fun k => by positivity
  have hv : (c.map fun k : Nat => 1 / ((k : XReal) / num sigma2 + (n : XReal))) =
      c.map fun k : Nat => num (1 / ((k : ℝ) / sigma2 + n)) := by
    apply List.map_congr_left
    intro k _
    simp only [XReal.cast_eq, one_eq]
    rw [div_num _ hs.ne', add_num, div_num _ (hp k).ne']
  unfold precompute_leaf_terms
  rw [hv]
  rw [Prelf.mk.injEq]
  constructor
  · simp only [lift, List.map_map]
    apply List.map_congr_left
    intro k _
    simp only [Function.comp]
    rw [div_num _ hs.ne']
  · apply List.ext_getElem
    · simp
    · intro i h1 h2
      simp only [List.getElem_mapIdx, List.getElem_map, hz]
      rw [sqrt_num (by exact (one_div_pos.2 (hp _)).le), mul_num]

omit [KeyLike K] in
theorem complete_ratio_lift {q : XReal} {m : Move ℝ} (hq : GoodMove q m) (hall : m.allowed = true) (c : MoveCounts)
    (mp : Option Nat) : complete_ratio (liftMove q m) c mp = num (complete_ratio m c mp) := by
  obtain ⟨h1, h2⟩ := hq hall
  have e : compute_p_prune (liftMove q m) c.left c.right mp = num (compute_p_prune m c.left c.right mp) ∧
      0 < compute_p_prune m c.left c.right mp := by
    unfold compute_p_prune
    simp only [half_lift, one_eq, ite_lift]
    refine ⟨rfl, ?_⟩
    unfold half
    split_ifs <;> norm_num
  unfold complete_ratio
  dsimp only
  rw [e.1]
  have : (liftMove q m).partial_ratio = num m.partial_ratio := h1
  rw [this, mul_num, log_num (mul_pos h2 e.2)]

omit [KeyLike K] in
theorem parallel_stage_lift (hr : ∀ k, ExtendsDraws (rngX k) (rng k)) (hnt : 0 < s.leaf_trees.length)
    (hsig : 0 < s.sigma2) {q : XReal} {m : Move ℝ} (hq : GoodMove q m) :
    ∃ q', parallel_stage_tree rngX (liftState r s) key t (liftMove q m) =
        liftWork q q' (parallel_stage_tree rng s key t m) ∧
      GoodWork q' (parallel_stage_tree rng s key t m) := by
  refine ⟨(parallel_stage_tree rngX (liftState r s) key t (liftMove q m)).log_trans_prior_ratio, ?_, ?_⟩
  · have hlen : (liftState r s).leaf_trees.length = s.leaf_trees.length := List.length_map _
    have hleaf : (liftState r s).leaf_trees.getD t [] = lift (s.leaf_trees.getD t []) :=
      List.getD_map (d := []) (f := lift) ..
    have hadapt : ∀ l : List ℝ, adapt_leaf_tree_to_grow_indices (lift l) (liftMove q m) =
        lift (adapt_leaf_tree_to_grow_indices l m) := by
      intro l
      unfold adapt_leaf_tree_to_grow_indices
      simp only [gather_lift, List.length_map]
      have e1 : (liftMove q m).node = m.node := rfl
      have e2 : (liftMove q m).left = m.left := rfl
      have e3 : (liftMove q m).right = m.right := rfl
      have e4 : (liftMove q m).grow = m.grow := rfl
      rw [e1, e2, e3, e4, setDrop_lift, setDrop_lift]
    unfold parallel_stage_tree
    dsimp only
    rw [hlen, hleaf, hadapt]
    have e1 : (liftState r s).sigma2 = num s.sigma2 := rfl
    rw [e1, (precompute_likelihood_terms_lift hnt hsig _).1,
      precompute_leaf_terms_lift hnt hsig _ (fun i => (hr key).normal t i)]
    rfl
  · refine ⟨fun hall => ?_, ?_⟩
    · exact complete_ratio_lift hq hall _ _
    · have := (precompute_likelihood_terms_lift hnt hsig
        (compute_count_tree (apply_grow_to_indices s.idx_bits m (s.leaf_indices.getD t []) s.X) m
          s.count_batch_size).2).2
      exact ⟨this.1.ne', this.2.1.ne', this.2.2.ne'⟩

theorem workOf_lift (hr : ∀ k, ExtendsDraws (rngX k) (rng k)) (hl : LawfulRng rng) (ha : ValidArgs a)
    (hp : ∀ x ∈ a.p_nonterminal, x < 1) (hs : StateInv a s) (hsig : 0 < s.sigma2) (ht : t < a.num_trees) :
    ∃ q q', workOf rngX (liftState r s) key t = liftWork q q' (workOf rng s key t) ∧
      GoodWork q' (workOf rng s key t) := by
  obtain ⟨q, h1, h2⟩ := moveOf_lift (r := r) (key := KeyLike.split key 2 1) hr hl ha hp hs ht
  obtain ⟨q', h3, h4⟩ := parallel_stage_lift (r := r) (key := KeyLike.split key 2 0) (t := t) (s := s) hr
    (by rw [hs.leaf_length]; omega) hsig h2
  refine ⟨q, q', ?_, h4⟩
  unfold workOf
  rw [h1, h3]

/-- the same outcome in the larger type, with an arbitrary value for the ratio -/
noncomputable def liftAcc (q' : XReal) (o : Accepted ℝ) : Accepted XReal :=
  { leaf_tree := lift o.leaf_tree
    acc := o.acc
    to_prune := o.to_prune
    log_trans_prior := q'
    log_likelihood := num o.log_likelihood }

omit [KeyLike K] in
theorem accept_lift {q q' : XReal} {w : TreeWork ℝ} (hw : GoodWork q' w) (b mp : Option Nat) (e : ℝ)
    (resid : List ℝ) :
    accept_move_and_sample_leaves b mp (num e) (lift resid) (liftWork q q' w) =
      (lift (accept_move_and_sample_leaves b mp e resid w).1,
        liftAcc q' (accept_move_and_sample_leaves b mp e resid w).2) := by
  obtain ⟨hq, hl, hr, ht⟩ := hw
  have hlk : ∀ x y z : ℝ, compute_likelihood_ratio (num x) (num y) (num z) (liftWork q q' w).prelkv (num e) =
      num (compute_likelihood_ratio x y z w.prelkv e) := by
    intro x y z
    unfold compute_likelihood_ratio liftWork
    simp only [mul_num]
    rw [div_num _ hl, div_num _ hr, div_num _ ht]
    simp only [add_num, sub_num, mul_num]
  have hacc : ∀ x : ℝ, (w.move.allowed && FltFun.leb (num w.move.logu)
      (if w.move.grow = true then q' + num x else -(q' + num x))) =
      (w.move.allowed && FltFun.leb w.move.logu (if w.move.grow = true then w.log_trans_prior_ratio + x else
        -(w.log_trans_prior_ratio + x))) := by
    intro x
    by_cases hall : w.move.allowed = true
    · rw [hq hall, add_num, neg_num, ite_lift, leb_num]
    · simp only [hall, Bool.false_and]
  unfold accept_move_and_sample_leaves
  have e1 : (liftWork q q' w).leaf_tree = lift w.leaf_tree := rfl
  have e2 : (liftWork q q' w).leaf_indices = w.leaf_indices := rfl
  have e3 : (liftWork q q' w).count_tree = w.count_tree := rfl
  have e4 : (liftWork q q' w).move.node = w.move.node := rfl
  have e5 : (liftWork q q' w).move.left = w.move.left := rfl
  have e6 : (liftWork q q' w).move.right = w.move.right := rfl
  have e7 : (liftWork q q' w).move.grow = w.move.grow := rfl
  have e8 : (liftWork q q' w).move.allowed = w.move.allowed := rfl
  have e9 : (liftWork q q' w).move.logu = num w.move.logu := rfl
  have e10 : (liftWork q q' w).log_trans_prior_ratio = q' := rfl
  have e11 : (liftWork q q' w).counts = w.counts := rfl
  have e12 : (liftWork q q' w).prelf.mean_factor = lift w.prelf.mean_factor := rfl
  have e13 : (liftWork q q' w).prelf.centered_leaves = lift w.prelf.centered_leaves := rfl
  simp only [e1, e2, e3, e4, e5, e6, e7, e8, e9, e10, e11, e12, e13, List.length_map, sum_resid_lift,
    zipWithR_lift (f := fun (c : Nat) v => (c : XReal) * v) (g := fun (c : Nat) v => (c : ℝ) * v)
      (fun x y => mul_num x y),
    zipWith2_lift (f := (· + ·)) (g := (· + ·)) add_num, zipWith2_lift (f := (· * ·)) (g := (· * ·)) mul_num,
    zipWith2_lift (f := (· - ·)) (g := (· - ·)) sub_num, gather_lift, add_num, setDrop_lift, hlk, hacc]
  rw [Prod.mk.injEq]
  refine ⟨?_, ?_⟩
  · exact zipWithL_lift (fun x y => by rw [add_num]) _ _
  · rfl

theorem exp_factor_lift {n : Nat} {sigma2 : ℝ} (hn : 0 < n) (hs : 0 < sigma2) :
    exp_factor n (num sigma2) = num (exp_factor n sigma2) := by
  have hn' : (n : ℝ) ≠ 0 := by exact_mod_cast hn.ne'
  unfold exp_factor
  simp only [XReal.cast_eq, one_eq, mul_num]
  rw [div_num _ hn', div_num _ (by positivity)]

section
variable (hr : ∀ k, ExtendsDraws (rngX k) (rng k)) (hl : LawfulRng rng) (ha : ValidArgs a)
  (hp : ∀ x ∈ a.p_nonterminal, x < 1) (hs : StateInv a s) (hsig : 0 < s.sigma2)
include hr hl ha hp hs hsig

theorem accOf_lift' (ht : t < a.num_trees) (hres : residOf rngX (liftState r s) key t = lift (residOf rng s key t)) :
    ∃ q', accOf rngX (liftState r s) key t = (lift (accOf rng s key t).1, liftAcc q' (accOf rng s key t).2) := by
  obtain ⟨q, q', h1, h2⟩ := workOf_lift (r := r) (key := key) hr hl ha hp hs hsig ht
  refine ⟨q', ?_⟩
  unfold accOf
  have hlen : (liftState r s).leaf_trees.length = s.leaf_trees.length := List.length_map _
  have e1 : (liftState r s).sigma2 = num s.sigma2 := rfl
  rw [hres, h1, hlen, e1, exp_factor_lift (by rw [hs.leaf_length]; omega) hsig]
  exact accept_lift h2 _ _ _ _

theorem residOf_lift (ht : t ≤ a.num_trees) : residOf rngX (liftState r s) key t = lift (residOf rng s key t) := by
  induction t with
  | zero => rw [residOf_zero, residOf_zero]; rfl
  | succ t ih =>
    have hlen : (liftState r s).leaf_trees.length = s.leaf_trees.length := List.length_map _
    rw [residOf_succ _ _ _ (by rw [hlen, hs.leaf_length]; omega), residOf_succ _ _ _ (by rw [hs.leaf_length]; omega)]
    obtain ⟨q', h⟩ := accOf_lift' (r := r) (key := key) hr hl ha hp hs hsig (by omega : t < a.num_trees) (ih (by omega))
    rw [h]

theorem accOf_lift (ht : t < a.num_trees) :
    ∃ q', accOf rngX (liftState r s) key t = (lift (accOf rng s key t).1, liftAcc q' (accOf rng s key t).2) :=
  accOf_lift' hr hl ha hp hs hsig ht (residOf_lift hr hl ha hp hs hsig ht.le)

theorem sample_trees_lift : ∃ r', sample_trees rngX (liftState r s) key = liftState r' (sample_trees rng s key) := by
  refine ⟨(sample_trees rngX (liftState r s) key).ratios, ?_⟩
  have hlen : (liftState r s).leaf_trees.length = s.leaf_trees.length := List.length_map _
  have hmv : ∀ t, t < s.leaf_trees.length → ∃ q, moveOf rngX (liftState r s) (KeyLike.split key 2 1) t =
      liftMove q (moveOf rng s (KeyLike.split key 2 1) t) := by
    intro t ht
    rw [hs.leaf_length] at ht
    obtain ⟨q, h, -⟩ := moveOf_lift (r := r) (key := KeyLike.split key 2 1) hr hl ha hp hs ht
    exact ⟨q, h⟩
  have hwk : ∀ t, t < s.leaf_trees.length → ∃ q q', workOf rngX (liftState r s) key t =
      liftWork q q' (workOf rng s key t) := by
    intro t ht
    rw [hs.leaf_length] at ht
    obtain ⟨q, q', h, -⟩ := workOf_lift (r := r) (key := key) hr hl ha hp hs hsig ht
    exact ⟨q, q', h⟩
  have hac : ∀ t, t < s.leaf_trees.length → ∃ q', accOf rngX (liftState r s) key t =
      (lift (accOf rng s key t).1, liftAcc q' (accOf rng s key t).2) := by
    intro t ht
    rw [hs.leaf_length] at ht
    exact accOf_lift (r := r) (key := key) hr hl ha hp hs hsig ht
  have hres := residOf_lift (r := r) (key := key) hr hl ha hp hs hsig hs.leaf_length.le
  have c2 : ∀ {β : Type} (f : TreeWork XReal → Move XReal → Accepted XReal → β)
      (g : TreeWork ℝ → Move ℝ → Accepted ℝ → β),
      (∀ q1 q2 q3 q4 w m o, f (liftWork q1 q2 w) (liftMove q3 m) (liftAcc q4 o) = g w m o) →
      ∀ t, t < s.leaf_trees.length →
      f (workOf rngX (liftState r s) key t) (moveOf rngX (liftState r s) (KeyLike.split key 2 1) t)
        (accOf rngX (liftState r s) key t).2 =
      g (workOf rng s key t) (moveOf rng s (KeyLike.split key 2 1) t) (accOf rng s key t).2 := by
    intro β f g h t ht
    obtain ⟨q3, e3⟩ := hmv t ht
    obtain ⟨q1, q2, e1⟩ := hwk t ht
    obtain ⟨q4, e4⟩ := hac t ht
    rw [e3, e1, e4]
    exact h q1 q2 q3 q4 _ _ _
  have c3 : ∀ {β : Type} (f : Nat → TreeWork XReal → Move XReal → Accepted XReal → β)
      (g : Nat → TreeWork ℝ → Move ℝ → Accepted ℝ → β),
      (∀ t q1 q2 q3 q4 w m o, f t (liftWork q1 q2 w) (liftMove q3 m) (liftAcc q4 o) = g t w m o) →
      vmap (liftState r s).leaf_trees.length (fun t => f t (workOf rngX (liftState r s) key t)
        (moveOf rngX (liftState r s) (KeyLike.split key 2 1) t) (accOf rngX (liftState r s) key t).2) =
      vmap s.leaf_trees.length (fun t => g t (workOf rng s key t) (moveOf rng s (KeyLike.split key 2 1) t)
        (accOf rng s key t).2) := by
    intro β f g h
    rw [hlen]
    exact vmap_congr fun t ht => c2 (f t) (g t) (h t) t ht
  rw [sample_trees_eq, sample_trees_eq]
  refine eq_liftState ?_ ?_ ?_ ?_ rfl ?_ ?_ ?_ ?_ rfl rfl rfl rfl rfl rfl rfl ?_ rfl ?_ rfl rfl rfl rfl rfl
  · rw [lift2, map_vmap]
    exact c3 (fun _ _ _ o => o.leaf_tree) (fun _ _ _ o => lift o.leaf_tree) fun _ _ _ _ _ _ _ _ => rfl
  · exact c3 (fun _ _ m _ => m.var_tree) (fun _ _ m _ => m.var_tree) fun _ _ _ _ _ _ _ _ => rfl
  · exact c3 (fun t _ m o => apply_moves_to_split_tree s.split_bits (s.split_trees.getD t []) m o.to_prune)
      (fun t _ m o => apply_moves_to_split_tree s.split_bits (s.split_trees.getD t []) m o.to_prune)
      fun _ _ _ _ _ _ _ _ => rfl
  · dsimp only
    rw [hlen, hs.leaf_length]
    exact residOf_lift (r := r) (key := key) hr hl ha hp hs hsig le_rfl
  · exact congrArg countNonzero (c3 (fun _ _ m _ => m.grow) (fun _ _ m _ => m.grow) fun _ _ _ _ _ _ _ _ => rfl)
  · exact congrArg countNonzero (c3 (fun _ _ m o => o.acc && m.grow) (fun _ _ m o => o.acc && m.grow)
      fun _ _ _ _ _ _ _ _ => rfl)
  · exact congrArg countNonzero (c3 (fun _ _ m _ => m.allowed && !m.grow) (fun _ _ m _ => m.allowed && !m.grow)
      fun _ _ _ _ _ _ _ _ => rfl)
  · exact congrArg countNonzero (c3 (fun _ _ m o => o.acc && !m.grow) (fun _ _ m o => o.acc && !m.grow)
      fun _ _ _ _ _ _ _ _ => rfl)
  · exact c3 (fun _ w m o => apply_moves_to_leaf_indices s.idx_bits w.leaf_indices m o.to_prune)
      (fun _ w m o => apply_moves_to_leaf_indices s.idx_bits w.leaf_indices m o.to_prune)
      fun _ _ _ _ _ _ _ _ => rfl
  · dsimp only
    have e1 : (liftState r s).min_points_per_leaf = s.min_points_per_leaf := rfl
    rw [e1]
    cases s.min_points_per_leaf with
    | none => rfl
    | some m =>
      exact congrArg some (c3 (fun _ w _ _ => (w.count_tree.take (s.var_trees.getD 0 []).length).map fun c => decide (c ≥ 2 * m))
        (fun _ w _ _ => (w.count_tree.take (s.var_trees.getD 0 []).length).map fun c => decide (c ≥ 2 * m))
        fun _ _ _ _ _ _ _ _ => rfl)

theorem step_lift (hg : ∀ k x, 0 < x → 0 < (rng k).gamma x) (halpha : 0 < a.sigma2_alpha) :
    ∃ r', step rngX (liftState r s) key = liftState r' (step rng s key) := by
  obtain ⟨r', h⟩ := sample_trees_lift (r := r) (key := KeyLike.split key 2 1) hr hl ha hp hs hsig
  refine ⟨r', ?_⟩
  rw [step_eq, step_eq, h]
  have hal : (sample_trees rng s (KeyLike.split key 2 1)).sigma2_alpha = a.sigma2_alpha := by
    have : (sample_trees rng s (KeyLike.split key 2 1)).sigma2_alpha = s.sigma2_alpha := rfl
    rw [this, hs.cfg.sigma2_alpha]
  generalize sample_trees rng s (KeyLike.split key 2 1) = s' at hal ⊢
  unfold sample_sigma
  have e : (liftState r' s').resid.map (fun r => r * r) = lift (s'.resid.map fun r => r * r) := by
    simp only [liftState, lift, List.map_map]
    exact List.map_congr_left fun x _ => mul_num x x
  have hlen : (liftState r' s').resid.length = s'.resid.length := List.length_map _
  have e1 : (liftState r' s').sigma2_alpha = num s'.sigma2_alpha := rfl
  have e2 : (liftState r' s').sigma2_beta = num s'.sigma2_beta := rfl
  simp only [e, sum_lift, hlen, e1, e2, XReal.cast_eq]
  rw [div_num _ (by norm_num), div_num _ (by norm_num), add_num, add_num, (hr _).gamma, div_num _ (hg _ _ ?_).ne']
  · rfl
  · rw [hal]; positivity

end

end
end Bartz
