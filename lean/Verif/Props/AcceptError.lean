import Verif.Lemmas.AcceptTrans
/-!
# Property C93: rounding errors of the Metropolis-Hastings ratio and of the decision, in single precision
-/

set_option autoImplicit false

namespace Bartz
open Jax Spec

theorem le_iff_of_gap {x y x' y' e f : ℝ} (hx : |x - x'| ≤ e) (hy : |y - y'| ≤ f) (h : e + f < |x' - y'|) : x ≤ y ↔ x' ≤ y' := by
  have h1 := abs_le.1 hx
  have h2 := abs_le.1 hy
  constructor
  · intro hle
    by_contra hc
    rw [abs_of_pos (by linarith)] at h
    linarith
  · intro hle
    rw [abs_of_nonpos (by linarith)] at h
    linarith

section
variable {K : Type} [KeyLike K] [P : Binary32.Platform] {a : InitArgs Binary32} {steps : Nat} {rng : Nat → Rng K Binary32}
  {key : Nat → K} {s : Nat → State Binary32}

theorem acc_iff32 (r : Rng K Binary32) (s : State Binary32) (k : K) (t : Nat) :
    (accOf r s k t).2.acc = true ↔
      (moveOf r s (KeyLike.split k 2 1) t).allowed = true ∧
      Binary32.le (moveOf r s (KeyLike.split k 2 1) t).logu
        (if (moveOf r s (KeyLike.split k 2 1) t).grow = true then
          (accOf r s k t).2.log_trans_prior + (accOf r s k t).2.log_likelihood else
          -((accOf r s k t).2.log_trans_prior + (accOf r s k t).2.log_likelihood)) = true ∧
      ∀ m, s.min_points_per_leaf = some m → m ≤ (workOf r s k t).counts.left ∧ m ≤ (workOf r s k t).counts.right := by
  rw [accOf_acc]
  dsimp only
  generalize (accOf r s k t).2.log_trans_prior + (accOf r s k t).2.log_likelihood = x
  generalize (moveOf r s (KeyLike.split k 2 1) t).logu = lu
  change (match s.min_points_per_leaf with
    | none => (moveOf r s (KeyLike.split k 2 1) t).allowed && Binary32.le lu _
    | some m => (moveOf r s (KeyLike.split k 2 1) t).allowed && Binary32.le lu _ && _ && _) = true ↔ _
  generalize Binary32.le lu _ = b
  cases hm : s.min_points_per_leaf with
  | none => simp
  | some m => simp [and_assoc]

theorem saved_ratios {s : State Binary32} (hi : StateInv a s) (r : Rng K Binary32) (key : K) {t : Nat} (ht : t < a.num_trees)
    {trans lik : List Binary32} (h : (step r s key).ratios = some (trans, lik)) :
    trans.getD t 0 = (accOf r s (KeyLike.split key 2 1) t).2.log_trans_prior ∧
      lik.getD t 0 = (accOf r s (KeyLike.split key 2 1) t).2.log_likelihood := by
  have e : (step r s key).ratios = s.ratios.map fun _ =>
      (vmap s.leaf_trees.length fun t => (accOf r s (KeyLike.split key 2 1) t).2.log_trans_prior,
      vmap s.leaf_trees.length fun t => (accOf r s (KeyLike.split key 2 1) t).2.log_likelihood) := by
    simp only [step_eq, sample_trees_eq, sample_sigma]
  rw [e] at h
  cases hsr : s.ratios with
  | none => rw [hsr] at h; simp at h
  | some r0 =>
    rw [hsr] at h
    simp only [Option.map_some, Option.some.injEq, Prod.mk.injEq] at h
    rw [← h.1, ← h.2, getD_vmap (by rw [hi.leaf_length]; exact ht), getD_vmap (by rw [hi.leaf_length]; exact ht)]
    exact ⟨rfl, rfl⟩

theorem moves_step {s : State Binary32} (hi : StateInv a s) (r : Rng K Binary32) (key : K) {t : Nat} (ht : t < a.num_trees)
    {mv : Move Binary32} (h : (sample_moves r s key)[t]? = some mv) : mv = moveOf r s key t := by
  rw [sample_moves_eq, vmap, List.getElem?_map, List.getElem?_range (by rw [hi.leaf_length]; exact ht)] at h
  simpa using h.symm

theorem moves_picks (ha : ValidArgs a) (hs : Run32 a steps rng key s)
    (hp : ∀ k, k < steps → ∀ t, t < a.num_trees → Picks (rng k) (s k) (KeyLike.split (KeyLike.split (key k) 2 1) 2 1) t) :
    ∀ k, k < steps → StateInv a (s k) → ∀ t, t < a.num_trees →
      MoveOK (cfgOf a) ((s k).var_trees.getD t []) ((s k).split_trees.getD t [])
      ((s k).affluence_trees.map fun x => x.getD t [])
      (moveOf (rng k) (s k) (KeyLike.split (KeyLike.split (key k) 2 1) 2 1) t) := by
  intro k hk hi t ht
  have hrng : LawfulRng (rng k) := fun k' => JaxDraws.lawful (hs.draws k hk k')
  refine moveOf_ok_of ha hi (rng k) hrng _ ht (hp k hk t ht) ?_
  rw [Binary32.addLaws.lt_iff _ _ ((hrng _).uniform2_nonneg _ _) Binary32.addLaws.zero_le_zero,
    (hrng _).uniform2_nonneg]
  rfl

/-- **C93**, the likelihood: in single precision, with logarithms of accuracy `δ`, in each step in which
`choose_leaf` chose growable leaves up to then (see C80), the log likelihood ratio saved for a possible move of tree `t`
differs from the one calculated with exact arithmetic from the data, the error variance, the values of the trees updated before in the
step, and those of the trees updated after, at most by `ratioBound`. `L` and `R` are the residuals with respect to the other
trees in the leaves left and right of the decision node considered. -/
theorem C93_likelihood {δ : ℝ} (hP : LogError P δ) (hδ : 0 ≤ δ) (hδ' : δ ≤ 1 / 8) (ha : ValidArgs a) (hs : Run32 a steps rng key s)
    (hp : ∀ k, k < steps → ∀ t, t < a.num_trees → Picks (rng k) (s k) (KeyLike.split (KeyLike.split (key k) 2 1) 2 1) t)
    {y : Nat → ℝ} {v : Nat → Nat → Nat → ℝ} {Y Λ : ℝ} (hY : 0 ≤ Y)
    (hy : ∀ j, j < a.y.length → HasValue (a.y.getD j 0) (y j) ∧ |y j| ≤ Y)
    (hv : ∀ k, k ≤ steps → ∀ t, t < a.num_trees → ∀ j, j < a.y.length →
      HasValue (leafAt a (s k) t j) (v k t j) ∧ |v k t j| ≤ Λ)
    (hΛ : 1 / 2 ^ 42 ≤ Λ) (hN : a.y.length ≤ 2 ^ 18) (hn : a.num_trees ≤ 2 ^ 24)
    (hmax : (a.y.length + 1) * ((Y + (a.num_trees + 3) * Λ) * (1 + 1 / 2 ^ 24) ^ (steps * a.num_trees)) ≤ 2 ^ 30)
    {k : Nat} (hk : k < steps) (hQ : (1 + 1 / 2 ^ 24 : ℝ) ^ ((k + 1) * a.num_trees) ≤ 17 / 16) {t : Nat} (ht : t < a.num_trees)
    (hfin : ∀ x ∈ (s k).leaf_trees.getD t [], ∃ r, HasValue x r)
    {σ : ℝ} (hσ : HasValue (s k).sigma2 σ) (hσ1 : 1 / 2 ^ 30 ≤ σ) (hσ2 : σ ≤ 2 ^ 30) (mv : Move Binary32)
    (hmv : (sample_moves (rng k) (s k) (KeyLike.split (KeyLike.split (key k) 2 1) 2 1))[t]? = some mv)
    (hall : mv.allowed = true) (hsplit : mv.grow = true → 1 ≤ mv.grow_split)
    {trans lik : List Binary32} (hrat : (s (k + 1)).ratios = some (trans, lik)) :
    let z := fun i => otherTrees a.num_trees t (y i) (fun u => v k u i) (fun u => v (k + 1) u i)
    let L := sideData a ((s k).split_trees.getD t []) mv z (2 * mv.node)
    let R := sideData a ((s k).split_trees.getD t []) mv z (2 * mv.node + 1)
    ∃ r, HasValue (lik.getD t 0) r ∧ |r - logLikRatio a.num_trees σ L R| ≤
      ratioBound δ (Y + (a.num_trees + 3) * Λ) ((1 + 1 / 2 ^ 24) ^ ((k + 1) * a.num_trees)) σ (L.length + R.length) := by
  intro z L R
  have hm := moves_picks ha hs hp
  have hΛ0 : 0 < Λ := lt_of_lt_of_le (by positivity) hΛ
  have hpow : (Y + (a.num_trees + 3) * Λ) * (1 + 1 / 2 ^ 24) ^ (steps * a.num_trees) ≤ 2 ^ 118 := by
    have h0 : 0 ≤ (Y + (a.num_trees + 3) * Λ) * (1 + 1 / 2 ^ 24) ^ (steps * a.num_trees) := by positivity
    have hN0 : (0 : ℝ) ≤ a.y.length := Nat.cast_nonneg _
    exact (le_mul_of_one_le_left h0 (by linarith)).trans (hmax.trans (by norm_num))
  obtain ⟨hi, -⟩ := resid_run ha hs hm hy hv ((by norm_num : (1 : ℝ) / 2 ^ 126 ≤ 1 / 2 ^ 42).trans hΛ) rfl hpow (by positivity) hk ht rfl
  rw [hs.step k hk] at hrat
  rw [(saved_ratios hi (rng k) (key k) ht hrat).2]
  exact lik_run hP hδ hδ' ha hs hm hy hv hΛ hY rfl hN hn hmax hk ht rfl hQ (moves_step hi _ _ ht hmv) hall hsplit hfin hσ hσ1 hσ2 rfl rfl rfl

/-- **C93**, the decision: in the conditions of `C93_likelihood`, let `u` be the uniform variate used to decide, and
`score` the log of the Metropolis-Hastings ratio of the move (or of its opposite if pruning) obtained summing in exact
arithmetic the exact log likelihood ratio and the log ratio `p` of the prior and transition probabilities saved. Unless
`log(1 - u)` differs from `score` by less than the errors, the move is accepted if and only if it would be with exact arithmetic. -/
theorem C93_accept {δ : ℝ} (hP : LogError P δ) (hδ : 0 ≤ δ) (hδ' : δ ≤ 1 / 8) (ha : ValidArgs a) (hs : Run32 a steps rng key s)
    (hp : ∀ k, k < steps → ∀ t, t < a.num_trees → Picks (rng k) (s k) (KeyLike.split (KeyLike.split (key k) 2 1) 2 1) t)
    {y : Nat → ℝ} {v : Nat → Nat → Nat → ℝ} {Y Λ : ℝ} (hY : 0 ≤ Y)
    (hy : ∀ j, j < a.y.length → HasValue (a.y.getD j 0) (y j) ∧ |y j| ≤ Y)
    (hv : ∀ k, k ≤ steps → ∀ t, t < a.num_trees → ∀ j, j < a.y.length →
      HasValue (leafAt a (s k) t j) (v k t j) ∧ |v k t j| ≤ Λ)
    (hΛ : 1 / 2 ^ 42 ≤ Λ) (hN : a.y.length ≤ 2 ^ 18) (hn : a.num_trees ≤ 2 ^ 24)
    (hmax : (a.y.length + 1) * ((Y + (a.num_trees + 3) * Λ) * (1 + 1 / 2 ^ 24) ^ (steps * a.num_trees)) ≤ 2 ^ 30)
    {k : Nat} (hk : k < steps) (hQ : (1 + 1 / 2 ^ 24 : ℝ) ^ ((k + 1) * a.num_trees) ≤ 17 / 16) {t : Nat} (ht : t < a.num_trees)
    (hfin : ∀ x ∈ (s k).leaf_trees.getD t [], ∃ r, HasValue x r)
    {σ : ℝ} (hσ : HasValue (s k).sigma2 σ) (hσ1 : 1 / 2 ^ 30 ≤ σ) (hσ2 : σ ≤ 2 ^ 30) (mv : Move Binary32)
    (hmv : (sample_moves (rng k) (s k) (KeyLike.split (KeyLike.split (key k) 2 1) 2 1))[t]? = some mv)
    (hall : mv.allowed = true) (hsplit : mv.grow = true → 1 ≤ mv.grow_split)
    {trans lik : List Binary32} (hrat : (s (k + 1)).ratios = some (trans, lik)) {p : ℝ} (htr : HasValue (trans.getD t 0) p)
    {u : Fin (2 ^ 23)} (hu : (rng k (KeyLike.split (KeyLike.split (KeyLike.split (key k) 2 1) 2 1) (1 + a.num_trees) 0)).uniform2 1 t =
      Binary32.uniform u 1) :
    let z := fun i => otherTrees a.num_trees t (y i) (fun u => v k u i) (fun u => v (k + 1) u i)
    let L := sideData a ((s k).split_trees.getD t []) mv z (2 * mv.node)
    let R := sideData a ((s k).split_trees.getD t []) mv z (2 * mv.node + 1)
    let ℓ := logLikRatio a.num_trees σ L R
    let ε := ratioBound δ (Y + (a.num_trees + 3) * Λ) ((1 + 1 / 2 ^ 24) ^ ((k + 1) * a.num_trees)) σ (L.length + R.length)
    let score := if mv.grow = true then p + ℓ else -(p + ℓ)
    |p| + |ℓ| + ε ≤ 2 ^ 127 →
    17 * δ + 2 * ε + (|p| + |ℓ|) / 2 ^ 24 < |Real.log (1 - u.val / 2 ^ 23) - score| →
    (at0 ((s (k + 1)).split_trees.getD t []) mv.node ≠ at0 ((s k).split_trees.getD t []) mv.node ↔
      Real.log (1 - u.val / 2 ^ 23) ≤ score ∧ ∀ m, a.min_points_per_leaf = some m → m ≤ L.length ∧ m ≤ R.length) := by
  intro z L R ℓ ε score hbig hgap
  obtain ⟨l, hl, hl'⟩ := C93_likelihood hP hδ hδ' ha hs hp hY hy hv hΛ hN hn hmax hk hQ ht hfin hσ hσ1 hσ2 mv hmv hall hsplit hrat
  change |l - ℓ| ≤ ε at hl'
  have hm := moves_picks ha hs hp
  have hΛ0 : 0 < Λ := lt_of_lt_of_le (by positivity) hΛ
  have hpow : (Y + (a.num_trees + 3) * Λ) * (1 + 1 / 2 ^ 24) ^ (steps * a.num_trees) ≤ 2 ^ 118 := by
    have h0 : 0 ≤ (Y + (a.num_trees + 3) * Λ) * (1 + 1 / 2 ^ 24) ^ (steps * a.num_trees) := by positivity
    have hN0 : (0 : ℝ) ≤ a.y.length := Nat.cast_nonneg _
    exact (le_mul_of_one_le_left h0 (by linarith)).trans (hmax.trans (by norm_num))
  obtain ⟨hi, -⟩ := resid_run ha hs hm hy hv ((by norm_num : (1 : ℝ) / 2 ^ 126 ≤ 1 / 2 ^ 42).trans hΛ) rfl hpow (by positivity) hk ht rfl
  have hok := hm k hk hi t ht
  have hmv' := moves_step hi _ _ ht hmv
  have hT := hi.tree t ht
  rw [hs.step k hk] at hrat
  obtain ⟨er1, er2⟩ := saved_ratios hi (rng k) (key k) ht hrat
  rw [er1] at htr
  rw [er2] at hl
  -- the ratio
  have hε0 : 0 ≤ ε := (abs_nonneg _).trans hl'
  obtain ⟨w, hw, hw'⟩ := add_near htr hl (x := p) (e := 0) (by simp) hl' le_rfl (le_refl |ℓ|) (by rw [add_zero]; exact hbig)
  have hwE : |w - (p + ℓ)| ≤ 2 * ε + (|p| + |ℓ|) / 2 ^ 24 := by
    refine hw'.trans ?_
    have e1 : (|p| + |ℓ| + 0 + ε) / 2 ^ 24 = (|p| + |ℓ|) / 2 ^ 24 + ε / 2 ^ 24 := by ring
    have e2 : ε / 2 ^ 24 ≤ ε := div_le_self hε0 (by norm_num)
    rw [e1]
    linarith
  obtain ⟨lu, hlu, hlu'⟩ := logu_error hP hδ u
  have hsc : ∃ w', HasValue (if mv.grow = true then (accOf (rng k) (s k) (KeyLike.split (key k) 2 1) t).2.log_trans_prior +
      (accOf (rng k) (s k) (KeyLike.split (key k) 2 1) t).2.log_likelihood else
      -((accOf (rng k) (s k) (KeyLike.split (key k) 2 1) t).2.log_trans_prior +
      (accOf (rng k) (s k) (KeyLike.split (key k) 2 1) t).2.log_likelihood)) w' ∧ |w' - score| ≤ 2 * ε + (|p| + |ℓ|) / 2 ^ 24 := by
    show ∃ w', _ ∧ |w' - (if mv.grow = true then p + ℓ else -(p + ℓ))| ≤ _
    cases mv.grow with
    | true => simp only [if_true]; exact ⟨w, hw, hwE⟩
    | false =>
      simp only [Bool.false_eq_true, if_false]
      refine ⟨-w, hasValue_neg hw, ?_⟩
      rw [neg_sub_neg, abs_sub_comm]
      exact hwE
  obtain ⟨w', hw1, hw2⟩ := hsc
  have hlogu : HasValue mv.logu lu := by
    have : mv.logu = Binary32.Platform.log1p (-((rng k (KeyLike.split (KeyLike.split (KeyLike.split (key k) 2 1) 2 1)
        (1 + (s k).leaf_trees.length) 0)).uniform2 1 t)) := by rw [hmv']; rfl
    rw [this, hi.leaf_length, hu]
    exact hlu
  have hcmp : Binary32.le mv.logu (if mv.grow = true then (accOf (rng k) (s k) (KeyLike.split (key k) 2 1) t).2.log_trans_prior +
      (accOf (rng k) (s k) (KeyLike.split (key k) 2 1) t).2.log_likelihood else
      -((accOf (rng k) (s k) (KeyLike.split (key k) 2 1) t).2.log_trans_prior +
      (accOf (rng k) (s k) (KeyLike.split (key k) 2 1) t).2.log_likelihood)) = true ↔ Real.log (1 - u.val / 2 ^ 23) ≤ score := by
    rw [le_iff_value hlogu hw1]
    exact le_iff_of_gap hlu' hw2 (by rw [← add_assoc]; exact hgap)
  -- the counts
  have hp' : 2 ^ (a.p_nonterminal.length + 1) = 2 * 2 ^ a.p_nonterminal.length := by rw [pow_succ]; omega
  have hnode : mv.node < 2 ^ a.p_nonterminal.length := by
    rw [hmv'] at hall ⊢; exact allowed_node_lt hT hok hall
  obtain ⟨-, ll⟩ := leafData_stats ha hi (rng k) (KeyLike.split (key k) 2 1) ht hok (by rw [← hmv']; exact hsplit) z (2 * mv.node)
  obtain ⟨-, lr⟩ := leafData_stats ha hi (rng k) (KeyLike.split (key k) 2 1) ht hok (by rw [← hmv']; exact hsplit) z (2 * mv.node + 1)
  have hcw := counts_work_of (rng k) (KeyLike.split (key k) 2 1) hok (by rw [← hmv']; exact hnode)
  rw [← hmv', hi.cfg.X] at ll lr
  rw [← hmv', count_eq_card, count_eq_card, length_gidx ha hi (rng k) (KeyLike.split (key k) 2 1) ht, ← ll, ← lr] at hcw
  have hacc : (accOf (rng k) (s k) (KeyLike.split (key k) 2 1) t).2.acc = true ↔ Real.log (1 - u.val / 2 ^ 23) ≤ score ∧
      ∀ m, a.min_points_per_leaf = some m → m ≤ L.length ∧ m ≤ R.length := by
    rw [acc_iff32, ← hmv', hi.cfg.min_points_per_leaf, hcw.1, hcw.2.1, hcmp]
    exact ⟨fun h => h.2, fun h => ⟨hall, h⟩⟩
  rw [← hacc]
  have e4 : (s (k + 1)).split_trees.getD t [] = apply_moves_to_split_tree (cfgOf a).split_bits ((s k).split_trees.getD t [])
      (moveOf (rng k) (s k) (KeyLike.split (KeyLike.split (key k) 2 1) 2 1) t)
      (accOf (rng k) (s k) (KeyLike.split (key k) 2 1) t).2.to_prune := by
    rw [hs.step k hk, step_eq, sample_trees_eq]
    simp only [sample_sigma, hi.leaf_length]
    rw [getD_vmap ht, hi.cfg.split_bits]
  rw [← hmv'] at hok
  rw [e4, accOf_to_prune, ← hmv', split_final (cfgOf_ok ha) hok]
  generalize (accOf (rng k) (s k) (KeyLike.split (key k) 2 1) t).2.acc = acc
  cases acc with
  | false => simp
  | true =>
    simp only [if_true, iff_true]
    cases hgr : mv.grow with
    | false =>
      have hpn := hok.prune_node hgr hall
      rw [if_neg (by simp), at0_prune hT.valid hpn, if_pos rfl]
      exact fun h0 => hpn.1.2 h0.symm
    | true =>
      have hgl := hok.grow_leaf hgr
      rw [if_pos rfl, at0_grow hT.valid hgl.2.1, if_pos rfl, show at0 ((s k).split_trees.getD t []) mv.node = 0
        from hgl.1.2]
      have := hsplit hgr
      omega

/-- **C93**, the prior and the transition probabilities: the log ratio saved for a move has error at most
`20 / 2 ** 24 + δ (2 + |log ratio|)`, given the probability `π` to choose the leaf, the number `m` of prunable nodes, the
probability `p` that the node is nonterminal, and the probability `p'` that its children are. -/
theorem C93_trans {δ : ℝ} (hP : LogError P δ) (hδ : 0 ≤ δ) {mv : Move Binary32} {c : Binary32} {m : Nat} {p_nonterminal : List Binary32}
    (hmv : mv.partial_ratio = compute_partial_ratio c m p_nonterminal mv.node) (hnode : mv.node < 2 ^ (p_nonterminal.length - 1))
    {π p p' : ℝ} (hπ : HasValue c π) (hpn : HasValue (gather p_nonterminal (Nat.log2 mv.node)) p)
    (hpn' : HasValue (gather p_nonterminal (Nat.log2 mv.node + 1)) p') (h1 : 1 / 2 ^ 30 ≤ π) (h2 : π ≤ 1) (h3 : 1 ≤ m) (h4 : m ≤ 2 ^ 20)
    (h5 : 1 / 2 ^ 30 ≤ p) (h6 : p ≤ 1 - 1 / 2 ^ 24) (h7 : 0 ≤ p') (h8 : p' ≤ 1 - 1 / 2 ^ 24) (counts : MoveCounts) (mp : Option Nat)
    {g : ℝ} (hg : HasValue (compute_p_prune mv counts.left counts.right mp) g) :
    let ratio := (1 - p') * (1 - p') * p / (1 - p) / ((if mv.node = 1 then 1 else 1 / 2) * π * m) * g
    ∃ x, HasValue (complete_ratio mv counts mp) x ∧ |x - Real.log ratio| ≤ 20 / 2 ^ 24 + δ * (2 + |Real.log ratio|) := by
  intro ratio
  have hd : gather (tree_depths (2 ^ (p_nonterminal.length - 1))) mv.node = Nat.log2 mv.node := by
    rw [gather_eq_getD (by rw [length_tree_depths]; exact hnode) 0, tree_depths_getD hnode]
  obtain ⟨a1, a2, a3⟩ := partial_ratio_approx hpn hpn' h5 h6 h7 h8 (approx_exact hπ (le_trans (by positivity) h1)) (by norm_num) h1 h2 h3 h4 (decide (mv.node ≠ 1))
  rw [compute_partial_ratio_eq, hd] at hmv
  rw [← hmv] at a1
  have hg' : g = 1 / 2 ∨ g = 1 := by
    rcases compute_p_prune_value mv counts.left counts.right mp with h | h
    · exact Or.inl (HasValue.unique hg h)
    · exact Or.inr (HasValue.unique hg h)
  have e : (if decide (mv.node ≠ 1) = true then (1 : ℝ) / 2 else 1) = if mv.node = 1 then 1 else 1 / 2 := by
    by_cases h : mv.node = 1 <;> simp [h]
  rw [e] at a1 a2 a3
  have h20 : ((0 : Nat) + 10 : ℝ) / 2 ^ 23 = 20 / 2 ^ 24 := by norm_num
  rw [← h20]
  exact log_ratio_error hP hδ a1 (by norm_num) a2 a3 hg hg'

/-- **C93**, probability: if the log ratio has an error at most `b` with respect to `ℓ`, then the decision differs from the one in exact
arithmetic with probability at most `2 (b + 17 δ) + 2 ** -23`, if the 23 random bits with which JAX makes the uniform
variate have uniform distribution. -/
theorem C93_probability {δ : ℝ} (hP : LogError P δ) (hδ : 0 ≤ δ) {ratio : Binary32} {ρ ℓ b : ℝ} (hr : HasValue ratio ρ)
    (hb : |ρ - ℓ| ≤ b) :
    bitsProb (fun k => ¬ (FltFun.leb (FltFun.log1p (-(Binary32.uniform k 1))) ratio = true ↔ Real.log (1 - k.val / 2 ^ 23) ≤ ℓ)) ≤
      2 * (b + 17 * δ) + 1 / 2 ^ 23 := by
  have hb0 : 0 ≤ b := (abs_nonneg _).trans hb
  refine bits_near (ℓ := ℓ) (by positivity) fun k hk => ?_
  obtain ⟨r, h1, h2⟩ := logu_error hP hδ k
  have h3 : (FltFun.leb (FltFun.log1p (-(Binary32.uniform k 1))) ratio = true ↔ r ≤ ρ) := le_iff_value h1 hr
  rw [h3] at hk
  by_contra hc
  apply hk
  rw [not_le] at hc
  exact le_iff_of_gap h2 hb (by rw [add_comm]; exact hc)

end

/-! ### Examples -/

namespace ExE
open scoped ExS

/-- a non-negative real number has a close number in single precision -/
theorem exists_near_nonneg (x : ℝ) (h0 : 0 ≤ x) (hx : x ≤ 2 ^ 7) : ∃ X r, HasValue X r ∧ |r - x| ≤ 1 / 2 ^ 10 := by
  have h2 := Nat.floor_le (show 0 ≤ x * 2 ^ 16 by positivity)
  have h3 := Nat.lt_floor_add_one (x * 2 ^ 16)
  generalize ⌊x * 2 ^ 16⌋₊ = n at h2 h3
  have h4 : n ≤ 2 ^ 23 := by
    have h : (n : ℝ) ≤ ((2 ^ 23 : Nat) : ℝ) := by
      refine h2.trans ?_
      push_cast
      linarith
    exact_mod_cast h
  rcases Nat.eq_zero_or_pos n with h5 | h5
  · refine ⟨0, 0, hasValue_zero, ?_⟩
    rw [h5, Nat.cast_zero, zero_add] at h3
    rw [zero_sub, abs_neg, abs_of_nonneg h0]
    linarith
  · have hN1 : (1 : ℝ) ≤ n := by exact_mod_cast h5
    have hN2 : (n : ℝ) ≤ 2 ^ 23 := by exact_mod_cast h4
    have hc : ((2 ^ 16 : Nat) : ℝ) = 2 ^ 16 := by norm_num
    have h := approx_natCast (n := 2 ^ 16) (by norm_num)
    rw [hc] at h
    obtain ⟨r, h6, h7⟩ := (approx_natCast (n := n) (h4.trans (by norm_num))).div h (by norm_num) (by positivity)
      (by linarith) (by linarith)
    refine ⟨_, r, h6, ?_⟩
    have h8 := abs_le.1 (h7.error (by norm_num))
    have h9 : (n : ℝ) / 2 ^ 16 * (((0 + 0 + 1 : Nat) + 1) / 2 ^ 24) ≤ 1 / 2 ^ 16 := by
      push_cast
      linarith
    rw [abs_le]
    constructor <;> linarith [h8.1, h8.2]

/-- a real number has a close number in single precision -/
theorem exists_near (x : ℝ) (hx : |x| ≤ 2 ^ 7) : ∃ X r, HasValue X r ∧ |r - x| ≤ 1 / 2 ^ 10 := by
  obtain ⟨X, r, h1, h2⟩ := exists_near_nonneg |x| (abs_nonneg x) hx
  rcases abs_choice x with h | h
  · rw [h] at h2
    exact ⟨X, r, h1, h2⟩
  · rw [h] at h2
    refine ⟨-X, -r, hasValue_neg h1, ?_⟩
    rw [← abs_neg]
    convert h2 using 2
    ring

theorem exists_log (x : Binary32) : ∃ X, ∀ v, HasValue x v → 1 / 2 ^ 126 ≤ v → ∃ r, HasValue X r ∧ |r - Real.log v| ≤ 1 / 2 ^ 10 := by
  by_cases h : ∃ v, HasValue x v ∧ 1 / 2 ^ 126 ≤ v
  · obtain ⟨v, h1, h2⟩ := h
    have hv : 0 < v := lt_of_lt_of_le (by positivity) h2
    have h3 : v ≤ 2 ^ 128 := by
      obtain ⟨n, b, -, -, rfl⟩ := h1
      exact toReal_lt
    have hl : |Real.log v| ≤ 2 ^ 7 := by
      have l2 := Real.log_two_lt_d9
      have l0 := Real.log_pos (show (1 : ℝ) < 2 by norm_num)
      have a1 := Real.log_le_log hv h3
      have a2 := Real.log_le_log (by positivity) h2
      rw [one_div, Real.log_inv, Real.log_pow] at a2
      rw [Real.log_pow] at a1
      push_cast at a1 a2
      rw [abs_le]
      constructor <;> linarith
    obtain ⟨X, r, h4, h5⟩ := exists_near _ hl
    refine ⟨X, fun w hw _ => ?_⟩
    rw [HasValue.unique hw h1]
    exact ⟨r, h4, h5⟩
  · exact ⟨0, fun v h1 h2 => absurd ⟨v, h1, h2⟩ h⟩

theorem exists_log1p (x : Binary32) : ∃ X, ∀ v, HasValue x v → -1 < v → v ≤ 0 →
    ∃ r, HasValue X r ∧ |r - Real.log (1 + v)| ≤ 1 / 2 ^ 10 := by
  by_cases h : ∃ v, HasValue x v ∧ -1 < v ∧ v ≤ 0
  · obtain ⟨v, h1, h2, h3⟩ := h
    have hv : 1 / 2 ^ 149 ≤ 1 + v := by
      obtain ⟨n, b, -, -, rfl⟩ := h1
      unfold toReal at h2 ⊢
      rw [← sub_pos, sub_neg_eq_add, ← div_self (show (2 : ℝ) ^ 149 ≠ 0 by positivity), ← add_div, div_pos_iff_of_pos_right (by positivity)] at h2
      have h4 : (0 : Int) < Binary32.value n b + 2 ^ 149 := by exact_mod_cast h2
      have h5 : (1 : Int) ≤ Binary32.value n b + 2 ^ 149 := h4
      have h6 : (1 : ℝ) ≤ (Binary32.value n b : ℝ) + 2 ^ 149 := by exact_mod_cast h5
      rw [← div_self (show (2 : ℝ) ^ 149 ≠ 0 by positivity), ← add_div, div_self (show (2 : ℝ) ^ 149 ≠ 0 by positivity), add_comm]
      exact div_le_div_of_nonneg_right h6 (by positivity)
    have hl : |Real.log (1 + v)| ≤ 2 ^ 7 := by
      have l2 := Real.log_two_lt_d9
      have a1 := Real.log_le_log (show 0 < 1 + v by linarith) (show 1 + v ≤ 1 by linarith)
      have a2 := Real.log_le_log (by positivity) hv
      rw [one_div, Real.log_inv, Real.log_pow] at a2
      rw [Real.log_one] at a1
      push_cast at a2
      rw [abs_le]
      constructor <;> linarith
    obtain ⟨X, r, h4, h5⟩ := exists_near _ hl
    refine ⟨X, fun w hw _ _ => ?_⟩
    rw [HasValue.unique hw h1]
    exact ⟨r, h4, h5⟩
  · exact ⟨0, fun v h1 h2 h3 => absurd ⟨v, h1, h2, h3⟩ h⟩

/-- minus one half -/
def mhalf : Binary32 := .num true ⟨0x3f000000, by decide⟩
/-- minus the logarithm of 2, rounded -/
def mlog2 : Binary32 := .num true ⟨0x3f317218, by decide⟩

theorem mhalf_value : HasValue mhalf (-(1 / 2)) := by
  refine ⟨_, _, rfl, by decide, ?_⟩
  have : Binary32.value true ⟨0x3f000000, by decide⟩ = -2 ^ 148 := by decide +kernel
  unfold toReal
  rw [this, Int.cast_neg, Int.cast_pow, Int.cast_ofNat, pow_add (2 : ℝ) 148 1, neg_div, div_mul_eq_div_div, div_self (by positivity), pow_one]

theorem mlog2_value : HasValue mlog2 (-(11629080 / 2 ^ 24)) := by
  refine ⟨_, _, rfl, by decide, ?_⟩
  have : Binary32.value true ⟨0x3f317218, by decide⟩ = -(11629080 * 2 ^ 125) := by decide +kernel
  unfold toReal
  rw [this, Int.cast_neg, Int.cast_mul, Int.cast_pow, Int.cast_ofNat, Int.cast_ofNat, pow_add (2 : ℝ) 125 24, neg_div, mul_comm,
    mul_div_mul_left _ _ (by positivity)]

/-- a platform with accurate logarithms -/
@[instance_reducible] noncomputable def good : Binary32.Platform :=
  ⟨fun x => if x = 1 then 0 else (exists_log x).choose, fun x => if x = mhalf then mlog2 else (exists_log1p x).choose, associativeScan⟩

theorem good_log : LogError good (1 / 2 ^ 10) where
  log x v hx hv := by
    show ∃ r, HasValue (if x = 1 then 0 else (exists_log x).choose) r ∧ _
    by_cases h : x = 1
    · rw [if_pos h]
      subst h
      have : v = 1 := HasValue.unique hx hasValue_one
      subst this
      exact ⟨0, hasValue_zero, by simp⟩
    · rw [if_neg h]
      obtain ⟨r, h1, h2⟩ := (exists_log x).choose_spec v hx hv
      refine ⟨r, h1, h2.trans ?_⟩
      have := abs_nonneg (Real.log v)
      linarith
  log1p x v hx hv hv' := by
    show ∃ r, HasValue (if x = mhalf then mlog2 else (exists_log1p x).choose) r ∧ _
    by_cases h : x = mhalf
    · rw [if_pos h]
      subst h
      have : v = -(1 / 2) := HasValue.unique hx mhalf_value
      subst this
      refine ⟨_, mlog2_value, ?_⟩
      have e : Real.log (1 + -(1 / 2)) = -Real.log 2 := by rw [← Real.log_inv]; norm_num
      have l1 := Real.log_two_gt_d9
      have l2 := Real.log_two_lt_d9
      have := abs_nonneg (Real.log (1 + -(1 / 2)))
      refine le_trans ?_ (show 1 / 2 ^ 10 ≤ 1 / 2 ^ 10 * (1 + |Real.log (1 + -(1 / 2))|) by linarith)
      rw [e, abs_le]
      constructor <;> linarith
    · rw [if_neg h]
      obtain ⟨r, h1, h2⟩ := (exists_log1p x).choose_spec v hx hv hv'
      refine ⟨r, h1, h2.trans ?_⟩
      have := abs_nonneg (Real.log (1 + v))
      linarith

/-- two datapoints and a tree, without minimum number of points per leaf -/
def args : InitArgs Binary32 where
  X := [[0, 0]]
  y := [1, ((2 : Nat) : Binary32)]
  max_split := [1]
  split_bits := 8
  num_trees := 1
  p_nonterminal := [.num false ⟨0x3f000000, by decide⟩]
  sigma2_alpha := 1
  sigma2_beta := 1
  min_points_per_leaf := none
  resid_batch_size := none
  count_batch_size := none
  save_ratios := true
  nan := .nan

theorem args_valid [Binary32.Platform] : ValidArgs args where
  depth_pos := by decide
  depth_lt := by decide
  predictors_pos := by decide
  predictors_lt := by decide
  X_length := rfl
  X_row := by decide +kernel
  max_split_fits := by decide
  split_bits := by decide
  nonterminal_pos := by
    show ∀ x ∈ args.p_nonterminal, Binary32.le (.num false ⟨0x00800000, _⟩) x = true ∧ Binary32.le x 0 = false ∧ Binary32.le x 1 = true
    decide +kernel
  overflow := Or.inl (by unfold NoOverflow; decide)

/-- propose to grow, with one half as variate to decide on the move -/
def rng : Rng Unit Binary32 := fun _ =>
  { uniform2 := fun r _ => Binary32.uniform (if r = 0 then 0 else ⟨2 ^ 22, by decide⟩) 1
    uniformTo := Binary32.uniform 0
    randint := fun lo hi => if lo < hi then max lo (min 1 (hi - 1)) else lo
    normal := fun _ _ => 0
    gamma := fun _ => 1 }

theorem rng_jax : ∀ key, JaxDraws (rng key) := fun _ =>
  { uniform2 := ⟨fun r _ => if r = 0 then 0 else ⟨2 ^ 22, by decide⟩, fun _ _ => rfl⟩
    uniformTo := ⟨0, fun _ => rfl⟩
    randint_mem := fun lo hi h => by
      show lo ≤ (if lo < hi then max lo (min 1 (hi - 1)) else lo) ∧ (if lo < hi then max lo (min 1 (hi - 1)) else lo) < hi
      rw [if_pos h]; omega
    randint_empty := fun lo hi h => if_neg (by omega) }

/-- the initial state -/
noncomputable def first : State Binary32 := letI := good; init args
/-- the state after a step -/
noncomputable def next : State Binary32 := letI := good; step rng first ()


/-- a run of one step -/
theorem run : letI := good
    Run32 args 1 (fun _ => rng) (fun _ => ()) (fun k => if k = 0 then first else next) :=
  letI := good
  { init := rfl
    step := fun k hk => by
      have : k = 0 := by omega
      subst this
      rfl
    draws := fun _ _ => rng_jax }

theorem run_picks : letI := good
    ∀ k, k < 1 → ∀ t, t < args.num_trees → Picks rng (if k = 0 then first else next) () t := by
  let _ := good
  intro k hk t ht
  have : k = 0 := by omega
  have : t = 0 := by change t < 1 at ht; omega
  subst k t
  intro h
  revert h
  decide +kernel

/-- the move proposed -/
noncomputable def move : Move Binary32 := letI := good; moveOf rng first () 0

theorem move_eq : letI := good; (sample_moves rng first ())[0]? = some move := rfl
theorem move_allowed : move.allowed = true ∧ move.grow = true ∧ move.node = 1 ∧ move.grow_split = 1 := by decide +kernel
theorem move_idx : letI := good; gidx rng first () 0 = [2, 2] := by decide +kernel
theorem first_split : first.split_trees.getD 0 [] = [0, 0] := by decide +kernel
theorem first_leaves : ∀ x ∈ first.leaf_trees.getD 0 [], x = 0 := by decide +kernel
theorem first_sigma : first.sigma2 = 1 := by decide +kernel
theorem next_ratios : next.ratios = some ([0], [0]) := by decide +kernel
theorem next_leaf : letI := good; leafAt args next 0 0 = 1 ∧ leafAt args next 0 1 = 1 := by decide +kernel

/-- the data -/
noncomputable def y (j : Nat) : ℝ := if j = 0 then 1 else 2
/-- the values of the tree -/
noncomputable def v (k _ _ : Nat) : ℝ := if k = 0 then 0 else 1

theorem y_value (j : Nat) (hj : j < args.y.length) : HasValue (args.y.getD j 0) (y j) ∧ |y j| ≤ 2 := by
  change j < 2 at hj
  have : j = 0 ∨ j = 1 := by omega
  rcases this with rfl | rfl
  · exact ⟨hasValue_one, by norm_num [y]⟩
  · refine ⟨?_, by norm_num [y]⟩
    have h := hasValue_natCast (n := 2) (by norm_num)
    have e : ((2 : Nat) : ℝ) = y 1 := by norm_num [y]
    rw [e] at h
    exact h

theorem v_value (k : Nat) (hk : k ≤ 1) (t : Nat) (ht : t < args.num_trees) (j : Nat) (hj : j < args.y.length) : letI := good
    HasValue (leafAt args (if k = 0 then first else next) t j) (v k t j) ∧ |v k t j| ≤ 1 := by
  let _ := good
  have : k = 0 ∨ k = 1 := by omega
  have : t = 0 := by change t < 1 at ht; omega
  subst t
  rcases ‹k = 0 ∨ k = 1› with rfl | rfl
  · refine ⟨?_, by norm_num [v]⟩
    show HasValue (leafAt args (init args) 0 j) _
    rw [leafAt_init (K := Unit) args_valid ht hj]
    exact hasValue_zero
  · refine ⟨?_, by norm_num [v]⟩
    change j < 2 at hj
    have : j = 0 ∨ j = 1 := by omega
    rcases this with rfl | rfl
    · show HasValue (leafAt args next 0 0) 1
      rw [next_leaf.1]
      exact hasValue_one
    · show HasValue (leafAt args next 0 1) 1
      rw [next_leaf.2]
      exact hasValue_one

/-- the number of datapoints on the two sides of the decision rule proposed -/
theorem sides (z : Nat → ℝ) : (sideData args (first.split_trees.getD 0 []) move z (2 * move.node)).length = 2 ∧
    (sideData args (first.split_trees.getD 0 []) move z (2 * move.node + 1)).length = 0 := by
  let _ := good
  have hm := moves_picks args_valid run run_picks
  obtain ⟨hi, -⟩ := resid_run args_valid run hm y_value v_value (by norm_num) rfl (by norm_num [args]) (by norm_num [args])
    (k := 0) (by omega) (t := 0) (by decide) rfl
  have h : ∀ k, _ := fun k => (leafData_stats args_valid hi rng () (t := 0) (by decide) (hm 0 (by omega) hi 0 (by decide)) (fun _ => by
    show 1 ≤ move.grow_split
    rw [move_allowed.2.2.2]) z k).2
  rw [show (if (0 : Nat) = 0 then first else next) = first from rfl, move_idx] at h
  rw [move_allowed.2.2.1]
  exact ⟨(h 2).trans (by decide), (h 3).trans (by decide)⟩

-- The hypotheses of C93_accept can be satisfied: the likelihood ratio is one because no datapoint falls on the right, the ratio of the
-- probabilities is one, and the variate is one half, so the move is accepted.
example : at0 (next.split_trees.getD 0 []) 1 ≠ at0 (first.split_trees.getD 0 []) 1 := by
  let _ := good
  have h := C93_accept good_log (by norm_num) (by norm_num) args_valid run run_picks (by norm_num) y_value v_value (by norm_num)
    (by decide) (by decide) (by norm_num [args]) (k := 0) (by omega) (by norm_num [args]) (t := 0) (by decide)
    (fun x hx => ⟨0, by rw [first_leaves x hx]; exact hasValue_zero⟩) (σ := 1)
    (by show HasValue first.sigma2 1; rw [first_sigma]; exact hasValue_one) (by norm_num) (by norm_num) move move_eq move_allowed.1
    (fun _ => by rw [move_allowed.2.2.2]) next_ratios (p := 0) hasValue_zero (u := ⟨2 ^ 22, by decide⟩) rfl
  dsimp only at h
  obtain ⟨l1, l2⟩ := sides fun i => otherTrees args.num_trees 0 (y i) (fun u => v 0 u i) fun u => v (0 + 1) u i
  rw [show (if (0 : Nat) = 0 then first else next) = first from rfl] at h
  rw [show (if (0 + 1 : Nat) = 0 then first else next) = next from rfl] at h
  generalize sideData args (first.split_trees.getD 0 []) move _ (2 * move.node) = L at h l1
  generalize sideData args (first.split_trees.getD 0 []) move _ (2 * move.node + 1) = R at h l2
  have hR := List.eq_nil_of_length_eq_zero l2
  subst hR
  have hl : logLikRatio args.num_trees 1 L [] = 0 := by
    unfold logLikRatio
    rw [lik_exact (by decide) one_pos, l1]
    norm_num [args]
  rw [hl, l1, move_allowed.2.1, move_allowed.2.2.1] at h
  have e : Real.log (1 - ((⟨2 ^ 22, by decide⟩ : Fin (2 ^ 23)).val : ℝ) / 2 ^ 23) = -Real.log 2 := by
    rw [← Real.log_inv]
    norm_num
  have hlog := Real.log_two_gt_d9
  have hb : ratioBound (1 / 2 ^ 10) (2 + (args.num_trees + 3) * 1) ((1 + 1 / 2 ^ 24) ^ ((0 + 1) * args.num_trees)) 1 (2 + List.length ([] : List ℝ)) ≤ 1 / 10 := by
    norm_num [ratioBound, args]
  rw [e] at h
  generalize ratioBound (1 / 2 ^ 10) _ _ 1 _ = ε at h hb
  refine (h ?_ ?_).2 ⟨by norm_num; linarith, fun m hm => by cases hm⟩
  · norm_num
    linarith
  · norm_num
    rw [abs_of_pos (by linarith)]
    linarith

/-- the probability that the root is not terminal -/
theorem root_value : HasValue (gather first.p_nonterminal 0) (1 / 2) := by
  have e : gather first.p_nonterminal 0 = .num false ⟨0x3f000000, by decide⟩ := by decide +kernel
  rw [e]
  have h := hasValue_neg mhalf_value
  rw [neg_neg] at h
  exact h

-- the hypotheses of C93_trans can be satisfied
example : let _ := good
    ∃ x, HasValue (complete_ratio move { left := 2, right := 0, total := 2 } none) x ∧ |x| ≤ 20 / 2 ^ 24 + 1 / 2 ^ 9 := by
  let _ := good
  have e0 : Nat.log2 move.node = 0 := by rw [move_allowed.2.2.1]; decide
  have e1 : gather first.p_nonterminal 1 = 0 := by decide +kernel
  have e2 : compute_p_prune move 2 0 none = 1 := by decide +kernel
  have h := C93_trans good_log (by norm_num) (mv := move) (c := 1) (m := 1) (p_nonterminal := first.p_nonterminal) (by decide +kernel)
    (by rw [move_allowed.2.2.1]; decide +kernel) hasValue_one (by rw [e0]; exact root_value) (by rw [e0, e1]; exact hasValue_zero)
    (by norm_num) le_rfl le_rfl (by norm_num) (by norm_num) (by norm_num) le_rfl (by norm_num)
    { left := 2, right := 0, total := 2 } none (g := 1) (by rw [e2]; exact hasValue_one)
  obtain ⟨x, h1, h2⟩ := h
  refine ⟨x, h1, ?_⟩
  rw [move_allowed.2.2.1] at h2
  norm_num at h2 ⊢
  linarith

-- the hypotheses of C93_probability can be satisfied, with ratio one
example : letI := good
    bitsProb (fun k => ¬ (FltFun.leb (FltFun.log1p (-(Binary32.uniform k 1))) (0 : Binary32) = true ↔ Real.log (1 - k.val / 2 ^ 23) ≤ 0)) ≤
      2 * (0 + 17 * (1 / 2 ^ 10)) + 1 / 2 ^ 23 := by
  let _ := good
  exact C93_probability good_log (by norm_num) hasValue_zero (by simp)

end ExE

end Bartz
