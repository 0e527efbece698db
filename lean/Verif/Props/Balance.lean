import Verif.Lemmas.Detailed
import Verif.Props.Exact
/-!
# The Metropolis-Hastings update of a tree: C30, C54

`s1` and `s2` are two states whose trees `t` are `T1` and `T2`, and `T2` is `T1` with leaf `i` grown.
The six random numbers used to update tree `t` are independent and uniform (`TreeSites`); the others
are arbitrary.
-/

set_option autoImplicit false

namespace Bartz
open Jax Spec

section
variable {K : Type} [KeyLike K] {a : InitArgs ℝ} {s1 s2 : State ℝ} {t i : Nat} {key : K}
  {rng : (Fin 6 → ℝ) → Rng K ℝ}

/-- likelihood ratio of a tree before and after growing a leaf -/
noncomputable def likRatio (a : InitArgs ℝ) (s1 s2 : State ℝ) (t i : Nat) (R : Nat → ℝ) : ℝ :=
  leafMarginal (1 / (a.num_trees : ℝ)) s1.sigma2
      (leafData s1.X s1.y.length (vaOf s2 t) (spOf s2 t) R (2 * i)) *
    leafMarginal (1 / (a.num_trees : ℝ)) s1.sigma2
      (leafData s1.X s1.y.length (vaOf s2 t) (spOf s2 t) R (2 * i + 1)) /
    leafMarginal (1 / (a.num_trees : ℝ)) s1.sigma2
      (leafData s1.X s1.y.length (vaOf s1 t) (spOf s1 t) R i)

section
variable (ha : ValidArgs a) (i1 : StateInv a s1) (i2 : StateInv a s2) (ht : t < a.num_trees)
  (hg : Grown a.p_nonterminal.length (vaOf s1 t) (spOf s1 t) (vaOf s2 t) (spOf s2 t) i)
include ha i1 i2 ht hg

theorem transPrior_pos (hp : ∀ x ∈ a.p_nonterminal, x < 1) : 0 < transPrior a s1 s2 t i := by
  have hgi := grown_growable ha i1 i2 ht hg
  have hlog : Nat.log2 i < a.p_nonterminal.length :=
    (Nat.log2_lt (by have := hg.leaf.1.pos; omega)).2 hg.not_bottom
  have hp0 : 0 < a.p_nonterminal.getD (Nat.log2 i) 0 := by
    rw [List.getD_eq_getElem _ _ hlog]
    have := (ha.nonterminal_pos _ (List.getElem_mem hlog)).2.1
    rwa [Real.leb_iff_false] at this
  have hpl : ∀ d, 0 < 1 - a.p_nonterminal.getD d 0 := by
    intro d
    rw [sub_pos]
    rcases Nat.lt_or_ge d a.p_nonterminal.length with h | h
    · rw [List.getD_eq_getElem _ _ h]; exact hp _ (List.getElem_mem h)
    · rw [List.getD_eq_default _ _ h]; exact one_pos
  have hg1 : 0 < pGrow s1 t := by
    rw [pGrow1 ha i1 i2 ht hg]; split_ifs <;> norm_num
  have hg2 : 0 < 1 - pGrow s2 t := by
    rw [pGrow2 ha i1 i2 ht hg]; split_ifs <;> norm_num
  have hq : 0 < s1.p_propose_grow.getD i 0 / (growW s1 t).sum := by
    obtain ⟨_, q1, q2⟩ := growW_pos ha i1 ht hgi
    exact div_pos q1 q2
  have hn := nPrune2_pos ha i1 i2 ht hg
  have ha1 := hpl (Nat.log2 i)
  have ha2 := hpl (Nat.log2 i + 1)
  unfold transPrior shapeRatio
  positivity

theorem loglik_grow (h1 : ResidInv a s1) (hsig : 0 < s1.sigma2) (r : Rng K ℝ) (hr : LawfulRng r) (key : K) {R : Nat → ℝ}
    (hR : ∀ j, j < s1.y.length → partialResid a.p_nonterminal.length a.num_trees s1
      (step r s1 key) t j = R j)
    (hm : IsGrow s2 t i (moveOf r s1 (KeyLike.split (KeyLike.split key 2 1) 2 1) t))
    (hal : (moveOf r s1 (KeyLike.split (KeyLike.split key 2 1) 2 1) t).allowed = true) :
    (accOf r s1 (KeyLike.split key 2 1) t).2.log_likelihood = Real.log (likRatio a s1 s2 t i R) := by
  have hT1 := i1.tree t ht
  have hT2 := i2.tree t ht
  have e := loglik_eq ha i1 h1 hsig r hr key t ht _ rfl hal fun _ => by
    rw [hm.2.2.2]
    exact Nat.pos_of_ne_zero ((hg.isDecision hT1.valid hT2.valid i).2 (Or.inr rfl)).2
  obtain ⟨e1, e2⟩ := isGrow_tree ha i1 i2 ht hg r hr (KeyLike.split key 2 1) rfl hm
  have hD : ∀ k, leafData s1.X s1.y.length
      (moveOf r s1 (KeyLike.split (KeyLike.split key 2 1) 2 1) t).var_tree
      (if (moveOf r s1 (KeyLike.split (KeyLike.split key 2 1) 2 1) t).grow then
        setDrop (s1.split_trees.getD t []) (moveOf r s1 (KeyLike.split (KeyLike.split key 2 1) 2 1)
          t).node (moveOf r s1 (KeyLike.split (KeyLike.split key 2 1) 2 1) t).grow_split
        else s1.split_trees.getD t [])
      (partialResid a.p_nonterminal.length a.num_trees s1 (step r s1 key) t) k =
      leafData s1.X s1.y.length (vaOf s2 t) (spOf s2 t) R k := by
    intro k
    rw [if_pos hm.1]
    rw [show setDrop (s1.split_trees.getD t []) _ _ = spOf s2 t from e1]
    exact leafData_congr e2 hR k
  dsimp only at e
  rw [e, hD, hD, hm.2.1, leafMarginal_perm _ _ (leafData_perm hT1.valid hT2.valid hg ha.depth_lt
    hT1.var_len hT2.var_len _ _ _)]
  rfl

theorem loglik_prune (h2 : ResidInv a s2) (hsig : 0 < s1.sigma2) (hsig2 : s2.sigma2 = s1.sigma2) (r : Rng K ℝ)
    (hr : LawfulRng r) (key : K) {R : Nat → ℝ}
    (hR : ∀ j, j < s2.y.length → partialResid a.p_nonterminal.length a.num_trees s2
      (step r s2 key) t j = R j)
    (hgr : (moveOf r s2 (KeyLike.split (KeyLike.split key 2 1) 2 1) t).grow = false)
    (hnode : (moveOf r s2 (KeyLike.split (KeyLike.split key 2 1) 2 1) t).node = i)
    (hal : (moveOf r s2 (KeyLike.split (KeyLike.split key 2 1) 2 1) t).allowed = true) :
    (accOf r s2 (KeyLike.split key 2 1) t).2.log_likelihood = Real.log (likRatio a s1 s2 t i R) := by
  have hT1 := i1.tree t ht
  have hT2 := i2.tree t ht
  have hX : s2.X = s1.X := by rw [i1.cfg.X, i2.cfg.X]
  have hy : s2.y = s1.y := by rw [i1.cfg.y, i2.cfg.y]
  have e := loglik_eq ha i2 h2 (hsig2 ▸ hsig) r hr key t ht _ rfl hal (by rw [hgr]; simp)
  have hok := moveOf_ok ha i2 r hr (KeyLike.split (KeyLike.split key 2 1) 2 1) ht
  have hD : ∀ k, leafData s2.X s2.y.length
      (moveOf r s2 (KeyLike.split (KeyLike.split key 2 1) 2 1) t).var_tree
      (if (moveOf r s2 (KeyLike.split (KeyLike.split key 2 1) 2 1) t).grow then
        setDrop (s2.split_trees.getD t []) (moveOf r s2 (KeyLike.split (KeyLike.split key 2 1) 2 1)
          t).node (moveOf r s2 (KeyLike.split (KeyLike.split key 2 1) 2 1) t).grow_split
        else s2.split_trees.getD t [])
      (partialResid a.p_nonterminal.length a.num_trees s2 (step r s2 key) t) k =
      leafData s1.X s1.y.length (vaOf s2 t) (spOf s2 t) R k := by
    intro k
    rw [if_neg (by simp [hgr]), ← hX, ← hy]
    exact leafData_congr (fun j hj => hok.agree hj) hR k
  dsimp only at e
  rw [e, hD, hD, hnode, hsig2, leafMarginal_perm _ _ (leafData_perm hT1.valid hT2.valid hg ha.depth_lt
    hT1.var_len hT2.var_len _ _ _)]
  rfl

end

theorem cutsOK_grown {i : Nat} (h1 : StateInv a s1) (h2 : StateInv a s2) (ht : t < a.num_trees)
    (hg : Grown a.p_nonterminal.length (vaOf s1 t) (spOf s1 t) (vaOf s2 t) (spOf s2 t) i) (hcut : CutsOK a s2 t) :
    CutsOK a s1 t := by
  intro k hk hv
  have hd2 : IsDecision (spOf s2 t) k := (hg.isDecision (h1.tree t ht).valid (h2.tree t ht).valid k).2 (Or.inl hk)
  have := hcut k hd2
  rw [hg.same_var k hk] at this
  exact this hv

theorem likRatio_pos (ht : t < a.num_trees) (hsig : 0 < s1.sigma2) (R : Nat → ℝ) :
    0 < likRatio a s1 s2 t i R := by
  have hnt : (0 : ℝ) < a.num_trees := by exact_mod_cast (by omega : 0 < a.num_trees)
  have htau : 0 < 1 / (a.num_trees : ℝ) := by positivity
  exact div_pos (mul_pos (leafMarginal_pos htau hsig _) (leafMarginal_pos htau hsig _))
    (leafMarginal_pos htau hsig _)

/-- C54. Detailed balance. The posterior probability of tree `T1`, given the other trees and the noise
variance, times the probability that the step changes it into `T2`, is equal to the posterior
probability of `T2` times the probability that the step changes it into `T1`. `R` is the data minus
the other trees (`hR1`, `hR2`), and is not random. The rule at the node grown must be on an existing
predictor (`hvar`; see `C28_exhausted`), and the rules must not be on predictors without cutpoints (`hcut`). -/
theorem C54_detailed_balance (ha : ValidArgs a) (hp : ∀ x ∈ a.p_nonterminal, x < 1)
    (hms : FillerOK a.max_split)
    (h1 : Reachable K a s1) (h2 : Reachable K a s2) (hsig : 0 < s1.sigma2)
    (hsig2 : s2.sigma2 = s1.sigma2) (ht : t < a.num_trees)
    (hg : Grown a.p_nonterminal.length (s1.var_trees.getD t []) (s1.split_trees.getD t [])
      (s2.var_trees.getD t []) (s2.split_trees.getD t []) i)
    (hvar : at0 (s2.var_trees.getD t []) i < a.max_split.length)
    (hcut : ∀ k, IsDecision (s2.split_trees.getD t []) k → at0 (s2.var_trees.getD t []) k < a.max_split.length →
      1 ≤ at0 a.max_split (at0 (s2.var_trees.getD t []) k))
    (hsites : TreeSites a.num_trees t key rng) (hrng : ∀ w ∈ unitCube, LawfulRng (rng w))
    (R : Nat → ℝ)
    (hR1 : ∀ w ∈ unitCube, ∀ j, j < s1.y.length →
      partialResid a.p_nonterminal.length a.num_trees s1 (step (rng w) s1 key) t j = R j)
    (hR2 : ∀ w ∈ unitCube, ∀ j, j < s2.y.length →
      partialResid a.p_nonterminal.length a.num_trees s2 (step (rng w) s2 key) t j = R j) :
    let posterior := fun s : State ℝ =>
      treePrior a.p_nonterminal a.split_bits a.max_split (s.var_trees.getD t []) (s.split_trees.getD t []) *
      treeLikelihood (1 / (a.num_trees : ℝ)) s1.sigma2 a.X a.y.length R (s.var_trees.getD t [])
        (s.split_trees.getD t [])
    let becomes := fun (s s' : State ℝ) => prob fun w =>
      SameTree (s'.var_trees.getD t []) (s'.split_trees.getD t [])
        ((step (rng w) s key).var_trees.getD t []) ((step (rng w) s key).split_trees.getD t [])
    posterior s1 * becomes s1 s2 = posterior s2 * becomes s2 s1 := by
  intro posterior becomes
  have i1 := reachable_inv ha h1
  have i2 := reachable_inv ha h2
  have hT1 := i1.tree t ht
  have hT2 := i2.tree t ht
  have hcut1 := cutsOK_grown i1 i2 ht hg hcut
  set A := transPrior a s1 s2 t i with hA
  set B := likRatio a s1 s2 t i R with hB
  have hApos : 0 < A := transPrior_pos ha i1 i2 ht hg hp
  have hBpos : 0 < B := likRatio_pos ht hsig R
  have hminpts : ∀ m, a.min_points_per_leaf = some m →
      m ≤ (s2.leaf_indices.getD t []).count (2 * i) ∧
      m ≤ (s2.leaf_indices.getD t []).count (2 * i + 1) := by
    intro m hm
    have hroot := root2 (cfgOf_ok ha) hT1 hT2 hg
    exact ⟨hT2.minpts m hm hroot _ hg.left, hT2.minpts m hm hroot _ hg.right⟩
  -- the two transition probabilities
  have b12 : becomes s1 s2 = _ := prob_grow_event ha i1 i2 ht hg (fillOK ha hms) hcut1 hcut hvar hsites hrng
    (S1 := {x | x ∈ Set.Ico (0 : ℝ) 1 ∧ Real.log (1 + -x) ≤ Real.log A + Real.log B})
    (fun x hx => hx.1) (by
      intro w hw
      rw [step_grow_iff ha i1 i2 ht hg (rng w) (hrng w hw) key]
      refine and_congr_right fun hm => ?_
      have hal : (moveOf (rng w) s1 (KeyLike.split (KeyLike.split key 2 1) 2 1) t).allowed = true := by
        have hok := moveOf_ok ha i1 (rng w) (hrng w hw) (KeyLike.split (KeyLike.split key 2 1) 2 1) ht
        exact hok.grow_allowed hm.1
      obtain ⟨c1, c2⟩ := isGrow_counts ha i1 i2 ht hg (rng w) (hrng w hw) (KeyLike.split key 2 1) rfl hm
      rw [acc_iff, if_pos hm.1, grow_log_trans ha i1 i2 ht hg (rng w) (hrng w hw)
        (KeyLike.split key 2 1) rfl hm, loglik_grow ha i1 i2 ht hg (reachable_resid ha h1) hsig (rng w) (hrng w hw) key
        (hR1 w hw) hm hal, c1, c2, show (moveOf (rng w) s1 (KeyLike.split (KeyLike.split key 2 1) 2 1)
        t).logu = _ from logu_eq i1 hsites w, i1.cfg.min_points_per_leaf]
      exact ⟨fun h => ⟨hw 1 (Set.mem_univ _), h.2.1⟩, fun h => ⟨hal, h.2, hminpts⟩⟩)
  have b21 : becomes s2 s1 = _ := prob_prune_event ha i1 i2 ht hg hsites
    (S1 := {x | x ∈ Set.Ico (0 : ℝ) 1 ∧ Real.log (1 + -x) ≤ -(Real.log A + Real.log B)})
    (fun x hx => hx.1) (by
      intro w hw
      rw [step_prune_iff ha i1 i2 ht hg (rng w) (hrng w hw) key]
      refine and_congr_right fun hm => ?_
      have hal : (moveOf (rng w) s2 (KeyLike.split (KeyLike.split key 2 1) 2 1) t).allowed = true :=
        mv_allowed ha i2 ht w (root2 (cfgOf_ok ha) hT1 hT2 hg)
      obtain ⟨c1, c2⟩ := prune_counts ha i2 ht hg (rng w) (hrng w hw) (KeyLike.split key 2 1) rfl
        hm.1 hm.2
      rw [acc_iff, if_neg (by rw [show (moveOf (rng w) s2 (KeyLike.split (KeyLike.split key 2 1) 2 1)
        t).grow = false from hm.1]; simp), prune_log_trans ha i1 i2 ht hg (rng w) (hrng w hw)
        (KeyLike.split key 2 1) rfl hm.1 hm.2, loglik_prune ha i1 i2 ht hg (reachable_resid ha h2) hsig hsig2 (rng w)
        (hrng w hw) key (hR2 w hw) hm.1 hm.2 hal, c1, c2, show (moveOf (rng w) s2 (KeyLike.split
        (KeyLike.split key 2 1) 2 1) t).logu = _ from logu_eq i2 hsites w, i2.cfg.min_points_per_leaf]
      exact ⟨fun h => ⟨hw 1 (Set.mem_univ _), h.2.1⟩, fun h => ⟨hal, h.2, hminpts⟩⟩)
  rw [b12, b21, len_accept, len_accept, Real.exp_neg, Real.exp_add, Real.exp_log hApos,
    Real.exp_log hBpos]
  -- prior and likelihood
  have hlog : Nat.log2 i < a.p_nonterminal.length :=
    (Nat.log2_lt (by have := hg.leaf.1.pos; omega)).2 hg.not_bottom
  have hd : 1 - a.p_nonterminal.getD (Nat.log2 i) 0 ≠ 0 := by
    rw [List.getD_eq_getElem _ _ hlog]
    have := hp _ (List.getElem_mem hlog)
    linarith
  have eprior : treePrior a.p_nonterminal a.split_bits a.max_split (vaOf s2 t) (spOf s2 t) = shapePrior _ _ * _ *
      (rulesPrior _ _ _ _ * _) := congrArg₂ (· * ·) (shapePrior_grown hT1.valid hT2.valid hg _ hd)
        (rulesPrior_grown hT1.valid hT2.valid hg _ _)
  have elik := treeLikelihood_grown hT1.valid hT2.valid hg ha.depth_lt hT1.var_len hT2.var_len
    (tau := 1 / (a.num_trees : ℝ)) (s2 := s1.sigma2) a.X a.y.length R
  have hnt : (0 : ℝ) < a.num_trees := by exact_mod_cast (by omega : 0 < a.num_trees)
  have hM := leafMarginal_pos (by positivity : 0 < 1 / (a.num_trees : ℝ)) hsig
    (leafData a.X a.y.length (vaOf s1 t) (spOf s1 t) R i)
  have elik' : treeLikelihood (1 / (a.num_trees : ℝ)) s1.sigma2 a.X a.y.length R (vaOf s2 t) (spOf s2 t)
      = treeLikelihood (1 / (a.num_trees : ℝ)) s1.sigma2 a.X a.y.length R (vaOf s1 t) (spOf s1 t) * B := by
    rw [hB, likRatio, i1.cfg.X, i1.cfg.y, ← mul_div_assoc, ← elik]
    field_simp
  show treePrior a.p_nonterminal a.split_bits a.max_split (vaOf s1 t) (spOf s1 t) *
    treeLikelihood (1 / (a.num_trees : ℝ)) s1.sigma2 a.X a.y.length R (vaOf s1 t) (spOf s1 t) * _ =
    treePrior a.p_nonterminal a.split_bits a.max_split (vaOf s2 t) (spOf s2 t) *
    treeLikelihood (1 / (a.num_trees : ℝ)) s1.sigma2 a.X a.y.length R (vaOf s2 t) (spOf s2 t) * _
  rw [eprior, elik', show s1.split_bits = a.split_bits from i1.cfg.split_bits, i1.cfg.max_split]
  have hmin : min 1 (A * B) = A * B * min 1 (A * B)⁻¹ := by
    have hAB : 0 < A * B := mul_pos hApos hBpos
    rw [mul_min_of_nonneg _ _ hAB.le, mul_inv_cancel₀ hAB.ne', mul_one, min_comm]
  rw [hmin]
  have hA' : pGrow s1 t * (s1.p_propose_grow.getD i 0 / (growW s1 t).sum) * A =
      shapeRatio a.p_nonterminal i * (1 - pGrow s2 t) * (1 / (nPrune s2 t : ℝ)) := by
    have hg1 : pGrow s1 t ≠ 0 := by
      rw [pGrow1 ha i1 i2 ht hg]; split_ifs <;> norm_num
    have hq : s1.p_propose_grow.getD i 0 / (growW s1 t).sum ≠ 0 := by
      obtain ⟨_, q1, q2⟩ := growW_pos ha i1 ht (grown_growable ha i1 i2 ht hg)
      exact (div_pos q1 q2).ne'
    have hn := (nPrune2_pos ha i1 i2 ht hg).ne'
    rw [hA, transPrior]
    generalize s1.p_propose_grow.getD i 0 / (growW s1 t).sum = q at hq
    field_simp
  unfold shapeRatio at hA'
  unfold treePrior
  generalize s1.p_propose_grow.getD i 0 / (growW s1 t).sum = q at hA' ⊢
  generalize shapePrior a.p_nonterminal (spOf s1 t) = π1
  generalize rulesPrior a.split_bits a.max_split (vaOf s1 t) (spOf s1 t) = π2
  generalize treeLikelihood (1 / (a.num_trees : ℝ)) s1.sigma2 a.X a.y.length R (vaOf s1 t)
    (spOf s1 t) = L
  generalize 1 / ((availVars a.split_bits a.max_split (vaOf s1 t) (spOf s1 t) i).ncard : ℝ) = v
  generalize 1 / ((availSplits a.max_split (vaOf s1 t) (spOf s1 t) i (at0 (vaOf s2 t) i)).ncard : ℝ) = c
  generalize min 1 (A * B)⁻¹ = m
  linear_combination (π1 * π2 * L * v * c * m * B) * hA'

/-- The a priori probability of the tree in `C54_detailed_balance` is the standard one, unless a predictor has as many
cutpoints as the largest value of their type, or no cutpoints. -/
theorem treePrior_standard {bits : Nat} {max_split : List Nat} (h : ∀ m ∈ max_split, 1 ≤ m ∧ m + 1 < 2 ^ bits) (p : List ℝ)
    (var split : List Nat) : treePrior p bits max_split var split = standardPrior p max_split var split := by
  unfold treePrior standardPrior shapePrior rulesPrior ruleProb
  congr 1
  refine Finset.prod_congr rfl fun i _ => ?_
  rw [availVars_standard fun v hv => ?_]
  unfold at0
  rw [List.getD_eq_getElem _ _ hv]
  exact h _ (List.getElem_mem hv)

/-! ### C30 -/

/-- C30. Let `q12` be the probability that growing `T1` into `T2` is proposed, starting from `s1`, and
`q21` that pruning `T2` into `T1` is proposed, starting from `s2`. They are positive, and so are the
priors. Whenever the growth is proposed, the ratio computed is `prior(T2) q21 / (prior(T1) q12)`, and
whenever the pruning is proposed, the ratio computed is the same number; the code uses its
reciprocal to decide whether to accept the pruning (third and fourth part). -/
theorem C30_ratio (ha : ValidArgs a) (hp : ∀ x ∈ a.p_nonterminal, x < 1)
    (hms : FillerOK a.max_split)
    (h1 : Reachable K a s1) (h2 : Reachable K a s2) (ht : t < a.num_trees)
    (hg : Grown a.p_nonterminal.length (s1.var_trees.getD t []) (s1.split_trees.getD t [])
      (s2.var_trees.getD t []) (s2.split_trees.getD t []) i)
    (hrules : ∀ k, IsDecision (s2.split_trees.getD t []) k →
      1 ≤ at0 a.max_split (at0 (s2.var_trees.getD t []) k))
    (hsites : TreeSites a.num_trees t key rng) (hrng : ∀ w ∈ unitCube, LawfulRng (rng w)) :
    let move := fun (s : State ℝ) w =>
      (sample_moves (rng w) s (KeyLike.split (KeyLike.split key 2 1) 2 1))[t]?
    let grows := fun mv : Move ℝ => mv.grow = true ∧ mv.node = i ∧
      mv.grow_var = at0 (s2.var_trees.getD t []) i ∧ mv.grow_split = at0 (s2.split_trees.getD t []) i
    let prunes := fun mv : Move ℝ => mv.allowed = true ∧ mv.grow = false ∧ mv.node = i
    let prior := fun s : State ℝ =>
      treePrior a.p_nonterminal a.split_bits a.max_split (s.var_trees.getD t []) (s.split_trees.getD t [])
    let q12 := prob fun w => ∃ mv, move s1 w = some mv ∧ grows mv
    let q21 := prob fun w => ∃ mv, move s2 w = some mv ∧ prunes mv
    (0 < prior s1 ∧ 0 < prior s2 ∧ 0 < q12 ∧ 0 < q21) ∧
    (∀ w ∈ unitCube, ∀ mv, move s1 w = some mv → grows mv → ∀ x l,
      (step (rng w) s1 key).ratios = some (x, l) →
      Real.exp (x.getD t 0) = prior s2 * q21 / (prior s1 * q12)) ∧
    ∀ w ∈ unitCube, ∀ mv, move s2 w = some mv → prunes mv → ∀ x l,
      (step (rng w) s2 key).ratios = some (x, l) →
      Real.exp (x.getD t 0) = prior s2 * q21 / (prior s1 * q12) := by
  intro move grows prunes prior q12 q21
  have i1 := reachable_inv ha h1
  have i2 := reachable_inv ha h2
  have hT1 := i1.tree t ht
  have hT2 := i2.tree t ht
  have hvars : ∀ k, IsDecision (spOf s2 t) k → at0 (vaOf s2 t) k < a.max_split.length := fun k hk =>
    lt_of_at0_ne (split := a.max_split) (Nat.one_le_iff_ne_zero.1 (hrules k hk))
  have hcut : CutsOK a s2 t := fun k hk _ => hrules k hk
  have hcut1 := cutsOK_grown i1 i2 ht hg hcut
  have hmove : ∀ (s : State ℝ), StateInv a s → ∀ w, move s w = some (mvOf rng s key t w) := by
    intro s hs w
    simp only [move]
    rw [sample_moves_eq, vmap, List.getElem?_map, List.getElem?_range (by rw [hs.leaf_length]; exact ht)]
    rfl
  have hprior1 : 0 < prior s1 := by
    have := treePrior_pos ha i1 ht hcut1 hp (fun k hk => by
      have hd2 : IsDecision (spOf s2 t) k := (hg.isDecision hT1.valid hT2.valid k).2 (Or.inl hk)
      have := hvars k hd2
      rwa [hg.same_var k hk] at this)
    rwa [i1.cfg.split_bits, i1.cfg.max_split] at this
  have hprior2 : 0 < prior s2 := by
    have := treePrior_pos ha i2 ht hcut hp hvars
    rwa [i2.cfg.split_bits, i2.cfg.max_split] at this
  have hvar := hvars i hg.decision
  have hq12 : q12 = _ := prob_grow_event ha i1 i2 ht hg (fillOK ha hms) hcut1 hcut hvar hsites hrng
    (S1 := Set.Ico 0 1) subset_rfl (by
      intro w hw
      rw [hmove s1 i1 w]
      constructor
      · rintro ⟨mv, e, hm⟩
        rw [Option.some.injEq] at e
        exact ⟨e ▸ hm, hw 1 (Set.mem_univ _)⟩
      · rintro ⟨hm, _⟩
        exact ⟨_, rfl, hm⟩)
  have hal2 : ∀ w, (mvOf rng s2 key t w).allowed = true := fun w =>
    mv_allowed ha i2 ht w (root2 (cfgOf_ok ha) hT1 hT2 hg)
  have hq21 : q21 = _ := prob_prune_event ha i1 i2 ht hg hsites
    (S1 := Set.Ico 0 1) subset_rfl (by
      intro w hw
      rw [hmove s2 i2 w]
      constructor
      · rintro ⟨mv, e, hm⟩
        rw [Option.some.injEq] at e
        exact ⟨e ▸ hm.2, hw 1 (Set.mem_univ _)⟩
      · rintro ⟨hm, _⟩
        exact ⟨_, rfl, hal2 w, hm⟩)
  rw [len_unit, mul_one] at hq12 hq21
  have hgi := grown_growable ha i1 i2 ht hg
  have hg1 : 0 < pGrow s1 t := by
    rw [pGrow1 ha i1 i2 ht hg]; split_ifs <;> norm_num
  have hg2 : 0 < 1 - pGrow s2 t := by
    rw [pGrow2 ha i1 i2 ht hg]; split_ifs <;> norm_num
  have hq : 0 < s1.p_propose_grow.getD i 0 / (growW s1 t).sum := by
    obtain ⟨_, q1, q2⟩ := growW_pos ha i1 ht hgi
    exact div_pos q1 q2
  have hn := nPrune2_pos ha i1 i2 ht hg
  obtain ⟨m1, m2⟩ := rule_avail ha i2 ht hcut hg.decision hvar
  rw [show s2.split_bits = a.split_bits from i2.cfg.split_bits, i2.cfg.max_split, hg.availVars hT1.valid hT2.valid _ _ hg.leaf.1] at m1
  rw [i2.cfg.max_split, hg.availSplits hT1.valid hT2.valid _ hg.leaf.1] at m2
  have hv : (0 : ℝ) < (availVars a.split_bits a.max_split (vaOf s1 t) (spOf s1 t) i).ncard := by
    exact_mod_cast (Set.ncard_pos (availVars_finite _ _ _ _ _)).2 ⟨_, m1⟩
  have hc : (0 : ℝ) < (availSplits a.max_split (vaOf s1 t) (spOf s1 t) i (at0 (vaOf s2 t) i)).ncard := by
    exact_mod_cast (Set.ncard_pos (availSplits_finite _ _ _ _ _)).2 ⟨_, m2⟩
  rw [show s1.split_bits = a.split_bits from i1.cfg.split_bits, i1.cfg.max_split] at hq12
  have hq12pos : 0 < q12 := by rw [hq12]; positivity
  have hq21pos : 0 < q21 := by rw [hq21]; positivity
  have hlog : Nat.log2 i < a.p_nonterminal.length :=
    (Nat.log2_lt (by have := hg.leaf.1.pos; omega)).2 hg.not_bottom
  have hd : 1 - a.p_nonterminal.getD (Nat.log2 i) 0 ≠ 0 := by
    rw [List.getD_eq_getElem _ _ hlog]
    have := hp _ (List.getElem_mem hlog)
    linarith
  have eprior : prior s2 = shapePrior _ _ * _ * (rulesPrior _ _ _ _ * _) :=
    congrArg₂ (· * ·) (shapePrior_grown hT1.valid hT2.valid hg _ hd)
      (rulesPrior_grown hT1.valid hT2.valid hg _ _)
  have hA : transPrior a s1 s2 t i = prior s2 * q21 / (prior s1 * q12) := by
    rw [eq_div_iff (mul_pos hprior1 hq12pos).ne', eprior, hq12, hq21, transPrior, shapeRatio]
    simp only [prior, treePrior]
    generalize s1.p_propose_grow.getD i 0 / (growW s1 t).sum = q at hq
    field_simp
  have hratio : ∀ (s : State ℝ), StateInv a s → ∀ w x l, (step (rng w) s key).ratios = some (x, l) →
      x.getD t 0 = (workOf (rng w) s (KeyLike.split key 2 1) t).log_trans_prior_ratio := by
    intro s hs w x l hx
    have e : (step (rng w) s key).ratios = s.ratios.map fun _ =>
        (vmap s.leaf_trees.length fun t => (accOf (rng w) s (KeyLike.split key 2 1) t).2.log_trans_prior,
        vmap s.leaf_trees.length fun t =>
          (accOf (rng w) s (KeyLike.split key 2 1) t).2.log_likelihood) := by
      simp only [step_eq, sample_trees_eq, sample_sigma]
    rw [e] at hx
    cases hsr : s.ratios with
    | none => rw [hsr] at hx; simp at hx
    | some r0 =>
      rw [hsr] at hx
      simp only [Option.map_some, Option.some.injEq, Prod.mk.injEq] at hx
      rw [← hx.1, getD_vmap (by rw [hs.leaf_length]; exact ht)]
      rfl
  refine ⟨⟨hprior1, hprior2, hq12pos, hq21pos⟩, ?_, ?_⟩
  · intro w hw mv hmv hm x l hx
    rw [hmove s1 i1 w, Option.some.injEq] at hmv
    rw [hratio s1 i1 w x l hx, grow_log_trans ha i1 i2 ht hg (rng w) (hrng w hw)
      (KeyLike.split key 2 1) hmv.symm hm,
      Real.exp_log (transPrior_pos ha i1 i2 ht hg hp), hA]
  · intro w hw mv hmv hm x l hx
    rw [hmove s2 i2 w, Option.some.injEq] at hmv
    rw [hratio s2 i2 w x l hx, prune_log_trans ha i1 i2 ht hg (rng w) (hrng w hw)
      (KeyLike.split key 2 1) hmv.symm hm.2.1 hm.2.2,
      Real.exp_log (transPrior_pos ha i1 i2 ht hg hp), hA]

/-- C30, C54. The rule used to decide: with `x` and `l` the ratios saved in the state, a possible move
is accepted when `log(1 - u)` is at most `x + l` for growing, `-(x + l)` for pruning, where `u` is the
second random number of the tree, and both leaves (those added, or removed) have enough
datapoints. For `hsplit` see `C31_in_step`. -/
theorem C30_accept (ha : ValidArgs a) (h1 : Reachable K a s1) (ht : t < a.num_trees) (r : Rng K ℝ)
    (hr : LawfulRng r) (key : K) (mv : Move ℝ)
    (hmv : (sample_moves r s1 (KeyLike.split (KeyLike.split key 2 1) 2 1))[t]? = some mv)
    (hal : mv.allowed = true) (hsplit : mv.grow = true → 1 ≤ mv.grow_split) (x l : List ℝ) (hx : (step r s1 key).ratios = some (x, l)) :
    let u := (r (KeyLike.split (KeyLike.split (KeyLike.split key 2 1) 2 1) (1 + a.num_trees) 0)).uniform2
      1 t
    let score := if mv.grow = true then x.getD t 0 + l.getD t 0 else -(x.getD t 0 + l.getD t 0)
    let points := fun k => (leafData a.X a.y.length mv.var_tree
      (if mv.grow then setDrop (s1.split_trees.getD t []) mv.node mv.grow_split
        else s1.split_trees.getD t []) (fun j => j) k).length
    (at0 ((step r s1 key).split_trees.getD t []) mv.node ≠ at0 (s1.split_trees.getD t []) mv.node ↔
      Real.log (1 - u) ≤ score ∧ ∀ m, a.min_points_per_leaf = some m →
        m ≤ points (2 * mv.node) ∧ m ≤ points (2 * mv.node + 1)) := by
  intro u score points
  have i1 := reachable_inv ha h1
  have hT1 := i1.tree t ht
  have hok := moveOf_ok ha i1 r hr (KeyLike.split (KeyLike.split key 2 1) 2 1) ht
  have hmv' : mv = moveOf r s1 (KeyLike.split (KeyLike.split key 2 1) 2 1) t := by
    rw [sample_moves_eq, vmap, List.getElem?_map, List.getElem?_range (by rw [i1.leaf_length]; exact ht)]
      at hmv
    simpa using hmv.symm
  rw [← hmv'] at hok
  have e : (step r s1 key).ratios = s1.ratios.map fun _ =>
      (vmap s1.leaf_trees.length fun t => (accOf r s1 (KeyLike.split key 2 1) t).2.log_trans_prior,
      vmap s1.leaf_trees.length fun t =>
        (accOf r s1 (KeyLike.split key 2 1) t).2.log_likelihood) := by
    simp only [step_eq, sample_trees_eq, sample_sigma]
  have hxl : x.getD t 0 = (workOf r s1 (KeyLike.split key 2 1) t).log_trans_prior_ratio ∧
      l.getD t 0 = (accOf r s1 (KeyLike.split key 2 1) t).2.log_likelihood := by
    rw [e] at hx
    cases hsr : s1.ratios with
    | none => rw [hsr] at hx; simp at hx
    | some r0 =>
      rw [hsr] at hx
      simp only [Option.map_some, Option.some.injEq, Prod.mk.injEq] at hx
      rw [← hx.1, ← hx.2, getD_vmap (by rw [i1.leaf_length]; exact ht),
        getD_vmap (by rw [i1.leaf_length]; exact ht)]
      exact ⟨rfl, rfl⟩
  have hpw : 2 ^ (a.p_nonterminal.length + 1) = 2 * 2 ^ a.p_nonterminal.length := by
    rw [pow_succ]; omega
  have hnode : mv.node < 2 ^ a.p_nonterminal.length := allowed_node_lt hT1 hok hal
  have hpos : 1 ≤ mv.node := by
    cases hgr : mv.grow with
    | true => exact (hok.grow_leaf hgr).1.1.pos
    | false => exact (hok.prune_node hgr hal).1.1.pos
  have hpts : ∀ k, k < 2 ^ (a.p_nonterminal.length + 1) → k ≠ mv.node →
      (gidx r s1 (KeyLike.split key 2 1) t).count k = points k := by
    intro k hk hne
    have := (big_stats ha i1 (reachable_resid ha h1) r hr key ht (hmv' ▸ hsplit) k hk (by rw [← hmv']; exact hne)).2
    rw [← hmv', i1.cfg.X] at this
    rw [this]
    simp only [points, leafData, List.length_map]
    rfl
  have hcw := counts_work ha i1 r hr (KeyLike.split key 2 1) ht (by rw [← hmv']; exact hnode)
  rw [← hmv'] at hcw
  have hacc : (accOf r s1 (KeyLike.split key 2 1) t).2.acc = true ↔ Real.log (1 - u) ≤ score ∧
      ∀ m, a.min_points_per_leaf = some m →
        m ≤ points (2 * mv.node) ∧ m ≤ points (2 * mv.node + 1) := by
    rw [acc_iff, ← hmv', i1.cfg.min_points_per_leaf, ← hxl.1, ← hxl.2, hcw.1, hcw.2.1,
      hpts _ (by omega) (by omega), hpts _ (by omega) (by omega)]
    have hlogu : mv.logu = Real.log (1 - u) := by
      rw [hmv']
      show Real.log (1 + -((r (KeyLike.split (KeyLike.split
        (KeyLike.split key 2 1) 2 1) (1 + s1.leaf_trees.length) 0)).uniform2 1 t)) = _
      rw [i1.leaf_length, ← sub_eq_add_neg]
    rw [hlogu]
    exact ⟨fun h => h.2, fun h => ⟨hal, h⟩⟩
  rw [← hacc]
  obtain ⟨_, _, _, e4⟩ := leaf_step i1 r key ht
  rw [e4, accOf_to_prune, ← hmv', split_final (cfgOf_ok ha) hok]
  generalize (accOf r s1 (KeyLike.split key 2 1) t).2.acc = acc
  cases acc with
  | false => simp
  | true =>
    simp only [if_true, iff_true]
    cases hgr : mv.grow with
    | false =>
      have hpn := hok.prune_node hgr hal
      rw [if_neg (by simp), at0_prune hT1.valid hpn, if_pos rfl]
      exact fun h0 => hpn.1.2 h0.symm
    | true =>
      have hgl := hok.grow_leaf hgr
      rw [if_pos rfl, at0_grow hT1.valid hgl.2.1, if_pos rfl, show at0 (s1.split_trees.getD t []) mv.node = 0
        from hgl.1.2]
      have := hsplit hgr
      omega

end

/-! ### Examples -/

namespace ExB

/-- keys that remember how they have been made -/
abbrev FreeKey := List (Nat × Nat)

instance : KeyLike FreeKey := ⟨fun k n i => k ++ [(n, i)]⟩

/-- the data of `ExR.args`, with one tree -/
noncomputable def args : InitArgs ℝ :=
  { ExR.args with num_trees := 1, min_points_per_leaf := none }

theorem args_no_overflow : NoOverflow args := by unfold NoOverflow; decide

theorem args_valid : ValidArgs args where
  depth_pos := by simp [args, ExR.args]
  depth_lt := by simp [args, ExR.args]
  predictors_pos := by simp [args, ExR.args]
  predictors_lt := by simp [args, ExR.args]
  X_length := rfl
  X_row := by simp [args, ExR.args]
  max_split_fits := by simp [args, ExR.args]
  split_bits := by simp [args, ExR.args]
  nonterminal_pos := ExR.args_valid.nonterminal_pos
  overflow := Or.inl args_no_overflow

/-- a random number generator made from six numbers, one for each random site of a tree, and a number
for the gamma variate -/
noncomputable def rng (g : ℝ) (w : Fin 6 → ℝ) : Rng FreeKey ℝ := fun k =>
  { uniform2 := fun r _ => if r = 0 then w 0 else w 1
    uniformTo := fun hi => hi * w 2
    randint := fun lo hi => if k.getLastD (0, 0) = (3, 1) then unifInt (w 3) lo hi
      else if k.getLastD (0, 0) = (3, 2) then unifInt (w 4) lo hi else unifInt (w 5) lo hi
    normal := fun _ _ => 1
    gamma := fun _ => g }

theorem rng_sites (g : ℝ) : TreeSites 1 0 ([] : FreeKey) (rng g) where
  grow := fun _ => rfl
  accept := fun _ => rfl
  leaf := fun _ _ => rfl
  var := fun _ _ _ => rfl
  split := fun _ _ _ => rfl
  prune := fun _ _ _ => rfl

theorem unifInt_mem (x : ℝ) (hx : x ∈ Set.Ico (0 : ℝ) 1) (lo hi : Nat) (h : lo < hi) :
    lo ≤ unifInt x lo hi ∧ unifInt x lo hi < hi := by
  unfold unifInt
  rw [if_pos h]
  have h1 : ⌊((hi - lo : Nat) : ℝ) * x⌋₊ < hi - lo := by
    rw [Nat.floor_lt (mul_nonneg (Nat.cast_nonneg _) hx.1)]
    have : (0 : ℝ) < ((hi - lo : Nat) : ℝ) := by exact_mod_cast (by omega : 0 < hi - lo)
    nlinarith [hx.2]
  omega

theorem rng_lawful (g : ℝ) (w : Fin 6 → ℝ) (hw : w ∈ unitCube) : LawfulRng (rng g w) := by
  have hw' : ∀ k, w k ∈ Set.Ico (0 : ℝ) 1 := fun k => hw k (Set.mem_univ k)
  intro k
  exact
  { uniform2_nonneg := fun r t => by
      simp only [rng, Real.leb_iff]; split_ifs; exacts [(hw' 0).1, (hw' 1).1]
    uniform2_lt_one := fun r t => by
      simp only [rng, Real.ltb_iff]; split_ifs; exacts [(hw' 0).2, (hw' 1).2]
    uniformTo := fun hi h1 h2 _ => by
      rw [Real.leb_iff] at h1
      rw [Real.leb_iff_false] at h2
      rw [Real.leb_iff, Real.leb_iff_false]
      simp only [rng]
      exact ⟨mul_nonneg h1 (hw' 2).1, by nlinarith [(hw' 2).2]⟩
    randint_mem := fun lo hi h => by
      simp only [rng]
      split_ifs
      exacts [unifInt_mem _ (hw' 3) _ _ h, unifInt_mem _ (hw' 4) _ _ h, unifInt_mem _ (hw' 5) _ _ h]
    randint_empty := fun lo hi h => by
      simp only [rng, unifInt]
      simp [Nat.not_lt.2 h] }

/-- point with given second coordinate, the other coordinates are zero -/
def pt (u : ℝ) : Fin 6 → ℝ := fun i => if i = 1 then u else 0

theorem pt_mem {u : ℝ} (hu : u ∈ Set.Ico (0 : ℝ) 1) : pt u ∈ unitCube := by
  intro i _
  simp only [pt]
  split_ifs
  · exact hu
  · simp


theorem move_eq (g g' u u' : ℝ) (k : FreeKey) :
    moveOf (rng g (pt u)) (init args) k 0 = { moveOf (rng g' (pt u')) (init args) k 0 with
      logu := (moveOf (rng g (pt u)) (init args) k 0).logu } := rfl

theorem trans_eq (g g' u u' : ℝ) (k : FreeKey) :
    (workOf (rng g (pt u)) (init args) k 0).log_trans_prior_ratio =
    (workOf (rng g' (pt u')) (init args) k 0).log_trans_prior_ratio := by
  have e : ∀ g u, (workOf (rng g (pt u)) (init args) k 0).log_trans_prior_ratio =
      Real.log ((moveOf (rng g (pt u)) (init args) (KeyLike.split k 2 1) 0).partial_ratio *
      compute_p_prune (moveOf (rng g (pt u)) (init args) (KeyLike.split k 2 1) 0)
        (workOf (rng g (pt u)) (init args) k 0).counts.left
        (workOf (rng g (pt u)) (init args) k 0).counts.right none) := fun _ _ => rfl
  rw [e, e, move_eq g g' u u']
  generalize moveOf (rng g' (pt u')) (init args) (KeyLike.split k 2 1) 0 = mv
  rfl

theorem reach : Reachable FreeKey args (init args) := .init

theorem sigma2_eq : (init args).sigma2 = 2 / 3 := by
  simp [init, args, ExR.args]

theorem partialResid_eq (s s' : State ℝ) (h : s.y = args.y) (j : Nat) :
    partialResid args.p_nonterminal.length args.num_trees s s' 0 j = args.y.getD j 0 := by
  unfold partialResid
  rw [h]
  simp [args]

abbrev k1 : FreeKey := KeyLike.split [] 2 1
abbrev k2 : FreeKey := KeyLike.split k1 2 1

theorem root_leaf : IsLeaf ((init args).split_trees.getD 0 []) 1 ∧
    ∀ j, IsLeaf ((init args).split_trees.getD 0 []) j → j = 1 := by
  have e : (init args).split_trees.getD 0 [] = [0, 0, 0, 0] := rfl
  rw [e]
  have z : ∀ k, at0 [0, 0, 0, 0] k = 0 := by
    intro k
    rcases k with _ | _ | _ | _ | k <;> rfl
  refine ⟨⟨.root, z 1⟩, ?_⟩
  rintro j ⟨hn, _⟩
  cases hn with
  | root => rfl
  | left h0 h => exact absurd (z _) h
  | right h0 h => exact absurd (z _) h

theorem pGrow_init : pGrow (init args) 0 = 1 := by
  have hi := reachable_inv args_valid reach
  have : nGrow (init args) 0 ≠ 0 := by
    show countNonzero (growable_leaves [0, 0, 0, 0] none) ≠ 0
    decide
  unfold pGrow
  rw [if_pos this, if_neg]
  show ¬ (at0 [0, 0, 0, 0] 1 ≠ 0)
  decide

theorem mv_grow {u : ℝ} : (moveOf (rng 1 (pt u)) (init args) k2 0).grow = true := by
  have hi := reachable_inv args_valid reach
  have := (mv_grow_iff args_valid hi (by simp [args]) (rng_sites 1) (pt u)).2
    (by rw [pGrow_init]; simp [pt])
  exact this

/-- the log ratio of the growth of the root -/
noncomputable def score : ℝ := (workOf (rng 1 (pt 0)) (init args) k1 0).log_trans_prior_ratio +
  (accOf (rng 1 (pt 0)) (init args) k1 0).2.log_likelihood

noncomputable def u : ℝ := 1 - min 1 (Real.exp score)

theorem u_mem : u ∈ Set.Ico (0 : ℝ) 1 := by
  unfold u
  have := Real.exp_pos score
  constructor
  · have := min_le_left 1 (Real.exp score); linarith
  · have := lt_min one_pos this; linarith

theorem zero_mem : (0 : ℝ) ∈ Set.Ico (0 : ℝ) 1 := by simp

theorem grow_split_pos (g u : ℝ) (hu : u ∈ Set.Ico (0 : ℝ) 1)
    (h : (moveOf (rng g (pt u)) (init args) k2 0).grow = true) :
    1 ≤ (moveOf (rng g (pt u)) (init args) k2 0).grow_split := by
  have ht : 0 < args.num_trees := by simp [args]
  have hi := reachable_inv args_valid reach
  have hok := moveOf_ok args_valid hi (rng g (pt u)) (rng_lawful _ _ (pt_mem hu)) k2 ht
  exact (hok.grow_split h (move_not_wraps args_valid args_no_overflow (hi.tree 0 ht) hok h)).pos

theorem lik_eq (g g' u u' : ℝ) (hu : u ∈ Set.Ico (0 : ℝ) 1) (hu' : u' ∈ Set.Ico (0 : ℝ) 1)
    (hgr : (moveOf (rng g' (pt u')) (init args) k2 0).allowed = true) :
    (accOf (rng g (pt u)) (init args) k1 0).2.log_likelihood =
    (accOf (rng g' (pt u')) (init args) k1 0).2.log_likelihood := by
  have hgr' : (moveOf (rng g (pt u)) (init args) k2 0).allowed = true := by rw [move_eq g g' u u']; exact hgr
  have ht : 0 < args.num_trees := by simp [args]
  have hsig : 0 < (init args).sigma2 := by rw [sigma2_eq]; norm_num
  have e1 := loglik_eq args_valid (reachable_inv args_valid reach)
    (reachable_resid args_valid reach) hsig (rng g (pt u)) (rng_lawful _ _ (pt_mem hu)) [] 0 ht _ rfl hgr'
    (fun h => grow_split_pos g u hu h)
  have e2 := loglik_eq args_valid (reachable_inv args_valid reach)
    (reachable_resid args_valid reach) hsig (rng g' (pt u')) (rng_lawful _ _ (pt_mem hu')) [] 0 ht _ rfl hgr
    (fun h => grow_split_pos g' u' hu' h)
  have hp : ∀ s', partialResid args.p_nonterminal.length args.num_trees (init args) s' 0 =
      fun j => args.y.getD j 0 := fun s' => funext fun j => partialResid_eq _ _ rfl j
  dsimp only at e1 e2
  rw [hp] at e1 e2
  refine e1.trans (Eq.trans ?_ e2.symm)
  rw [move_eq g g' u u' (KeyLike.split (KeyLike.split [] 2 1) 2 1)]

/-- state in which the root has been grown -/
noncomputable def grownState (g : ℝ) : State ℝ := step (rng g (pt u)) (init args) []

theorem reach_grown (g : ℝ) : Reachable FreeKey args (grownState g) :=
  .step _ _ reach (rng_lawful _ _ (pt_mem u_mem))

theorem sigma_grown (g : ℝ) : (grownState g).sigma2 = (grownState 1).sigma2 / g := by
  have e : ∀ g, (grownState g).sigma2 = ((init args).sigma2_beta +
    Jax.sum ((grownState g).resid.map fun r => r * r) / ((2 : Nat) : ℝ)) / g := fun _ => rfl
  have e2 : (grownState g).resid = (grownState 1).resid := rfl
  rw [e, e, e2, div_one]

theorem mv_grow' (g u : ℝ) : (moveOf (rng g (pt u)) (init args) k2 0).grow = true := by
  rw [move_eq g 1 u 0]; exact mv_grow

theorem acc (g : ℝ) : (accOf (rng g (pt u)) (init args) k1 0).2.acc = true := by
  have hi := reachable_inv args_valid reach
  have ht : 0 < args.num_trees := by simp [args]
  have hal : ∀ g u, u ∈ Set.Ico (0 : ℝ) 1 →
      (moveOf (rng g (pt u)) (init args) k2 0).allowed = true := fun g u hu =>
    (moveOf_ok args_valid hi (rng g (pt u)) (rng_lawful _ _ (pt_mem hu)) k2 ht).grow_allowed
      (mv_grow' g u)
  rw [acc_iff]
  refine ⟨hal g u u_mem, ?_, ?_⟩
  · rw [if_pos (mv_grow' g u), trans_eq g 1 u 0, lik_eq g 1 u 0 u_mem zero_mem (hal 1 0 zero_mem)]
    have e : (moveOf (rng g (pt u)) (init args) k2 0).logu = Real.log (1 + -u) :=
      logu_eq hi (rng_sites g) (pt u)
    rw [e]
    show Real.log (1 + -u) ≤ score
    have h0 : 1 + -u = min 1 (Real.exp score) := by unfold u; ring
    rw [h0]
    calc Real.log (min 1 (Real.exp score)) ≤ Real.log (Real.exp score) :=
          Real.log_le_log (lt_min one_pos (Real.exp_pos _)) (min_le_right _ _)
      _ = score := Real.log_exp _
  · intro m hm
    simp [init, args] at hm

theorem grown (g : ℝ) : Grown args.p_nonterminal.length ((init args).var_trees.getD 0 [])
    ((init args).split_trees.getD 0 []) ((grownState g).var_trees.getD 0 [])
    ((grownState g).split_trees.getD 0 []) 1 := by
  have hi := reachable_inv args_valid reach
  have ht : 0 < args.num_trees := by simp [args]
  obtain ⟨_, _, e3, e4⟩ := leaf_step hi (rng g (pt u)) [] ht
  rw [accOf_to_prune] at e4
  have hok := moveOf_ok args_valid hi (rng g (pt u)) (rng_lawful _ _ (pt_mem u_mem)) k2 ht
  have hnode := root_leaf.2 _ (hok.grow_leaf (mv_grow' g u)).1
  have := (change_grow (cfgOf_ok args_valid) (hi.tree 0 ht) hok (accOf_allowed _ _ _ _) (acc g) (mv_grow' g u)
    (move_not_wraps args_valid args_no_overflow (hi.tree 0 ht) hok (mv_grow' g u))).1
  rw [hnode] at this
  rw [show (grownState g).var_trees.getD 0 [] = _ from e3,
    show (grownState g).split_trees.getD 0 [] = _ from e4]
  exact this

theorem max_split (v : Nat) (hv : v < args.max_split.length) : 1 ≤ at0 args.max_split v := by
  have e : args.max_split = [3, 2] := rfl
  rw [e] at hv ⊢
  rcases v with _ | _ | v
  · decide
  · decide
  · simp at hv

theorem rules (g : ℝ) (k : Nat) (hk : IsDecision ((grownState g).split_trees.getD 0 []) k) :
    1 ≤ at0 args.max_split (at0 ((grownState g).var_trees.getD 0 []) k) :=
  ((reachable_inv args_valid (reach_grown g)).tree 0 (by simp [args])).good
    (Or.inr ⟨max_split, by simp [cfgOf, args, ExR.args]⟩) k hk

theorem vars (g : ℝ) (k : Nat) (hk : IsDecision ((grownState g).split_trees.getD 0 []) k) :
    at0 ((grownState g).var_trees.getD 0 []) k < args.max_split.length :=
  lt_of_at0_ne (split := args.max_split) (Nat.one_le_iff_ne_zero.1 (rules g k hk))

/-- variance when the gamma variate is 1 -/
theorem sigma_pos : 0 < (grownState 1).sigma2 := by
  have := (C38_positive args_valid (by simp [args, ExR.args]) (by simp [args, ExR.args])
    [(rng 1 (pt u), ([] : FreeKey))] (by simp [rng_lawful _ _ (pt_mem u_mem)]) (by simp [rng])).1
    (by simp [args, ExR.args])
  exact this

/-- gamma variate such that the variance does not change -/
noncomputable def g0 : ℝ := (grownState 1).sigma2 / (2 / 3)

theorem sigma_same : (grownState g0).sigma2 = (init args).sigma2 := by
  rw [sigma_grown, sigma2_eq, g0, div_div_cancel₀ sigma_pos.ne']

theorem nonterminal (x : ℝ) (hx : x ∈ args.p_nonterminal) : x < 1 := by
  simp only [args, ExR.args, List.mem_cons, List.not_mem_nil, or_false] at hx
  rcases hx with rfl | rfl <;> norm_num

end ExB

-- the states before and after growing the root satisfy the hypotheses
example := C54_detailed_balance ExB.args_valid ExB.nonterminal (Or.inr ExB.max_split) ExB.reach
  (ExB.reach_grown ExB.g0) (by rw [ExB.sigma2_eq]; norm_num) ExB.sigma_same (by simp [ExB.args])
  (ExB.grown ExB.g0) (ExB.vars _ 1 (ExB.grown _).decision) (fun k hk _ => ExB.rules _ k hk) (ExB.rng_sites 1)
  (fun w hw => ExB.rng_lawful 1 w hw) (fun j => ExB.args.y.getD j 0)
  (fun _ _ j _ => ExB.partialResid_eq _ _ rfl j)
  (fun _ _ j _ => ExB.partialResid_eq _ _ (reachable_inv ExB.args_valid (ExB.reach_grown _)).cfg.y j)

example := C30_ratio ExB.args_valid ExB.nonterminal (Or.inr ExB.max_split) ExB.reach
  (ExB.reach_grown ExB.g0) (by simp [ExB.args]) (ExB.grown ExB.g0) (ExB.rules _) (ExB.rng_sites 1)
  (fun w hw => ExB.rng_lawful 1 w hw)

end Bartz
