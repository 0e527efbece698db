import Verif.Lemmas.Balance32
import Verif.Props.Balance
/-!
# Property C101: detailed balance in single precision

C54 states that with exact arithmetic the update of a tree satisfies the detailed balance condition. In single precision the
variates are discrete and the calculations are rounded, so the equality holds up to an error, bounded here.
-/

set_option autoImplicit false

namespace Bartz
open Jax Spec

section
variable {K K' : Type} [KeyLike K] [KeyLike K'] [P : Binary32.Platform] {a : InitArgs Binary32} {s1 s2 : State Binary32} {t i : Nat} {p : List ℝ}

/-- The probabilities of the two changes, with any two likelihoods. -/
theorem kernel_balance {δ : ℝ} (hlog : LogError P δ) (hδ : 0 ≤ δ) (hδ1 : δ ≤ 1) (hc : ∀ w, Binary32.Platform.cumsum w = associativeScan w)
    (ha : ValidArgs a) (hs1 : ReachablePicks K' a s1) (hs2 : ReachablePicks K' a s2) {rng : UpdateBits → Rng K Binary32} {key : K}
    (ht : t < a.num_trees) (hrng : UsesUpdateBits rng (KeyLike.split (KeyLike.split key 2 1) 2 1) a.num_trees t)
    (hjax : ∀ ω key, JaxDraws (rng ω key)) (hp : Probs a p)
    (hP : a.max_split.length ≤ 2 ^ 16) (hm : ∀ m ∈ a.max_split, m < 2 ^ 16) (hf : FillerOK a.max_split)
    (hrules : ((∀ v j, v < a.max_split.length → j < a.y.length → (a.X.getD v []).getD j 0 ≤ at0 a.max_split v) ∧
        ∃ m, 1 ≤ m ∧ a.min_points_per_leaf = some m) ∨ ∀ v, v < a.max_split.length → 1 ≤ at0 a.max_split v)
    (hg : Grown a.p_nonterminal.length (s1.var_trees.getD t []) (s1.split_trees.getD t []) (s2.var_trees.getD t []) (s2.split_trees.getD t []) i)
    (hvar : at0 (s2.var_trees.getD t []) i < a.max_split.length)
    (hcut : ∀ k, IsDecision (s2.split_trees.getD t []) k → at0 (s2.var_trees.getD t []) k < a.max_split.length →
      1 ≤ at0 a.max_split (at0 (s2.var_trees.getD t []) k))
    {L1 L2 β : ℝ} (hL1 : 0 < L1) (hL2 : 0 < L2) (hβ : 0 ≤ β) (hB : |Real.log (L2 / L1)| + β ≤ 2 ^ 100)
    (hlik1 : ∀ ω m, (sample_moves (rng ω) s1 (KeyLike.split (KeyLike.split key 2 1) 2 1))[t]? = some m →
      m.grow = true ∧ m.node = i ∧ m.grow_var = at0 (s2.var_trees.getD t []) i ∧ m.grow_split = at0 (s2.split_trees.getD t []) i →
      ∃ trans lik r, (step (rng ω) s1 key).ratios = some (trans, lik) ∧ HasValue (lik.getD t 0) r ∧ |r - Real.log (L2 / L1)| ≤ β)
    (hlik2 : ∀ ω m, (sample_moves (rng ω) s2 (KeyLike.split (KeyLike.split key 2 1) 2 1))[t]? = some m →
      m.grow = false ∧ m.allowed = true ∧ m.node = i →
      ∃ trans lik r, (step (rng ω) s2 key).ratios = some (trans, lik) ∧ HasValue (lik.getD t 0) r ∧ |r - Real.log (L2 / L1)| ≤ β) :
    let posterior1 := treePrior p a.split_bits a.max_split (s1.var_trees.getD t []) (s1.split_trees.getD t []) * L1
    let posterior2 := treePrior p a.split_bits a.max_split (s2.var_trees.getD t []) (s2.split_trees.getD t []) * L2
    let becomes := fun s s' : State Binary32 => updateProb fun ω =>
      SameTree (s'.var_trees.getD t []) (s'.split_trees.getD t [])
        ((step (rng ω) s key).var_trees.getD t []) ((step (rng ω) s key).split_trees.getD t [])
    |posterior1 * becomes s1 s2 - posterior2 * becomes s2 s1| ≤
      (posterior1 + posterior2) * kernelError a.p_nonterminal.length δ β |Real.log (L2 / L1)| := by
  intro posterior1 posterior2 becomes
  have h1 := ReachablePicks.inv ha hs1
  have h2 := ReachablePicks.inv ha hs2
  have hT1 := h1.tree t ht
  have hT2 := h2.tree t ht
  obtain ⟨mk, hmk⟩ : ∃ mk, mk = KeyLike.split (KeyLike.split key 2 1) 2 1 := ⟨_, rfl⟩
  have hq : ∀ d (h : d < a.p_nonterminal.length), HasValue a.p_nonterminal[d] (p.getD d 0) ∧ 1 / 2 ^ 125 ≤ p.getD d 0 := fun d h =>
    ⟨hp.value d h, le_trans (by norm_num) (hp.range d h).1⟩
  obtain ⟨A, hA⟩ : ∃ A, A = ratio32 a p s1 s2 t i := ⟨_, rfl⟩
  obtain ⟨B, hBd⟩ : ∃ B, B = L2 / L1 := ⟨_, rfl⟩
  have hApos : 0 < A := hA ▸ ratio32_pos ha h1 h2 ht hg hp
  have hBpos : 0 < B := hBd ▸ div_pos hL2 hL1
  rw [← hBd] at hB ⊢
  simp only [← hBd] at hlik1 hlik2
  have hM : ∀ (s : State Binary32), StateInv a s → ∀ ω, (sample_moves (rng ω) s mk)[t]? = some (moveOf (rng ω) s mk t) := by
    intro s hs ω
    rw [sample_moves_eq, vmap, List.getElem?_map, List.getElem?_range (by rw [hs.leaf_length]; exact ht)]
    rfl
  have hok : ∀ (s : State Binary32), StateInv a s → ∀ ω, Picks (rng ω) s mk t → MoveOK (cfgOf a) (s.var_trees.getD t [])
      (s.split_trees.getD t []) (s.affluence_trees.map fun x => x.getD t []) (moveOf (rng ω) s mk t) := by
    intro s hs ω hpick
    have hlaw : LawfulRng (rng ω) := fun k' => JaxDraws.lawful (hjax ω k')
    refine moveOf_ok_of ha hs (rng ω) hlaw mk ht hpick ?_
    rw [Binary32.addLaws.lt_iff _ _ ((hlaw _).uniform2_nonneg _ _) Binary32.addLaws.zero_le_zero, (hlaw _).uniform2_nonneg]
    rfl
  have hbpos : 0 ≤ scoreError a.p_nonterminal.length δ β |Real.log B| := by
    unfold scoreError
    positivity
  -- growing
  have p12 := C100_update hlog hδ hc ha hs1 ht hrng hjax hq hP hm hp.depth hf hrules
    (E := fun i' v c => i' = i ∧ v = at0 (s2.var_trees.getD t []) i ∧ c = at0 (s2.split_trees.getD t []) i) (D := fun _ => False)
    (ℓ := fun _ _ _ => Real.log A + Real.log B) (ℓ' := fun _ => 0) hbpos
  have p21 := C100_update hlog hδ hc ha hs2 ht hrng hjax hq hP hm hp.depth hf hrules
    (E := fun _ _ _ => False) (D := fun j => j = i)
    (ℓ := fun _ _ _ => 0) (ℓ' := fun _ => -(Real.log A + Real.log B)) hbpos
  dsimp only at p12 p21
  specialize p12 (by
    rintro i' v c ⟨rfl, rfl, rfl⟩
    obtain ⟨r1, r2⟩ := rule_avail32 h2 ht hcut hg.decision hvar
    rw [hg.availVars hT1.valid hT2.valid _ _ hg.leaf.1] at r1
    rw [hg.availSplits hT1.valid hT2.valid _ hg.leaf.1] at r2
    exact ⟨Finset.mem_filter.2 ⟨Finset.mem_range.2 hg.not_bottom, node_growable ha h1 h2 ht hg⟩, Nat.pos_of_ne_zero hg.decision.2,
      ⟨_, r1⟩, fun _ => ⟨_, r2⟩⟩) (fun _ h => h.elim) (by
    intro ω m hmv hk
    have hmv' := hM s1 h1 ω
    rw [hmk, hmv, Option.some.injEq] at hmv'
    cases hgr : m.grow with
    | false => rw [hgr, if_neg (by simp)] at hk; exact hk.2.elim
    | true =>
      rw [hgr, if_pos rfl] at hk
      obtain ⟨trans, lik, r, e1, e2, e3⟩ := hlik1 ω m hmv ⟨hgr, hk⟩
      obtain ⟨f1, f2⟩ := saved_ratios h1 (rng ω) key ht e1
      have hpick : Picks (rng ω) s1 mk t := by
        intro _
        have hn : m.node = (choose_leaf (s1.split_trees.getD t []) (s1.affluence_trees.map fun x => x.getD t []) s1.p_propose_grow (rng ω
            (KeyLike.split (KeyLike.split (KeyLike.split mk (1 + s1.leaf_trees.length) (1 + t)) 2 0) 3 0))).leaf_to_grow := by
          rw [hmk]
          rw [hmv'] at hgr ⊢
          unfold moveOf combine_moves at hgr ⊢
          dsimp only at hgr ⊢
          rw [if_pos hgr]
          rfl
        rw [← hn, hk.1]
        exact node_growable ha h1 h2 ht hg
      have hok1 := hok s1 h1 ω hpick
      rw [hmk] at hok1
      obtain ⟨⟨x, x1, x2⟩, x3, -⟩ := grow_trans32 ha h1 h2 ht hg hlog hδ hc hp hok1 hmv' hgr hk.1 hk.2.1 hk.2.2
      rw [← hA] at x2 x3
      rw [← f1] at x1
      obtain ⟨z, z1, z2⟩ := score_add hp.depth hδ hδ1 hβ x1 e2 x2 e3 x3 hB
      exact ⟨trans, lik, z, e1, z1, by rw [if_pos rfl]; exact z2⟩)
  specialize p21 (fun _ _ _ h => h.elim) (fun j hj => by rw [hj]; exact hg.parent hT1.valid hT2.valid) (by
    intro ω m hmv hk
    have hmv' := hM s2 h2 ω
    rw [hmk, hmv, Option.some.injEq] at hmv'
    cases hgr : m.grow with
    | true => rw [hgr, if_pos rfl] at hk; exact hk.elim
    | false =>
      rw [hgr, if_neg (by simp)] at hk
      obtain ⟨trans, lik, r, e1, e2, e3⟩ := hlik2 ω m hmv ⟨hgr, hk⟩
      obtain ⟨f1, f2⟩ := saved_ratios h2 (rng ω) key ht e1
      obtain ⟨⟨x, x1, x2⟩, x3, -⟩ := prune_trans32 ha h1 h2 ht hg hlog hδ hc hp hmv' hgr hk.2
      rw [← hA] at x2 x3
      rw [← f1] at x1
      obtain ⟨z, z1, z2⟩ := score_add hp.depth hδ hδ1 hβ x1 e2 x2 e3 x3 hB
      exact ⟨trans, lik, z, e1, z1, by rw [if_neg (by simp), neg_neg]; exact z2⟩)
  rw [grow_intended ha h1 h2 ht hg hcut hvar _ (fun _ _ _ => Iff.rfl) (fun _ h => h), Real.exp_add, Real.exp_log hApos, Real.exp_log hBpos] at p12
  rw [prune_intended ha h1 h2 ht hg _ (fun _ _ _ h => h) (fun _ => Iff.rfl), Real.exp_neg, Real.exp_add, Real.exp_log hApos, Real.exp_log hBpos] at p21
  -- the events
  have e12 := updateProb_sub (fun ω => SameTree (s2.var_trees.getD t []) (s2.split_trees.getD t [])
        ((step (rng ω) s1 key).var_trees.getD t []) ((step (rng ω) s1 key).split_trees.getD t []))
    (fun ω => ∃ m, (sample_moves (rng ω) s1 (KeyLike.split (KeyLike.split key 2 1) 2 1))[t]? = some m ∧
      (if m.grow = true then m.node = i ∧ m.grow_var = at0 (s2.var_trees.getD t []) i ∧ m.grow_split = at0 (s2.split_trees.getD t []) i
        else m.allowed = true ∧ False) ∧ (step (rng ω) s1 key).split_trees.getD t [] ≠ s1.split_trees.getD t [])
    (fun ω => ¬ Picks (rng ω) s1 (KeyLike.split (KeyLike.split key 2 1) 2 1) t) (by
      intro ω hpick
      have hpick := not_not.1 hpick
      rw [← hmk] at hpick
      have hok1 := hok s1 h1 ω hpick
      rw [becomes_grow ha h1 h2 ht hg (mv := moveOf (rng ω) s1 mk t) (by rw [hmk]) hok1, ← hmk, hM s1 h1]
      simp only [Option.some.injEq, exists_eq_left']
      refine and_congr_left fun _ => ?_
      cases hgr : (moveOf (rng ω) s1 mk t).grow <;> simp)
  have e21 := updateProb_sub (fun ω => SameTree (s1.var_trees.getD t []) (s1.split_trees.getD t [])
        ((step (rng ω) s2 key).var_trees.getD t []) ((step (rng ω) s2 key).split_trees.getD t []))
    (fun ω => ∃ m, (sample_moves (rng ω) s2 (KeyLike.split (KeyLike.split key 2 1) 2 1))[t]? = some m ∧
      (if m.grow = true then False else m.allowed = true ∧ m.node = i) ∧
        (step (rng ω) s2 key).split_trees.getD t [] ≠ s2.split_trees.getD t [])
    (fun ω => ¬ Picks (rng ω) s2 (KeyLike.split (KeyLike.split key 2 1) 2 1) t) (by
      intro ω hpick
      have hpick := not_not.1 hpick
      rw [← hmk] at hpick
      have hok2 := hok s2 h2 ω hpick
      rw [becomes_prune ha h1 h2 ht hg (mv := moveOf (rng ω) s2 mk t) (by rw [hmk]) hok2, ← hmk, hM s2 h2]
      simp only [Option.some.injEq, exists_eq_left']
      refine and_congr_left fun _ => ?_
      cases hgr : (moveOf (rng ω) s2 mk t).grow <;> simp)
  have u1 := update_picks hc ha hs1 ht hrng hq
  have u2 := update_picks hc ha hs2 ht hrng hq
  have q12 := (abs_sub_le _ _ _).trans (add_le_add (e12.trans u1) p12)
  have q21 := (abs_sub_le _ _ _).trans (add_le_add (e21.trans u2) p21)
  clear e12 e21 u1 u2 p12 p21 hlik1 hlik2
  change |becomes s1 s2 - _| ≤ _ at q12
  change |becomes s2 s1 - _| ≤ _ at q21
  generalize becomes s1 s2 = b12 at q12 ⊢
  generalize becomes s2 s1 = b21 at q21 ⊢
  -- exact balance
  have hlg : Nat.log2 i < a.p_nonterminal.length := (Nat.log2_lt (by have := hg.leaf.1.pos; omega)).2 hg.not_bottom
  have hd : 1 - p.getD (Nat.log2 i) 0 ≠ 0 := by
    have := (hp.range _ hlg).2
    have h0 : (0 : ℝ) < 1 / 2 ^ 24 := by positivity
    exact (by linarith : (0 : ℝ) < _).ne'
  have eprior : treePrior p a.split_bits a.max_split (s2.var_trees.getD t []) (s2.split_trees.getD t []) = shapePrior _ _ * _ *
      (rulesPrior _ _ _ _ * _) := congrArg₂ (· * ·) (shapePrior_grown hT1.valid hT2.valid hg _ hd)
        (rulesPrior_grown hT1.valid hT2.valid hg _ _)
  have hmin : min 1 (A * B) = A * B * min 1 (A * B)⁻¹ := by
    have hAB : 0 < A * B := mul_pos hApos hBpos
    rw [mul_min_of_nonneg _ _ hAB.le, mul_inv_cancel₀ hAB.ne', mul_one, min_comm]
  have hL : L2 = L1 * B := by rw [hBd]; field_simp
  have hp1 := treePrior_nonneg hp.bounds a.split_bits a.max_split (s1.var_trees.getD t []) (s1.split_trees.getD t [])
  have hp2 := treePrior_nonneg hp.bounds a.split_bits a.max_split (s2.var_trees.getD t []) (s2.split_trees.getD t [])
  have hA' : (if i ≠ 1 then 1 / 2 else 1) * (p.getD (Nat.log2 i) 0 / weightSum p a.p_nonterminal.length (growable_leaves
      (s1.split_trees.getD t []) (s1.affluence_trees.map fun x => x.getD t []))) * A = shapeRatio p i *
      (if countNonzero (growable_leaves (s2.split_trees.getD t []) (s2.affluence_trees.map fun x => x.getD t [])) ≠ 0 then 1 / 2 else 1) *
      (1 / countNonzero (is_leaves_parent (s2.split_trees.getD t []))) := by
    have hS : (p.getD (Nat.log2 i) 0 / weightSum p a.p_nonterminal.length (growable_leaves (s1.split_trees.getD t [])
        (s1.affluence_trees.map fun x => x.getD t []))) ≠ 0 := by
      intro h0
      rw [hA] at hApos
      unfold ratio32 trans32 at hApos
      rw [h0] at hApos
      simp at hApos
    have hm0 : (countNonzero (is_leaves_parent (s2.split_trees.getD t [])) : ℝ) ≠ 0 := by
      have := (prunable_bounds ha h1 h2 ht hg).1
      exact_mod_cast Nat.pos_iff_ne_zero.1 this
    have hc2 : (if i ≠ 1 then (1 / 2 : ℝ) else 1) ≠ 0 := by split_ifs <;> norm_num
    rw [hA]
    unfold ratio32 trans32
    generalize (p.getD (Nat.log2 i) 0 / weightSum p a.p_nonterminal.length (growable_leaves (s1.split_trees.getD t [])
        (s1.affluence_trees.map fun x => x.getD t []))) = q at hS
    generalize (if i ≠ 1 then (1 / 2 : ℝ) else 1) = w at hc2
    field_simp
  have hbal : posterior1 * ((if i ≠ 1 then 1 / 2 else 1) * (p.getD (Nat.log2 i) 0 / weightSum p a.p_nonterminal.length (growable_leaves
      (s1.split_trees.getD t []) (s1.affluence_trees.map fun x => x.getD t []))) * (min 1 (A * B) *
      (1 / (availSplits a.max_split (s1.var_trees.getD t []) (s1.split_trees.getD t []) i (at0 (s2.var_trees.getD t []) i)).ncard) *
      (1 / (availVars a.split_bits a.max_split (s1.var_trees.getD t []) (s1.split_trees.getD t []) i).ncard))) =
      posterior2 * ((if countNonzero (growable_leaves (s2.split_trees.getD t []) (s2.affluence_trees.map fun x => x.getD t [])) ≠ 0
        then 1 / 2 else 1) * (min 1 (A * B)⁻¹ * (1 / countNonzero (is_leaves_parent (s2.split_trees.getD t []))))) := by
    show treePrior p a.split_bits a.max_split (s1.var_trees.getD t []) (s1.split_trees.getD t []) * L1 * _ =
      treePrior p a.split_bits a.max_split (s2.var_trees.getD t []) (s2.split_trees.getD t []) * L2 * _
    rw [eprior, hmin, hL]
    unfold shapeRatio at hA'
    unfold treePrior
    generalize (if i ≠ 1 then (1 / 2 : ℝ) else 1) * (p.getD (Nat.log2 i) 0 / weightSum p a.p_nonterminal.length (growable_leaves
      (s1.split_trees.getD t []) (s1.affluence_trees.map fun x => x.getD t []))) = q at hA' ⊢
    generalize shapePrior p (s1.split_trees.getD t []) = π1
    generalize rulesPrior a.split_bits a.max_split (s1.var_trees.getD t []) (s1.split_trees.getD t []) = π2
    generalize (1 / ((availVars a.split_bits a.max_split (s1.var_trees.getD t []) (s1.split_trees.getD t []) i).ncard : ℝ)) = v
    generalize (1 / ((availSplits a.max_split (s1.var_trees.getD t []) (s1.split_trees.getD t []) i (at0 (s2.var_trees.getD t []) i)).ncard : ℝ)) = c
    generalize min 1 (A * B)⁻¹ = m
    linear_combination (π1 * π2 * L1 * v * c * m * B) * hA'
  -- conclusion
  have hpos1 : 0 ≤ posterior1 := mul_nonneg hp1 hL1.le
  have hpos2 : 0 ≤ posterior2 := mul_nonneg hp2 hL2.le
  generalize posterior1 = π1 at hbal hpos1 ⊢
  generalize posterior2 = π2 at hbal hpos2 ⊢
  have hk : ∀ b c : ℝ, |b - c| ≤ 2 ^ a.p_nonterminal.length * ((4 * a.p_nonterminal.length + 1) / 2 ^ 22) +
      (2 ^ a.p_nonterminal.length * ((4 * a.p_nonterminal.length + 1) / 2 ^ 22) + 1 / 2 ^ 47 +
        (2 * (scoreError a.p_nonterminal.length δ β |Real.log B| + 17 * δ) + 1 / 2 ^ 22)) →
      |b - c| ≤ kernelError a.p_nonterminal.length δ β |Real.log B| := by
    intro b c h
    refine h.trans (le_of_eq ?_)
    unfold kernelError
    ring
  have q12 := hk _ _ q12
  have q21 := hk _ _ q21
  generalize kernelError a.p_nonterminal.length δ β |Real.log B| = ε at q12 q21 ⊢
  have fin : ∀ x y : ℝ, π1 * x = π2 * y → |b12 - x| ≤ ε → |b21 - y| ≤ ε → |π1 * b12 - π2 * b21| ≤ (π1 + π2) * ε := by
    intro x y h h12 h21
    rw [show π1 * b12 - π2 * b21 = π1 * (b12 - x) - π2 * (b21 - y) + (π1 * x - π2 * y) by ring, h, sub_self, add_zero]
    refine (abs_sub _ _).trans ?_
    rw [abs_mul, abs_mul, abs_of_nonneg hpos1, abs_of_nonneg hpos2, add_mul]
    exact add_le_add (mul_le_mul_of_nonneg_left h12 hpos1) (mul_le_mul_of_nonneg_left h21 hpos2)
  exact fin _ _ hbal q12 q21

omit P in
theorem treeLikelihood_pos {tau σ : ℝ} (h0 : 0 < tau) (hσ : 0 < σ) (X : List (List Nat)) (n : Nat) (r : Nat → ℝ) (var split : List Nat) :
    0 < treeLikelihood tau σ X n r var split := by
  refine Finset.prod_pos fun i _ => ?_
  split_ifs
  · exact leafMarginal_pos h0 hσ _
  · exact zero_lt_one

/-- C101. The detailed balance condition in single precision. `T1` and `T2` are the trees `t` of two states reachable with the
variates made by JAX, such that `T2` is obtained from `T1` by growing a leaf. The posterior probability of `T1`, up to a factor, times the
probability that the step changes it into `T2`, is equal to the posterior probability of `T2` times the probability that the step
changes it into `T1`, up to `kernelError` relative to the sum of the posterior probabilities. `δ` is the accuracy of the logarithms, `β`
that of the log likelihood ratio (see C93 and `C101_likelihood`). `R` are the data minus the other trees. The predictors, the depth, and
the probabilities of the decisions are bounded as in C100. -/
theorem C101_balance {δ : ℝ} (hlog : LogError P δ) (hδ : 0 ≤ δ) (hδ1 : δ ≤ 1) (hc : ∀ w, Binary32.Platform.cumsum w = associativeScan w)
    (ha : ValidArgs a) (hs1 : ReachablePicks K' a s1) (hs2 : ReachablePicks K' a s2) {rng : UpdateBits → Rng K Binary32} {key : K}
    (ht : t < a.num_trees) (hrng : UsesUpdateBits rng (KeyLike.split (KeyLike.split key 2 1) 2 1) a.num_trees t)
    (hjax : ∀ ω key, JaxDraws (rng ω key)) (hpl : p.length = a.p_nonterminal.length)
    (hp : ∀ d (h : d < a.p_nonterminal.length), HasValue a.p_nonterminal[d] (p.getD d 0) ∧ 1 / 2 ^ 13 ≤ p.getD d 0 ∧
      p.getD d 0 ≤ 1 - 1 / 2 ^ 24) (hdepth : a.p_nonterminal.length ≤ 16)
    (hP : a.max_split.length ≤ 2 ^ 16) (hm : ∀ m ∈ a.max_split, m < 2 ^ 16) (hf : FillerOK a.max_split)
    (hrules : ((∀ v j, v < a.max_split.length → j < a.y.length → (a.X.getD v []).getD j 0 ≤ at0 a.max_split v) ∧
        ∃ m, 1 ≤ m ∧ a.min_points_per_leaf = some m) ∨ ∀ v, v < a.max_split.length → 1 ≤ at0 a.max_split v)
    (hg : Grown a.p_nonterminal.length (s1.var_trees.getD t []) (s1.split_trees.getD t []) (s2.var_trees.getD t []) (s2.split_trees.getD t []) i)
    (hvar : at0 (s2.var_trees.getD t []) i < a.max_split.length)
    (hcut : ∀ k, IsDecision (s2.split_trees.getD t []) k → at0 (s2.var_trees.getD t []) k < a.max_split.length →
      1 ≤ at0 a.max_split (at0 (s2.var_trees.getD t []) k))
    {R : Nat → ℝ} {σ β : ℝ} (hσ : 0 < σ) (hβ : 0 ≤ β) :
    let likelihood := fun s : State Binary32 => treeLikelihood (1 / (a.num_trees : ℝ)) σ a.X a.y.length R (s.var_trees.getD t [])
      (s.split_trees.getD t [])
    let posterior := fun s : State Binary32 =>
      treePrior p a.split_bits a.max_split (s.var_trees.getD t []) (s.split_trees.getD t []) * likelihood s
    let logratio := Real.log (likelihood s2 / likelihood s1)
    let becomes := fun s s' : State Binary32 => updateProb fun ω =>
      SameTree (s'.var_trees.getD t []) (s'.split_trees.getD t [])
        ((step (rng ω) s key).var_trees.getD t []) ((step (rng ω) s key).split_trees.getD t [])
    |logratio| + β ≤ 2 ^ 100 →
    (∀ ω m, (sample_moves (rng ω) s1 (KeyLike.split (KeyLike.split key 2 1) 2 1))[t]? = some m →
      m.grow = true ∧ m.node = i ∧ m.grow_var = at0 (s2.var_trees.getD t []) i ∧ m.grow_split = at0 (s2.split_trees.getD t []) i →
      ∃ trans lik r, (step (rng ω) s1 key).ratios = some (trans, lik) ∧ HasValue (lik.getD t 0) r ∧ |r - logratio| ≤ β) →
    (∀ ω m, (sample_moves (rng ω) s2 (KeyLike.split (KeyLike.split key 2 1) 2 1))[t]? = some m →
      m.grow = false ∧ m.allowed = true ∧ m.node = i →
      ∃ trans lik r, (step (rng ω) s2 key).ratios = some (trans, lik) ∧ HasValue (lik.getD t 0) r ∧ |r - logratio| ≤ β) →
    |posterior s1 * becomes s1 s2 - posterior s2 * becomes s2 s1| ≤
      (posterior s1 + posterior s2) * kernelError a.p_nonterminal.length δ β |logratio| := by
  intro likelihood posterior logratio becomes hB hlik1 hlik2
  have hnt : (0 : ℝ) < a.num_trees := by exact_mod_cast (by omega : 0 < a.num_trees)
  have hpos : ∀ s, 0 < likelihood s := fun s => treeLikelihood_pos (by positivity) hσ _ _ _ _ _
  exact kernel_balance hlog hδ hδ1 hc ha hs1 hs2 ht hrng hjax ⟨hpl, fun d h => (hp d h).1, fun d h => (hp d h).2, hdepth⟩ hP hm hf hrules
    hg hvar hcut (hpos s1) (hpos s2) hβ hB hlik1 hlik2

theorem log_likelihood_grown (ha : ValidArgs a) (h1 : StateInv a s1) (h2 : StateInv a s2) (ht : t < a.num_trees)
    (hg : Grown a.p_nonterminal.length (s1.var_trees.getD t []) (s1.split_trees.getD t []) (s2.var_trees.getD t []) (s2.split_trees.getD t []) i)
    (R : Nat → ℝ) {σ : ℝ} (hσ : 0 < σ) :
    logLikRatio a.num_trees σ (leafData a.X a.y.length (s2.var_trees.getD t []) (s2.split_trees.getD t []) R (2 * i))
      (leafData a.X a.y.length (s2.var_trees.getD t []) (s2.split_trees.getD t []) R (2 * i + 1)) =
    Real.log (treeLikelihood (1 / (a.num_trees : ℝ)) σ a.X a.y.length R (s2.var_trees.getD t []) (s2.split_trees.getD t []) /
      treeLikelihood (1 / (a.num_trees : ℝ)) σ a.X a.y.length R (s1.var_trees.getD t []) (s1.split_trees.getD t [])) := by
  have hT1 := h1.tree t ht
  have hT2 := h2.tree t ht
  have hnt : (0 : ℝ) < a.num_trees := by exact_mod_cast (by omega : 0 < a.num_trees)
  have htau : 0 < 1 / (a.num_trees : ℝ) := by positivity
  have e := treeLikelihood_grown hT1.valid hT2.valid hg ha.depth_lt hT1.var_len hT2.var_len (tau := 1 / (a.num_trees : ℝ)) (s2 := σ)
    a.X a.y.length R
  have hpm := leafMarginal_perm (1 / (a.num_trees : ℝ)) σ (leafData_perm hT1.valid hT2.valid hg ha.depth_lt hT1.var_len hT2.var_len
    a.X a.y.length R)
  have p1 := treeLikelihood_pos htau hσ a.X a.y.length R (s1.var_trees.getD t []) (s1.split_trees.getD t [])
  have p2 := leafMarginal_pos htau hσ (leafData a.X a.y.length (s1.var_trees.getD t []) (s1.split_trees.getD t []) R i)
  unfold logLikRatio
  rw [hpm]
  congr 1
  rw [div_eq_div_iff p2.ne' p1.ne']
  linarith

/-- C101, the log likelihood ratio: if growing `T1` into `T2`, or pruning `T2` into `T1`, is proposed, the exact log likelihood ratio
in `C93_likelihood` is the one in `C101_balance`. -/
theorem C101_likelihood (ha : ValidArgs a) (hs1 : ReachablePicks K' a s1) (hs2 : ReachablePicks K' a s2) {rng : Rng K Binary32} {key : K}
    (ht : t < a.num_trees) (hjax : ∀ key, JaxDraws (rng key))
    (hg : Grown a.p_nonterminal.length (s1.var_trees.getD t []) (s1.split_trees.getD t []) (s2.var_trees.getD t []) (s2.split_trees.getD t []) i)
    (R : Nat → ℝ) {σ : ℝ} (hσ : 0 < σ) {m : Move Binary32} :
    let likelihood := fun s : State Binary32 => treeLikelihood (1 / (a.num_trees : ℝ)) σ a.X a.y.length R (s.var_trees.getD t [])
      (s.split_trees.getD t [])
    ((sample_moves rng s1 key)[t]? = some m → Picks rng s1 key t →
      m.grow = true ∧ m.node = i ∧ m.grow_var = at0 (s2.var_trees.getD t []) i ∧ m.grow_split = at0 (s2.split_trees.getD t []) i →
      logLikRatio a.num_trees σ (sideData a (s1.split_trees.getD t []) m R (2 * m.node))
        (sideData a (s1.split_trees.getD t []) m R (2 * m.node + 1)) = Real.log (likelihood s2 / likelihood s1)) ∧
    ((sample_moves rng s2 key)[t]? = some m → Picks rng s2 key t → m.grow = false ∧ m.allowed = true ∧ m.node = i →
      logLikRatio a.num_trees σ (sideData a (s2.split_trees.getD t []) m R (2 * m.node))
        (sideData a (s2.split_trees.getD t []) m R (2 * m.node + 1)) = Real.log (likelihood s2 / likelihood s1)) := by
  intro likelihood
  have h1 := ReachablePicks.inv ha hs1
  have h2 := ReachablePicks.inv ha hs2
  have hok : ∀ (s : State Binary32), StateInv a s → Picks rng s key t → (sample_moves rng s key)[t]? = some m →
      MoveOK (cfgOf a) (s.var_trees.getD t []) (s.split_trees.getD t []) (s.affluence_trees.map fun x => x.getD t []) m := by
    intro s hs hpick hm
    have hlaw : LawfulRng rng := fun k' => JaxDraws.lawful (hjax k')
    have := moveOf_ok_of ha hs rng hlaw key ht hpick (by
      rw [Binary32.addLaws.lt_iff _ _ ((hlaw _).uniform2_nonneg _ _) Binary32.addLaws.zero_le_zero, (hlaw _).uniform2_nonneg]
      rfl)
    rw [sample_moves_eq, vmap, List.getElem?_map, List.getElem?_range (by rw [hs.leaf_length]; exact ht)] at hm
    have e : moveOf rng s key t = m := Option.some.inj hm
    rwa [e] at this
  refine ⟨fun hm hpick hk => ?_, fun hm hpick hk => ?_⟩
  · have hok1 := hok s1 h1 hpick hm
    obtain ⟨g1, g2⟩ := grown_trees h1 h2 ht hg
    unfold sideData
    rw [hok1.grow_tree hk.1, if_pos hk.1, hk.2.1, hk.2.2.1, hk.2.2.2, g1, leafData_congr g2 (fun _ _ => rfl),
      leafData_congr g2 (fun _ _ => rfl)]
    exact log_likelihood_grown ha h1 h2 ht hg R hσ
  · have hok2 := hok s2 h2 hpick hm
    unfold sideData
    rw [if_neg (by simp [hk.1]), hk.2.2, leafData_congr (fun j hj => hok2.agree hj) (fun _ _ => rfl),
      leafData_congr (fun j hj => hok2.agree hj) (fun _ _ => rfl)]
    exact log_likelihood_grown ha h1 h2 ht hg R hσ

end

/-! ### Example -/

namespace ExE
open scoped ExS

theorem next_split : next.split_trees.getD 0 [] = [0, 1] := by decide +kernel
theorem next_var : next.var_trees.getD 0 [] = [0, 0] := by decide +kernel

theorem next_grown : Grown args.p_nonterminal.length (first.var_trees.getD 0 []) (first.split_trees.getD 0 []) (next.var_trees.getD 0 [])
    (next.split_trees.getD 0 []) 1 := by
  rw [first_split, next_split, first_var, next_var]
  exact
    { leaf := ⟨.root, rfl⟩
      not_bottom := by decide
      decision := ⟨.root, by decide⟩
      left := ⟨.left .root (by decide), rfl⟩
      right := ⟨.right .root (by decide), rfl⟩
      same_split := fun k hk => by
        match k with
        | 0 => rfl
        | 1 => exact absurd rfl hk
        | k + 2 => rw [at0_of_le (by simp), at0_of_le (by simp)]
      same_var := fun _ _ => rfl }

theorem next_reachable : letI := good; ReachablePicks Unit args next :=
  letI := good
  .step rng () .init rng_jax fun t ht => run_picks 0 (by decide) t ht

/-- the log likelihood ratio, given the leaves of the datapoints and the nodes involved in the move -/
def likWith [Binary32.Platform] (s : State Binary32) (I : List Nat) (leaf : List Binary32) (node left right len : Nat) : Binary32 :=
  let count := count_datapoints_per_leaf I (len * 2) s.count_batch_size
  let l := gather count left
  let r := gather count right
  let sums := List.zipWith (· + ·) (sum_resid s.resid I leaf.length s.resid_batch_size)
    (List.zipWith (fun (c : Nat) v => (c : Binary32) * v) (setDrop count node (l + r)) leaf)
  compute_likelihood_ratio (gather sums left + gather sums right) (gather sums left) (gather sums right)
    (precompute_likelihood_terms s.leaf_trees.length s.sigma2 { left := l, right := r, total := l + r }) (exp_factor s.leaf_trees.length s.sigma2)

theorem lik_with {K : Type} [KeyLike K] [Binary32.Platform] (r : Rng K Binary32) (s : State Binary32) (key : K) {mv : Move Binary32}
    (hmv : mv = moveOf r s (KeyLike.split key 2 1) 0) :
    (accOf r s key 0).2.log_likelihood = likWith s (apply_grow_to_indices s.idx_bits mv (s.leaf_indices.getD 0 []) s.X)
      (adapt_leaf_tree_to_grow_indices (s.leaf_trees.getD 0 []) mv) mv.node mv.left mv.right mv.var_tree.length := by
  unfold accOf
  rw [residOf_zero]
  unfold workOf
  rw [← hmv]
  rfl

theorem next_lik : letI := good; likWith next [2, 2] (next.leaf_trees.getD 0 []) 1 2 3 2 = 0 := by decide +kernel
theorem next_idx : next.leaf_indices.getD 0 [] = [2, 2] ∧ next.X = [[0, 0]] := by decide +kernel
theorem next_leaves : (next.leaf_trees.getD 0 []).length = 4 := by decide +kernel

/-- the log likelihood ratio when pruning -/
theorem prune_lik {K : Type} [KeyLike K] (r : Rng K Binary32) (key : K) {mv : Move Binary32} : letI := good
    mv = moveOf r next (KeyLike.split key 2 1) 0 → mv.grow = false → mv.node = 1 →
    (accOf r next key 0).2.log_likelihood = 0 := by
  let _ := good
  intro hmv hg hn
  have hl : mv.left = 2 := by
    have : mv.left = mv.node <<< 1 := by rw [hmv]; rfl
    rw [this, hn]
    rfl
  have hr : mv.right = 3 := by
    have : mv.right = mv.node <<< 1 + 1 := by rw [hmv]; rfl
    rw [this, hn]
    rfl
  have hv : mv.var_tree.length = 2 := by
    have : mv.var_tree.length = (next.var_trees.getD 0 []).length := by
      rw [hmv]
      exact length_setDrop _ _ _
    rw [this, next_var]
    rfl
  have hI : apply_grow_to_indices next.idx_bits mv (next.leaf_indices.getD 0 []) next.X = [2, 2] := by
    rw [next_idx.1, next_idx.2]
    unfold apply_grow_to_indices
    have hrow : gather [[0, 0]] mv.grow_var = [0, 0] := by
      unfold gather
      cases h : min mv.grow_var ([[0, 0]].length - 1) with
      | zero => rfl
      | succ n =>
        have : min mv.grow_var 0 = n + 1 := h
        omega
    rw [hrow, hg, hv]
    rfl
  have ha : adapt_leaf_tree_to_grow_indices (next.leaf_trees.getD 0 []) mv = next.leaf_trees.getD 0 [] := by
    unfold adapt_leaf_tree_to_grow_indices
    rw [hg]
    dsimp only
    rw [if_neg (by simp), if_neg (by simp), setDrop_of_le le_rfl, setDrop_of_le le_rfl]
  rw [lik_with r next key hmv, hI, ha, hn, hl, hr, hv]
  exact next_lik

theorem has_ratios {K : Type} [KeyLike K] [Binary32.Platform] {s : State Binary32} (hi : StateInv args s) (r : Rng K Binary32) (key : K) :
    ∃ tr li, (step r s key).ratios = some (tr, li) := by
  have e : (step r s key).ratios = s.ratios.map fun _ =>
      (vmap s.leaf_trees.length fun t => (accOf r s (KeyLike.split key 2 1) t).2.log_trans_prior,
      vmap s.leaf_trees.length fun t => (accOf r s (KeyLike.split key 2 1) t).2.log_likelihood) := by
    simp only [step_eq, sample_trees_eq, sample_sigma]
  have h0 : s.ratios.isSome = true := hi.cfg.ratios
  obtain ⟨x, hx⟩ := Option.isSome_iff_exists.1 h0
  rw [hx] at e
  exact ⟨_, _, e⟩

-- The two trees are the root, and the root split in two leaves, one of which contains all the datapoints. The bound is large because the
-- logarithms of the platform of the example are not very accurate.
example : letI := good
    let posterior := fun s : State Binary32 => treePrior [1 / 2] 8 [1] (s.var_trees.getD 0 []) (s.split_trees.getD 0 []) *
      treeLikelihood (1 / (args.num_trees : ℝ)) 1 args.X args.y.length y (s.var_trees.getD 0 []) (s.split_trees.getD 0 [])
    let becomes := fun s s' : State Binary32 => updateProb fun ω =>
      SameTree (s'.var_trees.getD 0 []) (s'.split_trees.getD 0 [])
        ((step (updateRng ω) s ([] : Spec.Path)).var_trees.getD 0 []) ((step (updateRng ω) s ([] : Spec.Path)).split_trees.getD 0 [])
    |posterior first * becomes first next - posterior next * becomes next first| ≤ (posterior first + posterior next) * (1 / 3) := by
  let _ := good
  intro posterior becomes
  have r1 : ReachablePicks Unit args first := .init
  have r2 : ReachablePicks Unit args next := next_reachable
  have i1 : StateInv args first := ReachablePicks.inv args_valid r1
  have i2 : StateInv args next := ReachablePicks.inv args_valid r2
  have hratio : Real.log (treeLikelihood (1 / (args.num_trees : ℝ)) 1 args.X args.y.length y (next.var_trees.getD 0 []) (next.split_trees.getD 0 []) /
      treeLikelihood (1 / (args.num_trees : ℝ)) 1 args.X args.y.length y (first.var_trees.getD 0 []) (first.split_trees.getD 0 [])) = 0 := by
    rw [← (C101_likelihood args_valid r1 r2 (rng := rng) (key := ()) (t := 0) (by decide) rng_jax next_grown y one_pos (m := move)).1 move_eq
      (run_picks 0 (by decide) 0 (by decide)) ⟨move_allowed.2.1, move_allowed.2.2.1, by rw [move_var, next_var]; rfl,
        by rw [move_allowed.2.2.2, next_split]; rfl⟩]
    obtain ⟨l1, l2⟩ := sides y
    generalize sideData args (first.split_trees.getD 0 []) move y (2 * move.node) = L at l1
    generalize sideData args (first.split_trees.getD 0 []) move y (2 * move.node + 1) = R at l2
    obtain rfl := List.eq_nil_of_length_eq_zero l2
    unfold logLikRatio
    rw [lik_exact (by decide) one_pos, l1]
    norm_num [args]
  have h := C101_balance (K' := Unit) (s1 := first) (s2 := next) good_log (by norm_num) (by norm_num) (fun _ => rfl) args_valid r1 r2 (t := 0)
    (by decide) (key := ([] : Spec.Path)) (updateRng_uses _) updateRng_jax (p := [1 / 2]) rfl (by
      intro d hd
      obtain rfl : d = 0 := Nat.lt_one_iff.1 hd
      exact ⟨root_value, by norm_num, by norm_num⟩) (by decide) (by decide) (by decide) (Or.inr (by decide)) (Or.inr (by decide))
    next_grown (by rw [next_var]; decide) (fun k _ hk => by
      rw [next_var] at hk ⊢
      have : at0 [0, 0] k = 0 := by
        change at0 [0, 0] k < 1 at hk
        omega
      rw [this]
      decide) (R := y) (σ := 1) (β := 0) one_pos le_rfl
  dsimp only at h
  rw [hratio] at h
  refine (h ?_ ?_ ?_).trans ?_
  · norm_num
  · intro ω m hm hk
    obtain rfl := moves_step i1 _ _ (by decide) hm
    have hmv := ratios_of_move (updateRng ω) (KeyLike.split ([] : Spec.Path) 2 1) (move_of_rule _ rng first _ () 0 hk.1 move_allowed.2.1
      (hk.2.1.trans move_allowed.2.2.1.symm) (hk.2.2.1.trans (by rw [next_var]; exact move_var.symm))
      (hk.2.2.2.trans (by rw [next_split]; exact move_allowed.2.2.2.symm)))
    have hz := saved_ratios i1 rng () (t := 0) (by decide) next_ratios
    obtain ⟨tr, li, hr⟩ := has_ratios i1 (updateRng ω) ([] : Spec.Path)
    obtain ⟨-, e2⟩ := saved_ratios i1 (updateRng ω) ([] : Spec.Path) (t := 0) (by decide) hr
    refine ⟨tr, li, 0, hr, ?_, by norm_num⟩
    have z2 : (accOf rng first () 0).2.log_likelihood = 0 := hz.2.symm
    rw [e2, hmv.2, z2]
    exact hasValue_zero
  · intro ω m hm hk
    have hmv := moves_step i2 _ _ (by decide) hm
    obtain ⟨tr, li, hr⟩ := has_ratios i2 (updateRng ω) ([] : Spec.Path)
    obtain ⟨-, e2⟩ := saved_ratios i2 (updateRng ω) ([] : Spec.Path) (t := 0) (by decide) hr
    refine ⟨tr, li, 0, hr, ?_, by norm_num⟩
    rw [e2, prune_lik (updateRng ω) (KeyLike.split ([] : Spec.Path) 2 1) hmv hk.1 hk.2.2]
    exact hasValue_zero
  · refine mul_le_mul_of_nonneg_left ?_ ?_
    · show kernelError 1 (1 / 2 ^ 10) 0 |0| ≤ 1 / 3
      unfold kernelError scoreError
      norm_num
    · have hp : ∀ d, 0 ≤ ([1 / 2] : List ℝ).getD d 0 ∧ ([1 / 2] : List ℝ).getD d 0 ≤ 1 := by
        intro d
        match d with
        | 0 => norm_num
        | d + 1 => norm_num
      exact add_nonneg (mul_nonneg (treePrior_nonneg hp _ _ _ _) (treeLikelihood_nonneg (by norm_num [args]) one_pos _ _ _ _ _))
        (mul_nonneg (treePrior_nonneg hp _ _ _ _) (treeLikelihood_nonneg (by norm_num [args]) one_pos _ _ _ _ _))

end ExE

end Bartz
