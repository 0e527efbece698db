import Verif.Lemmas.BartIrred
/-! # A chain where all the trees change at each step

Two trees of depth at most 2, one predictor with one cutpoint, all the datapoints on the same side of the
cutpoint, and no minimum number of datapoints per leaf: each proposal is accepted. -/

set_option autoImplicit false

namespace Bartz
open Jax Spec MeasureTheory ProbabilityTheory
open scoped ENNReal

namespace ExF

noncomputable def args : InitArgs ℝ :=
  { X := [[0, 0]], y := [1, 2], max_split := [1], split_bits := 8,
    num_trees := 2, p_nonterminal := [1 / 2], sigma2_alpha := 3, sigma2_beta := 2,
    min_points_per_leaf := none, resid_batch_size := none, count_batch_size := none,
    save_ratios := false, nan := 0 }

theorem args_valid : ValidArgs args where
  depth_pos := by simp [args]
  depth_lt := by simp [args]
  predictors_pos := by simp [args]
  predictors_lt := by simp [args]
  X_length := rfl
  X_row := by simp [args]
  max_split_fits := by simp [args]
  split_bits := by simp [args]
  nonterminal_pos := by
    intro x hx
    simp only [args, List.mem_cons, List.not_mem_nil, or_false] at hx
    subst hx; norm_num
  overflow := Or.inl (by unfold NoOverflow; decide)

theorem args_proper : ProperSettings args where
  trees := by simp [args]
  counts := Or.inl (by simp [args])
  nonterminal := by
    intro x hx
    simp only [args, List.mem_cons, List.not_mem_nil, or_false] at hx
    subst hx; norm_num
  alpha := by norm_num [args]
  beta := by norm_num [args]
  rules := Or.inr ⟨by
    intro v hv
    have : v < 1 := hv
    obtain rfl : v = 0 := by omega
    simp [args, at0], by simp [args]⟩

theorem hu : Usable args := usable_of args_valid args_proper

/-- the tree with a decision at the root -/
def T1 : Rules := ⟨[0, 0], [0, 1]⟩

theorem T1_zero {k : Nat} (hk : k ≠ 1) : at0 T1.split k = 0 := by
  match k with
  | 0 => rfl
  | 1 => exact absurd rfl hk
  | k + 2 => simp [T1, at0]

theorem T1_possible : PossibleTree args T1 where
  split := ⟨rfl, rfl, fun i hi h => absurd (T1_zero (by omega)) h⟩
  var_length := rfl
  var_unused := fun i _ => by
    match i with
    | 0 => rfl
    | 1 => rfl
    | i + 2 => simp [T1, at0]
  var_avail := fun i hi => by
    obtain rfl : i = 1 := by by_contra h; exact hi.2 (T1_zero h)
    exact ⟨by simp [T1, at0, args], Or.inl ⟨0, 1, by omega, by simp [T1, at0, args], .root, .root⟩⟩
  split_avail := fun i hi => by
    obtain rfl : i = 1 := by by_contra h; exact hi.2 (T1_zero h)
    exact ⟨⟨0, by simp, .root, by simp [T1, at0]⟩, ⟨1, by simp [T1, at0, args], .root, by simp [T1, at0]⟩⟩
  points := fun m hm => by simp [args] at hm

theorem T1_ne : at0 T1.split 1 ≠ 0 := by simp [T1, at0]

theorem leaf_parent : IsLeafParent T1.split 1 :=
  ⟨⟨.root, T1_ne⟩, ⟨.left .root T1_ne, T1_zero (by omega)⟩, ⟨.right .root T1_ne, T1_zero (by omega)⟩⟩

theorem pruned_T1 : pruned T1 1 = rootT args := rfl

theorem grown : GrownT args (rootT args) T1 1 := pruned_T1 ▸ pruned_grown T1_possible leaf_parent

theorem unifInt_zero {x : ℝ} (hx : x ∈ Set.Ico (0 : ℝ) 1) {k N : Nat} (hN : N = k + 1) : unifInt x k N = k := by
  subst hN
  rw [unifInt_eq_iff hx (le_refl k) (by omega)]
  simpa using hx

theorem hroot (v : ℝ) : StateInv args (canon args v (rootT args)) := (canon_inv hu (root_possible _) v).1
theorem hT1 (v : ℝ) : StateInv args (canon args v T1) := (canon_inv hu T1_possible v).1

theorem aff_none {T : Rules} (h : StateInv args (canon args 1 T)) : affOf (canon args 1 T) 0 = none := by
  have := (h.tree 0 hu.trees).aff_some
  rw [show (cfgOf args).m = none from rfl] at this
  simpa using this

theorem ppg_root : ∃ p, 0 < p ∧ (canon args 1 (rootT args)).p_propose_grow.getD 1 0 = p ∧
    growW (canon args 1 (rootT args)) 0 = [0, p] := by
  have hl := growW_length args_valid (hroot 1) hu.trees
  have hg : Growable args.p_nonterminal.length (spOf (canon args 1 (rootT args)) 0)
      (affOf (canon args 1 (rootT args)) 0) 1 := by
    rw [aff_none (hroot 1), canon_sp 1 hu.trees]
    exact ⟨⟨.root, rfl⟩, by simp [args], by simp⟩
  obtain ⟨h1, h2, _⟩ := growW_pos args_valid (hroot 1) hu.trees hg
  refine ⟨_, h2, rfl, ?_⟩
  have h0 := growW_getD args_valid (hroot 1) hu.trees (i := 0) (by simp [args])
  rw [if_neg] at h0
  · rw [show 2 ^ args.p_nonterminal.length = 2 from rfl] at hl
    obtain ⟨x, y, e⟩ := List.length_eq_two.1 hl
    rw [e] at h0 h1 ⊢
    simp only [List.getD_cons_zero, List.getD_cons_succ] at h0 h1
    rw [h0, h1]
  · rw [growable_iff ((hroot 1).tree 0 hu.trees).valid args_valid.depth_pos args_valid.depth_lt]
    exact fun h => absurd h.1.1.pos (by omega)

theorem pG_root : pG args (rootT args) = 1 := by
  unfold pG pGrow
  rw [canon_sp 1 hu.trees, if_pos, if_neg]
  · exact fun h => h rfl
  · unfold nGrow
    rw [aff_none (hroot 1), canon_sp 1 hu.trees]
    decide

theorem pG_T1 : pG args T1 = 0 := by
  unfold pG pGrow
  rw [if_neg]
  unfold nGrow
  rw [aff_none (hT1 1), canon_sp 1 hu.trees]
  decide

theorem nP_T1 : nPrune (canon args 1 T1) 0 = 1 := by
  unfold nPrune
  rw [canon_sp 1 hu.trees]
  decide

theorem tP_one : tP args (rootT args) T1 1 = 1 := by
  obtain ⟨p, hp, e1, e2⟩ := ppg_root
  have h1 := pG_root
  have h2 := pG_T1
  unfold pG at h1 h2
  unfold tP transPrior
  rw [h1, h2, nP_T1, e1, e2]
  have h3 : shapeRatio args.p_nonterminal 1 = 1 := by
    unfold shapeRatio
    rw [show Nat.log2 1 = 0 by decide]
    norm_num [args]
  rw [h3]
  simp [hp.ne']

theorem leaf_ndata (R : Nat → ℝ) : leafData args.X args.y.length T1.var T1.split R 3 = [] := by
  classical
  unfold leafData
  rw [List.map_eq_nil_iff, List.filter_eq_nil_iff]
  intro j _ hf
  obtain ⟨_, h⟩ := of_decide_eq_true hf
  generalize hk : 3 = k at h
  cases h with
  | root => omega
  | left _ _ _ => omega
  | @right i _ _ hle =>
    obtain rfl : i = 1 := by omega
    have h0 : coord (point args.X j) (at0 T1.var 1) = 0 := by
      match j with
      | 0 => rfl
      | 1 => rfl
      | j + 2 => simp [args, point, coord, T1, at0]
    rw [h0] at hle
    exact T1_ne (Nat.le_zero.1 hle)

theorem lik_one (R : Nat → ℝ) {v : ℝ} (hv : 0 < v) :
    Real.log (lik args R v T1 / lik args R v (rootT args)) = 0 := by
  rw [log_lik_ratio hu hv (root_possible _) T1_possible grown rfl (n3 := 0) (by rw [leaf_ndata]; rfl)]
  rw [leaf_ndata]
  unfold ratioExp
  simp [hv.ne']

theorem lP_root {x : ℝ} (hx : x ∈ Set.Ico (0 : ℝ) 1) : lP args (rootT args) x = 1 := by
  obtain ⟨p, hp, e1, e2⟩ := ppg_root
  unfold lP leafPick
  rw [e2]
  have h := ((C26_categorical [0, p] (by simp) (by simp [hp.le])).2 1 (by simp)).1
  have hm : p * x ∈ Set.Ico ((List.take 1 [0, p]).sum) ((List.take (1 + 1) [0, p]).sum) := by
    simp only [List.take_succ_cons, List.take_zero, List.sum_cons, List.sum_nil, Set.mem_Ico]
    have := hx.1
    have := mul_lt_mul_of_pos_left hx.2 hp
    constructor
    · simp; positivity
    · linarith
  rw [← h] at hm
  have := hm.2.2
  simpa using this

theorem vP_root {x : ℝ} (hx : x ∈ Set.Ico (0 : ℝ) 1) : vP args (rootT args) 1 x = 0 := by
  have hl : IsLeaf (spOf (canon args 1 (rootT args)) 0) 1 := by rw [canon_sp 1 hu.trees]; exact grown.leaf
  have hb := (varPick_bij args_valid (hroot 1) hu.trees hu.fill (cutsOK hu (hroot 1) hu.trees) hl grown.not_bottom).2
  have h0 : 0 ∈ availVars (canon args 1 (rootT args)).split_bits (canon args 1 (rootT args)).max_split (vaOf (canon args 1 (rootT args)) 0)
      (spOf (canon args 1 (rootT args)) 0) 1 :=
    ⟨by rw [(hroot 1).cfg.max_split]; simp [args], Or.inl ⟨0, 1, by omega, by
      rw [(hroot 1).cfg.max_split]; simp [args, at0], .root, .root⟩⟩
  have hfin : (availVars (canon args 1 (rootT args)).split_bits (canon args 1 (rootT args)).max_split (vaOf (canon args 1 (rootT args)) 0)
      (spOf (canon args 1 (rootT args)) 0) 1).Finite :=
    (Set.finite_lt_nat _).subset fun v hv => hv.1
  have hpos := (Set.ncard_pos hfin).2 ⟨0, h0⟩
  have := (hb.mapsTo (unifInt_lt hx hpos).2).1
  rw [(hroot 1).cfg.max_split] at this
  exact Nat.lt_one_iff.1 this

theorem sP_root {x : ℝ} (hx : x ∈ Set.Ico (0 : ℝ) 1) : sP args (rootT args) 1 0 x = 1 := by
  unfold sP splitPick
  rw [(hroot 1).cfg.max_split, canon_va 1 hu.trees, canon_sp 1 hu.trees]
  exact unifInt_zero hx (by decide)

theorem pP_T1 {x : ℝ} (hx : x ∈ Set.Ico (0 : ℝ) 1) : pP args T1 x = 1 := by
  unfold pP prunePick
  rw [nP_T1, unifInt_zero hx rfl, canon_sp 1 hu.trees]
  decide

theorem log_nonpos {x : ℝ} (hx : x ∈ Set.Ico (0 : ℝ) 1) : Real.log (1 + -x) ≤ 0 := by
  obtain ⟨h0, h1⟩ := hx
  exact Real.log_nonpos (by linarith) (by linarith)

theorem new_root (R : Nat → ℝ) {v : ℝ} (hv : 0 < v) {w : Fin 6 → ℝ} (hw : ∀ k, w k ∈ Set.Ico (0 : ℝ) 1) :
    newRules args R v (rootT args) w = T1 := by
  rw [newRules_eq_iff (root_possible _) grown.ne.symm, becomes_grow_iff (i := 1) hu (root_possible _) T1_possible grown]
  refine ⟨by rw [pG_root]; exact (hw 0).2, lP_root (hw 2), vP_root (hw 3), sP_root (hw 4), ?_⟩
  rw [tP_one, lik_one R hv, Real.log_one, add_zero]
  exact log_nonpos (hw 1)

theorem new_T1 (R : Nat → ℝ) {v : ℝ} (hv : 0 < v) {w : Fin 6 → ℝ} (hw : ∀ k, w k ∈ Set.Ico (0 : ℝ) 1) :
    newRules args R v T1 w = rootT args := by
  rw [newRules_eq_iff T1_possible grown.ne, becomes_prune_iff (i := 1) hu (root_possible _) T1_possible grown]
  refine ⟨by rw [pG_T1]; exact not_lt.2 (hw 0).1, pP_T1 (hw 5), ?_⟩
  rw [tP_one, lik_one R hv, Real.log_one, add_zero, neg_zero]
  exact log_nonpos (hw 1)

/-! ### All the trees change at once -/

noncomputable def pick (b : Bool) : Rules := if b then T1 else rootT args

theorem new_pick (R : Nat → ℝ) {v : ℝ} (hv : 0 < v) {w : Fin 6 → ℝ} (hw : ∀ k, w k ∈ Set.Ico (0 : ℝ) 1) (b : Bool) :
    newRules args R v (pick b) w = pick (!b) := by
  cases b
  · exact new_root R hv hw
  · exact new_T1 R hv hw

theorem sweep_flip {v : ℝ} (hv : 0 < v) {o : Fin args.num_trees → (Fin 6 → ℝ) × (Fin (nodes args) → ℝ)}
    (ho : ∀ t, (o t).1 ∈ unitCube) (b : Bool) {l : List (Fin args.num_trees)} (hl : l.Nodup) :
    ∀ x : Fin args.num_trees → Tree (nodes args), (∀ t ∈ l, (x t).1 = pick b) →
      ∀ t, (sweepL (updTree args v) l x o t).1 = if t ∈ l then pick (!b) else (x t).1 := by
  induction l with
  | nil => intro x _ t; simp [sweepL]
  | cons s l ih =>
    intro x hx t
    have hs : s ∉ l := (List.nodup_cons.1 hl).1
    have hstep : sweepL (updTree args v) (s :: l) x o = sweepL (updTree args v) l (updTree args v x s (o s)) o := rfl
    rw [hstep, ih (List.nodup_cons.1 hl).2]
    · by_cases ht : t ∈ l
      · simp [ht]
      · by_cases hts : t = s
        · subst hts
          rw [if_neg ht, if_pos (by simp)]
          unfold updTree
          rw [Function.update_self]
          show newRules _ _ _ (x t).1 _ = _
          rw [hx t (by simp), new_pick _ hv (fun k => ho t k (Set.mem_univ k))]
        · rw [if_neg ht, if_neg (by simp [hts, ht])]
          unfold updTree
          rw [Function.update_of_ne hts]
    · intro t ht
      have hts : t ≠ s := fun h => hs (h ▸ ht)
      unfold updTree
      rw [Function.update_of_ne hts]
      exact hx t (List.mem_cons_of_mem _ ht)

theorem step_flip {θ : Params args.num_trees (nodes args)} (hv : 0 < θ.2) {b : Bool}
    (hx : ∀ t, (θ.1 t).1 = pick b) {o : StepDraws args.num_trees (nodes args)} (ho : GoodDraws o) :
    ∀ t, ((stepFun args θ o).1 t).1 = pick (!b) := by
  intro t
  have := sweep_flip hv ho.1 b (List.nodup_finRange _) θ.1 (fun t _ => hx t) t
  rw [if_pos (List.mem_finRange t)] at this
  exact this

section
variable {K : Type} [KeyLike K] {s : State ℝ} {key : K}

theorem chain_flip (hc : Consistent args s) (hsig : 0 < s.sigma2) {b : Bool}
    (hb : ∀ t : Fin args.num_trees, (treeOf args s t).1 = pick b) {n : Nat}
    {rng : (Fin n → StepDraws args.num_trees (nodes args)) → Rng K ℝ} (hr : RunSites args key n rng)
    {O : Fin n → StepDraws args.num_trees (nodes args)} (hO : ∀ i, GoodDraws (O i)) :
    ∀ i, i ≤ n → ∀ t : Fin args.num_trees,
      (treeOf args (chain (step (rng O)) s key i) t).1 = pick (b ^^ decide (i % 2 = 1)) := by
  intro i
  induction i with
  | zero => intro _ t; rw [show (b ^^ decide (0 % 2 = 1)) = b by simp]; exact hb t
  | succ i ih =>
    intro hi t
    have h := chain_params hu args_proper.beta hc hsig hr hO i (by omega)
    have h1 := step_flip (θ := paramsOf args (chain (step (rng O)) s key i)) h.1.2 (ih (by omega)) (hO ⟨i, hi⟩) t
    rw [← h.2 hi] at h1
    have e : (b ^^ decide ((i + 1) % 2 = 1)) = !(b ^^ decide (i % 2 = 1)) := by
      have : decide ((i + 1) % 2 = 1) = !decide (i % 2 = 1) := by
        rw [Bool.eq_iff_iff]; simp; omega
      rw [this]; simp
    rw [e]
    exact h1

end

end ExF
end Bartz
