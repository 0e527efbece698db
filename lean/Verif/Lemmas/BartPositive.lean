import Verif.Lemmas.BartGraph
/-! # Sets reached in one step with positive probability -/

set_option autoImplicit false

namespace Bartz
open Jax Spec MeasureTheory ProbabilityTheory
open scoped ENNReal

theorem lintegral_ne_zero_of_imp {X : Type} [MeasurableSpace X] {μ : Measure X} {f g : X → ℝ≥0∞}
    (hg : Measurable g) (h : ∀ᵐ x ∂μ, f x ≠ 0 → g x ≠ 0) (hf : ∫⁻ x, f x ∂μ ≠ 0) : ∫⁻ x, g x ∂μ ≠ 0 := by
  intro h0
  apply hf
  rw [lintegral_eq_zero_iff hg] at h0
  have : f =ᵐ[μ] 0 := by
    filter_upwards [h, h0] with x h1 h2
    by_contra hc
    exact h1 hc h2
  rw [lintegral_congr_ae this]
  simp

theorem lintegral_ne_zero_of_ae {X : Type} [MeasurableSpace X] {μ : Measure X} (hμ : μ ≠ 0) {g : X → ℝ≥0∞}
    (hg : Measurable g) (h : ∀ᵐ x ∂μ, g x ≠ 0) : ∫⁻ x, g x ∂μ ≠ 0 := by
  refine lintegral_ne_zero_of_imp (f := fun _ => 1) hg ?_ ?_
  · filter_upwards [h] with x hx _ using hx
  · simpa using hμ

section
variable {a : InitArgs ℝ} {T T' : Rules} {R : Nat → ℝ} {v : ℝ} {i : Nat}

theorem treeLik_ne_zero (hv : 0 < v) (y : Tree (nodes a)) : treeLik a R v y ≠ 0 := by
  unfold treeLik
  rw [Finset.prod_ne_zero_iff]
  intro j _
  simp only [ne_eq, ENNReal.ofReal_eq_zero, not_le]
  exact gaussianPDFReal_pos _ _ _ (by simpa using hv)

theorem lintegral_treeDraws {G : Tree (nodes a) → ℝ≥0∞} (hG : Measurable G) (T : Rules) :
    ∫⁻ d, G (newTree a R v T d) ∂treeDraws (nodes a) =
      ∑' T', (∫⁻ z, G (T', newLeaves a R v T' z) ∂Measure.pi fun _ => gaussianReal 0 1) *
        trans a R v T T' := by
  have hnt : Measurable fun p : Rules × ((Fin 6 → ℝ) × (Fin (nodes a) → ℝ)) => newTree a R v p.1 p.2 := by
    have h : Measurable fun p : Rules × ((Fin 6 → ℝ) × (Fin (nodes a) → ℝ)) =>
        (p.1, ((R, v), p.2)) := measurable_fst.prodMk (measurable_const.prodMk measurable_snd)
    exact (measurable_newTree a).comp h
  have hmT : Measurable fun d => G (newTree a R v T d) := hG.comp (hnt.comp measurable_prodMk_left)
  set H : Rules → ℝ≥0∞ := fun T => ∫⁻ z, G (T, newLeaves a R v T z) ∂Measure.pi fun _ => gaussianReal 0 1
    with hH
  unfold treeDraws
  rw [lintegral_prod _ hmT.aemeasurable]
  have e : ∀ w, ∫⁻ z, G (newTree a R v T (w, z)) ∂(Measure.pi fun _ => gaussianReal 0 1) =
      H (newRules a R v T w) := fun w => rfl
  rw [lintegral_congr e, ← lintegral_map (μ := unifDist) (f := H) measurable_from_top
    (measurable_newRules_w a R v T), lintegral_countable']
  congr 1
  funext T'
  rw [Measure.map_apply (measurable_newRules_w a R v T) (measurableSet_singleton _)]
  rfl

/-- put new values in a tree with the given rules -/
def putT {a : InitArgs ℝ} (C : Fin a.num_trees → Rules) (θ : Params a.num_trees (nodes a))
    (s : Fin a.num_trees) (L : Fin (nodes a) → ℝ) : Params a.num_trees (nodes a) :=
  (Function.update θ.1 s (C s, L), θ.2)

theorem measurable_putT (C : Fin a.num_trees → Rules) (s : Fin a.num_trees) :
    Measurable fun p : Params a.num_trees (nodes a) × (Fin (nodes a) → ℝ) => putT C p.1 s p.2 := by
  refine Measurable.prodMk ?_ (measurable_snd.comp measurable_fst)
  refine measurable_pi_lambda _ fun u => ?_
  by_cases hu : u = s
  · subst hu
    simp only [Function.update_self]
    exact measurable_const.prodMk measurable_snd
  · simp only [Function.update_of_ne hu]
    exact (measurable_pi_apply u).comp (measurable_fst.comp measurable_fst)

variable {C : Fin a.num_trees → Rules} {g : Params a.num_trees (nodes a) → ℝ≥0∞}
  {θ : Params a.num_trees (nodes a)}

/-- update of one tree -/
theorem upd_pos (hu : Usable a) (hv : 0 < θ.2) {s : Fin a.num_trees} (hT : PossibleTree a (C s))
    (htr : trans a (others a θ.1 s) θ.2 (θ.1 s).1 (C s) ≠ 0) (hg : Measurable g)
    (h : ∫⁻ L, g (putT C θ s L) ∂leafPrior a (C s) ≠ 0) :
    ∫⁻ d, g (updParams a θ s d) ∂treeDraws (nodes a) ≠ 0 := by
  have hG : Measurable fun y : Tree (nodes a) => g (Function.update θ.1 s y, θ.2) :=
    hg.comp ((measurable_update θ.1).prodMk measurable_const)
  have e := lintegral_treeDraws (R := others a θ.1 s) (v := θ.2) hG (θ.1 s).1
  have e' : ∀ d, g (updParams a θ s d) = (fun y : Tree (nodes a) => g (Function.update θ.1 s y, θ.2))
    (newTree a (others a θ.1 s) θ.2 (θ.1 s).1 d) := fun _ => rfl
  rw [lintegral_congr e', e]
  intro h0
  rw [ENNReal.tsum_eq_zero] at h0
  have h1 := h0 (C s)
  rw [mul_eq_zero] at h1
  rcases h1 with h1 | h1
  · have h2 := leaf_integral (R := others a θ.1 s) hu hv hT
      (h := fun z => g (Function.update θ.1 s (C s, z), θ.2)) (hG.comp measurable_prodMk_left)
    rw [h1, mul_zero] at h2
    refine lintegral_ne_zero_of_imp ?_ ?_ h h2
    · exact ((measurable_treeLik a _ _).comp measurable_prodMk_left).mul (hG.comp measurable_prodMk_left)
    · exact Filter.Eventually.of_forall fun L hL => mul_ne_zero (treeLik_ne_zero hv _) hL
  · exact htr h1

/-- the new parameters are possible -/
theorem possible_putT (hθ : PossibleParams a θ) {s : Fin a.num_trees} (hT : PossibleTree a (C s))
    {L : Fin (nodes a) → ℝ} (hL : ∀ i : Fin (nodes a), ¬ IsLeaf (C s).split i → L i = 0) :
    PossibleParams a (putT C θ s L) := by
  refine ⟨fun t => ?_, fun t => ?_, hθ.sigma2⟩
  · by_cases ht : t = s
    · subst ht; simp only [putT, Function.update_self]; exact hT
    · simp only [putT, Function.update_of_ne ht]; exact hθ.tree t
  · by_cases ht : t = s
    · subst ht; simp only [putT, Function.update_self]; exact hL
    · simp only [putT, Function.update_of_ne ht]; exact hθ.leaf t

instance : IsProbabilityMeasure (treeDraws (nodes a)) := by unfold treeDraws; infer_instance

seal updParams in
theorem measurable_sweepUpd (hg : Measurable g) (l : List (Fin a.num_trees)) :
    Measurable (sweepK (updParams a) (fun _ => treeDraws (nodes a)) l g) :=
  measurable_sweepK (measurable_updParams a) hg l

theorem measurable_sweepPut (hg : Measurable g) (l : List (Fin a.num_trees)) :
    Measurable (sweepK (putT C) (fun s => leafPrior a (C s)) l g) :=
  measurable_sweepK (measurable_putT C) hg l

/-- sweep where each tree changes to an adjacent one -/
theorem sweep_pos (hu : Usable a) (hg : Measurable g) {l : List (Fin a.num_trees)} (hl : l.Nodup) :
    ∀ θ, 0 < θ.2 → (∀ s ∈ l, Adj a (θ.1 s).1 (C s)) →
      sweepK (putT C) (fun s => leafPrior a (C s)) l g θ ≠ 0 →
      sweepK (updParams a) (fun _ => treeDraws (nodes a)) l g θ ≠ 0 := by
  induction l with
  | nil => intro θ _ _ h; exact h
  | cons s l ih =>
    intro θ hv hadj h
    rw [List.nodup_cons] at hl
    have hs := hadj s (by simp)
    refine upd_pos (g := sweepK (updParams a) (fun _ => treeDraws (nodes a)) l g) hu hv hs.right
      (hs.pos _ _ hv) (measurable_sweepUpd hg l) ?_
    refine lintegral_ne_zero_of_imp ?_ ?_ h
    · exact (measurable_sweepUpd hg l).comp ((measurable_putT C s).comp measurable_prodMk_left)
    · refine Filter.Eventually.of_forall fun L hL => ?_
      refine ih hl.2 _ hv (fun u hu => ?_) hL
      have hne : u ≠ s := by rintro rfl; exact hl.1 hu
      simp only [putT, Function.update_of_ne hne]
      exact hadj u (List.mem_cons_of_mem _ hu)

/-- sweep where each tree changes to an adjacent one, integrating a function that is not zero -/
theorem sweep_full (hu : Usable a) (hg : Measurable g) {l : List (Fin a.num_trees)} (hl : l.Nodup) :
    ∀ θ, PossibleParams a θ → (∀ s ∈ l, Adj a (θ.1 s).1 (C s)) →
      (∀ θ' : Params a.num_trees (nodes a), PossibleParams a θ' → (∀ s ∈ l, (θ'.1 s).1 = C s) →
        (∀ s, s ∉ l → θ'.1 s = θ.1 s) → g θ' ≠ 0) →
      sweepK (updParams a) (fun _ => treeDraws (nodes a)) l g θ ≠ 0 := by
  induction l with
  | nil => intro θ h1 _ h; exact h θ h1 (by simp) (by simp)
  | cons s l ih =>
    intro θ hθ hadj h
    rw [List.nodup_cons] at hl
    have hs := hadj s (by simp)
    refine upd_pos (g := sweepK (updParams a) (fun _ => treeDraws (nodes a)) l g) hu hθ.sigma2 hs.right
      (hs.pos _ _ hθ.sigma2) (measurable_sweepUpd hg l) ?_
    refine lintegral_ne_zero_of_ae (NeZero.ne _) ?_ ?_
    · exact (measurable_sweepUpd hg l).comp ((measurable_putT C s).comp measurable_prodMk_left)
    · filter_upwards [leafPrior_ae a (C s)] with L hL
      have hne : ∀ u ∈ l, u ≠ s := by rintro u hu rfl; exact hl.1 hu
      refine ih hl.2 _ (possible_putT hθ hs.right hL) (fun u hu => ?_) (fun θ' h1 h2 h3 => ?_)
      · simp only [putT, Function.update_of_ne (hne u hu)]
        exact hadj u (List.mem_cons_of_mem _ hu)
      · refine h θ' h1 (fun u hu => ?_) (fun u hu => ?_)
        · rcases List.mem_cons.1 hu with rfl | hu
          · rw [h3 u hl.1]; simp [putT]
          · exact h2 u hu
        · rw [List.mem_cons, not_or] at hu
          rw [h3 u hu.2]
          simp [putT, Function.update_of_ne hu.1]

theorem sweepK_append {ι X D : Type} [MeasurableSpace X] [MeasurableSpace D] (u : X → ι → D → X)
    (μ : ι → Measure D) (l l' : List ι) (f : X → ℝ≥0∞) :
    sweepK u μ (l ++ l') f = sweepK u μ l (sweepK u μ l' f) := by
  induction l with
  | nil => rfl
  | cons i l ih =>
    funext x
    show ∫⁻ d, sweepK u μ (l ++ l') f (u x i d) ∂μ i = _
    rw [ih]
    rfl

/-! ### A tree that stays unchanged -/

/-- probability that the change from `T` to `T'` is proposed, and the number used to accept or reject it
is in the given set -/
theorem prob_propose (hu : Usable a) (hT : PossibleTree a T) (hT' : PossibleTree a T')
    (hg : GrownT a T T' i) {S : Set ℝ} (hS : S ⊆ Set.Ico 0 1) :
    prob (fun w => (w 0 < pG a T ∧ lP a T (w 2) = i ∧ vP a T i (w 3) = at0 T'.var i ∧
      sP a T i (at0 T'.var i) (w 4) = at0 T'.split i) ∧ w 1 ∈ S) =
    pGrow (canon a 1 T) 0 * len S *
      ((canon a 1 T).p_propose_grow.getD i 0 / (growW (canon a 1 T) 0).sum) *
      (1 / ((availVars a.split_bits a.max_split T.var T.split i).ncard : ℝ)) *
      (1 / ((availSplits a.max_split T.var T.split i (at0 T'.var i)).ncard : ℝ)) := by
  have ha := hu.valid
  have ht := hu.trees
  obtain ⟨h1, _⟩ := canon_inv hu hT 1
  obtain ⟨h2, _⟩ := canon_inv hu hT' 1
  have hgs : Grown a.p_nonterminal.length (vaOf (canon a 1 T) 0) (spOf (canon a 1 T) 0)
      (vaOf (canon a 1 T') 0) (spOf (canon a 1 T') 0) i := by
    rw [canon_va 1 ht, canon_va 1 ht, canon_sp 1 ht, canon_sp 1 ht]; exact hg
  have hgi := grown_growable ha h1 h2 ht hgs
  have m1 := hT'.var_avail i hg.decision
  have m2 := hT'.split_avail i hg.decision
  have hg' : Grown a.p_nonterminal.length T.var T.split T'.var T'.split i := hg
  rw [hg'.availVars hT.split hT'.split _ _ hg.leaf.1] at m1
  rw [hg'.availSplits hT.split hT'.split _ hg.leaf.1] at m2
  have hbox := prob_box (P := fun w => (w 0 < pG a T ∧ lP a T (w 2) = i ∧ vP a T i (w 3) = at0 T'.var i ∧
      sP a T i (at0 T'.var i) (w 4) = at0 T'.split i) ∧ w 1 ∈ S)
    (S := ![{x | x ∈ Set.Ico (0 : ℝ) 1 ∧ x < pGrow (canon a 1 T) 0},
      S,
      {x | x ∈ Set.Ico (0 : ℝ) 1 ∧ leafPick (canon a 1 T) 0 x = i},
      {x | x ∈ Set.Ico (0 : ℝ) 1 ∧ varPick (canon a 1 T) 0 i x = at0 T'.var i},
      {x | x ∈ Set.Ico (0 : ℝ) 1 ∧
        splitPick (canon a 1 T) 0 i (at0 T'.var i) x = at0 T'.split i}, Set.Ico 0 1])
    (by
      intro k
      fin_cases k
      · exact fun x hx => hx.1
      · exact hS
      · exact fun x hx => hx.1
      · exact fun x hx => hx.1
      · exact fun x hx => hx.1
      · exact subset_rfl)
    (by
      intro w hw
      have hw' : ∀ k, w k ∈ Set.Ico (0 : ℝ) 1 := fun k => hw k (Set.mem_univ k)
      constructor
      · rintro ⟨⟨e1, e2, e3, e4⟩, e5⟩ k
        fin_cases k
        · exact ⟨hw' 0, e1⟩
        · exact e5
        · exact ⟨hw' 2, e2⟩
        · exact ⟨hw' 3, e3⟩
        · exact ⟨hw' 4, e4⟩
        · exact hw' 5
      · intro hk
        exact ⟨⟨(hk 0).2, (hk 2).2, (hk 3).2, (hk 4).2⟩, hk 1⟩)
  rw [hbox]
  have hvl := len_varPick ha h1 ht hu.fill (cutsOK hu h1 ht) hgs.leaf hgs.not_bottom (v := at0 T'.var i) (by
    rw [h1.cfg.split_bits, h1.cfg.max_split, canon_va 1 ht, canon_sp 1 ht]; exact m1)
  have hsl := len_splitPick ha h1 ht (v := at0 T'.var i) (sp := at0 T'.split i) hgs.leaf.1.pos
    hgs.not_bottom (by rw [h1.cfg.max_split, canon_va 1 ht, canon_sp 1 ht]; exact m2)
  rw [h1.cfg.split_bits, h1.cfg.max_split, canon_va 1 ht, canon_sp 1 ht] at hvl
  rw [h1.cfg.max_split, canon_va 1 ht, canon_sp 1 ht] at hsl
  show len {x | x ∈ Set.Ico (0 : ℝ) 1 ∧ x < pGrow (canon a 1 T) 0} * len _ *
    len {x | x ∈ Set.Ico (0 : ℝ) 1 ∧ leafPick (canon a 1 T) 0 x = i} *
    len {x | x ∈ Set.Ico (0 : ℝ) 1 ∧ varPick (canon a 1 T) 0 i x = at0 T'.var i} *
    len {x | x ∈ Set.Ico (0 : ℝ) 1 ∧
        splitPick (canon a 1 T) 0 i (at0 T'.var i) x = at0 T'.split i} * len (Set.Ico 0 1) = _
  rw [len_lt_pGrow, len_leafPick ha h1 ht hgi, hvl, hsl, len_unit, mul_one]
  rfl

theorem prob_mono {P Q : (Fin 6 → ℝ) → Prop} (h : ∀ w ∈ unitCube, P w → Q w)
    (hQ : MeasurableSet {w | Q w}) (hP : prob P ≠ 0) : unifDist {w | Q w} ≠ 0 := by
  intro h0
  apply hP
  unfold prob
  have : volume {w | w ∈ unitCube ∧ P w} = 0 := by
    refine measure_mono_null (t := {w | w ∈ unitCube ∧ Q w}) (fun w hw => ⟨hw.1, h w hw.1 hw.2⟩) ?_
    rw [unifDist_eq, Measure.restrict_apply hQ] at h0
    rw [← h0]
    congr 1
    ext w
    exact and_comm
  rw [this]
  rfl

/-- if growing is not always accepted, the root may stay unchanged -/
theorem trans_stay (hu : Usable a) (hT' : PossibleTree a T') (hg : GrownT a (rootT a) T' i)
    (hc : Real.log (tP a (rootT a) T' i) + Real.log (lik a R v T' / lik a R v (rootT a)) < 0) :
    trans a R v (rootT a) (rootT a) ≠ 0 := by
  have ha := hu.valid
  have ht := hu.trees
  have hT := root_possible a
  set c := Real.log (tP a (rootT a) T' i) + Real.log (lik a R v T' / lik a R v (rootT a)) with hcdef
  obtain ⟨h1, _⟩ := canon_inv hu hT 1
  obtain ⟨h2, _⟩ := canon_inv hu hT' 1
  have hgs : Grown a.p_nonterminal.length (vaOf (canon a 1 (rootT a)) 0) (spOf (canon a 1 (rootT a)) 0)
      (vaOf (canon a 1 T') 0) (spOf (canon a 1 T') 0) i := by
    rw [canon_va 1 ht, canon_va 1 ht, canon_sp 1 ht, canon_sp 1 ht]; exact hg
  have hexp : Real.exp c < 1 := by rw [← Real.exp_zero]; exact Real.exp_lt_exp.2 hc
  have hpr := prob_propose hu hT hT' hg (S := Set.Ico 0 (1 - Real.exp c)) (fun x hx => ⟨hx.1, by
    have := Real.exp_pos c; have := hx.2; linarith⟩)
  rw [len_Ico (by linarith)] at hpr
  refine prob_mono (P := fun w => _) ?_ (measurable_newRules_w a R v (rootT a) (measurableSet_singleton _))
    (hpr.trans_ne ?_)
  · rintro w hw ⟨⟨e1, e2, e3, e4⟩, e5⟩
    by_contra hne
    obtain ⟨hP, k, ⟨g, e⟩ | ⟨g, e⟩⟩ := (newRules_eq_iff hT hne).1 rfl
    · obtain rfl : i = k := e2.symm.trans e.2.1
      have hvar := e3.symm.trans e.2.2.1
      have hsame := grownT_right_unique hT hT' hP hg g hvar (by
        rw [← e4, ← e.2.2.2.1, hvar])
      have hacc := e.2.2.2.2
      rw [← hsame] at hacc
      have h01 := hw 1 (Set.mem_univ _)
      rw [Real.log_le_iff_le_exp (by linarith [h01.2])] at hacc
      linarith [e5.2]
    · exact absurd (at0_replicate _ k) g.decision.2
  · have hg1 : pGrow (canon a 1 (rootT a)) 0 ≠ 0 := by
      rw [pGrow1 ha h1 h2 ht hgs]; split_ifs <;> norm_num
    obtain ⟨_, q1, q2⟩ := growW_pos ha h1 ht (grown_growable ha h1 h2 ht hgs)
    have hg' : Grown a.p_nonterminal.length (rootT a).var (rootT a).split T'.var T'.split i := hg
    have m1 := hT'.var_avail i hg.decision
    have m2 := hT'.split_avail i hg.decision
    rw [hg'.availVars hT.split hT'.split _ _ hg.leaf.1] at m1
    rw [hg'.availSplits hT.split hT'.split _ hg.leaf.1] at m2
    have f1 : ((availVars a.split_bits a.max_split (rootT a).var (rootT a).split i).ncard : ℝ) ≠ 0 := by
      rw [Nat.cast_ne_zero]
      refine (Set.ncard_pos ?_).2 ⟨_, m1⟩ |>.ne'
      exact (Set.finite_lt_nat a.max_split.length).subset fun x hx => hx.1
    have f2 : ((availSplits a.max_split (rootT a).var (rootT a).split i (at0 T'.var i)).ncard : ℝ) ≠ 0 := by
      rw [Nat.cast_ne_zero]
      exact ((Set.ncard_pos (availSplits_finite _ _ _ _ _)).2 ⟨_, m2⟩).ne'
    have : 1 - Real.exp c - 0 ≠ 0 := by linarith
    positivity

/-! ### The likelihood ratio as a function of the values of the other trees -/

theorem quad_neg {α β γ : ℝ} (hα : α < 0) : ∃ c, α * c ^ 2 + β * c + γ < 0 := by
  have hα' : 0 < -α := by linarith
  set M := |β| + |γ| + 1 with hM
  have hMp : 0 < M := by have := abs_nonneg β; have := abs_nonneg γ; linarith
  refine ⟨max 1 (M / -α), ?_⟩
  set c := max 1 (M / -α) with hc
  have h1 : 1 ≤ c := le_max_left _ _
  have h2 : M ≤ -α * c := by
    have : M / -α ≤ c := le_max_right _ _
    rw [div_le_iff₀ hα'] at this
    linarith
  have h3 : β * c ≤ |β| * c := mul_le_mul_of_nonneg_right (le_abs_self β) (by linarith)
  have h4 : γ ≤ |γ| * c := by
    have := le_abs_self γ
    have := abs_nonneg γ
    nlinarith
  nlinarith

theorem sumSq_perm {l l' : List ℝ} (h : l.Perm l') : sumSq l = sumSq l' := by
  unfold sumSq; exact (h.map _).sum_eq

theorem sumSq_append (l l' : List ℝ) : sumSq (l ++ l') = sumSq l + sumSq l' := by
  unfold sumSq; rw [List.map_append, List.sum_append]

/-- exponent of the likelihood ratio -/
noncomputable def ratioExp (τ v : ℝ) (n2 n3 : Nat) (s2 s3 : ℝ) : ℝ :=
  τ / (2 * v) * (s2 * s2 / (v + n2 * τ) + s3 * s3 / (v + n3 * τ) -
    (s2 + s3) * (s2 + s3) / (v + (n2 + n3 : Nat) * τ))

theorem log_lik_ratio (hu : Usable a) (hv : 0 < v) (hT : PossibleTree a T) (hT' : PossibleTree a T')
    (hg : GrownT a T T' i) {n2 n3 : Nat}
    (h2 : (leafData a.X a.y.length T'.var T'.split R (2 * i)).length = n2)
    (h3 : (leafData a.X a.y.length T'.var T'.split R (2 * i + 1)).length = n3) :
    Real.log (lik a R v T' / lik a R v T) =
      (Real.log (v / (v + n2 * (1 / a.num_trees : ℝ))) + Real.log (v / (v + n3 * (1 / a.num_trees : ℝ))) -
        Real.log (v / (v + (n2 + n3 : Nat) * (1 / a.num_trees : ℝ)))) / 2 +
      ratioExp (1 / a.num_trees : ℝ) v n2 n3
        (leafData a.X a.y.length T'.var T'.split R (2 * i)).sum
        (leafData a.X a.y.length T'.var T'.split R (2 * i + 1)).sum := by
  have htau : (0 : ℝ) < 1 / (a.num_trees : ℝ) := by have := hu.trees; positivity
  have elik := treeLikelihood_grown hT.split hT'.split hg hu.valid.depth_lt hT.var_length
    hT'.var_length (tau := 1 / (a.num_trees : ℝ)) (s2 := v) a.X a.y.length R
  have hperm := leafData_perm hT.split hT'.split hg hu.valid.depth_lt hT.var_length
    hT'.var_length a.X a.y.length R
  set D1 := leafData a.X a.y.length T.var T.split R i
  set D2 := leafData a.X a.y.length T'.var T'.split R (2 * i)
  set D3 := leafData a.X a.y.length T'.var T'.split R (2 * i + 1)
  have m1 := leafMarginal_pos htau hv D1
  have m2 := leafMarginal_pos htau hv D2
  have m3 := leafMarginal_pos htau hv D3
  have hL := lik_pos hu.trees hv R T
  have e : lik a R v T' / lik a R v T = leafMarginal (1 / (a.num_trees : ℝ)) v D2 *
      leafMarginal (1 / (a.num_trees : ℝ)) v D3 / leafMarginal (1 / (a.num_trees : ℝ)) v D1 := by
    rw [div_eq_div_iff hL.ne' m1.ne']
    unfold lik
    linear_combination elik
  have l1 : D1.length = n2 + n3 := by rw [← hperm.length_eq, List.length_append, h2, h3]
  have l2 : D1.sum = D2.sum + D3.sum := by rw [← hperm.sum_eq, List.sum_append]
  have l3 : sumSq D1 = sumSq D2 + sumSq D3 := by rw [← sumSq_perm hperm, sumSq_append]
  rw [e, Real.log_div (mul_pos m2 m3).ne' m1.ne', Real.log_mul m2.ne' m3.ne', log_leafMarginal htau hv,
    log_leafMarginal htau hv, log_leafMarginal htau hv, l1, l2, l3, h2, h3]
  unfold ratioExp
  push_cast
  ring

/-- if the values of another tree are large enough, growing is not favored -/
theorem exists_shift {τ : ℝ} (hτ : 0 < τ) (hv : 0 < v) {n2 n3 : Nat} (h2 : 0 < n2) (h3 : 0 < n3) (K s2 s3 : ℝ) :
    ∃ c, K + ratioExp τ v n2 n3 (s2 - n2 * c) (s3 - n3 * c) < 0 := by
  have p2 : (0 : ℝ) < n2 := by exact_mod_cast h2
  have p3 : (0 : ℝ) < n3 := by exact_mod_cast h3
  have hA : 0 < v + n2 * τ := by positivity
  have hB : 0 < v + n3 * τ := by positivity
  have hC : 0 < v + ((n2 + n3 : Nat) : ℝ) * τ := by positivity
  have hα : τ / (2 * v) * ((n2 : ℝ) ^ 2 / (v + n2 * τ) + (n3 : ℝ) ^ 2 / (v + n3 * τ) -
      ((n2 : ℝ) + n3) ^ 2 / (v + (n2 + n3 : Nat) * τ)) < 0 := by
    apply mul_neg_of_pos_of_neg (by positivity)
    have i2 : (n2 : ℝ) ^ 2 / (v + n2 * τ) < n2 * (n2 + n3) / (v + (n2 + n3 : Nat) * τ) := by
      rw [div_lt_div_iff₀ hA hC]
      push_cast
      nlinarith [mul_pos (mul_pos p2 p3) hv]
    have i3 : (n3 : ℝ) ^ 2 / (v + n3 * τ) < n3 * (n2 + n3) / (v + (n2 + n3 : Nat) * τ) := by
      rw [div_lt_div_iff₀ hB hC]
      push_cast
      nlinarith [mul_pos (mul_pos p2 p3) hv]
    have e : ((n2 : ℝ) + n3) ^ 2 / (v + (n2 + n3 : Nat) * τ) =
        n2 * (n2 + n3) / (v + (n2 + n3 : Nat) * τ) + n3 * (n2 + n3) / (v + (n2 + n3 : Nat) * τ) := by
      rw [← add_div]; congr 1; ring
    linarith
  obtain ⟨c, hc⟩ := quad_neg (β := τ / (2 * v) * (-2 * s2 * n2 / (v + n2 * τ) - 2 * s3 * n3 / (v + n3 * τ) +
    2 * (s2 + s3) * (n2 + n3) / (v + (n2 + n3 : Nat) * τ)))
    (γ := K + τ / (2 * v) * (s2 ^ 2 / (v + n2 * τ) + s3 ^ 2 / (v + n3 * τ) -
      (s2 + s3) ^ 2 / (v + (n2 + n3 : Nat) * τ))) hα
  refine ⟨c, lt_of_eq_of_lt ?_ hc⟩
  unfold ratioExp
  field_simp
  ring

end
end Bartz
