import Verif.Lemmas.BartStay
/-! # Sets reached by the Markov chain with positive probability -/

set_option autoImplicit false

namespace Bartz
open Jax Spec MeasureTheory ProbabilityTheory
open scoped ENNReal

section
variable {a : InitArgs ℝ} {C C' C'' : Fin a.num_trees → Rules} {g : Params a.num_trees (nodes a) → ℝ≥0∞}
  {θ : Params a.num_trees (nodes a)}

/-! ### The variance -/

/-- integrate the new variance -/
noncomputable def sigK (a : InitArgs ℝ) (g : Params a.num_trees (nodes a) → ℝ≥0∞)
    (θ : Params a.num_trees (nodes a)) : ℝ≥0∞ :=
  ∫⁻ d, g (updSigma a θ d) ∂gammaMeasure (a.sigma2_alpha + a.y.length / 2) 1

/-- integrate the variance with the a priori distribution -/
noncomputable def sigI (a : InitArgs ℝ) (g : Params a.num_trees (nodes a) → ℝ≥0∞)
    (θ : Params a.num_trees (nodes a)) : ℝ≥0∞ := ∫⁻ v, g (θ.1, v) ∂sigmaDist a

theorem measurable_sigK (hα : 0 < a.sigma2_alpha) (hg : Measurable g) : Measurable (sigK a g) := by
  have hα' : 0 < a.sigma2_alpha + a.y.length / 2 := by positivity
  have hpr : IsProbabilityMeasure (gammaMeasure (a.sigma2_alpha + a.y.length / 2) 1) :=
    isProbabilityMeasure_gammaMeasure hα' one_pos
  exact Measurable.lintegral_prod_right' (f := fun p : Params a.num_trees (nodes a) × ℝ => g (updSigma a p.1 p.2))
      (hg.comp (measurable_updSigma a))

theorem measurable_sigI (hg : Measurable g) : Measurable (sigI a g) := by
  refine Measurable.lintegral_prod_right' (f := fun p : Params a.num_trees (nodes a) × ℝ => g (p.1.1, p.2)) ?_
  exact hg.comp ((measurable_fst.comp measurable_fst).prodMk measurable_snd)

theorem sigK_ne_zero (hα : 0 < a.sigma2_alpha) (hβ : 0 < a.sigma2_beta) (hg : Measurable g)
    (h : sigI a g θ ≠ 0) : sigK a g θ ≠ 0 := by
  obtain ⟨C, _, _, hC⟩ := sigma_integral (a := a) hα hβ (residList a θ.1)
  have h1 := hC (fun v => g (θ.1, v)) (hg.comp measurable_prodMk_left)
  rw [residList_length] at h1
  intro h0
  have h2 : ∫⁻ d, g (θ.1, (a.sigma2_beta + sumSq (residList a θ.1) / 2) / d)
    ∂gammaMeasure (a.sigma2_alpha + a.y.length / 2) 1 = 0 := h0
  rw [h2, mul_zero] at h1
  refine lintegral_ne_zero_of_imp ?_ ?_ h h1
  · simp only [← dataDensity_eq]
    exact ((measurable_dataDensity a).comp measurable_prodMk_left).mul (hg.comp measurable_prodMk_left)
  · filter_upwards [sigma_pos a] with v hv hgv
    refine mul_ne_zero ?_ hgv
    rw [← dataDensity_eq]
    unfold dataDensity
    rw [Finset.prod_ne_zero_iff]
    intro j _
    simp only [ne_eq, ENNReal.ofReal_eq_zero, not_le]
    exact gaussianPDFReal_pos _ _ _ (by simpa using hv)

theorem sigmaDist_ne_zero (hα : 0 < a.sigma2_alpha) (hβ : 0 < a.sigma2_beta) : sigmaDist a ≠ 0 := by
  intro h0
  obtain ⟨C, hC0, _, hC⟩ := sigma_integral (a := a) hα hβ []
  have h1 := hC (fun _ => 1) measurable_const
  have hα' : 0 < a.sigma2_alpha + (([] : List ℝ).length : ℝ) / 2 := by simpa using hα
  have hpr := isProbabilityMeasure_gammaMeasure hα' one_pos
  rw [h0, lintegral_zero_measure, lintegral_one, measure_univ, mul_one] at h1
  exact hC0 h1.symm

/-- the step, one random number at a time -/
theorem lintegral_step (hα : 0 < a.sigma2_alpha) (hg : Measurable g) (θ : Params a.num_trees (nodes a)) :
    ∫⁻ θ', g θ' ∂stepKernel a θ = sweepK (updParams a) (fun _ => treeDraws (nodes a))
      (List.finRange a.num_trees) (sigK a g) θ := by
  have hα' : 0 < a.sigma2_alpha + a.y.length / 2 := by positivity
  have hpr : IsProbabilityMeasure (gammaMeasure (a.sigma2_alpha + a.y.length / 2) 1) :=
    isProbabilityMeasure_gammaMeasure hα' one_pos
  have hm : Measurable fun o => g (stepFun a θ o) := measurable_stepFun_at hg θ
  rw [lintegral_stepKernel hg]
  unfold stepDraws
  rw [lintegral_prod _ hm.aemeasurable]
  simp only [stepFun_eq]
  exact lintegral_sweep (measurable_updParams a) (measurable_sigK hα hg) (List.nodup_finRange _)
    (List.mem_finRange) θ

/-! ### Configurations: the decision rules of all trees -/

/-- the function is not zero if the trees have the given decision rules -/
def Full (a : InitArgs ℝ) (C : Fin a.num_trees → Rules) (g : Params a.num_trees (nodes a) → ℝ≥0∞) : Prop :=
  ∀ θ, PossibleParams a θ → (∀ t, (θ.1 t).1 = C t) → g θ ≠ 0

/-- the function is not zero almost everywhere when the trees have the given decision rules -/
def Charge (a : InitArgs ℝ) (C : Fin a.num_trees → Rules) (g : Params a.num_trees (nodes a) → ℝ≥0∞) : Prop :=
  ∀ θ, sweepK (putT C) (fun s => leafPrior a (C s)) (List.finRange a.num_trees) (sigI a g) θ ≠ 0

def Weak (a : InitArgs ℝ) (n : Nat) (C C' : Fin a.num_trees → Rules) : Prop :=
  ∀ θ, PossibleParams a θ → (∀ t, (θ.1 t).1 = C t) → ∀ g, Measurable g → Full a C' g →
    ∫⁻ θ', g θ' ∂(stepKernel a ^ n) θ ≠ 0

def Conn (a : InitArgs ℝ) (n : Nat) (C C' : Fin a.num_trees → Rules) : Prop :=
  ∀ θ, PossibleParams a θ → (∀ t, (θ.1 t).1 = C t) → ∀ g, Measurable g → Charge a C' g →
    ∫⁻ θ', g θ' ∂(stepKernel a ^ n) θ ≠ 0

theorem sweepPut_imp {f g : Params a.num_trees (nodes a) → ℝ≥0∞} (hg : Measurable g)
    (h : ∀ θ, f θ ≠ 0 → g θ ≠ 0) (l : List (Fin a.num_trees)) :
    ∀ θ, sweepK (putT C) (fun s => leafPrior a (C s)) l f θ ≠ 0 →
      sweepK (putT C) (fun s => leafPrior a (C s)) l g θ ≠ 0 := by
  induction l with
  | nil => exact h
  | cons s l ih =>
    intro θ hf
    refine lintegral_ne_zero_of_imp ?_ (Filter.Eventually.of_forall fun L hL => ih _ hL) hf
    exact (measurable_sweepPut hg l).comp ((measurable_putT C s).comp measurable_prodMk_left)

theorem lintegral_pow_add (n m : Nat) (hg : Measurable g) (θ : Params a.num_trees (nodes a)) :
    ∫⁻ θ', g θ' ∂(stepKernel a ^ (n + m)) θ =
      ∫⁻ θ', ∫⁻ θ'', g θ'' ∂(stepKernel a ^ m) θ' ∂(stepKernel a ^ n) θ := by
  rw [add_comm, pow_add]
  exact Kernel.lintegral_comp _ _ _ hg

theorem Weak.trans {n m : Nat} (h : Weak a n C C') (h' : Weak a m C' C'') : Weak a (n + m) C C'' := by
  intro θ hθ hC g hg hfull
  rw [lintegral_pow_add n m hg]
  exact h θ hθ hC _ hg.lintegral_kernel fun θ' h1 h2 => h' θ' h1 h2 g hg hfull

theorem Weak.conn {n m : Nat} (h : Weak a n C C') (h' : Conn a m C' C'') : Conn a (n + m) C C'' := by
  intro θ hθ hC g hg hch
  rw [lintegral_pow_add n m hg]
  exact h θ hθ hC _ hg.lintegral_kernel fun θ' h1 h2 => h' θ' h1 h2 g hg hch

theorem Weak.refl (C : Fin a.num_trees → Rules) : Weak a 0 C C := by
  intro θ hθ hC g hg hfull
  rw [pow_zero]
  change ∫⁻ θ', g θ' ∂Kernel.id θ ≠ 0
  rw [Kernel.id_apply, lintegral_dirac' _ hg]
  exact hfull θ hθ hC

theorem sigK_full (hα : 0 < a.sigma2_alpha) (hβ : 0 < a.sigma2_beta) (hg : Measurable g)
    (h : Full a C g) : Full a C (sigK a g) := by
  intro θ hθ hC
  refine sigK_ne_zero hα hβ hg (lintegral_ne_zero_of_ae (sigmaDist_ne_zero hα hβ)
    (hg.comp measurable_prodMk_left) ?_)
  filter_upwards [sigma_pos a] with v hv
  exact h (θ.1, v) ⟨hθ.tree, hθ.leaf, hv⟩ hC

/-- all the trees change -/
theorem conn_adj (hu : Usable a) (hα : 0 < a.sigma2_alpha) (hβ : 0 < a.sigma2_beta)
    (h : ∀ t, Adj a (C t) (C' t)) : Conn a 1 C C' := by
  intro θ hθ hC g hg hch
  rw [pow_one, lintegral_step hα hg]
  refine sweep_pos hu (measurable_sigK hα hg) (List.nodup_finRange _) θ hθ.sigma2
    (fun s _ => by rw [hC s]; exact h s) ?_
  exact sweepPut_imp (measurable_sigK hα hg) (fun θ h => sigK_ne_zero hα hβ hg h) _ θ (hch θ)

theorem weak_adj (hu : Usable a) (hα : 0 < a.sigma2_alpha) (hβ : 0 < a.sigma2_beta)
    (h : ∀ t, Adj a (C t) (C' t)) : Weak a 1 C C' := by
  intro θ hθ hC g hg hfull
  rw [pow_one, lintegral_step hα hg]
  refine sweep_full hu (measurable_sigK hα hg) (List.nodup_finRange _) θ hθ
    (fun s _ => by rw [hC s]; exact h s) fun θ' h1 h2 _ => ?_
  exact sigK_full hα hβ hg hfull θ' h1 fun t => h2 t (List.mem_finRange t)

theorem charge_of_full (hα : 0 < a.sigma2_alpha) (hβ : 0 < a.sigma2_beta) (hg : Measurable g)
    (hC : ∀ t, PossibleTree a (C t)) (h : Full a C g) : Charge a C g := by
  have key : ∀ (l : List (Fin a.num_trees)) (θ : Params a.num_trees (nodes a)),
      (∀ t, t ∉ l → (θ.1 t).1 = C t ∧ ∀ i : Fin (nodes a), ¬ IsLeaf (C t).split i → (θ.1 t).2 i = 0) →
      sweepK (putT C) (fun s => leafPrior a (C s)) l (sigI a g) θ ≠ 0 := by
    intro l
    induction l with
    | nil =>
      intro θ hθ
      refine lintegral_ne_zero_of_ae (sigmaDist_ne_zero hα hβ) (hg.comp measurable_prodMk_left) ?_
      filter_upwards [sigma_pos a] with v hv
      refine h (θ.1, v) ⟨fun t => ?_, fun t i hi => ?_, hv⟩ fun t => (hθ t (by simp)).1
      · show PossibleTree a (θ.1 t).1
        rw [(hθ t (by simp)).1]; exact hC t
      · refine (hθ t (by simp)).2 i ?_
        rw [← (hθ t (by simp)).1]; exact hi
    | cons s l ih =>
      intro θ hθ
      refine lintegral_ne_zero_of_ae (μ := leafPrior a (C s)) (NeZero.ne _) ?_ ?_
      · exact (measurable_sweepPut (measurable_sigI hg) l).comp ((measurable_putT C s).comp measurable_prodMk_left)
      · filter_upwards [leafPrior_ae a (C s)] with L hL
        refine ih _ fun t ht => ?_
        by_cases hts : t = s
        · subst hts; simp only [putT, Function.update_self]; exact ⟨trivial, hL⟩
        · simp only [putT, Function.update_of_ne hts]
          exact hθ t (by simp [hts, ht])
  exact fun θ => key _ θ fun t ht => absurd (List.mem_finRange t) ht

theorem Conn.weak (hα : 0 < a.sigma2_alpha) (hβ : 0 < a.sigma2_beta) {n : Nat} (h : Conn a n C C')
    (hC' : ∀ t, PossibleTree a (C' t)) : Weak a n C C' :=
  fun θ hθ hC g hg hfull => h θ hθ hC g hg (charge_of_full hα hβ hg hC' hfull)

theorem finRange_split {n : Nat} (t : Fin n) (ht : 0 < t.val) : ∃ l1 s l2,
    List.finRange n = l1 ++ s :: t :: l2 := by
  obtain ⟨A, B, h⟩ := List.append_of_mem (List.mem_finRange t)
  rcases List.eq_nil_or_concat A with rfl | ⟨A', s, rfl⟩
  · have h1 : (List.finRange n)[0]? = some t := by rw [h]; rfl
    rw [List.getElem?_eq_getElem (by simp; omega)] at h1
    simp only [List.getElem_finRange, Option.some.injEq] at h1
    rw [← h1] at ht
    simp at ht
  · exact ⟨A', s, B, by rw [h, List.concat_eq_append]; simp⟩

/-- a tree does not change -/
theorem weak_stay (hu : Usable a) (hα : 0 < a.sigma2_alpha) (hβ : 0 < a.sigma2_beta)
    (hm : ∃ m, 1 ≤ m ∧ a.min_points_per_leaf = some m) {T1 : Rules} {i : Nat} (hT1 : PossibleTree a T1)
    (hg1 : GrownT a (rootT a) T1 i) {t : Fin a.num_trees} (ht : 0 < t.val) (h0 : C t = rootT a)
    (h0' : C' t = rootT a) (h : ∀ s, s ≠ t → Adj a (C s) (C' s)) : Weak a 1 C C' := by
  intro θ hθ hC g hg hfull
  rw [pow_one, lintegral_step hα hg]
  obtain ⟨l1, s, l2, hl⟩ := finRange_split t ht
  have hnd := List.nodup_finRange a.num_trees
  rw [hl] at hnd
  have hmem : ∀ u, u ∈ l1 ∨ u = s ∨ u = t ∨ u ∈ l2 := by
    intro u
    have := List.mem_finRange u
    rw [hl] at this
    simpa using this
  rw [List.nodup_append] at hnd
  obtain ⟨nd1, nd2, hdis⟩ := hnd
  rw [List.nodup_cons] at nd2
  obtain ⟨hs, nd3⟩ := nd2
  rw [List.nodup_cons] at nd3
  obtain ⟨htl, nd4⟩ := nd3
  have hst : s ≠ t := by rintro rfl; exact hs (by simp)
  have hs1 : s ∉ l1 := fun h => hdis s h s (by simp) rfl
  have ht1 : t ∉ l1 := fun h => hdis t h t (by simp) rfl
  have hs2 : s ∉ l2 := fun h => hs (List.mem_cons_of_mem _ h)
  have hl2 : ∀ u ∈ l2, u ∉ l1 ∧ u ≠ s ∧ u ≠ t := fun u hu =>
    ⟨fun h => hdis u h u (by simp [hu]) rfl, fun h => hs2 (h ▸ hu), fun h => htl (h ▸ hu)⟩
  rw [hl, sweepK_append]
  refine sweep_full hu (measurable_sweepUpd (measurable_sigK hα hg) _) nd1 θ hθ (fun u hu1 => by
    rw [hC u]; exact h u fun e => ht1 (e ▸ hu1)) fun θ1 p1 r1 q1 => ?_
  have hadj := h s hst
  have e1 : (θ1.1 s).1 = C s := by rw [q1 s hs1]; exact hC s
  refine upd_pos (C := C') (g := sweepK (updParams a) (fun _ => treeDraws (nodes a)) (t :: l2) (sigK a g))
    hu p1.sigma2 hadj.right (e1 ▸ hadj.pos _ _ p1.sigma2)
    (measurable_sweepUpd (measurable_sigK hα hg) _) ?_
  have hcore := stay_core (v := θ1.2) hu hm p1.sigma2 hst θ1.1 hadj.right hT1 hg1
  intro hzero
  have hmL : Measurable fun L => sweepK (updParams a) (fun _ => treeDraws (nodes a)) (t :: l2) (sigK a g)
      (putT C' θ1 s L) :=
    (measurable_sweepUpd (measurable_sigK hα hg) _).comp ((measurable_putT C' s).comp measurable_prodMk_left)
  rw [lintegral_eq_zero_iff hmL] at hzero
  apply hcore
  rw [← compl_compl {L | _}]
  refine mem_ae_iff.1 ?_
  filter_upwards [hzero, leafPrior_ae a (C' s)] with L hL0 hL hn
  refine absurd hL0 ?_
  have p2 := possible_putT p1 hadj.right hL
  have e2 : ((putT C' θ1 s L).1 t).1 = rootT a := by
    simp only [putT, Function.update_of_ne hst.symm]
    rw [q1 t ht1, hC t, h0]
  refine upd_pos (C := C') (g := sweepK (updParams a) (fun _ => treeDraws (nodes a)) l2 (sigK a g))
    hu p2.sigma2 (h0' ▸ root_possible a) (by rw [e2, h0']; exact hn)
    (measurable_sweepUpd (measurable_sigK hα hg) _) ?_
  refine lintegral_ne_zero_of_ae (NeZero.ne _) ?_ ?_
  · exact (measurable_sweepUpd (measurable_sigK hα hg) _).comp ((measurable_putT C' t).comp measurable_prodMk_left)
  · filter_upwards [leafPrior_ae a (C' t)] with L' hL'
    have p3 := possible_putT p2 (h0' ▸ root_possible a) hL'
    refine sweep_full (C := C') hu (measurable_sigK hα hg) nd4 _ p3 (fun u hu2 => ?_) fun θ' p4 r4 q4 => ?_
    · obtain ⟨k1, k2, k3⟩ := hl2 u hu2
      simp only [putT, Function.update_of_ne k2, Function.update_of_ne k3]
      rw [q1 u k1, hC u]
      exact h u k3
    · refine sigK_full hα hβ hg hfull θ' p4 fun u => ?_
      by_cases hu2 : u ∈ l2
      · exact r4 u hu2
      rw [q4 u hu2]
      rcases eq_or_ne u t with rfl | hut
      · simp [putT]
      rcases eq_or_ne u s with rfl | hus
      · simp [putT, Function.update_of_ne hut]
      simp only [putT, Function.update_of_ne hut, Function.update_of_ne hus]
      rcases hmem u with h' | h' | h' | h'
      · exact r1 u h'
      · exact absurd h' hus
      · exact absurd h' hut
      · exact absurd h' hu2

/-! ### Each set with positive probability is charged in some configuration -/

theorem sweepPut_congr (f : Params a.num_trees (nodes a) → ℝ≥0∞) {l : List (Fin a.num_trees)}
    (h : ∀ s ∈ l, C s = C' s) : ∀ θ, sweepK (putT C) (fun s => leafPrior a (C s)) l f θ =
      sweepK (putT C') (fun s => leafPrior a (C' s)) l f θ := by
  induction l with
  | nil => intro θ; rfl
  | cons s l ih =>
    intro θ
    show ∫⁻ L, sweepK (putT C) (fun s => leafPrior a (C s)) l f (putT C θ s L) ∂leafPrior a (C s) =
      ∫⁻ L, sweepK (putT C') (fun s => leafPrior a (C' s)) l f (putT C' θ s L) ∂leafPrior a (C' s)
    rw [h s (by simp)]
    refine lintegral_congr fun L => ?_
    rw [ih fun u hu => h u (List.mem_cons_of_mem _ hu)]
    simp only [putT, h s (by simp)]

/-- replace a tree -/
def setT (θ : Params a.num_trees (nodes a)) (s : Fin a.num_trees) (y : Tree (nodes a)) :
    Params a.num_trees (nodes a) := (Function.update θ.1 s y, θ.2)

theorem measurable_setT (s : Fin a.num_trees) :
    Measurable fun p : Params a.num_trees (nodes a) × Tree (nodes a) => setT p.1 s p.2 := by
  refine Measurable.prodMk ?_ (measurable_snd.comp measurable_fst)
  refine measurable_pi_lambda _ fun u => ?_
  by_cases hu : u = s
  · subst hu
    simp only [Function.update_self]
    exact measurable_snd
  · simp only [Function.update_of_ne hu]
    exact (measurable_pi_apply u).comp (measurable_fst.comp measurable_fst)

theorem sweepSet_zero (hg : Measurable g) {l : List (Fin a.num_trees)} (hl : l.Nodup) :
    ∀ θ, (∀ C, (∀ t, PossibleTree a (C t)) → sweepK (putT C) (fun s => leafPrior a (C s)) l g θ = 0) →
      sweepK (setT (a := a)) (fun _ => treeDist a) l g θ = 0 := by
  induction l with
  | nil => intro θ h; exact h (fun _ => rootT a) fun _ => root_possible a
  | cons s l ih =>
    intro θ h
    rw [List.nodup_cons] at hl
    have hm : Measurable (sweepK (setT (a := a)) (fun _ => treeDist a) l g) :=
      measurable_sweepK measurable_setT hg l
    show ∫⁻ y, sweepK (setT (a := a)) (fun _ => treeDist a) l g (setT θ s y) ∂treeDist a = 0
    have hm1 : Measurable fun y => sweepK (setT (a := a)) (fun _ => treeDist a) l g (setT θ s y) :=
      hm.comp ((measurable_setT s).comp measurable_prodMk_left)
    rw [lintegral_treeDist hm1, ENNReal.tsum_eq_zero]
    intro T
    by_cases hT : PossibleTree a T
    swap
    · rw [ruleW, if_neg hT, zero_mul]
    refine mul_eq_zero_of_right _ ?_
    have hae : ∀ᵐ L ∂leafPrior a T, ∀ C : Fin a.num_trees → Rules, (∀ t, PossibleTree a (C t)) →
        sweepK (putT C) (fun s => leafPrior a (C s)) l g (setT θ s (T, L)) = 0 := by
      rw [ae_all_iff]
      intro C
      by_cases hC : ∀ t, PossibleTree a (C t)
      swap
      · exact Filter.Eventually.of_forall fun L h => absurd h hC
      have h1 := h (Function.update C s T) (fun t => by
        by_cases ht : t = s
        · subst ht; rw [Function.update_self]; exact hT
        · rw [Function.update_of_ne ht]; exact hC t)
      change ∫⁻ L, sweepK (putT (Function.update C s T)) (fun u => leafPrior a (Function.update C s T u)) l g
        (putT (Function.update C s T) θ s L) ∂leafPrior a (Function.update C s T s) = 0 at h1
      have hm2 : Measurable fun L => sweepK (putT (Function.update C s T))
          (fun u => leafPrior a (Function.update C s T u)) l g (putT (Function.update C s T) θ s L) :=
        (measurable_sweepPut hg l).comp ((measurable_putT _ s).comp measurable_prodMk_left)
      rw [lintegral_eq_zero_iff hm2, Function.update_self] at h1
      filter_upwards [h1] with L hL _
      rw [sweepPut_congr g (C' := Function.update C s T) (fun u hu => by
        rw [Function.update_of_ne]; rintro rfl; exact hl.1 hu)]
      have e : setT θ s (T, L) = putT (Function.update C s T) θ s L := by
        simp [setT, putT]
      rw [e]
      exact hL
    have hm3 : Measurable fun L => sweepK (setT (a := a)) (fun _ => treeDist a) l g (setT θ s (T, L)) :=
      hm1.comp measurable_prodMk_left
    rw [lintegral_eq_zero_iff hm3]
    filter_upwards [hae] with L hL
    exact ih hl.2 _ hL

theorem sweepPut_const (f : Params a.num_trees (nodes a) → ℝ≥0∞) (hf : ∀ x v w, f (x, v) = f (x, w)) {l : List (Fin a.num_trees)} :
    ∀ θ θ', (∀ t, t ∉ l → θ.1 t = θ'.1 t) → sweepK (putT C) (fun s => leafPrior a (C s)) l f θ =
      sweepK (putT C) (fun s => leafPrior a (C s)) l f θ' := by
  induction l with
  | nil =>
    rintro ⟨x, v⟩ ⟨x', v'⟩ h
    have : x = x' := funext fun t => h t (by simp)
    subst this
    exact hf x v v'
  | cons s l ih =>
    intro θ θ' h
    show ∫⁻ L, sweepK (putT C) (fun s => leafPrior a (C s)) l f (putT C θ s L) ∂leafPrior a (C s) =
      ∫⁻ L, sweepK (putT C) (fun s => leafPrior a (C s)) l f (putT C θ' s L) ∂leafPrior a (C s)
    refine lintegral_congr fun L => ih _ _ fun t ht => ?_
    by_cases hts : t = s
    · subst hts; simp [putT]
    · simp only [putT, Function.update_of_ne hts]
      exact h t (by simp [hts, ht])

theorem sweepL_set (d : Fin a.num_trees → Tree (nodes a)) (l : List (Fin a.num_trees)) :
    ∀ θ : Params a.num_trees (nodes a), (sweepL (setT (a := a)) l θ d).2 = θ.2 ∧
      (∀ t, t ∈ l → (sweepL (setT (a := a)) l θ d).1 t = d t) ∧
      ∀ t, t ∉ l → (sweepL (setT (a := a)) l θ d).1 t = θ.1 t := by
  induction l with
  | nil => intro θ; exact ⟨rfl, by simp, fun _ _ => rfl⟩
  | cons s l ih =>
    intro θ
    obtain ⟨h1, h2, h3⟩ := ih (setT θ s (d s))
    refine ⟨h1, fun t ht => ?_, fun t ht => ?_⟩
    · by_cases htl : t ∈ l
      · exact h2 t htl
      · obtain rfl : t = s := by simpa [htl] using ht
        show (sweepL setT l (setT θ t (d t)) d).1 t = d t
        rw [h3 t htl]
        simp [setT]
    · rw [List.mem_cons, not_or] at ht
      show (sweepL setT l (setT θ s (d s)) d).1 t = θ.1 t
      rw [h3 t ht.2]
      simp [setT, Function.update_of_ne ht.1]

theorem exists_charge (hg : Measurable g) (h : ∫⁻ θ, g θ ∂posterior a ≠ 0) :
    ∃ C, (∀ t, PossibleTree a (C t)) ∧ Charge a C g := by
  have h1 : ∫⁻ θ, g θ ∂jointDist a ≠ 0 := by
    unfold posterior at h
    rw [lintegral_smul_measure] at h
    intro h0
    rw [h0] at h
    simp at h
  rw [lintegral_joint' hg] at h1
  have h2 : ∫⁻ x, sigI a g (x, 0) ∂(Measure.pi fun _ : Fin a.num_trees => treeDist a) ≠ 0 := by
    refine lintegral_ne_zero_of_imp ((measurable_sigI hg).comp (measurable_id.prodMk measurable_const)) ?_ h1
    refine Filter.Eventually.of_forall fun x hx => ?_
    refine lintegral_ne_zero_of_imp (hg.comp measurable_prodMk_left) ?_ hx
    refine Filter.Eventually.of_forall fun v hv => ?_
    exact right_ne_zero_of_mul hv
  set θ0 : Params a.num_trees (nodes a) := (fun _ => (rootT a, 0), 0) with hθ0
  have h3 := lintegral_sweep (u := setT (a := a)) (μ := fun _ => treeDist a) measurable_setT
    (measurable_sigI hg) (List.nodup_finRange a.num_trees) List.mem_finRange θ0
  have e : ∀ d, sweepL (setT (a := a)) (List.finRange a.num_trees) θ0 d = (d, 0) := by
    intro d
    obtain ⟨k1, k2, _⟩ := sweepL_set d (List.finRange a.num_trees) θ0
    exact Prod.ext (funext fun t => k2 t (List.mem_finRange t)) k1
  simp only [e] at h3
  rw [h3] at h2
  by_contra hcon
  push Not at hcon
  refine h2 (sweepSet_zero (measurable_sigI hg) (List.nodup_finRange _) θ0 fun C hC => ?_)
  have := hcon C hC
  unfold Charge at this
  push Not at this
  obtain ⟨θ, hθ⟩ := this
  rw [← hθ]
  exact sweepPut_const _ (fun _ _ _ => rfl) _ _ fun t ht => absurd (List.mem_finRange t) ht

theorem sweepSet_pos (hu : Usable a) (hp : ∀ x ∈ a.p_nonterminal, x < 1) (hg : Measurable g)
    (hC : ∀ t, PossibleTree a (C t)) (l : List (Fin a.num_trees)) :
    ∀ θ, sweepK (putT C) (fun s => leafPrior a (C s)) l g θ ≠ 0 →
      sweepK (setT (a := a)) (fun _ => treeDist a) l g θ ≠ 0 := by
  induction l with
  | nil => intro θ h; exact h
  | cons s l ih =>
    intro θ h
    have hm : Measurable (sweepK (setT (a := a)) (fun _ => treeDist a) l g) :=
      measurable_sweepK measurable_setT hg l
    have hm1 : Measurable fun y => sweepK (setT (a := a)) (fun _ => treeDist a) l g (setT θ s y) :=
      hm.comp ((measurable_setT s).comp measurable_prodMk_left)
    show ∫⁻ y, sweepK (setT (a := a)) (fun _ => treeDist a) l g (setT θ s y) ∂treeDist a ≠ 0
    rw [lintegral_treeDist hm1]
    intro h0
    rw [ENNReal.tsum_eq_zero] at h0
    have h1 := h0 (C s)
    rw [mul_eq_zero] at h1
    rcases h1 with h1 | h1
    · exact ruleW_ne_zero hu hp (hC s) h1
    · refine lintegral_ne_zero_of_imp (hm1.comp measurable_prodMk_left) ?_ h h1
      exact Filter.Eventually.of_forall fun L hL => ih _ hL

theorem posterior_of_set (hα : 0 < a.sigma2_alpha) (hβ : 0 < a.sigma2_beta) (hg : Measurable g)
    {θ0 : Params a.num_trees (nodes a)}
    (h2 : sweepK (setT (a := a)) (fun _ => treeDist a) (List.finRange a.num_trees) (sigI a g) θ0 ≠ 0) :
    ∫⁻ θ, g θ ∂posterior a ≠ 0 := by
  have h3 := lintegral_sweep (u := setT (a := a)) (μ := fun _ => treeDist a) measurable_setT
    (measurable_sigI hg) (List.nodup_finRange a.num_trees) List.mem_finRange θ0
  have e : ∀ d, sweepL (setT (a := a)) (List.finRange a.num_trees) θ0 d = (d, θ0.2) := by
    intro d
    obtain ⟨k1, k2, _⟩ := sweepL_set d (List.finRange a.num_trees) θ0
    exact Prod.ext (funext fun t => k2 t (List.mem_finRange t)) k1
  simp only [e] at h3
  rw [← h3] at h2
  unfold posterior
  rw [lintegral_smul_measure, lintegral_joint' hg]
  refine mul_ne_zero (ENNReal.inv_ne_zero.2 (joint_ne_top hα hβ)) ?_
  have hm : Measurable fun p : (Fin a.num_trees → Tree (nodes a)) × ℝ => dataDensity a p * g p :=
    (measurable_dataDensity a).mul hg
  refine lintegral_ne_zero_of_imp hm.lintegral_prod_right' ?_ h2
  refine Filter.Eventually.of_forall fun x hx => ?_
  refine lintegral_ne_zero_of_imp (hm.comp measurable_prodMk_left) ?_ hx
  filter_upwards [sigma_pos a] with v hv hgv
  refine mul_ne_zero ?_ hgv
  unfold dataDensity
  rw [Finset.prod_ne_zero_iff]
  intro j _
  simp only [ne_eq, ENNReal.ofReal_eq_zero, not_le]
  exact gaussianPDFReal_pos _ _ _ (by simpa using hv)

theorem posterior_of_charge (hu : Usable a) (hp : ∀ x ∈ a.p_nonterminal, x < 1) (hα : 0 < a.sigma2_alpha)
    (hβ : 0 < a.sigma2_beta) (hg : Measurable g) (hC : ∀ t, PossibleTree a (C t)) (h : Charge a C g) :
    ∫⁻ θ, g θ ∂posterior a ≠ 0 :=
  posterior_of_set hα hβ hg (sweepSet_pos hu hp (measurable_sigI hg) hC _ (fun _ => (rootT a, 0), 0) (h _))

/-- all the configurations have positive probability -/
theorem posterior_config (hu : Usable a) (hp : ∀ x ∈ a.p_nonterminal, x < 1) (hα : 0 < a.sigma2_alpha)
    (hβ : 0 < a.sigma2_beta) (hC : ∀ t, PossibleTree a (C t)) :
    MeasurableSet {θ : Params a.num_trees (nodes a) | ∀ t, (θ.1 t).1 = C t} ∧
    posterior a {θ | ∀ t, (θ.1 t).1 = C t} ≠ 0 := by
  have hA : MeasurableSet {θ : Params a.num_trees (nodes a) | ∀ t, (θ.1 t).1 = C t} := by
    rw [Set.ofPred_forall]
    refine MeasurableSet.iInter fun t => ?_
    exact (measurable_fst.comp ((measurable_pi_apply t).comp measurable_fst)) (measurableSet_singleton (C t))
  refine ⟨hA, ?_⟩
  rw [← lintegral_indicator_one hA]
  refine posterior_of_charge hu hp hα hβ (measurable_one.indicator hA) hC ?_
  refine charge_of_full hα hβ (measurable_one.indicator hA) hC fun θ' _ h => ?_
  rw [Set.indicator_of_mem (show θ' ∈ {θ : Params a.num_trees (nodes a) | ∀ t, (θ.1 t).1 = C t} from h)]
  simp

end
end Bartz
