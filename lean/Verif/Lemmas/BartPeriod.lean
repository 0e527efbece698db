import Verif.Lemmas.BartIrred
import Verif.Lemmas.BartSmall
/-! # The Markov chain is aperiodic -/

set_option autoImplicit false

namespace Bartz
open Jax Spec MeasureTheory ProbabilityTheory Filter Topology
open scoped ENNReal

section
variable {a : InitArgs ℝ} {C C' C'' : Fin a.num_trees → Rules} {T T1 : Rules} {i : Nat}
  {g : Params a.num_trees (nodes a) → ℝ≥0∞} {θ : Params a.num_trees (nodes a)}

theorem sigma_small (hα : 0 < a.sigma2_alpha) (hβ : 0 < a.sigma2_beta) {ε : ℝ} (hε : 0 < ε) :
    sigmaDist a (Set.Ioo 0 ε) ≠ 0 := by
  intro h0
  rw [withDensity_apply_eq_zero' (measurable_invGammaPdf _ _).ennreal_ofReal.aemeasurable] at h0
  have : Set.Ioo 0 ε ⊆ {x | ENNReal.ofReal (invGammaPdf a.sigma2_alpha a.sigma2_beta x) ≠ 0} ∩ Set.Ioo 0 ε := by
    intro x hx
    refine ⟨?_, hx⟩
    have hx0 : 0 < x := hx.1
    simp only [Set.mem_ofPred_eq, ne_eq, ENNReal.ofReal_eq_zero, not_le]
    rw [invGammaPdf, if_pos hx0]
    have := Real.Gamma_pos_of_pos hα
    positivity
  have h1 := measure_mono_null this h0
  rw [Real.volume_Ioo] at h1
  simp at h1
  linarith

/-- one step, where the first tree has a given update -/
theorem step_first (hu : Usable a) (hα : 0 < a.sigma2_alpha) (hβ : 0 < a.sigma2_beta)
    (hθ : PossibleParams a θ) (hC : ∀ t, (θ.1 t).1 = C t) {t : Fin a.num_trees} (ht : t.val = 0)
    (hP : PossibleTree a (C' t)) (htr : trans a (others a θ.1 t) θ.2 (C t) (C' t) ≠ 0)
    (h : ∀ s, s ≠ t → Adj a (C s) (C' s)) (hg : Measurable g) (hfull : Full a C' g) :
    ∫⁻ θ', g θ' ∂stepKernel a θ ≠ 0 := by
  rw [lintegral_step hα hg]
  have hnd := List.nodup_finRange a.num_trees
  obtain ⟨l, hl⟩ : ∃ l, List.finRange a.num_trees = t :: l := by
    have h0 : (List.finRange a.num_trees)[0]? = some t := by
      rw [List.getElem?_eq_getElem (by simpa using hu.trees)]
      simp only [List.getElem_finRange, Option.some.injEq]
      exact Fin.ext ht.symm
    cases hf : List.finRange a.num_trees with
    | nil => rw [hf] at h0; simp at h0
    | cons u l => rw [hf] at h0; simp at h0; exact ⟨l, by rw [h0]⟩
  have hmem : ∀ u, u ≠ t → u ∈ l := fun u hu => by
    have := List.mem_finRange u
    rw [hl] at this
    exact (List.mem_cons.1 this).resolve_left hu
  rw [hl, List.nodup_cons] at hnd
  rw [hl]
  refine upd_pos (C := C') (g := sweepK (updParams a) (fun _ => treeDraws (nodes a)) l (sigK a g))
    hu hθ.sigma2 hP (by rw [hC t]; exact htr) (measurable_sweepUpd (measurable_sigK hα hg) _) ?_
  refine lintegral_ne_zero_of_ae (NeZero.ne _) ?_ ?_
  · exact (measurable_sweepUpd (measurable_sigK hα hg) _).comp ((measurable_putT C' t).comp measurable_prodMk_left)
  · filter_upwards [leafPrior_ae a (C' t)] with L hL
    have p3 := possible_putT hθ hP hL
    refine sweep_full (C := C') hu (measurable_sigK hα hg) hnd.2 _ p3 (fun u hu2 => ?_) fun θ' p4 r4 q4 => ?_
    · have hut : u ≠ t := by rintro rfl; exact hnd.1 hu2
      simp only [putT, Function.update_of_ne hut]
      rw [hC u]
      exact h u hut
    · refine sigK_full hα hβ hg hfull θ' p4 fun u => ?_
      by_cases hut : u = t
      · subst hut
        rw [q4 u hnd.1]
        simp [putT]
      · exact r4 u (hmem u hut)

theorem sweepPut_full (hg : Measurable g) {l : List (Fin a.num_trees)} (hl : l.Nodup) :
    ∀ θ : Params a.num_trees (nodes a),
      (∀ θ' : Params a.num_trees (nodes a), (∀ t ∈ l, (θ'.1 t).1 = C t ∧
        ∀ i : Fin (nodes a), ¬ IsLeaf (C t).split i → (θ'.1 t).2 i = 0) → g θ' ≠ 0) →
      sweepK (putT C) (fun s => leafPrior a (C s)) l g θ ≠ 0 := by
  suffices H : ∀ (l' : List (Fin a.num_trees)) (θ : Params a.num_trees (nodes a)),
      (∀ t, t ∈ l → t ∉ l' → (θ.1 t).1 = C t ∧ ∀ i : Fin (nodes a), ¬ IsLeaf (C t).split i → (θ.1 t).2 i = 0) →
      (∀ θ' : Params a.num_trees (nodes a), (∀ t ∈ l, (θ'.1 t).1 = C t ∧
        ∀ i : Fin (nodes a), ¬ IsLeaf (C t).split i → (θ'.1 t).2 i = 0) → g θ' ≠ 0) →
      sweepK (putT C) (fun s => leafPrior a (C s)) l' g θ ≠ 0 from
    fun θ h => H l θ (fun t h1 h2 => absurd h1 h2) h
  intro l'
  induction l' with
  | nil => intro θ hθ h; exact h θ fun t ht => hθ t ht (by simp)
  | cons s l' ih =>
    intro θ hθ h
    refine lintegral_ne_zero_of_ae (μ := leafPrior a (C s)) (NeZero.ne _) ?_ ?_
    · exact (measurable_sweepPut hg l').comp ((measurable_putT C s).comp measurable_prodMk_left)
    · filter_upwards [leafPrior_ae a (C s)] with L hL
      refine ih _ (fun t h1 h2 => ?_) h
      by_cases hts : t = s
      · subst hts; simp only [putT, Function.update_self]; exact ⟨trivial, hL⟩
      · simp only [putT, Function.update_of_ne hts]
        exact hθ t h1 (by simp [hts, h2])

/-- the values and the variance drawn in a step determine what happens in the next one: many trees -/
theorem charge_many (hu : Usable a) (hα : 0 < a.sigma2_alpha) (hβ : 0 < a.sigma2_beta)
    (hm : ∃ m, 1 ≤ m ∧ a.min_points_per_leaf = some m) (hT1 : PossibleTree a T1)
    (hg1 : GrownT a (rootT a) T1 i) (hn : 2 ≤ a.num_trees) (hC : ∀ t, PossibleTree a (C t))
    {t : Fin a.num_trees} (ht : t.val = 0) {F : Params a.num_trees (nodes a) → ℝ≥0∞} (hF : Measurable F)
    (h : ∀ θ, PossibleParams a θ → (∀ t, (θ.1 t).1 = C t) →
      trans a (others a θ.1 t) θ.2 (rootT a) (rootT a) ≠ 0 → F θ ≠ 0) : Charge a C F := by
  intro θ
  obtain ⟨l, s, hl⟩ : ∃ l s, List.finRange a.num_trees = l ++ [s] := by
    rcases List.eq_nil_or_concat (List.finRange a.num_trees) with h | ⟨l, s, h⟩
    · have := congrArg List.length h
      simp at this
      omega
    · exact ⟨l, s, by rw [h, List.concat_eq_append]⟩
  have hst : s ≠ t := by
    rintro rfl
    have h1 := congrArg List.length hl
    have h2 : (List.finRange a.num_trees)[l.length]? = some s := by rw [hl]; simp
    rw [List.getElem?_eq_getElem (by rw [h1]; simp)] at h2
    simp only [List.getElem_finRange, Option.some.injEq] at h2
    rw [← h2] at ht
    simp at ht h1
    subst ht
    simp at h1
    omega
  have hmem : ∀ u, u ≠ s → u ∈ l := fun u hu => by
    have := List.mem_finRange u
    rw [hl] at this
    simpa [hu] using this
  have hnd := List.nodup_finRange a.num_trees
  rw [hl, List.nodup_append] at hnd
  rw [hl, sweepK_append]
  refine sweepPut_full (measurable_sweepPut (measurable_sigI hF) _) hnd.1 θ fun θ1 h1 => ?_
  show ∫⁻ L, ∫⁻ v, F ((putT C θ1 s L).1, v) ∂sigmaDist a ∂leafPrior a (C s) ≠ 0
  have hm1 : Measurable fun p : (Fin (nodes a) → ℝ) × ℝ => F ((putT C θ1 s p.1).1, p.2) := by
    have h2 : Measurable fun p : (Fin (nodes a) → ℝ) × ℝ => putT C θ1 s p.1 :=
      (measurable_putT C s).comp (measurable_prodMk_left.comp measurable_fst)
    exact hF.comp ((measurable_fst.comp h2).prodMk measurable_snd)
  rw [lintegral_lintegral_swap hm1.aemeasurable]
  have hm2 : Measurable fun p : ℝ × (Fin (nodes a) → ℝ) => F ((putT C θ1 s p.2).1, p.1) :=
    hm1.comp measurable_swap
  refine lintegral_ne_zero_of_ae (sigmaDist_ne_zero hα hβ) hm2.lintegral_prod_right' ?_
  filter_upwards [sigma_pos a] with v hv
  have hcore := stay_core (v := v) hu hm hv hst θ1.1 (hC s) hT1 hg1
  intro hzero
  have hm3 : Measurable fun L => F ((putT C θ1 s L).1, v) := hm2.comp measurable_prodMk_left
  rw [lintegral_eq_zero_iff hm3] at hzero
  apply hcore
  rw [← compl_compl {L | _}]
  refine mem_ae_iff.1 ?_
  filter_upwards [hzero, leafPrior_ae a (C s)] with L hL0 hL hne
  refine h ((putT C θ1 s L).1, v) ⟨fun u => ?_, fun u => ?_, hv⟩ (fun u => ?_) hne hL0
  · by_cases hus : u = s
    · subst hus; simp only [putT, Function.update_self]; exact hC u
    · simp only [putT, Function.update_of_ne hus]; rw [(h1 u (hmem u hus)).1]; exact hC u
  · by_cases hus : u = s
    · subst hus; simp only [putT, Function.update_self]; exact hL
    · simp only [putT, Function.update_of_ne hus]
      obtain ⟨e1, e2⟩ := h1 u (hmem u hus)
      rw [e1]; exact e2
  · by_cases hus : u = s
    · subst hus; simp only [putT, Function.update_self]
    · simp only [putT, Function.update_of_ne hus]; exact (h1 u (hmem u hus)).1

/-- the values and the variance drawn in a step determine what happens in the next one: small variance -/
theorem charge_small (hα : 0 < a.sigma2_alpha) (hβ : 0 < a.sigma2_beta) (hC : ∀ t, PossibleTree a (C t))
    {P : ℝ → Prop} (hP : ∀ᶠ v in 𝓝[>] (0 : ℝ), P v) {F : Params a.num_trees (nodes a) → ℝ≥0∞} (hF : Measurable F)
    (h : ∀ θ, PossibleParams a θ → (∀ t, (θ.1 t).1 = C t) → P θ.2 → F θ ≠ 0) : Charge a C F := by
  intro θ
  refine sweepPut_full (measurable_sigI hF) (List.nodup_finRange _) θ fun θ1 h1 => ?_
  obtain ⟨ε, hε, hsub⟩ := mem_nhdsGT_iff_exists_Ioo_subset.1 hP
  have h2 := fun t => h1 t (List.mem_finRange t)
  intro h0
  have hm3 : Measurable fun v => F (θ1.1, v) := hF.comp measurable_prodMk_left
  have h0' : ∫⁻ v, F (θ1.1, v) ∂sigmaDist a = 0 := h0
  rw [lintegral_eq_zero_iff hm3] at h0'
  refine sigma_small hα hβ hε ?_
  rw [← compl_compl (Set.Ioo 0 ε)]
  refine mem_ae_iff.1 ?_
  filter_upwards [h0'] with v hv hmem
  refine h (θ1.1, v) ⟨fun t => ?_, fun t => ?_, hmem.1⟩ (fun t => (h2 t).1) (hsub hmem) hv
  · show PossibleTree a (θ1.1 t).1
    rw [(h2 t).1]; exact hC t
  · show ∀ i : Fin (nodes a), ¬ IsLeaf (θ1.1 t).1.split i → (θ1.1 t).2 i = 0
    rw [(h2 t).1]; exact (h2 t).2

theorem others_one (hn : a.num_trees = 1) (x : Fin a.num_trees → Tree (nodes a)) (t : Fin a.num_trees) :
    others a x t = fun j => a.y.getD j 0 := by
  funext j
  unfold others
  have : Finset.univ.erase t = (∅ : Finset (Fin a.num_trees)) := by
    ext u
    simp only [Finset.mem_erase, Finset.mem_univ, and_true, Finset.notMem_empty, iff_false, not_not]
    have := u.2; have := t.2
    exact Fin.ext (by omega)
  rw [this]
  simp

/-! ### Closed walks -/

section
variable (hu : Usable a) (hp : ∀ x ∈ a.p_nonterminal, x < 1) (hα : 0 < a.sigma2_alpha)
  (hβ : 0 < a.sigma2_beta) (hm : ∃ m, 1 ≤ m ∧ a.min_points_per_leaf = some m)
  (hT1 : PossibleTree a T1) (hg1 : GrownT a (rootT a) T1 i)
include hu hp hα hβ hT1 hg1

theorem pick_possible (b : Bool) : PossibleTree a (pick a T1 b) := (adj_pick hu hp hα hβ hT1 hg1 b).left

include hm

/-- prune the first tree only -/
theorem weak_first (hn : 2 ≤ a.num_trees) (b : Fin a.num_trees → Bool) {t : Fin a.num_trees} (ht : t.val = 0)
    (hb : b t = true) :
    Weak a 2 (fun u => pick a T1 (b u)) fun u => pick a T1 (Function.update b t false u) := by
  intro θ hθ hC g hg hfull
  rw [lintegral_pow_add 1 1 hg]
  refine conn_adj hu hα hβ (fun u => adj_pick hu hp hα hβ hT1 hg1 (b u)) θ hθ hC _ hg.lintegral_kernel ?_
  refine charge_many hu hα hβ hm hT1 hg1 hn (fun u => pick_possible hu hp hα hβ hT1 hg1 _) ht
    hg.lintegral_kernel fun θ' hθ' hC' htr => ?_
  rw [pow_one]
  refine step_first hu hα hβ hθ' hC' ht (pick_possible hu hp hα hβ hT1 hg1 _) ?_ (fun s hs => ?_) hg hfull
  · simpa [pick, hb] using htr
  · rw [Function.update_of_ne hs]
    have := adj_pick hu hp hα hβ hT1 hg1 (!(b s))
    rwa [Bool.not_not] at this

theorem weak_prune (hn : 2 ≤ a.num_trees) (S : Finset (Fin a.num_trees)) :
    Weak a (2 * S.card) (fun _ => pick a T1 true) fun u => pick a T1 (if u ∈ S then false else true) := by
  induction S using Finset.induction_on with
  | empty => simpa using Weak.refl _
  | insert t S htS ih =>
    rw [Finset.card_insert_of_notMem htS, Nat.mul_succ]
    refine ih.trans ?_
    have key : Weak a 2 (fun u => pick a T1 (if u ∈ S then false else true))
        fun u => pick a T1 (Function.update (fun u => if u ∈ S then false else true) t false u) := by
      by_cases ht : t.val = 0
      · exact weak_first hu hp hα hβ hm hT1 hg1 hn _ ht (by simp [htS])
      · have := weak_flip hu hp hα hβ hT1 hg1 hm (fun u => if u ∈ S then false else true) (t := t) (by omega)
        simpa [htS] using this
    convert key using 3 with u
    by_cases hut : u = t
    · subst hut; simp
    · simp [hut, Function.update_of_ne hut]

/-- from the root, back to the root in an odd number of steps -/
theorem weak_odd : ∃ k, Weak a (2 * k + 1) (fun _ => rootT a) fun _ => rootT a := by
  have h1 : Weak a 1 (fun _ => rootT a) fun _ => pick a T1 true := by
    have := weak_flip_all hu hp hα hβ hT1 hg1 fun _ => false
    simpa [pick] using this
  have h1' : Weak a 1 (fun _ => pick a T1 true) fun _ => rootT a := by
    have := weak_flip_all hu hp hα hβ hT1 hg1 fun _ => true
    simpa [pick] using this
  rcases Nat.lt_or_ge a.num_trees 2 with hn | hn
  · have hn1 : a.num_trees = 1 := by have := hu.trees; omega
    set t0 : Fin a.num_trees := ⟨0, hu.trees⟩
    have huniq : ∀ s : Fin a.num_trees, s = t0 := fun s => Fin.ext (by have := s.2; simp [t0]; omega)
    obtain ⟨adj1, adj2⟩ := adj_grow hu hp (root_possible a) hT1 hg1
    refine ⟨1, ?_⟩
    rcases stay_small hu hm hT1 hg1 (fun j => a.y.getD j 0) with h | h
    · have h2 : Weak a 2 (fun _ => pick a T1 true) fun _ => rootT a := by
        intro θ hθ hC g hg hfull
        rw [lintegral_pow_add 1 1 hg]
        refine conn_adj (C' := fun _ => rootT a) hu hα hβ (fun _ => adj2) θ hθ hC _ hg.lintegral_kernel ?_
        refine charge_small hα hβ (fun _ => root_possible a) h hg.lintegral_kernel fun θ' hθ' hC' htr => ?_
        rw [pow_one]
        refine step_first (C' := fun _ => rootT a) (t := t0) hu hα hβ hθ' hC' rfl (root_possible a) ?_
          (fun s hs => absurd (huniq s) hs) hg hfull
        rw [others_one hn1]; exact htr
      exact h1.trans h2
    · have h2 : Weak a 2 (fun _ => rootT a) fun _ => pick a T1 true := by
        intro θ hθ hC g hg hfull
        rw [lintegral_pow_add 1 1 hg]
        refine conn_adj (C' := fun _ => pick a T1 true) hu hα hβ (fun _ => adj1) θ hθ hC _ hg.lintegral_kernel ?_
        refine charge_small hα hβ (fun _ => hT1) h hg.lintegral_kernel fun θ' hθ' hC' htr => ?_
        rw [pow_one]
        refine step_first (C' := fun _ => pick a T1 true) (t := t0) hu hα hβ hθ' hC' rfl hT1 ?_
          (fun s hs => absurd (huniq s) hs) hg hfull
        rw [others_one hn1]; exact htr
      exact h2.trans h1'
  · refine ⟨a.num_trees, ?_⟩
    have := weak_prune hu hp hα hβ hm hT1 hg1 hn Finset.univ
    simp only [Finset.mem_univ, if_true, Finset.card_univ, Fintype.card_fin] at this
    rw [add_comm]
    exact h1.trans this

theorem weak_root : ∃ k, ∀ n, k ≤ n → Weak a n (fun _ => rootT a) fun _ => rootT a := by
  have h2 : Weak a 2 (fun _ => rootT a) fun _ => rootT a := by
    have k1 := weak_flip_all hu hp hα hβ hT1 hg1 fun _ => false
    have k2 := weak_flip_all hu hp hα hβ hT1 hg1 fun _ => true
    have := k1.trans k2
    simpa [pick] using this
  have heven : ∀ n, Weak a (2 * n) (fun _ => rootT a) fun _ => rootT a := by
    intro n
    induction n with
    | zero => exact Weak.refl _
    | succ n ih => exact ih.trans h2
  obtain ⟨k, hk⟩ := weak_odd hu hp hα hβ hm hT1 hg1
  refine ⟨2 * k + 1, fun n hn => ?_⟩
  obtain ⟨m, hm⟩ := Nat.exists_eq_add_of_le hn
  rcases Nat.even_or_odd' m with ⟨j, rfl | rfl⟩
  · rw [hm]; exact hk.trans (heven j)
  · rw [hm, show 2 * k + 1 + (2 * j + 1) = 2 * (k + j + 1) by ring]
    exact heven _

end

/-- any configuration can be reached from any other one, in any number of steps which is large enough -/
theorem eventually_conn (hu : Usable a) (hp : ∀ x ∈ a.p_nonterminal, x < 1) (hα : 0 < a.sigma2_alpha)
    (hβ : 0 < a.sigma2_beta) (hm : ∃ m, 1 ≤ m ∧ a.min_points_per_leaf = some m)
    (hC : ∀ t, PossibleTree a (C t)) (hC' : ∀ t, PossibleTree a (C' t)) :
    ∃ N, ∀ n, N ≤ n → Conn a n C C' := by
  have hroot : ∀ _ : Fin a.num_trees, PossibleTree a (rootT a) := fun _ => root_possible a
  obtain ⟨n2, h2⟩ := exists_conn hu hp hα hβ (Or.inr hm) hroot hC'
  obtain ⟨n1, h1⟩ := exists_conn hu hp hα hβ (Or.inr hm) hC hroot
  have h1' := h1.weak hα hβ hroot
  have key : ∃ k, ∀ n, k ≤ n → Weak a n (fun _ => rootT a) fun _ => rootT a := by
    by_cases h : ∃ T, PossibleTree a T ∧ T ≠ rootT a
    · obtain ⟨T, hT, hne⟩ := h
      obtain ⟨T1, i, hT1, hg1⟩ := exists_neighbour hu hp hT hne
      exact weak_root hu hp hα hβ hm hT1 hg1
    · push Not at h
      have hadj : Adj a (rootT a) (rootT a) := adj_root_only h
      refine ⟨0, fun n _ => ?_⟩
      induction n with
      | zero => exact Weak.refl _
      | succ n ih => exact (ih (Nat.zero_le _)).trans (weak_adj hu hα hβ fun _ => hadj)
  obtain ⟨k, hk⟩ := key
  refine ⟨n1 + k + n2, fun n hn => ?_⟩
  have h3 := (h1'.trans (hk (n - n1 - n2) (by omega))).conn h2
  rwa [show n1 + (n - n1 - n2) + n2 = n by omega] at h3

/-- The Markov chain may be in any set with positive probability, at any time which is large enough. -/
theorem eventually_pos (hu : Usable a) (hp : ∀ x ∈ a.p_nonterminal, x < 1) (hα : 0 < a.sigma2_alpha)
    (hβ : 0 < a.sigma2_beta) (hm : ∃ m, 1 ≤ m ∧ a.min_points_per_leaf = some m)
    {θ : Params a.num_trees (nodes a)} (hθ : PossibleParams a θ) {A : Set (Params a.num_trees (nodes a))}
    (hA : MeasurableSet A) (h : posterior a A ≠ 0) : ∃ N, ∀ n, N ≤ n → (stepKernel a ^ n) θ A ≠ 0 := by
  have hg : Measurable (A.indicator (1 : Params a.num_trees (nodes a) → ℝ≥0∞)) := measurable_one.indicator hA
  rw [← lintegral_indicator_one hA] at h
  obtain ⟨C, hC, hch⟩ := exists_charge hg h
  obtain ⟨N, hN⟩ := eventually_conn hu hp hα hβ hm (C := fun t => (θ.1 t).1) hθ.tree hC
  refine ⟨N, fun n hn => ?_⟩
  rw [← lintegral_indicator_one hA]
  exact hN n hn θ hθ (fun _ => rfl) _ hg hch

end
end Bartz
