import Verif.Lemmas.Birkhoff
import Verif.Lemmas.UniqueInvariant
import Mathlib.Probability.ProductMeasure
import Mathlib.Probability.Kernel.Composition.IntegralCompProd
/-! # The strong law of large numbers for Markov chains

The chain is a function of its initial point and of an infinite sequence of independent random
elements. -/

set_option autoImplicit false

namespace Bartz
open MeasureTheory ProbabilityTheory Filter Topology
open scoped ENNReal

/-! ### Sequences -/

section
variable {D : Type} [MeasurableSpace D] {ν : Measure D} [IsProbabilityMeasure ν]

def consSeq (d : D) (o : Nat → D) : Nat → D
  | 0 => d
  | n + 1 => o n

theorem measurable_consSeq : Measurable fun p : D × (Nat → D) => consSeq p.1 p.2 := by
  refine measurable_pi_lambda _ fun n => ?_
  cases n with
  | zero => exact measurable_fst
  | succ n => exact (measurable_pi_apply n).comp measurable_snd

theorem map_consSeq : (ν.prod (Measure.infinitePi fun _ : Nat => ν)).map (fun p => consSeq p.1 p.2) =
    Measure.infinitePi fun _ : Nat => ν := by
  classical
  refine Measure.eq_infinitePi _ fun s t ht => ?_
  rw [Measure.map_apply measurable_consSeq (.pi s.countable_toSet fun i _ => ht i)]
  set s' : Finset Nat := s.preimage Nat.succ (Nat.succ_injective.injOn) with hs'
  have e : (fun p : D × (Nat → D) => consSeq p.1 p.2) ⁻¹' Set.pi s t =
      {d | 0 ∈ s → d ∈ t 0} ×ˢ Set.pi s' fun n => t (n + 1) := by
    ext ⟨d, o⟩
    simp only [Set.mem_preimage, Set.mem_pi, Finset.mem_coe, Set.mem_prod, Set.mem_ofPred_eq, hs',
      Finset.mem_preimage]
    constructor
    · intro h
      exact ⟨h 0, fun n hn => h (n + 1) hn⟩
    · rintro ⟨h0, h1⟩ n hn
      cases n with
      | zero => exact h0 hn
      | succ n => exact h1 n hn
  rw [e, Measure.prod_prod, Measure.infinitePi_pi _ fun i _ => ht (i + 1)]
  have h1 : ∏ i ∈ s', ν (t (i + 1)) = ∏ i ∈ s.filter (· ≠ 0), ν (t i) := by
    refine Finset.prod_bij (fun n _ => n + 1) ?_ ?_ ?_ ?_
    · intro n hn; simpa [hs'] using hn
    · intro n _ m _ h; simpa using h
    · intro n hn
      obtain ⟨h, h0⟩ := Finset.mem_filter.1 hn
      obtain ⟨m, rfl⟩ := Nat.exists_eq_succ_of_ne_zero h0
      exact ⟨m, by simpa [hs'] using h, rfl⟩
    · intro n _; rfl
  rw [h1, ← Finset.prod_filter_mul_prod_filter_not s (· ≠ 0), mul_comm]
  congr 1
  by_cases h0 : 0 ∈ s
  · have : s.filter (fun i => ¬ i ≠ 0) = {0} := by
      ext i; simp only [Finset.mem_filter, not_not, Finset.mem_singleton]
      exact ⟨fun h => h.2, fun h => ⟨h ▸ h0, h⟩⟩
    rw [this, Finset.prod_singleton]
    simp [h0]
  · have : s.filter (fun i => ¬ i ≠ 0) = ∅ := by
      ext i; simp only [Finset.mem_filter, not_not, Finset.notMem_empty, iff_false]
      rintro ⟨h, rfl⟩; exact h0 h
    rw [this, Finset.prod_empty]
    simp [h0]

theorem lintegral_seq {h : (Nat → D) → ℝ≥0∞} (hh : Measurable h) :
    ∫⁻ o, h o ∂Measure.infinitePi (fun _ : Nat => ν) =
      ∫⁻ d, ∫⁻ o, h (consSeq d o) ∂Measure.infinitePi (fun _ : Nat => ν) ∂ν := by
  conv_lhs => rw [← map_consSeq]
  rw [lintegral_map hh measurable_consSeq]
  exact lintegral_prod _ (hh.comp measurable_consSeq).aemeasurable

end

/-! ### Harmonic functions -/

section
variable {X : Type} [MeasurableSpace X] {κ : Kernel X X} {π : Measure X} [IsProbabilityMeasure π] {g : X → ℝ}

theorem markov_pow (κ : Kernel X X) [IsMarkovKernel κ] (n : Nat) : IsMarkovKernel (κ ^ n) := by
  induction n with
  | zero => rw [pow_zero]; exact (inferInstance : IsMarkovKernel Kernel.id)
  | succ n ih => rw [pow_succ]; exact (inferInstance : IsMarkovKernel ((κ ^ n) ∘ₖ κ))

/-- the mean square change of a subharmonic function is zero -/
theorem harmonic_ae [IsMarkovKernel κ] (hπ : κ.Invariant π) (hg : Measurable g) (h0 : ∀ x, 0 ≤ g x)
    (h1 : ∀ x, g x ≤ 1) (hh : ∀ x, g x ≤ ∫ y, g y ∂κ x) : ∀ᵐ x ∂π, ∀ᵐ y ∂κ x, g y = g x := by
  have hb : ∀ x, |g x| ≤ 1 := fun x => abs_le.2 ⟨by have := h0 x; linarith, h1 x⟩
  have hi : ∀ x, Integrable g (κ x) := fun x =>
    Integrable.of_bound hg.aestronglyMeasurable 1 (Eventually.of_forall hb)
  have hi2 : ∀ x, Integrable (fun y => g y ^ 2) (κ x) := fun x =>
    Integrable.of_bound (hg.pow_const 2).aestronglyMeasurable 1 (Eventually.of_forall fun y => by
      rw [Real.norm_eq_abs, abs_pow]; exact pow_le_one₀ (abs_nonneg _) (hb y))
  have key : ∀ x, ∫⁻ y, ENNReal.ofReal ((g y - g x) ^ 2) ∂κ x + ENNReal.ofReal (g x ^ 2) ≤
      ∫⁻ y, ENNReal.ofReal (g y ^ 2) ∂κ x := by
    intro x
    have hi3 : Integrable (fun y => (g y - g x) ^ 2) (κ x) := by
      have : (fun y => (g y - g x) ^ 2) = fun y => g y ^ 2 - 2 * g x * g y + g x ^ 2 := by funext y; ring
      rw [this]
      exact ((hi2 x).sub ((hi x).const_mul _)).add (integrable_const _)
    rw [← ofReal_integral_eq_lintegral_ofReal hi3 (Eventually.of_forall fun y => sq_nonneg _),
      ← ofReal_integral_eq_lintegral_ofReal (hi2 x) (Eventually.of_forall fun y => sq_nonneg _),
      ← ENNReal.ofReal_add (integral_nonneg fun y => sq_nonneg _) (sq_nonneg _)]
    refine ENNReal.ofReal_le_ofReal ?_
    have : (fun y => (g y - g x) ^ 2) = fun y => g y ^ 2 - 2 * g x * g y + g x ^ 2 := by funext y; ring
    have hs : Integrable (fun y => g y ^ 2 - 2 * g x * g y) (κ x) := (hi2 x).sub ((hi x).const_mul _)
    rw [this, integral_add hs (integrable_const _),
      integral_sub (hi2 x) ((hi x).const_mul _), integral_const_mul, integral_const, probReal_univ,
      one_smul]
    nlinarith [mul_le_mul_of_nonneg_left (hh x) (h0 x)]
  have hm2 : Measurable fun y => ENNReal.ofReal (g y ^ 2) := (hg.pow_const 2).ennreal_ofReal
  have hmd : Measurable fun p : X × X => ENNReal.ofReal ((g p.2 - g p.1) ^ 2) :=
    (((hg.comp measurable_snd).sub (hg.comp measurable_fst)).pow_const 2).ennreal_ofReal
  have hmi : Measurable fun x => ∫⁻ y, ENNReal.ofReal ((g y - g x) ^ 2) ∂κ x :=
    Measurable.lintegral_kernel_prod_right' hmd
  have hsum : ∫⁻ x, ∫⁻ y, ENNReal.ofReal ((g y - g x) ^ 2) ∂κ x ∂π + ∫⁻ x, ENNReal.ofReal (g x ^ 2) ∂π ≤
      ∫⁻ x, ENNReal.ofReal (g x ^ 2) ∂π := by
    rw [← lintegral_add_left hmi]
    refine (lintegral_mono key).trans_eq ?_
    rw [← Measure.lintegral_bind κ.aemeasurable hm2.aemeasurable, hπ.def]
  have hfin : ∫⁻ x, ENNReal.ofReal (g x ^ 2) ∂π ≠ ∞ := by
    refine ne_top_of_le_ne_top ENNReal.one_ne_top ?_
    calc _ ≤ ∫⁻ _, 1 ∂π := lintegral_mono fun x => by
            rw [← ENNReal.ofReal_one]
            exact ENNReal.ofReal_le_ofReal (pow_le_one₀ (h0 x) (h1 x))
      _ = 1 := by simp
  have hz : ∫⁻ x, ∫⁻ y, ENNReal.ofReal ((g y - g x) ^ 2) ∂κ x ∂π = 0 := by
    have := ENNReal.le_sub_of_add_le_right hfin hsum
    rw [tsub_self] at this
    exact le_antisymm this zero_le
  rw [lintegral_eq_zero_iff hmi] at hz
  filter_upwards [hz] with x hx
  have hmx : Measurable fun y => ENNReal.ofReal ((g y - g x) ^ 2) := hmd.comp measurable_prodMk_left
  have hx' : ∫⁻ y, ENNReal.ofReal ((g y - g x) ^ 2) ∂κ x = 0 := hx
  rw [lintegral_eq_zero_iff hmx] at hx'
  filter_upwards [hx'] with y hy
  have h2 : (g y - g x) ^ 2 ≤ 0 := ENNReal.ofReal_eq_zero.1 hy
  have h3 : g y - g x = 0 := pow_eq_zero_iff two_ne_zero |>.1 (le_antisymm h2 (sq_nonneg _))
  linarith

/-- subharmonic functions of irreducible chains are constant -/
theorem harmonic_const [IsMarkovKernel κ] (hπ : κ.Invariant π)
    (hirr : ∀ A, MeasurableSet A → π A ≠ 0 → ∀ᵐ x ∂π, ∃ n, (κ ^ n) x A ≠ 0)
    (hg : Measurable g) (h0 : ∀ x, 0 ≤ g x)
    (h1 : ∀ x, g x ≤ 1) (hh : ∀ n x, g x ≤ ∫ y, g y ∂(κ ^ n) x) : ∀ᵐ x ∂π, g x = ∫ y, g y ∂π := by
  have hi : Integrable g π := Integrable.of_bound hg.aestronglyMeasurable 1 (Eventually.of_forall fun x =>
    abs_le.2 ⟨by have := h0 x; linarith, h1 x⟩)
  have hall : ∀ᵐ x ∂π, ∀ n, ∀ᵐ y ∂(κ ^ n) x, g y = g x := ae_all_iff.2 fun n => by
    have := markov_pow κ n
    exact harmonic_ae (invariant_pow hπ n) hg h0 h1 (hh n)
  set c := ∫ y, g y ∂π with hc
  have step : ∀ A : Set ℝ, MeasurableSet A → π (g ⁻¹' A) ≠ 0 → ∀ᵐ x ∂π, g x ∈ A := by
    intro A hA hpos
    filter_upwards [hall, hirr _ (hg hA) hpos] with x hx ⟨n, hn⟩
    by_contra hx'
    apply hn
    refine measure_mono_null (t := {y | ¬ g y = g x}) (fun y hy e => hx' ?_) (ae_iff.1 (hx n))
    rw [← e]; exact hy
  have hint : ∫ x, (g x - c) ∂π = 0 := by
    rw [integral_sub hi (integrable_const _), integral_const, probReal_univ, one_smul, hc, sub_self]
  have ha : π (g ⁻¹' Set.Ioi c) = 0 := by
    by_contra hne
    have hpos := step _ measurableSet_Ioi hne
    have h2 : 0 ≤ᵐ[π] fun x => g x - c := by
      filter_upwards [hpos] with x hx using sub_nonneg.2 (le_of_lt hx)
    rw [integral_eq_zero_iff_of_nonneg_ae h2 (hi.sub (integrable_const _))] at hint
    have : ∀ᵐ _ ∂π, False := by
      filter_upwards [hpos, hint] with x hx he
      have he' : g x - c = 0 := he
      have hx' : c < g x := hx
      linarith
    simp only [eventually_false_iff_eq_bot, ae_eq_bot] at this
    exact IsProbabilityMeasure.ne_zero π this
  have hb : π (g ⁻¹' Set.Iio c) = 0 := by
    by_contra hne
    have hpos := step _ measurableSet_Iio hne
    have h2 : 0 ≤ᵐ[π] fun x => c - g x := by
      filter_upwards [hpos] with x hx using sub_nonneg.2 (le_of_lt hx)
    have hint' : ∫ x, (c - g x) ∂π = 0 := by
      have : (fun x => c - g x) = fun x => -(g x - c) := by funext x; ring
      rw [this, integral_neg, hint, neg_zero]
    rw [integral_eq_zero_iff_of_nonneg_ae h2 ((integrable_const _).sub hi)] at hint'
    have : ∀ᵐ _ ∂π, False := by
      filter_upwards [hpos, hint'] with x hx he
      have he' : c - g x = 0 := he
      have hx' : g x < c := hx
      linarith
    simp only [eventually_false_iff_eq_bot, ae_eq_bot] at this
    exact IsProbabilityMeasure.ne_zero π this
  have k1 : ∀ᵐ x ∂π, x ∉ g ⁻¹' Set.Ioi c := measure_eq_zero_iff_ae_notMem.1 ha
  have k2 : ∀ᵐ x ∂π, x ∉ g ⁻¹' Set.Iio c := measure_eq_zero_iff_ae_notMem.1 hb
  filter_upwards [k1, k2] with x e1 e2
  exact le_antisymm (not_lt.1 e1) (not_lt.1 e2)

end

/-! ### The shift -/

section
variable {X D : Type} [MeasurableSpace X] [MeasurableSpace D] {ν : Measure D} [IsProbabilityMeasure ν]
  {u : X → D → X} {κ : Kernel X X} {π : Measure X}

/-- one step of the chain, using the first random element of the sequence -/
def shift (u : X → D → X) (p : X × (Nat → D)) : X × (Nat → D) := (u p.1 (p.2 0), fun n => p.2 (n + 1))

/-- the measure of the sequences -/
noncomputable abbrev seqM (ν : Measure D) [IsProbabilityMeasure ν] : Measure (Nat → D) :=
  Measure.infinitePi fun _ : Nat => ν

theorem shift_cons (x : X) (d : D) (o : Nat → D) : shift u (x, consSeq d o) = (u x d, o) := rfl

theorem measurable_shift (hu : Measurable fun p : X × D => u p.1 p.2) : Measurable (shift u) := by
  refine Measurable.prodMk ?_ ?_
  · exact hu.comp (measurable_fst.prodMk ((measurable_pi_apply 0).comp measurable_snd))
  · exact measurable_pi_lambda _ fun n => (measurable_pi_apply (n + 1)).comp measurable_snd

variable (hu : Measurable fun p : X × D => u p.1 p.2) (hκ : ∀ x, κ x = ν.map (u x))
include hu hκ

theorem lintegral_shift {h : X × (Nat → D) → ℝ≥0∞} (hh : Measurable h) (x : X) :
    ∫⁻ o, h (shift u (x, o)) ∂seqM ν = ∫⁻ y, ∫⁻ o, h (y, o) ∂seqM ν ∂κ x := by
  have hm : Measurable fun o : Nat → D => h (shift u (x, o)) :=
    hh.comp ((measurable_shift hu).comp measurable_prodMk_left)
  have hux : Measurable (u x) := hu.comp measurable_prodMk_left
  rw [lintegral_seq hm, hκ, lintegral_map hh.lintegral_prod_right' hux]
  rfl

theorem lintegral_shift_pow {h : X × (Nat → D) → ℝ≥0∞} (hh : Measurable h) (n : Nat) (x : X) :
    ∫⁻ o, h ((shift u)^[n] (x, o)) ∂seqM ν = ∫⁻ y, ∫⁻ o, h (y, o) ∂seqM ν ∂(κ ^ n) x := by
  induction n generalizing h with
  | zero =>
    rw [pow_zero]
    show _ = ∫⁻ y, ∫⁻ o, h (y, o) ∂seqM ν ∂Kernel.id x
    rw [Kernel.id_apply, lintegral_dirac' _ hh.lintegral_prod_right']
    rfl
  | succ n ih =>
    simp only [Function.iterate_succ_apply']
    have := ih (hh.comp (measurable_shift hu))
    simp only [Function.comp_def] at this
    rw [this, pow_succ']
    have e : (κ * κ ^ n) x = (κ ∘ₖ (κ ^ n)) x := rfl
    rw [e, Kernel.lintegral_comp _ _ _ hh.lintegral_prod_right']
    exact lintegral_congr fun y => lintegral_shift hu hκ hh y

theorem shift_preserving [IsProbabilityMeasure π] (hπ : κ.Invariant π) :
    MeasurePreserving (shift u) (π.prod (seqM ν)) (π.prod (seqM ν)) := by
  refine ⟨measurable_shift hu, Measure.ext_of_lintegral _ fun h hh => ?_⟩
  have hm : Measurable fun p => h (shift u p) := hh.comp (measurable_shift hu)
  rw [lintegral_map hh (measurable_shift hu), lintegral_prod _ hm.aemeasurable,
    lintegral_prod _ hh.aemeasurable]
  simp only [lintegral_shift hu hκ hh]
  rw [← Measure.lintegral_bind κ.aemeasurable hh.lintegral_prod_right'.aemeasurable]
  rw [hπ.def]

/-- the future of the chain depends on the past only through the state -/
theorem lintegral_indep {h : X × (Nat → D) → ℝ≥0∞} (hh : Measurable h) (N : Nat)
    {φ : (Nat → D) → ℝ≥0∞} (hφ : Measurable φ)
    (hN : ∀ o o' : Nat → D, (∀ i < N, o i = o' i) → φ o = φ o') (x : X) :
    ∫⁻ o, h ((shift u)^[N] (x, o)) * φ o ∂seqM ν =
      ∫⁻ o, (∫⁻ o', h (((shift u)^[N] (x, o)).1, o') ∂seqM ν) * φ o ∂seqM ν := by
  have hit : ∀ n, Measurable fun p => (shift u)^[n] p := fun n => (measurable_shift hu).iterate n
  induction N generalizing φ x with
  | zero =>
    simp only [Function.iterate_zero, id_eq]
    rcases isEmpty_or_nonempty (Nat → D) with hE | ⟨⟨o0⟩⟩
    · simp
    · have hc : ∀ o, φ o = φ o0 := fun o => hN o o0 fun i hi => absurd hi (Nat.not_lt_zero i)
      simp only [hc]
      have hx : Measurable fun o => h (x, o) := hh.comp measurable_prodMk_left
      rw [lintegral_mul_const _ hx, lintegral_const, measure_univ, mul_one]
  | succ N ih =>
    have m0 : Measurable fun o => (shift u)^[N + 1] (x, o) := (hit (N + 1)).comp measurable_prodMk_left
    have m1' : Measurable fun o => h ((shift u)^[N + 1] (x, o)) := hh.comp m0
    have m1 : Measurable fun o => h ((shift u)^[N + 1] (x, o)) * φ o := m1'.mul hφ
    have m2' : Measurable fun o => ∫⁻ o', h (((shift u)^[N + 1] (x, o)).1, o') ∂seqM ν :=
      hh.lintegral_prod_right'.comp (measurable_fst.comp m0)
    have m2 : Measurable fun o => (∫⁻ o', h (((shift u)^[N + 1] (x, o)).1, o') ∂seqM ν) * φ o :=
      m2'.mul hφ
    rw [lintegral_seq m1, lintegral_seq m2]
    refine lintegral_congr fun d => ?_
    simp only [Function.iterate_succ_apply, shift_cons]
    refine ih (φ := fun o => φ (consSeq d o)) (hφ.comp (measurable_consSeq.comp measurable_prodMk_left))
      (fun o o' ho => hN _ _ fun i hi => ?_) (u x d)
    cases i with
    | zero => rfl
    | succ i => exact ho i (Nat.lt_of_succ_lt_succ hi)

omit hu hκ [IsProbabilityMeasure ν] in
/-- the measurable sets that depend on finitely many elements of the sequence -/
theorem generate_finite : (inferInstance : MeasurableSpace (X × (Nat → D))) =
    MeasurableSpace.generateFrom {E | MeasurableSet E ∧ ∃ n : Nat, ∀ x (o o' : Nat → D),
      (∀ i < n, o i = o' i) → ((x, o) ∈ E ↔ (x, o') ∈ E)} := by
  refine le_antisymm ?_ (MeasurableSpace.generateFrom_le fun E hE => hE.1)
  refine sup_le ?_ ?_
  · rintro _ ⟨S, hS, rfl⟩
    exact MeasurableSpace.measurableSet_generateFrom ⟨measurable_fst hS, 0, fun x o o' _ => Iff.rfl⟩
  · rw [MeasurableSpace.comap_le_iff_le_map]
    refine iSup_le fun n => ?_
    rw [MeasurableSpace.comap_le_iff_le_map]
    intro S hS
    refine MeasurableSpace.measurableSet_generateFrom
      ⟨((measurable_pi_apply n).comp measurable_snd) hS, n + 1, fun x o o' ho => ?_⟩
    simp only [Set.mem_preimage]
    rw [ho n (Nat.lt_succ_self n)]

theorem shift_ergodic [IsProbabilityMeasure π] [IsMarkovKernel κ] (hπ : κ.Invariant π) {m : Nat} (hm : 1 ≤ m)
    (hirr : ∀ A, MeasurableSet A → π A ≠ 0 → ∀ᵐ x ∂π, ∃ n, (κ ^ (m * n)) x A ≠ 0) :
    Ergodic ((shift u)^[m]) (π.prod (seqM ν)) := by
  have hpres : MeasurePreserving (shift u) (π.prod (seqM ν)) (π.prod (seqM ν)) := shift_preserving hu hκ hπ
  refine { hpres.iterate m with aeconst_set := fun A hA hinv => ?_ }
  set P := π.prod (seqM ν) with hP
  -- the probability of `A` given the initial state
  set G : X → ℝ≥0∞ := fun y => ∫⁻ o, A.indicator 1 (y, o) ∂seqM ν with hG
  have hind : Measurable (A.indicator (1 : X × (Nat → D) → ℝ≥0∞)) := measurable_one.indicator hA
  have hGm : Measurable G := hind.lintegral_prod_right'
  have hG1 : ∀ y, G y ≤ 1 := fun y => by
    calc G y ≤ ∫⁻ _, 1 ∂seqM ν := lintegral_mono fun o => Set.indicator_le_self' (fun _ _ => zero_le) _
      _ = 1 := by simp
  have hiter : ∀ n p, A.indicator (1 : X × (Nat → D) → ℝ≥0∞) ((shift u)^[m * n] p) = A.indicator 1 p := by
    intro n p
    rw [Function.iterate_mul]
    have h2 : ((shift u)^[m]^[n]) ⁻¹' A = A := by
      induction n with
      | zero => rfl
      | succ n ih => rw [Function.iterate_succ', Set.preimage_comp, hinv, ih]
    have h3 : ((shift u)^[m]^[n] p ∈ A) ↔ p ∈ A := by
      conv_rhs => rw [← h2]
      rfl
    by_cases hp : p ∈ A
    · rw [Set.indicator_of_mem hp, Set.indicator_of_mem (h3.2 hp)]; rfl
    · rw [Set.indicator_of_notMem hp, Set.indicator_of_notMem (fun h => hp (h3.1 h))]
  have hharm : ∀ n x, ∫⁻ y, G y ∂(κ ^ (m * n)) x = G x := by
    intro n x
    rw [hG, ← lintegral_shift_pow hu hκ hind]
    simp only [hiter]
  have hconst : ∀ᵐ x ∂π, (G x).toReal = ∫ y, (G y).toReal ∂π := by
    have := markov_pow κ m
    refine harmonic_const (κ := κ ^ m) (invariant_pow hπ m) (fun B hB hpos => ?_) hGm.ennreal_toReal
      (fun _ => ENNReal.toReal_nonneg) (fun x => ?_) fun n x => ?_
    · simpa only [← pow_mul] using hirr B hB hpos
    · exact ENNReal.toReal_mono ENNReal.one_ne_top (hG1 x)
    · rw [← pow_mul, ← hharm n x]
      exact (integral_toReal hGm.aemeasurable (Eventually.of_forall fun y =>
        (hG1 y).trans_lt ENNReal.one_lt_top)).ge
  set c := ENNReal.ofReal (∫ y, (G y).toReal ∂π) with hc
  have hGc : ∀ᵐ x ∂π, G x = c := by
    filter_upwards [hconst] with x hx
    rw [hc, ← hx, ENNReal.ofReal_toReal ((hG1 x).trans_lt ENNReal.one_lt_top).ne]
  have hGP : ∀ n, ∀ᵐ p ∂P, G ((shift u)^[n] p).1 = c := by
    intro n
    have h1 : ∀ᵐ p ∂P, G p.1 = c := Measure.quasiMeasurePreserving_fst.ae hGc
    exact (hpres.iterate n).quasiMeasurePreserving.ae h1
  -- independence of `A` and the finite past
  have hfin : ∀ E, MeasurableSet E → (∃ n : Nat, ∀ x (o o' : Nat → D),
      (∀ i < n, o i = o' i) → ((x, o) ∈ E ↔ (x, o') ∈ E)) → P (E ∩ A) = c * P E := by
    rintro E hE ⟨n, hn⟩
    have hEm : Measurable (E.indicator (1 : X × (Nat → D) → ℝ≥0∞)) := measurable_one.indicator hE
    have hitm : Measurable fun p => (shift u)^[m * n] p := (measurable_shift hu).iterate _
    have m1 : Measurable fun p => A.indicator (1 : X × (Nat → D) → ℝ≥0∞) ((shift u)^[m * n] p) * E.indicator 1 p :=
      (hind.comp hitm).mul hEm
    have m2 : Measurable fun p => G ((shift u)^[m * n] p).1 * E.indicator 1 p :=
      (hGm.comp (measurable_fst.comp hitm)).mul hEm
    calc P (E ∩ A) = ∫⁻ p, (E ∩ A).indicator 1 p ∂P := (lintegral_indicator_one (hE.inter hA)).symm
      _ = ∫⁻ p, A.indicator 1 ((shift u)^[m * n] p) * E.indicator 1 p ∂P := by
          refine lintegral_congr fun p => ?_
          rw [hiter, Set.inter_indicator_one, mul_comm]; rfl
      _ = ∫⁻ p, G ((shift u)^[m * n] p).1 * E.indicator 1 p ∂P := by
          rw [hP, lintegral_prod _ m1.aemeasurable, lintegral_prod _ m2.aemeasurable]
          refine lintegral_congr fun x => ?_
          refine lintegral_indep hu hκ hind (m * n) (φ := fun o => E.indicator 1 (x, o))
            (hEm.comp measurable_prodMk_left) (fun o o' ho => ?_) x
          have := hn x o o' fun i hi => ho i (lt_of_lt_of_le hi (Nat.le_mul_of_pos_left n hm))
          by_cases hx : (x, o) ∈ E
          · rw [Set.indicator_of_mem hx, Set.indicator_of_mem (this.1 hx)]; rfl
          · rw [Set.indicator_of_notMem hx, Set.indicator_of_notMem (fun h => hx (this.2 h))]
      _ = ∫⁻ p, c * E.indicator 1 p ∂P := by
          refine lintegral_congr_ae ?_
          filter_upwards [hGP (m * n)] with p hp
          rw [hp]
      _ = c * P E := by rw [lintegral_const_mul _ hEm, lintegral_indicator_one hE]
  have heq : P.restrict A = c • P := by
    refine ext_of_generate_finite _ generate_finite ?_ (fun E hE => ?_) ?_
    · rintro E ⟨hE, n, hn⟩ E' ⟨hE', n', hn'⟩ _
      refine ⟨hE.inter hE', max n n', fun x o o' ho => ?_⟩
      exact and_congr (hn x o o' fun i hi => ho i (lt_of_lt_of_le hi (le_max_left _ _)))
        (hn' x o o' fun i hi => ho i (lt_of_lt_of_le hi (le_max_right _ _)))
    · rw [Measure.restrict_apply hE.1, hfin E hE.1 hE.2]; rfl
    · rw [Measure.restrict_apply MeasurableSet.univ, hfin _ MeasurableSet.univ ⟨0, fun _ _ _ _ => Iff.rfl⟩]; rfl
  have h0 : c * P Aᶜ = 0 := by
    have : (c • P) Aᶜ = 0 := by
      rw [← heq, Measure.restrict_apply hA.compl, Set.compl_inter_self, measure_empty]
    exact this
  rw [eventuallyConst_set']
  rcases mul_eq_zero.1 h0 with h | h
  · left
    have : P A = 0 := by
      have e : (c • P) Set.univ = P A := by rw [← heq, Measure.restrict_apply_univ]
      rw [← e, h]; simp
    exact ae_eq_empty.2 this
  · right
    exact ae_eq_univ.2 h

/-- the strong law of large numbers: the averages of a function over every `m`-th state of the chain
converge to the mean -/
theorem chain_lln [IsProbabilityMeasure π] [IsMarkovKernel κ] (hπ : κ.Invariant π) {m : Nat} (hm : 1 ≤ m)
    (hirr : ∀ A, MeasurableSet A → π A ≠ 0 → ∀ᵐ x ∂π, ∃ n, (κ ^ (m * n)) x A ≠ 0)
    {f : X → ℝ} (hf : Measurable f) (hi : Integrable f π) {x0 : X} {j : Nat} (hac : (κ ^ j) x0 ≪ π) :
    ∀ᵐ o ∂seqM ν, Tendsto (fun n : Nat => (∑ k ∈ Finset.range n, f ((shift u)^[j + m * k] (x0, o)).1) / n)
      atTop (𝓝 (∫ x, f x ∂π)) := by
  have herg : Ergodic ((shift u)^[m]) (π.prod (seqM ν)) := shift_ergodic hu hκ hπ hm hirr
  have hfm : Measurable fun p : X × (Nat → D) => f p.1 := hf.comp measurable_fst
  have hfi : Integrable (fun p : X × (Nat → D) => f p.1) (π.prod (seqM ν)) := 
    (measurePreserving_fst (μ := π) (ν := seqM ν)).integrable_comp_of_integrable hi
  have hb := tendsto_birkhoffAverage herg hfm hfi
  have hint : ∫ p, f p.1 ∂π.prod (seqM ν) = ∫ x, f x ∂π := by
    have hmap := (measurePreserving_fst (μ := π) (ν := seqM ν)).map_eq
    calc _ = ∫ x, f x ∂(π.prod (seqM ν)).map Prod.fst :=
          (integral_map measurable_fst.aemeasurable hf.aestronglyMeasurable).symm
      _ = _ := by rw [hmap]
  rw [hint] at hb
  obtain ⟨B, hB, hBm, hB0⟩ := exists_measurable_superset_of_null (ae_iff.1 hb)
  have hfib : ∀ᵐ x ∂π, ∫⁻ o, B.indicator 1 (x, o) ∂seqM ν = 0 := by
    have : ∫⁻ p, B.indicator 1 p ∂π.prod (seqM ν) = 0 := by rw [lintegral_indicator_one hBm, hB0]
    have hBi : Measurable (B.indicator (1 : X × (Nat → D) → ℝ≥0∞)) := measurable_one.indicator hBm
    rw [lintegral_prod _ hBi.aemeasurable, lintegral_eq_zero_iff hBi.lintegral_prod_right'] at this
    exact this
  have hz : ∫⁻ o, B.indicator 1 ((shift u)^[j] (x0, o)) ∂seqM ν = 0 := by
    rw [lintegral_shift_pow hu hκ (measurable_one.indicator hBm)]
    rw [lintegral_congr_ae (hac.ae_le hfib)]
    simp
  have hzm : Measurable fun o => B.indicator (1 : X × (Nat → D) → ℝ≥0∞) ((shift u)^[j] (x0, o)) :=
    (measurable_one.indicator hBm).comp (((measurable_shift hu).iterate j).comp measurable_prodMk_left)
  rw [lintegral_eq_zero_iff hzm] at hz
  filter_upwards [hz] with o ho
  have hnB : (shift u)^[j] (x0, o) ∉ B := by
    intro h
    rw [Set.indicator_of_mem h] at ho
    exact one_ne_zero ho
  have ht := not_not.1 fun h => hnB (hB h)
  refine ht.congr fun n => ?_
  simp only [birkhoffAverage, birkhoffSum, smul_eq_mul]
  rw [div_eq_inv_mul]
  congr 1
  refine Finset.sum_congr rfl fun k _ => ?_
  rw [← Function.iterate_mul, ← Function.iterate_add_apply, add_comm]

end
end Bartz
