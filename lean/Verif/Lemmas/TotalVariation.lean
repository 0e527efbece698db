import Verif.Lemmas.MarkovErgodic
import Mathlib.Probability.Kernel.RadonNikodym
import Mathlib.Probability.Kernel.Composition.KernelLemmas
import Mathlib.Probability.Kernel.Composition.ParallelComp
import Mathlib.MeasureTheory.Measure.Sub
import Mathlib.MeasureTheory.Integral.Prod
/-! # Convergence of Markov chains in total variation

The proof follows the total variation distance between the distributions of two chains that start from
different points; its limit is a subharmonic function for the two chains run independently. -/

set_option autoImplicit false

namespace Bartz
open MeasureTheory ProbabilityTheory Filter Topology
open scoped ENNReal

/-! ### Distance between two measures -/

/-- the Hahn decomposition, for kernels -/
theorem kernel_hahn {α γ : Type} [MeasurableSpace α] [MeasurableSpace γ]
    [MeasurableSpace.CountableOrCountablyGenerated α γ] (κ η : Kernel α γ) [IsFiniteKernel κ]
    [IsFiniteKernel η] : ∃ H : Set (α × γ), MeasurableSet H ∧ ∀ a B, MeasurableSet B →
      (B ⊆ Prod.mk a ⁻¹' H → η a B ≤ κ a B) ∧ (B ⊆ (Prod.mk a ⁻¹' H)ᶜ → κ a B ≤ η a B) := by
  have hm : Measurable fun p : α × γ => κ.rnDerivAux (κ + η) p.1 p.2 := by fun_prop
  have e : ∀ a B, MeasurableSet B →
      η a B = ∫⁻ x in B, ENNReal.ofReal (1 - κ.rnDerivAux (κ + η) a x) ∂(κ + η) a := by
    intro a B hB
    conv_lhs => rw [← Kernel.withDensity_one_sub_rnDerivAux κ η]
    rw [Kernel.withDensity_apply' _ (by fun_prop)]
    simp only [ENNReal.ofNNReal_toNNReal]
  refine ⟨{p | 1 / 2 ≤ κ.rnDerivAux (κ + η) p.1 p.2}, measurableSet_le measurable_const hm,
    fun a B hB => ⟨fun hs => ?_, fun hs => ?_⟩⟩
  · rw [e a B hB, ← Kernel.setLIntegral_rnDerivAux κ η a hB]
    refine setLIntegral_mono' hB fun x hx => ENNReal.ofReal_le_ofReal ?_
    have : 1 / 2 ≤ κ.rnDerivAux (κ + η) a x := hs hx
    linarith
  · rw [e a B hB, ← Kernel.setLIntegral_rnDerivAux κ η a hB]
    refine setLIntegral_mono' hB fun x hx => ENNReal.ofReal_le_ofReal ?_
    have : ¬ 1 / 2 ≤ κ.rnDerivAux (κ + η) a x := hs hx
    linarith

section
variable {X : Type} [MeasurableSpace X]

/-- `d` is the total variation distance between the measures of the kernel -/
structure IsTV (κ : Kernel X X) (d : X × X → ℝ) : Prop where
  measurable : Measurable d
  nonneg : ∀ p, 0 ≤ d p
  le_one : ∀ p, d p ≤ 1
  parts : ∀ x y, ∃ η ρ ρ' : Measure X, κ x = η + ρ ∧ κ y = η + ρ' ∧ ρ Set.univ = ENNReal.ofReal (d (x, y)) ∧
    ρ' Set.univ = ENNReal.ofReal (d (x, y)) ∧ ∃ H, MeasurableSet H ∧ ρ Hᶜ = 0 ∧ ρ' H = 0

theorem exists_tv [MeasurableSpace.CountablyGenerated X] (κ : Kernel X X) [IsMarkovKernel κ] :
    ∃ d, IsTV κ d := by
  obtain ⟨H, hH, h⟩ := kernel_hahn (κ.comap Prod.fst measurable_fst : Kernel (X × X) X)
    (κ.comap Prod.snd measurable_snd)
  simp only [Kernel.comap_apply] at h
  have hHp : ∀ p, MeasurableSet (Prod.mk p ⁻¹' H) := fun p => measurable_prodMk_left hH
  have hle : ∀ p : X × X, κ p.2 (Prod.mk p ⁻¹' H) ≤ κ p.1 (Prod.mk p ⁻¹' H) := fun p =>
    (h p _ (hHp p)).1 subset_rfl
  have hr : ∀ p : X × X, (κ p.2).restrict (Prod.mk p ⁻¹' H) ≤ (κ p.1).restrict (Prod.mk p ⁻¹' H) := fun p => by
    refine Measure.le_iff.2 fun B hB => ?_
    rw [Measure.restrict_apply hB, Measure.restrict_apply hB]
    exact (h p _ (hB.inter (hHp p))).1 Set.inter_subset_right
  have hr' : ∀ p : X × X, (κ p.1).restrict (Prod.mk p ⁻¹' H)ᶜ ≤ (κ p.2).restrict (Prod.mk p ⁻¹' H)ᶜ := fun p => by
    refine Measure.le_iff.2 fun B hB => ?_
    rw [Measure.restrict_apply hB, Measure.restrict_apply hB]
    exact (h p _ (hB.inter (hHp p).compl)).2 Set.inter_subset_right
  have m1 : Measurable fun p : X × X => κ p.1 (Prod.mk p ⁻¹' H) :=
    Kernel.measurable_kernel_prodMk_left (κ := (κ.comap Prod.fst measurable_fst : Kernel (X × X) X)) hH
  have m2 : Measurable fun p : X × X => κ p.2 (Prod.mk p ⁻¹' H) :=
    Kernel.measurable_kernel_prodMk_left (κ := (κ.comap Prod.snd measurable_snd : Kernel (X × X) X)) hH
  refine ⟨fun p => (κ p.1).real (Prod.mk p ⁻¹' H) - (κ p.2).real (Prod.mk p ⁻¹' H),
    m1.ennreal_toReal.sub m2.ennreal_toReal, fun p => ?_, fun p => ?_, fun x y => ?_⟩
  · exact sub_nonneg.2 (ENNReal.toReal_mono (measure_ne_top _ _) (hle p))
  · have h1 : (κ p.1).real (Prod.mk p ⁻¹' H) ≤ 1 := measureReal_le_one
    have h2 : 0 ≤ (κ p.2).real (Prod.mk p ⁻¹' H) := measureReal_nonneg
    linarith
  · set Hp := Prod.mk (x, y) ⁻¹' H with hHpdef
    have hHm : MeasurableSet Hp := hHp (x, y)
    have e1 : (κ x).restrict Hp - (κ y).restrict Hp + (κ y).restrict Hp = (κ x).restrict Hp :=
      Measure.sub_add_cancel_of_le (hr (x, y))
    have e2 : (κ y).restrict Hpᶜ - (κ x).restrict Hpᶜ + (κ x).restrict Hpᶜ = (κ y).restrict Hpᶜ :=
      Measure.sub_add_cancel_of_le (hr' (x, y))
    have c1 : (κ x) Hpᶜ = 1 - κ x Hp := prob_compl_eq_one_sub hHm
    have c2 : (κ y) Hpᶜ = 1 - κ y Hp := prob_compl_eq_one_sub hHm
    refine ⟨(κ y).restrict Hp + (κ x).restrict Hpᶜ, (κ x).restrict Hp - (κ y).restrict Hp,
      (κ y).restrict Hpᶜ - (κ x).restrict Hpᶜ, ?_, ?_, ?_, ?_, Hp, hHm, ?_, ?_⟩
    · rw [add_right_comm, add_comm ((κ y).restrict Hp), e1]
      exact (Measure.restrict_add_restrict_compl hHm).symm
    · rw [add_assoc, add_comm ((κ x).restrict Hpᶜ), e2]
      exact (Measure.restrict_add_restrict_compl hHm).symm
    · rw [Measure.sub_apply .univ (hr (x, y)), Measure.restrict_apply_univ, Measure.restrict_apply_univ,
        ENNReal.ofReal_sub _ measureReal_nonneg, ofReal_measureReal, ofReal_measureReal]
    · rw [Measure.sub_apply .univ (hr' (x, y)), Measure.restrict_apply_univ, Measure.restrict_apply_univ,
        ENNReal.ofReal_sub _ measureReal_nonneg, ofReal_measureReal, ofReal_measureReal]
      show κ y Hpᶜ - κ x Hpᶜ = _
      rw [c1, c2]
      have hx : κ x Hp ≤ 1 := prob_le_one
      have hy : κ y Hp ≤ κ x Hp := hle (x, y)
      have hy' : κ y Hp ≤ 1 := prob_le_one
      rw [← ENNReal.toReal_eq_toReal_iff' (by finiteness) (by finiteness),
        ENNReal.toReal_sub_of_le (tsub_le_tsub_left hy _) (by finiteness),
        ENNReal.toReal_sub_of_le hx (by finiteness), ENNReal.toReal_sub_of_le hy' (by finiteness),
        ENNReal.toReal_sub_of_le hy (by finiteness)]
      ring
    · rw [Measure.sub_apply hHm.compl (hr (x, y)), Measure.restrict_apply hHm.compl,
        Measure.restrict_apply hHm.compl, ← hHpdef]
      simp
    · rw [Measure.sub_apply hHm (hr' (x, y)), Measure.restrict_apply hHm, Measure.restrict_apply hHm,
        ← hHpdef]
      simp

variable {κ : Kernel X X} {d : X × X → ℝ}

theorem integrable_unit {X : Type} [MeasurableSpace X] {f : X → ℝ} (hf : Measurable f) (h0 : ∀ x, 0 ≤ f x)
    (h1 : ∀ x, f x ≤ 1) (μ : Measure X) [IsFiniteMeasure μ] : Integrable f μ :=
  Integrable.of_bound hf.aestronglyMeasurable 1 (Eventually.of_forall fun x => by
    rw [Real.norm_eq_abs, abs_le]; exact ⟨by linarith [h0 x], h1 x⟩)

/-- difference of the expected values of a function -/
theorem IsTV.diff (hd : IsTV κ d) [IsMarkovKernel κ] {f : X → ℝ} (hf : Measurable f) (h0 : ∀ x, 0 ≤ f x)
    (h1 : ∀ x, f x ≤ 1) (x y : X) : ∫ z, f z ∂κ x - ∫ z, f z ∂κ y ≤ d (x, y) := by
  obtain ⟨η, ρ, ρ', e, e', m, m', -⟩ := hd.parts x y
  have : IsFiniteMeasure ρ := ⟨by rw [m]; exact ENNReal.ofReal_lt_top⟩
  have : IsFiniteMeasure ρ' := ⟨by rw [m']; exact ENNReal.ofReal_lt_top⟩
  have : IsFiniteMeasure η := isFiniteMeasure_of_le (κ x) (by rw [e]; exact Measure.le_add_right le_rfl)
  rw [e, e', integral_add_measure (integrable_unit hf h0 h1 _) (integrable_unit hf h0 h1 _),
    integral_add_measure (integrable_unit hf h0 h1 _) (integrable_unit hf h0 h1 _)]
  have k1 : ∫ z, f z ∂ρ ≤ d (x, y) := by
    calc ∫ z, f z ∂ρ ≤ ∫ _, (1 : ℝ) ∂ρ := integral_mono (integrable_unit hf h0 h1 _) (integrable_const _) h1
      _ = d (x, y) := by
        rw [integral_const, smul_eq_mul, mul_one, measureReal_def, m, ENNReal.toReal_ofReal (hd.nonneg _)]
  have k2 : 0 ≤ ∫ z, f z ∂ρ' := integral_nonneg h0
  linarith

theorem IsTV.set (hd : IsTV κ d) [IsMarkovKernel κ] {B : Set X} (hB : MeasurableSet B) (x y : X) :
    (κ x).real B - (κ y).real B ≤ d (x, y) := by
  have h := hd.diff (f := B.indicator 1) (measurable_one.indicator hB)
    (fun x => Set.indicator_nonneg (fun _ _ => zero_le_one) x)
    (fun x => Set.indicator_le_self' (fun _ _ => zero_le_one) x |>.trans_eq rfl) x y
  rwa [integral_indicator_one hB, integral_indicator_one hB] at h

/-- the distance is attained -/
theorem IsTV.le_of (hd : IsTV κ d) [IsMarkovKernel κ] {x y : X} {c : ℝ}
    (h : ∀ B, MeasurableSet B → (κ x).real B - (κ y).real B ≤ c) : d (x, y) ≤ c := by
  obtain ⟨η, ρ, ρ', e, e', m, m', H, hH, hρ, hρ'⟩ := hd.parts x y
  have : IsFiniteMeasure ρ := ⟨by rw [m]; exact ENNReal.ofReal_lt_top⟩
  have : IsFiniteMeasure ρ' := ⟨by rw [m']; exact ENNReal.ofReal_lt_top⟩
  have : IsFiniteMeasure η := isFiniteMeasure_of_le (κ x) (by rw [e]; exact Measure.le_add_right le_rfl)
  refine le_trans (le_of_eq ?_) (h H hH)
  have e3 : ρ.real H = d (x, y) := by
    have := measureReal_add_measureReal_compl (μ := ρ) hH
    rw [measureReal_def ρ Hᶜ, hρ, ENNReal.toReal_zero, add_zero] at this
    rw [this, measureReal_def, m, ENNReal.toReal_ofReal (hd.nonneg _)]
  have e4 : ρ'.real H = 0 := by rw [measureReal_def, hρ', ENNReal.toReal_zero]
  rw [e, e', measureReal_add_apply, measureReal_add_apply, e3, e4]
  ring

end

/-! ### Powers of a kernel -/

section
variable {X : Type} [MeasurableSpace X] {κ : Kernel X X} [IsMarkovKernel κ] {d : Nat → X × X → ℝ}

theorem pow_add_apply (κ : Kernel X X) (m n : Nat) (x : X) {B : Set X} (hB : MeasurableSet B) :
    (κ ^ (m + n)) x B = ∫⁻ w, (κ ^ n) w B ∂(κ ^ m) x := by
  rw [add_comm, pow_add]
  exact Kernel.comp_apply' _ _ _ hB

theorem measurable_real (κ : Kernel X X) (n : Nat) {B : Set X} (hB : MeasurableSet B) :
    Measurable fun w => ((κ ^ n) w).real B := ((κ ^ n).measurable_coe hB).ennreal_toReal

theorem pow_add_real (m n : Nat) (x : X) {B : Set X} (hB : MeasurableSet B) :
    ((κ ^ (m + n)) x).real B = ∫ w, ((κ ^ n) w).real B ∂(κ ^ m) x := by
  have := markov_pow κ n
  rw [measureReal_def, pow_add_apply κ m n x hB]
  exact (integral_toReal ((κ ^ n).measurable_coe hB).aemeasurable
    (Eventually.of_forall fun w => measure_lt_top _ _)).symm

theorem real_unit (n : Nat) (B : Set X) (w : X) : 0 ≤ ((κ ^ n) w).real B ∧ ((κ ^ n) w).real B ≤ 1 := by
  have := markov_pow κ n
  exact ⟨measureReal_nonneg, measureReal_le_one⟩

variable (hd : ∀ n, IsTV (κ ^ n) (d n))
include hd

theorem tv_antitone (p : X × X) : Antitone fun n => d n p := by
  have hm := markov_pow κ
  intro m n hmn
  obtain ⟨k, rfl⟩ := Nat.exists_eq_add_of_le hmn
  refine (hd (m + k)).le_of fun B hB => ?_
  rw [pow_add_real m k _ hB, pow_add_real m k _ hB]
  exact (hd m).diff (measurable_real κ k hB) (fun w => (real_unit k B w).1) (fun w => (real_unit k B w).2) _ _

theorem tv_mix (n : Nat) {μ ν : Measure X} [IsFiniteMeasure μ] [IsFiniteMeasure ν] {c : ℝ}
    (hμ : μ.real Set.univ = c) (hν : ν.real Set.univ = c) {B : Set X} (hB : MeasurableSet B) :
    c * (∫ w, ((κ ^ n) w).real B ∂μ - ∫ w, ((κ ^ n) w).real B ∂ν) ≤ ∫ z, d n z ∂μ.prod ν := by
  have hm := markov_pow κ n
  have e1 := integral_fun_fst (μ := μ) (ν := ν) fun w => ((κ ^ n) w).real B
  have e2 := integral_fun_snd (μ := μ) (ν := ν) fun w => ((κ ^ n) w).real B
  rw [hν, smul_eq_mul] at e1
  rw [hμ, smul_eq_mul] at e2
  have i1 : Integrable (fun z : X × X => ((κ ^ n) z.1).real B) (μ.prod ν) :=
    integrable_unit ((measurable_real κ n hB).comp measurable_fst) (fun z => (real_unit n B z.1).1)
      (fun z => (real_unit n B z.1).2) _
  have i2 : Integrable (fun z : X × X => ((κ ^ n) z.2).real B) (μ.prod ν) :=
    integrable_unit ((measurable_real κ n hB).comp measurable_snd) (fun z => (real_unit n B z.2).1)
      (fun z => (real_unit n B z.2).2) _
  rw [mul_sub, ← e1, ← e2, ← integral_sub i1 i2]
  exact integral_mono (i1.sub i2) (integrable_unit (hd n).measurable (hd n).nonneg (hd n).le_one _)
    fun z => (hd n).set hB z.1 z.2

theorem tv_sub (m n : Nat) (x y : X) : d (m + n) (x, y) ≤ ∫ z, d n z ∂((κ ^ m) x).prod ((κ ^ m) y) := by
  have hm := markov_pow κ
  refine (hd (m + n)).le_of fun B hB => ?_
  rw [pow_add_real m n _ hB, pow_add_real m n _ hB]
  have := tv_mix hd n (μ := (κ ^ m) x) (ν := (κ ^ m) y) (c := 1) probReal_univ probReal_univ hB
  rwa [one_mul] at this

/-- the limit of the distance -/
theorem tv_lim (p : X × X) : Tendsto (fun n => d n p) atTop (𝓝 (⨅ n, d n p)) :=
  tendsto_atTop_ciInf (tv_antitone hd p) ⟨0, by rintro _ ⟨n, rfl⟩; exact (hd n).nonneg p⟩

theorem measurable_lim : Measurable fun p => ⨅ n, d n p :=
  measurable_of_tendsto_metrizable (fun n => (hd n).measurable) (tendsto_pi_nhds.2 fun p => tv_lim hd p)

theorem lim_unit (p : X × X) : 0 ≤ ⨅ n, d n p ∧ ⨅ n, d n p ≤ 1 :=
  ⟨ge_of_tendsto' (tv_lim hd p) fun n => (hd n).nonneg p, le_of_tendsto' (tv_lim hd p) fun n => (hd n).le_one p⟩

theorem lim_le (m : Nat) (p : X × X) : ⨅ n, d n p ≤ d m p :=
  ciInf_le ⟨0, by rintro _ ⟨n, rfl⟩; exact (hd n).nonneg p⟩ m

theorem tendsto_int {μ : Measure (X × X)} [IsFiniteMeasure μ] :
    Tendsto (fun n => ∫ z, d n z ∂μ) atTop (𝓝 (∫ z, ⨅ n, d n z ∂μ)) :=
  tendsto_integral_of_dominated_convergence (fun _ => 1) (fun n => (hd n).measurable.aestronglyMeasurable)
    (integrable_const _) (fun n => Eventually.of_forall fun z => by
      rw [Real.norm_eq_abs, abs_le]; exact ⟨by linarith [(hd n).nonneg z], (hd n).le_one z⟩)
    (Eventually.of_forall fun z => tv_lim hd z)

theorem lim_sub (m : Nat) (x y : X) :
    ⨅ n, d n (x, y) ≤ ∫ z, ⨅ n, d n z ∂((κ ^ m) x).prod ((κ ^ m) y) := by
  have hm := markov_pow κ m
  exact ge_of_tendsto' (tendsto_int hd) fun n => (lim_le hd (m + n) _).trans (tv_sub hd m n x y)

/-- if the limit is a constant, it is zero, unless the distributions remain disjoint -/
theorem lim_const (m : Nat) {c : ℝ} {x y : X} {π : Measure X} [IsProbabilityMeasure π] (hx : (κ ^ m) x ≪ π)
    (hy : (κ ^ m) y ≪ π) (hc : ∀ᵐ z ∂π.prod π, ⨅ n, d n z = c) (hxy : ⨅ n, d n (x, y) = c)
    (h1 : d m (x, y) < 1) : c = 0 := by
  have hm := markov_pow κ
  obtain ⟨η, ρ, ρ', e, e', k, k', -⟩ := (hd m).parts x y
  have : IsFiniteMeasure ρ := ⟨by rw [k]; exact ENNReal.ofReal_lt_top⟩
  have : IsFiniteMeasure ρ' := ⟨by rw [k']; exact ENNReal.ofReal_lt_top⟩
  have : IsFiniteMeasure η := isFiniteMeasure_of_le ((κ ^ m) x) (by rw [e]; exact Measure.le_add_right le_rfl)
  have r1 : ρ.real Set.univ = d m (x, y) := by
    rw [measureReal_def, k, ENNReal.toReal_ofReal ((hd m).nonneg _)]
  have r2 : ρ'.real Set.univ = d m (x, y) := by
    rw [measureReal_def, k', ENNReal.toReal_ofReal ((hd m).nonneg _)]
  have a1 : ρ ≪ π := (Measure.absolutelyContinuous_of_le (by rw [e]; exact Measure.le_add_left le_rfl)).trans hx
  have a2 : ρ' ≪ π := (Measure.absolutelyContinuous_of_le (by rw [e']; exact Measure.le_add_left le_rfl)).trans hy
  set q := d m (x, y) with hq
  have hcq : c ≤ q := hxy ▸ lim_le hd m (x, y)
  have hc0 : 0 ≤ c := hxy ▸ (lim_unit hd (x, y)).1
  have key : ∀ n, q * c ≤ ∫ z, d n z ∂ρ.prod ρ' := by
    intro n
    rcases eq_or_lt_of_le ((hd m).nonneg (x, y)) with h0 | h0
    · have h0' : q = 0 := h0.symm
      rw [h0', zero_mul]
      exact integral_nonneg (hd n).nonneg
    · have h0' : 0 < q := h0
      have : d (m + n) (x, y) ≤ (∫ z, d n z ∂ρ.prod ρ') / q := by
        refine (hd (m + n)).le_of fun B hB => ?_
        rw [pow_add_real m n _ hB, pow_add_real m n _ hB, le_div_iff₀ h0', mul_comm]
        have hu := fun μ [IsFiniteMeasure μ] => integrable_unit (measurable_real κ n hB)
          (fun w => (real_unit n B w).1) (fun w => (real_unit n B w).2) μ
        rw [e, e', integral_add_measure (hu _) (hu _), integral_add_measure (hu _) (hu _), add_sub_add_left_eq_sub]
        exact tv_mix hd n r1 r2 hB
      rw [le_div_iff₀ h0', mul_comm] at this
      refine le_trans ?_ this
      exact mul_le_mul_of_nonneg_left (hxy ▸ lim_le hd (m + n) (x, y)) h0'.le
  have h2 := ge_of_tendsto' (tendsto_int hd) key
  have h3 : ∫ z, ⨅ n, d n z ∂ρ.prod ρ' = q * (q * c) := by
    rw [integral_congr_ae ((a1.prod a2).ae_le hc), integral_const, smul_eq_mul, ← Set.univ_prod_univ,
      measureReal_prod_prod, r1, r2, mul_assoc]
  rw [h3] at h2
  by_contra hne
  have hpos : 0 < c := lt_of_le_of_ne hc0 (Ne.symm hne)
  have hqpos : 0 < q := hpos.trans_le hcq
  have : 0 < q * c := mul_pos hqpos hpos
  nlinarith

end

/-! ### Convergence -/

section
variable {X : Type} [MeasurableSpace X] [MeasurableSpace.CountablyGenerated X] {κ : Kernel X X}
  {π : Measure X} [IsProbabilityMeasure π]

theorem parallel_pow [IsMarkovKernel κ] (n : Nat) : (κ ∥ₖ κ) ^ n = (κ ^ n) ∥ₖ (κ ^ n) := by
  have := markov_pow κ
  induction n with
  | zero => simp only [pow_zero]; exact Kernel.id_parallelComp_id.symm
  | succ n ih =>
    rw [pow_succ, pow_succ, ih]
    exact Kernel.parallelComp_comp_parallelComp

theorem parallel_invariant [IsMarkovKernel κ] (hπ : κ.Invariant π) : (κ ∥ₖ κ).Invariant (π.prod π) := by
  show (π.prod π).bind (κ ∥ₖ κ) = π.prod π
  refine Measure.ext_of_lintegral _ fun f hf => ?_
  rw [Measure.lintegral_bind (Kernel.aemeasurable _) hf.aemeasurable]
  have hm1 : Measurable fun p : X × X => ∫⁻ z, f z ∂(κ ∥ₖ κ) p := hf.lintegral_kernel
  rw [lintegral_prod _ hm1.aemeasurable, lintegral_prod _ hf.aemeasurable]
  have e : ∀ x, ∫⁻ y, ∫⁻ z, f z ∂(κ ∥ₖ κ) (x, y) ∂π = ∫⁻ w, ∫⁻ w', f (w, w') ∂π ∂κ x := by
    intro x
    simp only [Kernel.lintegral_parallelComp_symm _ hf]
    have hg : Measurable fun w' => ∫⁻ w, f (w, w') ∂κ x := hf.lintegral_prod_left'
    rw [← Measure.lintegral_bind κ.aemeasurable hg.aemeasurable, hπ.def,
      lintegral_lintegral_swap (f := fun w' w => f (w, w')) (hf.comp measurable_swap).aemeasurable]
  simp only [e]
  rw [← Measure.lintegral_bind κ.aemeasurable hf.lintegral_prod_right'.aemeasurable, hπ.def]

/-- A Markov chain converges in total variation to its invariant distribution if it is eventually
positive and it has a common component. -/
theorem tv_tendsto [IsMarkovKernel κ] (hπ : κ.Invariant π) {S : Set X} (hS : ∀ᵐ x ∂π, x ∈ S)
    (habs : ∀ x ∈ S, κ x ≪ π)
    (hev : ∀ x ∈ S, ∀ A, MeasurableSet A → π A ≠ 0 → ∃ N, ∀ n, N ≤ n → (κ ^ n) x A ≠ 0)
    {C : Set X} (hC : MeasurableSet C) (hC0 : π C ≠ 0)
    (hov : ∀ x ∈ S, ∃ N, ∀ n, N ≤ n → ∀ A, MeasurableSet A → A ⊆ C → π A ≠ 0 → (κ ^ n) x A ≠ 0)
    {x : X} (hx : x ∈ S) : ∃ e : Nat → ℝ, Tendsto e atTop (𝓝 0) ∧
      ∀ n A, MeasurableSet A → |((κ ^ n) x).real A - π.real A| ≤ e n := by
  have hmar := markov_pow κ
  choose d hd using fun n => exists_tv (κ ^ n)
  have habs' : ∀ y ∈ S, ∀ m, 1 ≤ m → (κ ^ m) y ≪ π := by
    intro y hy m hm
    obtain ⟨j, rfl⟩ : ∃ j, m = j + 1 := ⟨m - 1, by omega⟩
    exact absCont_pow hπ (habs y hy) j
  have hS2 : ∀ᵐ p ∂π.prod π, p.1 ∈ S ∧ p.2 ∈ S := by
    have h1 : ∀ᵐ p ∂π.prod π, p.1 ∈ S := Measure.quasiMeasurePreserving_fst.ae hS
    have h2 : ∀ᵐ p ∂π.prod π, p.2 ∈ S := Measure.quasiMeasurePreserving_snd.ae hS
    filter_upwards [h1, h2] with p a b using ⟨a, b⟩
  have hconst : ∀ᵐ p ∂π.prod π, ⨅ n, d n p = ∫ z, ⨅ n, d n z ∂π.prod π := by
    refine harmonic_const (κ := κ ∥ₖ κ) (parallel_invariant hπ) (fun E hE hpos => ?_) (measurable_lim hd)
      (fun p => (lim_unit hd p).1) (fun p => (lim_unit hd p).2) fun n p => ?_
    · filter_upwards [hS2] with ⟨y, y'⟩ ⟨hy, hy'⟩
      have hEw : ∀ w, MeasurableSet (Prod.mk w ⁻¹' E) := fun w => measurable_prodMk_left hE
      have hF : ∀ N, MeasurableSet {w | ∀ n, N ≤ n → (κ ^ n) y' (Prod.mk w ⁻¹' E) ≠ 0} := by
        intro N
        have : {w | ∀ n, N ≤ n → (κ ^ n) y' (Prod.mk w ⁻¹' E) ≠ 0} =
            ⋂ n, ⋂ (_ : N ≤ n), {w | (κ ^ n) y' (Prod.mk w ⁻¹' E) ≠ 0} := by
          ext w; simp
        rw [this]
        exact .iInter fun n => .iInter fun _ =>
          measurable_measure_prodMk_left (ν := (κ ^ n) y') hE (measurableSet_singleton 0).compl
      have hcup : ∃ N, π {w | ∀ n, N ≤ n → (κ ^ n) y' (Prod.mk w ⁻¹' E) ≠ 0} ≠ 0 := by
        by_contra hall
        push Not at hall
        apply hpos
        rw [Measure.measure_prod_null hE]
        have := measure_iUnion_null hall
        refine measure_mono_null (fun w hw => ?_) this
        obtain ⟨N, hN⟩ := hev y' hy' _ (hEw w) hw
        exact Set.mem_iUnion.2 ⟨N, hN⟩
      obtain ⟨N, hN⟩ := hcup
      obtain ⟨N', hN'⟩ := hev y hy _ (hF N) hN
      refine ⟨max N N', ?_⟩
      rw [parallel_pow, Kernel.parallelComp_apply' hE]
      intro h0
      rw [lintegral_eq_zero_iff (measurable_measure_prodMk_left hE)] at h0
      refine hN' (max N N') (le_max_right _ _) (measure_mono_null (fun w hw => ?_) (ae_iff.1 h0))
      exact hw _ (le_max_left _ _)
    · rw [parallel_pow, Kernel.parallelComp_apply]
      exact lim_sub hd n p.1 p.2
  have hzero : ∫ z, ⨅ n, d n z ∂π.prod π = 0 := by
    obtain ⟨⟨y, y'⟩, hyy, hy, hy'⟩ := (hconst.and hS2).exists
    obtain ⟨N, hN⟩ := hov y hy
    obtain ⟨N', hN'⟩ := hov y' hy'
    set m := max (max N N') 1 with hm
    have m1 : N ≤ m := (le_max_left _ _).trans (le_max_left _ _)
    have m2 : N' ≤ m := (le_max_right _ _).trans (le_max_left _ _)
    refine lim_const hd m (habs' y hy m (le_max_right _ _)) (habs' y' hy' m (le_max_right _ _)) hconst hyy ?_
    refine lt_of_le_of_ne ((hd m).le_one _) fun h1 => ?_
    obtain ⟨η, ρ, ρ', e, e', k, k', H, hH, z, z'⟩ := (hd m).parts y y'
    rw [h1, ENNReal.ofReal_one] at k k'
    have hη : η = 0 := by
      have := congrArg (fun μ => μ Set.univ) e
      simp only [Measure.add_apply, measure_univ, k] at this
      have h0 : η Set.univ = 0 := by
        have h2 : (0 : ℝ≥0∞) + 1 = η Set.univ + 1 := by rw [zero_add]; exact this
        exact ((ENNReal.add_left_inj ENNReal.one_ne_top).1 h2).symm
      exact Measure.measure_univ_eq_zero.1 h0
    rw [hη, zero_add] at e e'
    rw [← e] at z
    rw [← e'] at z'
    by_cases hCH : π (C ∩ H) = 0
    · have : π (C ∩ Hᶜ) ≠ 0 := by
        intro h
        apply hC0
        rw [← measure_inter_add_sdiff C hH, hCH, zero_add]
        exact h
      exact hN m m1 _ (hC.inter hH.compl) Set.inter_subset_left this (measure_mono_null Set.inter_subset_right z)
    · exact hN' m m2 _ (hC.inter hH) Set.inter_subset_left hCH (measure_mono_null Set.inter_subset_right z')
  have hlim : ∀ y ∈ S, ⨅ n, d n (x, y) = 0 := by
    intro y hy
    refine le_antisymm ?_ (lim_unit hd _).1
    have h1 := lim_sub hd 1 x y
    have h2 : ∀ᵐ z ∂((κ ^ 1) x).prod ((κ ^ 1) y), ⨅ n, d n z = 0 := by
      rw [hzero] at hconst
      exact ((habs' x hx 1 le_rfl).prod (habs' y hy 1 le_rfl)).ae_le hconst
    rwa [integral_congr_ae h2, integral_zero] at h1
  refine ⟨fun n => ∫ y, d n (x, y) ∂π, ?_, fun n A hA => ?_⟩
  · have := tendsto_integral_of_dominated_convergence (μ := π) (F := fun n y => d n (x, y)) (f := fun _ => 0)
      (fun _ => 1) (fun n => ((hd n).measurable.comp measurable_prodMk_left).aestronglyMeasurable)
      (integrable_const _) (fun n => Eventually.of_forall fun z => by
        rw [Real.norm_eq_abs, abs_le]; exact ⟨by linarith [(hd n).nonneg (x, z)], (hd n).le_one (x, z)⟩)
      (by filter_upwards [hS] with y hy; rw [← hlim y hy]; exact tv_lim hd (x, y))
    simpa using this
  · have hinv := (invariant_pow hπ n).def
    have key : ∀ B, MeasurableSet B → ((κ ^ n) x).real B - π.real B ≤ ∫ y, d n (x, y) ∂π := by
      intro B hB
      have e1 : π.real B = ∫ y, ((κ ^ n) y).real B ∂π := by
        conv_lhs => rw [measureReal_def, ← hinv, Measure.bind_apply hB (Kernel.aemeasurable _)]
        exact (integral_toReal ((κ ^ n).measurable_coe hB).aemeasurable
          (Eventually.of_forall fun w => measure_lt_top _ _)).symm
      have i1 : Integrable (fun y => ((κ ^ n) y).real B) π := integrable_unit (measurable_real κ n hB)
          (fun w => (real_unit n B w).1) (fun w => (real_unit n B w).2) π
      have e2 : ((κ ^ n) x).real B = ∫ _, ((κ ^ n) x).real B ∂π := by
        rw [integral_const, probReal_univ, one_smul]
      rw [e1, e2, ← integral_sub (integrable_const _) i1]
      exact integral_mono ((integrable_const _).sub i1)
        (integrable_unit ((hd n).measurable.comp measurable_prodMk_left) (fun y => (hd n).nonneg (x, y))
          (fun y => (hd n).le_one (x, y)) _) fun y => (hd n).set hB x y
    rw [abs_le]
    refine ⟨?_, key A hA⟩
    have h1 := key Aᶜ hA.compl
    rw [probReal_compl_eq_one_sub hA, probReal_compl_eq_one_sub hA] at h1
    linarith

end
end Bartz
