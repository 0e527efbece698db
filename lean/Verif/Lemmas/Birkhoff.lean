import Mathlib.Dynamics.Ergodic.Ergodic
import Mathlib.Dynamics.BirkhoffSum.Average
import Mathlib.MeasureTheory.Integral.DominatedConvergence
import Mathlib.MeasureTheory.Integral.Bochner.Set
/-! # The pointwise ergodic theorem -/

set_option autoImplicit false

namespace Bartz
open MeasureTheory Filter Topology

section
variable {X : Type} [MeasurableSpace X] {μ : Measure X} {T : X → X} {f : X → ℝ}

/-- the maximum of the first `n + 1` Birkhoff sums -/
noncomputable def maxSum (T : X → X) (f : X → ℝ) : Nat → X → ℝ
  | 0, x => f x
  | n + 1, x => f x + max 0 (maxSum T f n (T x))

theorem maxSum_mono (n : Nat) : ∀ x, maxSum T f n x ≤ maxSum T f (n + 1) x := by
  induction n with
  | zero => intro x; show f x ≤ f x + max 0 _; have := le_max_left 0 (maxSum T f 0 (T x)); linarith
  | succ n ih =>
    intro x
    show f x + _ ≤ f x + _
    have := max_le_max_left 0 (ih (T x))
    linarith

theorem le_maxSum (n : Nat) (x : X) : f x ≤ maxSum T f n x := by
  induction n with
  | zero => exact le_refl _
  | succ n ih => exact ih.trans (maxSum_mono n x)

theorem birkhoffSum_le_maxSum (n : Nat) : ∀ x, birkhoffSum T f (n + 1) x ≤ maxSum T f n x := by
  induction n with
  | zero => intro x; simp [maxSum]
  | succ n ih =>
    intro x
    rw [birkhoffSum_succ']
    have := (ih (T x)).trans (le_max_right 0 _)
    show _ ≤ f x + max 0 (maxSum T f n (T x))
    linarith

theorem measurable_maxSum (hT : Measurable T) (hf : Measurable f) (n : Nat) : Measurable (maxSum T f n) := by
  induction n with
  | zero => exact hf
  | succ n ih => exact hf.add (measurable_const.max (ih.comp hT))

theorem integrable_maxSum (hT : MeasurePreserving T μ μ) (hf : Integrable f μ) (n : Nat) :
    Integrable (maxSum T f n) μ := by
  induction n with
  | zero => exact hf
  | succ n ih =>
    have h := (hT.integrable_comp ih.aestronglyMeasurable).2 ih
    exact hf.add (Integrable.sup (integrable_zero _ _ _) h)

/-- the set where the Birkhoff sums are not bounded above -/
def unbounded (T : X → X) (f : X → ℝ) : Set X := {x | ∀ k : Nat, ∃ n, (k : ℝ) < maxSum T f n x}

theorem measurable_unbounded (hT : Measurable T) (hf : Measurable f) : MeasurableSet (unbounded T f) := by
  have : unbounded T f = ⋂ k : Nat, ⋃ n, {x | (k : ℝ) < maxSum T f n x} := by
    ext x; simp [unbounded]
  rw [this]
  exact MeasurableSet.iInter fun k => MeasurableSet.iUnion fun n =>
    measurableSet_lt measurable_const (measurable_maxSum hT hf n)

theorem preimage_unbounded : T ⁻¹' unbounded T f = unbounded T f := by
  ext x
  constructor
  · intro h k
    obtain ⟨j, hj⟩ := exists_nat_gt ((k : ℝ) - f x)
    obtain ⟨n, hn⟩ := h j
    refine ⟨n + 1, ?_⟩
    show _ < f x + max 0 (maxSum T f n (T x))
    have := le_max_right 0 (maxSum T f n (T x))
    linarith
  · intro h k
    obtain ⟨j, hj⟩ := exists_nat_gt ((k : ℝ) + |f x|)
    obtain ⟨n, hn⟩ := h j
    have h0 : (0 : ℝ) ≤ k := Nat.cast_nonneg k
    cases n with
    | zero =>
      have hn' : (j : ℝ) < f x := hn
      have := le_abs_self (f x)
      linarith
    | succ n =>
      refine ⟨n, ?_⟩
      have hn' : (j : ℝ) < f x + max 0 (maxSum T f n (T x)) := hn
      have := le_abs_self (f x)
      have h1 : (k : ℝ) < max 0 (maxSum T f n (T x)) := by linarith
      rcases lt_max_iff.1 h1 with h2 | h2
      · linarith
      · exact h2

theorem le_maxSum_of_le {n m : Nat} (h : n ≤ m) (x : X) : maxSum T f n x ≤ maxSum T f m x := by
  induction m, h using Nat.le_induction with
  | base => exact le_refl _
  | succ m _ ih => exact ih.trans (maxSum_mono m x)

/-- the maximal ergodic theorem -/
theorem integral_unbounded (hT : MeasurePreserving T μ μ) (hm : Measurable f) (hf : Integrable f μ) :
    0 ≤ ∫ x in unbounded T f, f x ∂μ := by
  set A := unbounded T f with hA
  have hAm : MeasurableSet A := measurable_unbounded hT.measurable hm
  have hTA : MeasurePreserving T (μ.restrict A) (μ.restrict A) := by
    have := hT.restrict_preimage hAm
    rwa [preimage_unbounded] at this
  set D : Nat → X → ℝ := fun n x => maxSum T f (n + 1) x - maxSum T f n (T x) with hD
  have hcomp : ∀ g : X → ℝ, Integrable g μ → Integrable (fun x => g (T x)) μ := fun g hg =>
    (hT.integrable_comp hg.aestronglyMeasurable).2 hg
  have hD0 : ∀ n, 0 ≤ ∫ x in A, D n x ∂μ := by
    intro n
    have i1 := (integrable_maxSum hT hf (n + 1)).integrableOn (s := A)
    have i0 := (integrable_maxSum hT hf n).integrableOn (s := A)
    have i2 := (hcomp _ (integrable_maxSum hT hf n)).integrableOn (s := A)
    have e : ∫ x in A, maxSum T f n (T x) ∂μ = ∫ x in A, maxSum T f n x ∂μ := by
      have := integral_map (μ := μ.restrict A) hTA.measurable.aemeasurable (f := maxSum T f n)
        (measurable_maxSum hT.measurable hm n).aestronglyMeasurable
      rw [hTA.map_eq] at this
      exact this.symm
    rw [integral_sub i1 i2, e, ← integral_sub i1 i0]
    exact integral_nonneg fun x => sub_nonneg.2 (maxSum_mono n x)
  have hlim : Tendsto (fun n => ∫ x in A, D n x ∂μ) atTop (𝓝 (∫ x in A, f x ∂μ)) := by
    refine tendsto_integral_of_dominated_convergence (fun x => |f x| + |f (T x)|) ?_ ?_ ?_ ?_
    · intro n
      exact ((measurable_maxSum hT.measurable hm (n + 1)).sub
        ((measurable_maxSum hT.measurable hm n).comp hT.measurable)).aestronglyMeasurable
    · exact (hf.abs.add (hcomp _ hf).abs).integrableOn
    · intro n
      refine Eventually.of_forall fun x => ?_
      show |f x + max 0 (maxSum T f n (T x)) - maxSum T f n (T x)| ≤ _
      have h1 := le_maxSum (T := T) (f := f) n (T x)
      have h2 := neg_abs_le (f (T x))
      have h3 : |max 0 (maxSum T f n (T x)) - maxSum T f n (T x)| ≤ |f (T x)| := by
        rcases max_cases 0 (maxSum T f n (T x)) with ⟨e, _⟩ | ⟨e, _⟩
        · rw [e, zero_sub, abs_neg, abs_of_nonpos (by linarith)]; linarith
        · rw [e, sub_self, abs_zero]; exact abs_nonneg _
      calc _ = |f x + (max 0 (maxSum T f n (T x)) - maxSum T f n (T x))| := by congr 1; ring
        _ ≤ _ := (abs_add_le _ _).trans (by linarith)
    · refine (ae_restrict_iff' hAm).2 (Eventually.of_forall fun x hx => ?_)
      have hx' : T x ∈ A := by rw [hA, ← preimage_unbounded (T := T) (f := f)] at hx; exact hx
      obtain ⟨N, hN⟩ := hx' 0
      refine tendsto_const_nhds.congr' ?_
      filter_upwards [eventually_ge_atTop N] with n hn
      have h1 : 0 < maxSum T f n (T x) := lt_of_lt_of_le (by simpa using hN) (le_maxSum_of_le hn _)
      show f x = f x + max 0 (maxSum T f n (T x)) - maxSum T f n (T x)
      rw [max_eq_right h1.le]; ring
  exact ge_of_tendsto' hlim hD0

theorem bounded_of_neg [IsProbabilityMeasure μ] (hT : Ergodic T μ) (hm : Measurable f) (hf : Integrable f μ)
    (hneg : ∫ x, f x ∂μ < 0) : ∀ᵐ x ∂μ, ∃ B : ℝ, ∀ n, birkhoffSum T f n x ≤ B := by
  have hAm := measurable_unbounded (f := f) hT.measurable hm
  have h0 := integral_unbounded hT.toMeasurePreserving hm hf
  rcases hT.toPreErgodic.ae_mem_or_ae_notMem hAm preimage_unbounded with h | h
  · exfalso
    have e : ∫ x in unbounded T f, f x ∂μ = ∫ x, f x ∂μ := by
      rw [Measure.restrict_eq_self_of_ae_mem h]
    linarith
  · filter_upwards [h] with x hx
    simp only [unbounded, Set.mem_ofPred_eq, not_forall, not_exists, not_lt] at hx
    obtain ⟨k, hk⟩ := hx
    refine ⟨k, fun n => ?_⟩
    cases n with
    | zero => simp
    | succ n => exact (birkhoffSum_le_maxSum n x).trans (hk n)

theorem limsup_le [IsProbabilityMeasure μ] (hT : Ergodic T μ) (hm : Measurable f) (hf : Integrable f μ)
    {ε : ℝ} (hε : 0 < ε) :
    ∀ᵐ x ∂μ, ∀ᶠ n : Nat in atTop, birkhoffAverage ℝ T f n x ≤ ∫ x, f x ∂μ + ε := by
  set c := ∫ x, f x ∂μ + ε / 2 with hc
  have hi : Integrable (fun x => f x - c) μ := hf.sub (integrable_const _)
  have hn : ∫ x, (f x - c) ∂μ < 0 := by
    rw [integral_sub hf (integrable_const _), integral_const, probReal_univ, one_smul]; linarith
  filter_upwards [bounded_of_neg hT (hm.sub measurable_const) hi hn] with x hx
  obtain ⟨B, hB⟩ := hx
  have hlim : Tendsto (fun n : Nat => B / (n : ℝ)) atTop (𝓝 0) := tendsto_const_div_atTop_nhds_zero_nat B
  filter_upwards [eventually_gt_atTop 0, hlim.eventually_le_const (half_pos hε)] with n hn hb
  have hn' : (0 : ℝ) < n := by exact_mod_cast hn
  have h1 : birkhoffSum T (fun x => f x - c) n x ≤ B := hB n
  have e : birkhoffSum T (fun x => f x - c) n x = birkhoffSum T f n x - n * c := by
    unfold birkhoffSum
    rw [Finset.sum_sub_distrib, Finset.sum_const, Finset.card_range, nsmul_eq_mul]
  rw [e] at h1
  unfold birkhoffAverage
  rw [smul_eq_mul, inv_mul_le_iff₀ hn']
  rw [div_le_iff₀ hn'] at hb
  rw [hc] at h1
  linarith

/-- the pointwise ergodic theorem -/
theorem tendsto_birkhoffAverage [IsProbabilityMeasure μ] (hT : Ergodic T μ) (hm : Measurable f)
    (hf : Integrable f μ) :
    ∀ᵐ x ∂μ, Tendsto (fun n => birkhoffAverage ℝ T f n x) atTop (𝓝 (∫ x, f x ∂μ)) := by
  have h1 : ∀ᵐ x ∂μ, ∀ k : Nat, ∀ᶠ n : Nat in atTop,
      birkhoffAverage ℝ T f n x ≤ ∫ x, f x ∂μ + 1 / ((k : ℝ) + 1) :=
    ae_all_iff.2 fun k => limsup_le hT hm hf (by positivity)
  have h2 : ∀ᵐ x ∂μ, ∀ k : Nat, ∀ᶠ n : Nat in atTop,
      birkhoffAverage ℝ T (fun x => - f x) n x ≤ ∫ x, - f x ∂μ + 1 / ((k : ℝ) + 1) :=
    ae_all_iff.2 fun k => limsup_le hT hm.neg hf.neg (by positivity)
  filter_upwards [h1, h2] with x k1 k2
  rw [Metric.tendsto_nhds]
  intro ε hε
  obtain ⟨k, hk⟩ := exists_nat_one_div_lt hε
  filter_upwards [k1 k, k2 k] with n e1 e2
  have e3 : birkhoffAverage ℝ T (fun x => - f x) n x = - birkhoffAverage ℝ T f n x := by
    unfold birkhoffAverage birkhoffSum
    rw [Finset.sum_neg_distrib, smul_neg]
  rw [e3, integral_neg] at e2
  rw [Real.dist_eq, abs_lt]
  constructor <;> linarith

end
end Bartz
