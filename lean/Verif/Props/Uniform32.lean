import Verif.Lemmas.Uniform32
import Verif.Props.Binning32
/-!
# Property C82: evenly spaced binning in single precision

C16 is about predictors in exact arithmetic. Here the predictors are in single precision, and the rounding in the calculation of the
grid is taken into account. If the range of the predictor is small compared to its absolute value, the grid is not
sorted, and the decision rules applied to the bins differ from the ones applied to the predictor.
-/

set_option autoImplicit false

namespace Bartz
open Jax Spec Jax.Binary32

/-- the points of the grid without the endpoints -/
theorem uniform_row32_eq (fusion : Fusion) {x : List Ordered} {num_bins : Nat} (hn : 1 ≤ num_bins) (h64 : num_bins < 2 ^ 64)
    {low high : Ordered} (hlow : low ∈ x) (hhigh : high ∈ x) (hbound : ∀ v ∈ x, low ≤ v ∧ v ≤ high) :
    ∃ splits, uniform_row32 fusion x num_bins = some (splits, num_bins - 1) ∧ splits.length = num_bins - 1 ∧
      ∀ k (hk : k < splits.length), splits[k] = toOrdered (mulAdd fusion (ofOrdered low)
        (1 - ((k + 1 : Nat) : Binary32) / (num_bins : Binary32)) (ofOrdered high)
        (((k + 1 : Nat) : Binary32) / (num_bins : Binary32))) := by
  have hmin : x.min? = some low := List.min?_eq_some_iff.2 ⟨hlow, fun v hv => (hbound v hv).1⟩
  have hmax : x.max? = some high := List.max?_eq_some_iff.2 ⟨hhigh, fun v hv => (hbound v hv).2⟩
  set splits := (((Binary32.linspace fusion (ofOrdered low) (ofOrdered high) num_bins).map toOrdered).drop 1).dropLast with hsp
  have hlen : splits.length = num_bins - 1 := by simp [hsp, Binary32.linspace]
  have hbits : astype (minimal_unsigned_dtype (num_bins - 1)) (num_bins - 1) = num_bins - 1 :=
    Nat.mod_eq_of_lt (minimal_fits (by omega) (by omega))
  have hguard : (splits.length : Int) = (num_bins : Int) - 1 := by omega
  refine ⟨splits, ?_, hlen, ?_⟩
  · unfold uniform_row32
    simp only [hmin, hmax, Option.bind_eq_bind, Option.bind_some, Option.pure_def]
    rw [← hsp]
    simp only [hguard, guard, if_true, Option.pure_def, Option.bind_some, hbits]
  · intro k hk
    simp only [hsp, List.getElem_dropLast, List.getElem_drop, List.getElem_map, Binary32.linspace]
    rw [List.getElem_append_left (by simp; omega), List.getElem_map, List.getElem_range, Nat.add_comm 1 k]

/-- C82, whatever the precision of the grid: it has the right length, the binning is monotone, and each value is in the bin it is
assigned to, i.e., `splits[i - 1] < x <= splits[i]`. -/
theorem C82_bins (fusion : Fusion) {x : List Ordered} (hx : x ≠ []) {num_bins : Nat} (hn : 1 ≤ num_bins)
    (h64 : num_bins < 2 ^ 64) :
    ∃ splits, uniform_row32 fusion x num_bins = some (splits, num_bins - 1) ∧ splits.length = num_bins - 1 ∧
      ∀ test : List Ordered, ∃ b : List Nat, bin_row test splits = b ∧ b.length = test.length ∧
        (∀ i (h : i < test.length) (h' : i < b.length), InBin splits test[i] b[i]) ∧
        (∀ i j (hi : i < test.length) (hj : j < test.length) (hi' : i < b.length) (hj' : j < b.length),
          test[i] ≤ test[j] → b[i] ≤ b[j]) := by
  obtain ⟨low, hlow⟩ : ∃ low, x.min? = some low := by
    cases x with
    | nil => exact absurd rfl hx
    | cons a x => exact ⟨_, rfl⟩
  obtain ⟨high, hhigh⟩ : ∃ high, x.max? = some high := by
    cases x with
    | nil => exact absurd rfl hx
    | cons a x => exact ⟨_, rfl⟩
  have h1 := List.min?_eq_some_iff.1 hlow
  have h2 := List.max?_eq_some_iff.1 hhigh
  obtain ⟨splits, e1, e2, -⟩ := uniform_row32_eq fusion hn h64 h1.1 h2.1 (fun v hv => ⟨h1.2 v hv, h2.2 v hv⟩)
  refine ⟨splits, e1, e2, fun test => ⟨_, bin_row_eq test splits (by omega), by simp, fun i h h' => ?_, fun i j hi hj hi' hj' hij => ?_⟩⟩
  · rw [List.getElem_map]
    exact searchsorted_inBin splits _
  · rw [List.getElem_map, List.getElem_map]
    exact searchsortedLeft_mono (fun s hs => decide_eq_true (lt_of_lt_of_le (of_decide_eq_true hs) hij)) splits

/-- C82, partial: in single precision, if the range of the predictor divided by the number of bins is at least
`M / 2 ** 20`, where `M` is the maximum absolute value of the predictor, and `M` is not subnormal or larger than `2 ** 125`, then
`uniform_splits_from_matrix` produces `num_bins - 1` cutpoints in increasing order, strictly inbetween the minimum and the maximum
of the predictor, and at most `7 * M / 2 ** 24` away from the evenly spaced ones. Each decision rule on the bin of a value is
equivalent to the decision rule on the value, and the minimum and maximum are in the first and last bin.

What is missing is the case of a smaller range, in which the property does not hold (`C82_unsorted`, `C82_constant`). -/
theorem C82_uniform_partial (fusion : Fusion) {x : List Ordered} {num_bins : Nat} (hn : 1 ≤ num_bins)
    {low high : Ordered} (hlow : low ∈ x) (hhigh : high ∈ x) (hbound : ∀ v ∈ x, low ≤ v ∧ v ≤ high)
    (hfin : ∀ v ∈ x, v.val.natAbs < infBits) {M : ℝ} (hM : 1 / 2 ^ 126 ≤ M) (hM' : M ≤ 2 ^ 125)
    (h1 : |real low| ≤ M) (h2 : |real high| ≤ M) (hrange : num_bins * M ≤ (real high - real low) * 2 ^ 20) :
    ∃ splits, uniform_row32 fusion x num_bins = some (splits, num_bins - 1) ∧ splits.length = num_bins - 1 ∧
      splits.Pairwise (· < ·) ∧ (∀ c ∈ splits, low < c ∧ c < high) ∧
      (∀ k (hk : k < splits.length),
        |real splits[k] - (real low + (real high - real low) * ((k + 1 : Nat) / num_bins))| ≤ 7 * (M / 2 ^ 24)) ∧
      bin_row [low, high] splits = [0, num_bins - 1] ∧
      ∀ v : Ordered, ∃ b, bin_row [v] splits = [b] ∧
        ∀ s (_ : 1 ≤ s) (hs : s ≤ splits.length), s ≤ b ↔ splits[s - 1]'(by omega) < v := by
  have hM0 : 0 < M := lt_of_lt_of_le (by positivity) hM
  have hN0 : (0 : ℝ) < num_bins := Nat.cast_pos.2 hn
  have hN : num_bins ≤ 2 ^ 21 := by
    have e1 : real high - real low ≤ 2 * M := by
      rw [abs_le] at h1 h2
      linarith
    have e2 : (num_bins : ℝ) * M ≤ 2 ^ 21 * M := by linarith
    have e3 := le_of_mul_le_mul_right e2 hM0
    exact_mod_cast e3
  have hN24 : num_bins ≤ 2 ^ 24 := hN.trans (by norm_num)
  obtain ⟨splits, g1, g2, g3⟩ := uniform_row32_eq fusion hn (by omega) hlow hhigh hbound
  have herr : ∀ k (hk : k < splits.length),
      |real splits[k] - (real low + (real high - real low) * ((k + 1 : Nat) / num_bins))| ≤ 7 * (M / 2 ^ 24) := by
    intro k hk
    obtain ⟨f, e⟩ := grid_error fusion (ofOrdered_finite (hfin low hlow)) (ofOrdered_finite (hfin high hhigh)) hM hM' h1 h2
      (k := k + 1) (n := num_bins) (by omega) hn hN24
    rw [g3 k hk, real_toOrdered f]
    exact e
  -- the spacing of the grid
  obtain ⟨δ, hδ⟩ : ∃ δ, δ = (real high - real low) / num_bins := ⟨_, rfl⟩
  have hspace : 16 * (M / 2 ^ 24) ≤ δ := by
    rw [hδ, le_div_iff₀ hN0]
    linarith
  have hMu : 0 < M / 2 ^ 24 := by positivity
  have htot : δ * num_bins = real high - real low := by rw [hδ, div_mul_cancel₀ _ hN0.ne']
  have hgrid : ∀ k : Nat, (real high - real low) * ((k : ℝ) / num_bins) = k * δ := by
    intro k; rw [hδ]; ring
  have herr' : ∀ k (hk : k < splits.length), |real splits[k] - (real low + (k + 1) * δ)| ≤ 7 * (M / 2 ^ 24) := by
    intro k hk
    have := herr k hk
    rw [hgrid, Nat.cast_succ] at this
    exact this
  have hsort : splits.Pairwise (· < ·) := by
    rw [List.pairwise_iff_getElem]
    intro i j hi hj hij
    rw [real_lt]
    have a1 := (abs_le.1 (herr' i hi)).2
    have a2 := (abs_le.1 (herr' j hj)).1
    have a3 : ((i : ℝ) + 1) * δ + δ ≤ (j + 1) * δ := by
      have : (i : ℝ) + 1 ≤ j := by exact_mod_cast hij
      have := mul_le_mul_of_nonneg_right this (show 0 ≤ δ by linarith)
      linarith
    linarith
  have hin : ∀ c ∈ splits, low < c ∧ c < high := by
    intro c hc
    obtain ⟨k, hk, rfl⟩ := List.getElem_of_mem hc
    rw [real_lt, real_lt]
    have a1 := abs_le.1 (herr' k hk)
    have a2 : 0 ≤ (k : ℝ) * δ := mul_nonneg (Nat.cast_nonneg _) (by linarith)
    have a3 : ((k : ℝ) + 1) * δ + δ ≤ num_bins * δ := by
      have : (k : ℝ) + 1 + 1 ≤ num_bins := by
        have : k + 1 + 1 ≤ num_bins := by omega
        exact_mod_cast this
      have := mul_le_mul_of_nonneg_right this (show 0 ≤ δ by linarith)
      linarith
    constructor <;> linarith
  have hle : splits.Pairwise (· ≤ ·) := hsort.imp fun h => h.le
  have hbin : ∀ v : Ordered, bin_row [v] splits = [searchsortedLeft (fun s => decide (s < v)) splits] := fun v => by
    rw [bin_row_eq _ _ (by omega)]; rfl
  refine ⟨splits, g1, g2, hsort, hin, herr, ?_, fun v => ⟨_, hbin v, fun s h1 h2 => C12_decision hle (searchsorted_inBin splits v) h1 h2⟩⟩
  rw [bin_row_eq _ _ (by omega), List.map_cons, List.map_cons, List.map_nil]
  have e1 : searchsortedLeft (fun s => decide (s < low)) splits = 0 :=
    (searchsorted_iff hle _ _).2 ⟨Nat.zero_le _, fun c h0 => absurd h0 (lt_irrefl 0),
      fun c hc => (hin c (List.mem_of_getElem? hc)).1.le⟩
  have e2 : searchsortedLeft (fun s => decide (s < high)) splits = num_bins - 1 :=
    (searchsorted_iff hle _ _).2 ⟨by omega, fun c _ hc => (hin c (List.mem_of_getElem? hc)).2, fun c hc => by
      rw [List.getElem?_eq_none (by omega)] at hc
      exact absurd hc (by simp)⟩
  rw [e1, e2]

/-! ### Counterexamples -/

namespace ExM

/-- the numbers 10000000, 10000006, 10000092, 10000100 -/
def codes : List Ordered := [f (0x4b000000 + 1611392), f (0x4b000000 + 1611398), f (0x4b000000 + 1611484), f (0x4b000000 + 1611492)]

theorem codes_eq : codes.map ofOrdered = [((10000000 : Nat) : Binary32), ((10000006 : Nat) : Binary32),
    ((10000092 : Nat) : Binary32), ((10000100 : Nat) : Binary32)] := by decide +kernel

/-- a constant predictor, 2023 -/
def year : List Ordered := [f 0x44fce000, f 0x44fce000]

theorem year_eq : year.map ofOrdered = [((2023 : Nat) : Binary32), ((2023 : Nat) : Binary32)] := by decide +kernel

/-- the numbers 1, 0.5, 1 have minimum 0.5 and maximum 1 -/
theorem usual_bound : ∀ v ∈ usual, f 0x3f000000 ≤ v ∧ v ≤ f 0x3f800000 := by decide +kernel

theorem real_half : real (f 0x3f000000) = 1 / 2 := by
  have : sval (0x3f000000 : Int) = 2 ^ 148 := by decide +kernel
  rw [real_eq]
  show (sval (0x3f000000 : Int) : ℝ) / 2 ^ 149 = 1 / 2
  rw [this, Int.cast_pow, Int.cast_ofNat, div_eq_div_iff (by positivity) (by norm_num), one_mul, ← pow_succ]

theorem real_one : real (f 0x3f800000) = 1 := by
  have : sval (0x3f800000 : Int) = 2 ^ 149 := by decide +kernel
  rw [real_eq]
  show (sval (0x3f800000 : Int) : ℝ) / 2 ^ 149 = 1
  rw [this, Int.cast_pow, Int.cast_ofNat, div_self (by positivity)]

end ExM

/-- **C82, negation**: with the predictor 10000000, 10000006, 10000092, 10000100 and 256 bins (the default of `gbart`), the
cutpoints are not sorted, and there is a value of the predictor and a cutpoint which is not lower than the value, although the
corresponding decision rule applied to the bin of the value says that it is, or viceversa. This happens in all the ways the compiler
may evaluate the grid. -/
theorem C82_unsorted (fusion : Fusion) : ∃ splits max_split, uniform_row32 fusion ExM.codes 256 = some (splits, max_split) ∧
    ¬ splits.Pairwise (· ≤ ·) ∧
    ∃ v ∈ ExM.codes, ∃ b s c, bin_row [v] splits = [b] ∧ 1 ≤ s ∧ s ≤ max_split ∧ splits[s - 1]? = some c ∧ ¬ (s ≤ b ↔ c < v) := by
  obtain ⟨o, ho, h1, h2⟩ : ∃ o ∈ uniform_row32 fusion ExM.codes 256, ¬ o.1.IsChain (· ≤ ·) ∧
      ∃ v ∈ ExM.codes, ∃ s ∈ List.range o.2, ∃ b ∈ (bin_row [v] o.1)[0]?, ∃ c ∈ o.1[s]?, ¬ (s + 1 ≤ b ↔ c < v) := by
    cases fusion <;> decide +kernel
  obtain ⟨v, hv, s, hs, b, hb, c, hc, h3⟩ := h2
  refine ⟨o.1, o.2, ho, fun h => h1 h.isChain, v, hv, b, s + 1, c, ?_, by omega, List.mem_range.1 hs, hc, h3⟩
  have hl : (bin_row [v] o.1).length = 1 := by unfold bin_row; rw [List.length_map]; rfl
  obtain ⟨b', e⟩ := List.length_eq_one_iff.1 hl
  rw [e] at hb ⊢
  cases hb
  rfl

/-- **C82, negation**: with a constant predictor equal to 2023 and 101 bins, the cutpoints are not sorted, and some of them are lower and
higher than the value, although they should be inbetween the minimum and the maximum. -/
theorem C82_constant (fusion : Fusion) : ∃ splits max_split, uniform_row32 fusion ExM.year 101 = some (splits, max_split) ∧
    ¬ splits.Pairwise (· ≤ ·) ∧ (∃ c ∈ splits, ∀ v ∈ ExM.year, c < v) ∧ (∃ c ∈ splits, ∀ v ∈ ExM.year, v < c) := by
  obtain ⟨o, ho, h1, h2, h3⟩ : ∃ o ∈ uniform_row32 fusion ExM.year 101, ¬ o.1.IsChain (· ≤ ·) ∧
      (∃ c ∈ o.1, ∀ v ∈ ExM.year, c < v) ∧ (∃ c ∈ o.1, ∀ v ∈ ExM.year, v < c) := by
    cases fusion <;> decide +kernel
  exact ⟨o.1, o.2, ho, fun h => h1 h.isChain, h2, h3⟩

-- `C82_uniform_partial` applies to the numbers 1, 0.5, 1, with 256 bins
example (fusion : Fusion) := C82_uniform_partial fusion (x := ExM.usual) (num_bins := 256) (by norm_num)
  (low := ExM.f 0x3f000000) (high := ExM.f 0x3f800000) (by decide +kernel) (by decide +kernel) ExM.usual_bound (by decide +kernel)
  (M := 1) (by norm_num) (by norm_num) (by rw [ExM.real_half]; norm_num [abs_le]) (by rw [ExM.real_one]; norm_num)
  (by rw [ExM.real_half, ExM.real_one]; norm_num)

example (fusion : Fusion) := C82_bins fusion (x := ExM.codes) (by decide) (num_bins := 256) (by norm_num) (by norm_num)

-- the cutpoints 0.625, 0.75, 0.875
example (fusion : Fusion) : uniform_row32 fusion ExM.usual 4 =
    some ([ExM.f 0x3f200000, ExM.f 0x3f400000, ExM.f 0x3f600000], 3) := by
  cases fusion <;> decide +kernel

end Bartz
