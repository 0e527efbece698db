import Verif.Spec.Choice32
import Verif.Lemmas.SumError
import Verif.Lemmas.Sampling
import Verif.Lemmas.Drift
import Mathlib.Algebra.Order.Floor.Semiring
/-! # Probability of the choices made by `categorical` in single precision -/

set_option autoImplicit false

namespace Bartz
open Jax Spec Jax.Binary32

theorem bitsProb_eq (p : Fin (2 ^ 23) → Prop) [DecidablePred p] :
    bitsProb p = ((Finset.univ.filter p).card : ℝ) / 2 ^ 23 := by
  unfold bitsProb
  have : (@Finset.filter _ p (fun a => Classical.propDecidable (p a)) Finset.univ) = Finset.univ.filter p := by
    ext k; simp
  rw [this]

/-- number of integers in an interval -/
theorem card_between {N : Nat} (s : Finset (Fin N)) {A B : ℝ} (h : ∀ k ∈ s, A ≤ (k.val : ℝ) ∧ (k.val : ℝ) ≤ B) :
    (s.card : ℝ) ≤ max 0 (B - A + 1) := by
  classical
  rcases s.eq_empty_or_nonempty with rfl | ⟨k₀, hk₀⟩
  · simp
  refine le_max_of_le_right ?_
  have hsub : s.map Fin.valEmbedding ⊆ Finset.Icc ⌈A⌉₊ ⌊B⌋₊ := by
    intro k hk
    obtain ⟨k', hk', rfl⟩ := Finset.mem_map.1 hk
    rw [Finset.mem_Icc]
    exact ⟨Nat.ceil_le.2 (h k' hk').1, Nat.le_floor (h k' hk').2⟩
  have hcard := Finset.card_le_card hsub
  rw [Finset.card_map, Nat.card_Icc] at hcard
  have hle : ⌈A⌉₊ ≤ ⌊B⌋₊ := (Nat.ceil_le.2 (h k₀ hk₀).1).trans (Nat.le_floor (h k₀ hk₀).2)
  have hB : (0 : ℝ) ≤ B := (Nat.cast_nonneg _).trans (h k₀ hk₀).2
  have h1 : (s.card : ℝ) + ⌈A⌉₊ ≤ ⌊B⌋₊ + 1 := by
    have : s.card + ⌈A⌉₊ ≤ ⌊B⌋₊ + 1 := by omega
    exact_mod_cast this
  have h2 := Nat.le_ceil A
  have h3 := Nat.floor_le hB
  linarith

theorem toReal_le {x y : Binary32} (h : le x y = true) : Binary32.toReal x ≤ Binary32.toReal y := by
  cases x with
  | nan => cases h
  | num s b =>
    cases y with
    | nan => cases h
    | num s' b' =>
      unfold Binary32.toReal
      have := value_mono (of_decide_eq_true h : signedBits s b ≤ signedBits s' b')
      exact div_le_div_of_nonneg_right (by exact_mod_cast this) (by positivity)

theorem toReal_le_of_not {x y : Binary32} (hx : Binary32.Finite x) (hy : Binary32.Finite y) (h : le x y = false) :
    Binary32.toReal y ≤ Binary32.toReal x := by
  cases x with
  | nan => exact hx.elim
  | num s b =>
    cases y with
    | nan => exact hy.elim
    | num s' b' =>
      unfold Binary32.toReal
      have h1 : ¬ signedBits s b ≤ signedBits s' b' := of_decide_eq_false h
      have := value_mono (le_of_not_ge h1)
      exact div_le_div_of_nonneg_right (by exact_mod_cast this) (by positivity)

theorem uniform_error (k : Fin (2 ^ 23)) {S : Binary32} (hf : Binary32.Finite S) (h : 1 / 2 ^ 126 ≤ Binary32.toReal S)
    (h' : Binary32.toReal S ≤ 2 ^ 127) :
    Binary32.Finite (uniform k S) ∧
      |Binary32.toReal (uniform k S) - k.val * Binary32.toReal S / 2 ^ 23| ≤ Binary32.toReal S / 2 ^ 24 := by
  cases S with
  | nan => exact hf.elim
  | num s b =>
    have hp : (0 : ℝ) < 2 ^ 149 := by positivity
    have hs : s = false := by
      cases s with
      | false => rfl
      | true =>
        exfalso
        have h0 : (0 : ℝ) < 1 / 2 ^ 126 := by positivity
        have : Binary32.toReal (num true b) ≤ 0 := by
          rw [toReal_num]
          have : (0 : ℝ) ≤ (mag b : ℝ) / 2 ^ 149 := by positivity
          simp only [if_true, neg_div]
          linarith
        linarith
    subst hs
    rw [uniform_eq k hf]
    have e : Binary32.toReal (num false b) = (mag b : ℝ) / 2 ^ 149 := by rw [toReal_num]; simp
    rw [e] at h h' ⊢
    rw [div_le_iff₀ hp, ← pow_add] at h'
    rw [le_div_iff₀ hp] at h
    have h23 : (2 : ℝ) ^ 23 ≤ mag b := by
      refine le_trans (le_of_eq ?_) h
      rw [show (149 : Nat) = 126 + 23 from rfl, pow_add, ← mul_assoc, one_div, inv_mul_cancel₀ (by positivity), one_mul]
    have hk : ((k.val * mag b : Nat) : ℝ) / ((2 ^ 23 : Nat) : ℝ) ≤ mag b := by
      rw [div_le_iff₀ (by positivity)]
      have : k.val * mag b ≤ mag b * 2 ^ 23 := by
        rw [Nat.mul_comm]; exact Nat.mul_le_mul_left _ k.isLt.le
      exact_mod_cast this
    obtain ⟨h1, h2⟩ := roundRat_error (n := k.val * mag b) (d := 2 ^ 23) (by positivity) (hk.trans h')
    refine ⟨h1, ?_⟩
    generalize roundRat (k.val * mag b) (2 ^ 23) = c at h2 ⊢
    have e2 : Binary32.toReal (num false c) = (mag c : ℝ) / 2 ^ 149 := by rw [toReal_num]; simp
    have h3 := h2.trans (div_le_div_of_nonneg_right (max_le hk h23) (by positivity))
    have e3 : (mag c : ℝ) / 2 ^ 149 - (k.val : ℝ) * ((mag b : ℝ) / 2 ^ 149) / 2 ^ 23 =
        ((mag c : ℝ) - ((k.val * mag b : Nat) : ℝ) / ((2 ^ 23 : Nat) : ℝ)) / 2 ^ 149 := by
      rw [Nat.cast_mul, Nat.cast_pow, Nat.cast_ofNat]
      generalize (2 : ℝ) ^ 149 = p
      ring
    rw [e2, e3, abs_div, abs_of_pos hp, div_right_comm]
    exact div_le_div_of_nonneg_right h3 hp.le

/-- cumulative sums of a function -/
theorem cumsum_range (ω : Nat → ℝ) (n i : Nat) (hi : i < n) :
    (cumsum ((List.range n).map ω))[i]'(by rw [length_cumsum]; simpa using hi) = ∑ j ∈ Finset.range (i + 1), ω j := by
  induction i with
  | zero => rw [cumsum_getElem_zero _ (by simpa using hi)]; simp
  | succ i ih => rw [cumsum_getElem_succ _ i (by simpa using hi), ih (by omega), Finset.sum_range_succ _ (i + 1)]; simp

theorem near_zero {x : Binary32} {v : ℝ} (h : HasValue x v) (h0 : 0 ≤ v) : Near 0 x v := by
  rw [hasValue_iff] at h
  exact ⟨h0, fun _ => ⟨h.1, by simp [h.2], by simp [h.2]⟩⟩

section
variable [Binary32.Platform] {draw : Fin (2 ^ 23) → Draws Binary32} {w : List Binary32} {ω : Nat → ℝ} {D : Nat}

/-- what is known about the cumulative sums -/
structure CumsumOk (w : List Binary32) (ω : Nat → ℝ) (D : Nat) : Prop where
  length : (Platform.cumsum w).length = w.length
  finite : ∀ i (h : i < (Platform.cumsum w).length), Binary32.Finite (Platform.cumsum w)[i]
  lower : ∀ i (h : i < (Platform.cumsum w).length), (∑ j ∈ Finset.range (i + 1), ω j) * (1 - 2 * D / 2 ^ 24) ≤
    Binary32.toReal (Platform.cumsum w)[i]
  upper : ∀ i (h : i < (Platform.cumsum w).length), Binary32.toReal (Platform.cumsum w)[i] ≤
    (∑ j ∈ Finset.range (i + 1), ω j) * (1 + 2 * D / 2 ^ 24)

theorem cumsumOk (h0 : ∀ i, i < w.length → 0 ≤ ω i)
    (hc : List.Forall₂ (Near D) (Platform.cumsum w) (cumsum ((List.range w.length).map ω)))
    (hD : D ≤ 2 ^ 21) (hW : ∑ j ∈ Finset.range w.length, ω j ≤ 2 ^ 126) : CumsumOk w ω D := by
  have hlen : (Platform.cumsum w).length = w.length := by rw [hc.length_eq, length_cumsum]; simp
  have key : ∀ i (h : i < (Platform.cumsum w).length), 0 ≤ ∑ j ∈ Finset.range (i + 1), ω j ∧ Binary32.Finite (Platform.cumsum w)[i] ∧
      (∑ j ∈ Finset.range (i + 1), ω j) * (1 - 1 / 2 ^ 24) ^ D ≤ Binary32.toReal (Platform.cumsum w)[i] ∧
      Binary32.toReal (Platform.cumsum w)[i] ≤ (∑ j ∈ Finset.range (i + 1), ω j) * (1 + 1 / 2 ^ 24) ^ D := by
    intro i h
    have hn := List.Forall₂.get hc h (by rw [← hc.length_eq]; exact h)
    simp only [List.get_eq_getElem] at hn
    rw [cumsum_range ω w.length i (by omega)] at hn
    refine ⟨hn.1, hn.2 ?_⟩
    have h1 : ∑ j ∈ Finset.range (i + 1), ω j ≤ ∑ j ∈ Finset.range w.length, ω j := by
      refine Finset.sum_le_sum_of_subset_of_nonneg (Finset.range_mono (by omega)) fun j hj _ => ?_
      exact h0 j (Finset.mem_range.1 hj)
    have h2 := one_add_pow_le D (by omega)
    have h3 : (D : ℝ) ≤ 2 ^ 21 := by exact_mod_cast hD
    have h4 : (1 + 1 / 2 ^ 24 : ℝ) ^ D ≤ 2 := by
      refine h2.trans ?_
      have : 2 * (D : ℝ) / 2 ^ 24 ≤ 1 := by rw [div_le_one (by positivity)]; linarith
      linarith
    have h5 : (0 : ℝ) ≤ (1 + 1 / 2 ^ 24 : ℝ) ^ D := by positivity
    calc (∑ j ∈ Finset.range (i + 1), ω j) * (1 + 1 / 2 ^ 24) ^ D ≤ 2 ^ 126 * 2 :=
          mul_le_mul (h1.trans hW) h4 h5 (by positivity)
      _ = 2 ^ 127 := by rw [← pow_succ]
  refine ⟨hlen, fun i h => (key i h).2.1, fun i h => ?_, fun i h => ?_⟩
  · exact (mul_le_mul_of_nonneg_left (le_one_sub_pow D) (key i h).1).trans (key i h).2.2.1
  · exact (key i h).2.2.2.trans (mul_le_mul_of_nonneg_left (one_add_pow_le D (by omega)) (key i h).1)

theorem total_bounds (hc : CumsumOk w ω D) (hD : D ≤ 2 ^ 21) (hw : 0 < w.length)
    (hW1 : 1 / 2 ^ 125 ≤ ∑ j ∈ Finset.range w.length, ω j) (hW2 : ∑ j ∈ Finset.range w.length, ω j ≤ 2 ^ 126) :
    Binary32.Finite (last (Platform.cumsum w)) ∧ 1 / 2 ^ 126 ≤ Binary32.toReal (last (Platform.cumsum w)) ∧
      Binary32.toReal (last (Platform.cumsum w)) ≤ 2 ^ 127 ∧
      (∑ j ∈ Finset.range w.length, ω j) * (1 - 2 * D / 2 ^ 24) ≤ Binary32.toReal (last (Platform.cumsum w)) := by
  have hl := hc.length
  rw [last_eq _ (by omega)]
  have h1 := hc.lower ((Platform.cumsum w).length - 1) (by omega)
  have h2 := hc.upper ((Platform.cumsum w).length - 1) (by omega)
  rw [show (Platform.cumsum w).length - 1 + 1 = w.length by omega] at h1 h2
  refine ⟨hc.finite _ _, ?_, ?_, h1⟩
  all_goals
    have h3 : (D : ℝ) ≤ 2 ^ 21 := by exact_mod_cast hD
    have h4 : 2 * (D : ℝ) / 2 ^ 24 ≤ 1 / 4 := by rw [div_le_iff₀ (by positivity)]; linarith
    set W := ∑ j ∈ Finset.range w.length, ω j
    have hW0 : 0 < W := lt_of_lt_of_le (by positivity) hW1
  · refine le_trans ?_ h1
    have e : (1 : ℝ) / 2 ^ 126 = 1 / 2 ^ 125 * (1 / 2) := by
      rw [pow_succ]; ring
    rw [e]
    exact mul_le_mul hW1 (by linarith) (by norm_num) hW0.le
  · refine h2.trans ?_
    calc W * (1 + 2 * D / 2 ^ 24) ≤ 2 ^ 126 * 2 := mul_le_mul hW2 (by linarith) (by positivity) (by positivity)
      _ = 2 ^ 127 := by rw [← pow_succ]

theorem categorical_lt (hdraw : UsesBits draw) (hc : CumsumOk w ω D) (hD : D ≤ 2 ^ 21) (hw : 0 < w.length)
    (hW1 : 1 / 2 ^ 125 ≤ ∑ j ∈ Finset.range w.length, ω j) (hW2 : ∑ j ∈ Finset.range w.length, ω j ≤ 2 ^ 126)
    (k : Fin (2 ^ 23)) : (categorical (draw k) w).1 < w.length := by
  obtain ⟨hf, hS1, hS2, -⟩ := total_bounds hc hD hw hW1 hW2
  have hl := hc.length
  unfold categorical
  dsimp only
  rw [hdraw]
  have h1 : FltFun.leb FltFun.tiny (last (Platform.cumsum w)) = true := by
    by_contra hcon
    rw [Bool.not_eq_true] at hcon
    have h2 : Binary32.Finite (FltFun.tiny : Binary32) := by show (0x00800000 : Nat) < infBits; decide
    cases hS : last (Platform.cumsum w) with
    | nan => rw [hS] at hf; exact hf
    | num s b =>
      rw [hS] at hS1 hcon
      have h3 : ¬ signedBits false ⟨0x00800000, by decide⟩ ≤ signedBits s b := of_decide_eq_false hcon
      cases s with
      | true =>
        rw [toReal_num] at hS1
        have h0 : (0 : ℝ) < 1 / 2 ^ 126 := by positivity
        have : (0 : ℝ) ≤ (mag b : ℝ) / 2 ^ 149 := by positivity
        simp only [if_true, neg_div] at hS1
        linarith
      | false =>
        have h4 : ¬ ((0x00800000 : Nat) : Int) ≤ (b.val : Int) := h3
        have h5 : mag b < 2 ^ 23 := by
          have : b.val < 2 ^ 23 := by omega
          rw [mag_subnormal this.le]
          exact this
        rw [toReal_num] at hS1
        simp only [Bool.false_eq_true, if_false] at hS1
        rw [le_div_iff₀ (by positivity)] at hS1
        have h6 : (2 : ℝ) ^ 23 ≤ mag b := by
          refine le_trans (le_of_eq ?_) hS1
          rw [show (149 : Nat) = 126 + 23 from rfl, pow_add, ← mul_assoc, one_div, inv_mul_cancel₀ (by positivity), one_mul]
        have : (2 : Nat) ^ 23 ≤ mag b := by exact_mod_cast h6
        omega
  have h2 : FltFun.isFinite (last (Platform.cumsum w)) = true := by
    cases hS : last (Platform.cumsum w) with
    | nan => rw [hS] at hf; exact hf.elim
    | num s b => rw [hS] at hf; exact decide_eq_true hf
  have h3 := (uniform_lawful k _ h1 h2).2
  rw [← hl]
  refine searchsortedRight_lt_of_last _ _ (by show 0 < (Platform.cumsum w).length; omega) ?_
  show FltFun.leb ((Platform.cumsum w)[(Platform.cumsum w).length - 1]'_) _ = false
  rw [← last_eq _ (by omega)]
  exact h3

/-- upper bound to the probability of each choice -/
theorem categorical_prob_le (hdraw : UsesBits draw) (h0 : ∀ i, i < w.length → 0 ≤ ω i) (hc : CumsumOk w ω D) (hD : D ≤ 2 ^ 21)
    (hW1 : 1 / 2 ^ 125 ≤ ∑ j ∈ Finset.range w.length, ω j) (hW2 : ∑ j ∈ Finset.range w.length, ω j ≤ 2 ^ 126)
    {i : Nat} (hi : i < w.length) :
    bitsProb (fun k => (categorical (draw k) w).1 = i) ≤ ω i / (∑ j ∈ Finset.range w.length, ω j) + (2 * D + 1) / 2 ^ 22 := by
  classical
  obtain ⟨hf, hS1, hS2, hS3⟩ := total_bounds hc hD (by omega) hW1 hW2
  have hl := hc.length
  set S := Binary32.toReal (last (Platform.cumsum w)) with hS
  set W := ∑ j ∈ Finset.range w.length, ω j with hWdef
  have hS0 : 0 < S := lt_of_lt_of_le (by positivity) hS1
  have hW0 : 0 < W := lt_of_lt_of_le (by positivity) hW1
  -- the previous cumulative sum
  obtain ⟨l, hl1, hl2⟩ : ∃ l : ℝ, (∑ j ∈ Finset.range i, ω j) * (1 - 2 * D / 2 ^ 24) ≤ l ∧
      ∀ k : Fin (2 ^ 23), (categorical (draw k) w).1 = i → l ≤ Binary32.toReal (uniform k (last (Platform.cumsum w))) ∨ l = 0 := by
    rcases Nat.eq_zero_or_pos i with h1 | h1
    · subst h1
      exact ⟨0, by simp, fun k _ => Or.inr rfl⟩
    · refine ⟨Binary32.toReal ((Platform.cumsum w)[i - 1]'(by omega)), ?_, fun k hk => Or.inl ?_⟩
      · have := hc.lower (i - 1) (by omega)
        rwa [show i - 1 + 1 = i by omega] at this
      · unfold categorical at hk
        dsimp only at hk
        rw [hdraw] at hk
        have h2 := (searchsortedRight_spec (fun x => FltFun.leb x (uniform k (last (Platform.cumsum w)))) (Platform.cumsum w)).2.2
        have hk' : searchsortedRight (fun x => FltFun.leb x (uniform k (last (Platform.cumsum w)))) (Platform.cumsum w) = i := hk
        obtain ⟨h3, h4⟩ := h2 (by omega)
        simp only [hk'] at h4
        exact toReal_le h4
  have hcount := card_between (Finset.univ.filter fun k : Fin (2 ^ 23) => (categorical (draw k) w).1 = i)
    (A := l * 2 ^ 23 / S - 1 / 2) (B := Binary32.toReal ((Platform.cumsum w)[i]'(by omega)) * 2 ^ 23 / S + 1 / 2) (by
      intro k hk
      have hk := (Finset.mem_filter.1 hk).2
      obtain ⟨hu1, hu2⟩ := uniform_error k hf hS1 hS2
      rw [← hS] at hu2
      have hab := abs_le.1 hu2
      have hkS : (k.val : ℝ) * S / 2 ^ 23 * (2 ^ 23 / S) = k.val := by field_simp
      have hpos : 0 < 2 ^ 23 / S := by positivity
      have hS24 : S / 2 ^ 24 * (2 ^ 23 / S) = 1 / 2 := by
        rw [show (24 : Nat) = 23 + 1 from rfl, pow_succ]; field_simp
      constructor
      · rcases hl2 k hk with h1 | h1
        · have h2 : l - S / 2 ^ 24 ≤ k.val * S / 2 ^ 23 := by linarith
          have h3 := mul_le_mul_of_nonneg_right h2 hpos.le
          rw [hkS, sub_mul, hS24] at h3
          rwa [mul_div_assoc]
        · rw [h1]
          have : (0 : ℝ) ≤ k.val := Nat.cast_nonneg _
          simp only [zero_mul, zero_div]
          linarith
      · unfold categorical at hk
        dsimp only at hk
        rw [hdraw] at hk
        have hk' : searchsortedRight (fun x => FltFun.leb x (uniform k (last (Platform.cumsum w)))) (Platform.cumsum w) = i := hk
        have h2 := (searchsortedRight_spec (fun x => FltFun.leb x (uniform k (last (Platform.cumsum w)))) (Platform.cumsum w)).2.1
          (by omega)
        simp only [hk'] at h2
        have h3 := toReal_le_of_not (hc.finite i (by omega)) hu1 h2
        have h4 : k.val * S / 2 ^ 23 ≤ Binary32.toReal ((Platform.cumsum w)[i]'(by omega)) + S / 2 ^ 24 := by linarith
        have h5 := mul_le_mul_of_nonneg_right h4 hpos.le
        rw [hkS, add_mul, hS24] at h5
        rwa [mul_div_assoc])
  have hup := hc.upper i (by omega)
  rw [Finset.sum_range_succ] at hup
  set c := Binary32.toReal ((Platform.cumsum w)[i]'(by omega))
  set C := ∑ j ∈ Finset.range i, ω j with hC
  have hωi := h0 i hi
  have hCω : C + ω i ≤ W := by
    rw [hC, hWdef, ← Finset.sum_range_succ]
    refine Finset.sum_le_sum_of_subset_of_nonneg (Finset.range_mono (by omega)) fun j hj _ => h0 j (Finset.mem_range.1 hj)
  have hC0 : 0 ≤ C := Finset.sum_nonneg fun j hj => h0 j (by have := Finset.mem_range.1 hj; omega)
  obtain ⟨g, hg⟩ : ∃ g : ℝ, g = 2 * D / 2 ^ 24 := ⟨_, rfl⟩
  have hg0 : 0 ≤ g := by rw [hg]; positivity
  have hg1 : g ≤ 1 / 4 := by
    have h3 : (D : ℝ) ≤ 2 ^ 21 := by exact_mod_cast hD
    rw [hg, div_le_iff₀ (by positivity)]; linarith
  rw [← hg] at hup hl1 hS3
  have eg : (2 * (D : ℝ) + 1) / 2 ^ 22 = 4 * g + 1 / 2 ^ 22 := by rw [hg]; ring
  have hr0 : 0 ≤ ω i / W := by positivity
  have hmain : (c - l) / S ≤ ω i / W + 4 * g := by
    rw [div_le_iff₀ hS0]
    have h1 : W * (1 - g) * (ω i / W + 4 * g) ≤ S * (ω i / W + 4 * g) :=
      mul_le_mul_of_nonneg_right hS3 (by positivity)
    have e1 : W * (1 - g) * (ω i / W + 4 * g) = (1 - g) * (ω i + 4 * g * W) := by field_simp
    rw [e1] at h1
    have h2 : c - l ≤ ω i + 2 * g * W := by nlinarith
    have h3 : ω i + 2 * g * W ≤ (1 - g) * (ω i + 4 * g * W) := by
      have h4 : g * ω i ≤ g * W := mul_le_mul_of_nonneg_left (by linarith) hg0
      have h5 : g * (4 * g * W) ≤ g * W := by
        refine mul_le_mul_of_nonneg_left ?_ hg0
        nlinarith
      linarith
    linarith
  rw [bitsProb_eq, div_le_iff₀ (by positivity)]
  have hcount' : ((Finset.univ.filter fun k : Fin (2 ^ 23) => (categorical (draw k) w).1 = i).card : ℝ) ≤
      (ω i / W + (2 * D + 1) / 2 ^ 22) * 2 ^ 23 := by
    refine hcount.trans (max_le (by positivity) ?_)
    have e2 : c * 2 ^ 23 / S + 1 / 2 - (l * 2 ^ 23 / S - 1 / 2) + 1 = ((c - l) / S + 1 / 2 ^ 22) * 2 ^ 23 := by ring
    rw [e2, eg]
    exact mul_le_mul_of_nonneg_right (by linarith) (by positivity)
  exact hcount'

end
end Bartz
