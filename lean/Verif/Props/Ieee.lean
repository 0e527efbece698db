import Verif.Lemmas.Ieee
/-!
# Conformance of the single precision arithmetic of the model to IEEE 754

The operations defined in `Model/Binary32` and `Model/Binning32` with integers satisfy, for all operands, the requirements of the
standard, written down in `Spec/Ieee` with real numbers. The requirements determine the results
(`ieee_result_unique`), so the theorems about single precision do not depend on details of those definitions.
-/

set_option autoImplicit false

namespace Bartz
open Jax Jax.Binary32 Spec Spec.Ieee

theorem inf_eq (s : Bool) : inf s = num s (clip infBits) := rfl

/-- what an operand can be -/
theorem ieee_cases (x : Binary32) : x = nan ∨ (∃ s, x = inf s) ∨ ∃ s v, IsFinite x s v := by
  cases x with
  | nan => exact .inl rfl
  | num s b =>
    rcases Nat.lt_or_ge b.val infBits with h | h
    · exact .inr (.inr ⟨s, _, isFinite_num s h⟩)
    · refine .inr (.inl ⟨s, ?_⟩)
      have hb : b = clip infBits := Fin.ext (by have := b.isLt; simp only [clip]; omega)
      rw [hb, inf_eq]

theorem not_finite_nan {s : Bool} {v : ℝ} : ¬ IsFinite nan s v := by
  intro h
  obtain ⟨b, h1, _⟩ := isFinite_iff h
  cases h1

theorem not_finite_inf {s s' : Bool} {v : ℝ} : ¬ IsFinite (inf s) s' v := by
  intro h
  obtain ⟨b, h1, h2, _⟩ := isFinite_iff h
  rw [inf_eq] at h1
  injection h1 with _ h3
  rw [← h3] at h2
  exact absurd h2 (by decide)

theorem clip_infBits : (clip infBits).val = infBits := by decide

theorem add_finite_eq {s s' : Bool} {b b' : Fin (infBits + 1)} (h : b.val < infBits) (h' : b'.val < infBits) :
    num s b + num s' b' = num (if value s b + value s' b' = 0 then s && s' else decide (value s b + value s' b' < 0))
      (roundRat (value s b + value s' b').natAbs 1) := by
  show add _ _ = _
  unfold add
  dsimp only
  rw [if_neg (by omega), if_neg (by omega)]

/-- **Addition** -/
theorem ieee_add (x y : Binary32) : IsSum x y (x + y) where
  nan := by
    rintro (rfl | rfl)
    · rfl
    · cases x <;> rfl
  inf_inf := by
    rintro s s' rfl rfl
    show add _ _ = _
    rw [inf_eq, inf_eq]
    unfold add
    dsimp only
    rw [if_pos clip_infBits, if_pos clip_infBits]
  inf_left := by
    rintro s s' v rfl hy
    obtain ⟨b, rfl, hb, _⟩ := isFinite_iff hy
    show add _ _ = _
    rw [inf_eq]
    unfold add
    dsimp only
    rw [if_pos clip_infBits, if_neg (by omega)]
  inf_right := by
    rintro s s' v hx rfl
    obtain ⟨b, rfl, hb, _⟩ := isFinite_iff hx
    show add _ _ = _
    rw [inf_eq]
    unfold add
    dsimp only
    rw [if_neg (by omega), if_pos clip_infBits]
  finite := by
    intro s s' v w hx hy
    obtain ⟨b, rfl, hb, e, _⟩ := isFinite_iff hx
    obtain ⟨b', rfl, hb', e', _⟩ := isFinite_iff hy
    rw [add_finite_eq hb hb']
    refine result_signed (by norm_num) (fun h => if_neg h) (fun h => if_pos h) ?_
    rw [e, e']
    push_cast
    ring

theorem neg_isFinite {x : Binary32} {s : Bool} {v : ℝ} (h : IsFinite x s v) : IsFinite (-x) (!s) (-v) := by
  obtain ⟨b, rfl, hb, e, _⟩ := isFinite_iff h
  have h1 := isFinite_num (!s) hb
  have e2 : -v = (value (!s) b : ℝ) / 2 ^ 149 := by
    rw [e]
    unfold value
    cases s
    · simp [neg_div]
    · simp [neg_div]
  rw [e2]
  exact h1

/-- **Negation** changes only the sign, also of zeros and infinities -/
theorem ieee_neg (x : Binary32) : (x = nan → -x = nan) ∧ (∀ s, x = inf s → -x = inf !s) ∧
    ∀ s v, IsFinite x s v → IsFinite (-x) (!s) (-v) :=
  ⟨fun h => by rw [h]; rfl, fun s h => by rw [h]; rfl, fun _ _ => neg_isFinite⟩

/-- **Subtraction** -/
theorem ieee_sub (x y : Binary32) : IsDifference x y (x - y) where
  nan := by
    intro h
    refine (ieee_add x (-y)).nan ?_
    rcases h with h | rfl
    · exact .inl h
    · exact .inr rfl
  inf_inf := by
    rintro s s' h rfl
    rw [show x - inf s' = x + inf (!s') from rfl, (ieee_add x (inf !s')).inf_inf s (!s') h rfl]
    cases s <;> cases s' <;> rfl
  inf_left := fun s s' v h hy => (ieee_add x (-y)).inf_left s _ _ h (neg_isFinite hy)
  inf_right := by
    rintro s s' v h rfl
    exact (ieee_add x (inf !s')).inf_right s (!s') v h rfl
  finite := by
    intro s s' v w hx hy
    rw [sub_eq_add_neg]
    exact (ieee_add x (-y)).finite s (!s') v (-w) hx (neg_isFinite hy)

/-- **Multiplication** -/
theorem ieee_mul (x y : Binary32) : IsProduct x y (x * y) where
  nan := by
    rintro (rfl | rfl)
    · rfl
    · cases x <;> rfl
  inf_inf := by
    rintro s s' rfl rfl
    show mul _ _ = _
    rw [inf_eq, inf_eq, inf_eq]
    unfold mul
    dsimp only
    rw [if_pos (.inl clip_infBits), if_neg (by decide)]
  inf_left := by
    rintro s s' v rfl hy
    obtain ⟨b, rfl, hb, _, h0⟩ := isFinite_iff hy
    show mul _ _ = _
    rw [inf_eq, inf_eq]
    unfold mul
    dsimp only
    rw [if_pos (.inl clip_infBits)]
    refine if_congr ?_ rfl rfl
    rw [h0, or_iff_right]
    rw [clip_infBits]; decide
  inf_right := by
    rintro s s' v hx rfl
    obtain ⟨b, rfl, hb, _, h0⟩ := isFinite_iff hx
    show mul _ _ = _
    rw [inf_eq, inf_eq]
    unfold mul
    dsimp only
    rw [if_pos (.inr clip_infBits)]
    refine if_congr ?_ rfl rfl
    rw [h0, or_iff_left]
    rw [clip_infBits]; decide
  finite := by
    intro s s' v w hx hy
    obtain ⟨b, rfl, hb, e, _⟩ := isFinite_iff hx
    obtain ⟨b', rfl, hb', e', _⟩ := isFinite_iff hy
    obtain ⟨v1, v2⟩ := value_mul s s' b b'
    have e1 : num s b * num s' b' = num (xor s s') (roundRat (value s b * value s' b').natAbs (2 ^ 149)) := by
      show mul _ _ = _
      unfold mul
      dsimp only
      rw [if_neg (by omega), v1]
    rw [e1]
    refine result_signed (by positivity) v2 (fun _ => rfl) ?_
    rw [e, e', Int.cast_mul, Nat.cast_pow, Nat.cast_ofNat]
    generalize (2 : ℝ) ^ 149 = p
    ring

theorem mag_pos {b : Nat} (h : b ≠ 0) : 0 < mag b := by
  have := mag_strictMono (Nat.pos_of_ne_zero h)
  rwa [mag_zero] at this

/-- **Division** -/
theorem ieee_div (x y : Binary32) : IsQuotient x y (x / y) where
  nan := by
    rintro (rfl | rfl)
    · rfl
    · cases x <;> rfl
  inf_inf := by
    rintro s s' rfl rfl
    show div _ _ = _
    rw [inf_eq, inf_eq]
    unfold div
    dsimp only
    rw [if_pos clip_infBits, if_pos clip_infBits]
  inf_left := by
    rintro s s' v rfl hy
    obtain ⟨b, rfl, hb, _⟩ := isFinite_iff hy
    show div _ _ = _
    rw [inf_eq, inf_eq]
    unfold div
    dsimp only
    rw [if_pos clip_infBits, if_neg (by omega)]
  inf_right := by
    rintro s s' v hx rfl
    obtain ⟨b, rfl, hb, _⟩ := isFinite_iff hx
    show div _ _ = _
    rw [inf_eq]
    unfold div
    dsimp only
    rw [if_neg (by omega), if_pos clip_infBits]
    rfl
  by_zero := by
    intro s s' v hx hy
    obtain ⟨b, rfl, hb, _, h0⟩ := isFinite_iff hx
    obtain ⟨b', rfl, hb', _, h0'⟩ := isFinite_iff hy
    show div _ _ = _
    rw [inf_eq]
    unfold div
    dsimp only
    rw [if_neg (by omega), if_neg (by omega), if_pos (h0'.1 rfl)]
    exact if_congr h0.symm rfl rfl
  finite := by
    intro s s' v w hx hy hw
    obtain ⟨b, rfl, hb, e, _⟩ := isFinite_iff hx
    obtain ⟨b', rfl, hb', e', h0⟩ := isFinite_iff hy
    have hb0 : b'.val ≠ 0 := fun h => hw (h0.2 h)
    have hm := mag_pos hb0
    have e1 : num s b / num s' b' = num (xor s s') (roundRat (mag b * 2 ^ 149) (mag b')) := by
      show div _ _ = _
      unfold div
      dsimp only
      rw [if_neg (by omega), if_neg (by omega), if_neg hb0]
    have e2 : mag b * 2 ^ 149 = ((if xor s s' then -1 else 1) * ((mag b : Int) * 2 ^ 149)).natAbs := by
      rw [Int.natAbs_mul, Int.natAbs_mul, Int.natAbs_pow, Int.natAbs_natCast]
      cases s <;> cases s' <;> simp
    rw [e1, e2]
    refine result_signed hm ?_ (fun _ => rfl) ?_
    · intro h1
      have h2 : 0 < (mag b : Int) * 2 ^ 149 := by
        have h3 : 0 ≤ (mag b : Int) * 2 ^ 149 := by positivity
        rcases h3.lt_or_eq with h3 | h3
        · exact h3
        · rw [← h3, mul_zero] at h1; exact absurd rfl h1
      cases s <;> cases s' <;> simp <;> omega
    · rw [e, e', Int.cast_mul, Int.cast_mul, Int.cast_pow, Int.cast_ofNat, Int.cast_natCast]
      unfold value
      have hm' : (mag b' : ℝ) ≠ 0 := Nat.cast_ne_zero.2 hm.ne'
      have hp : (2 : ℝ) ^ 149 ≠ 0 := by positivity
      generalize (2 : ℝ) ^ 149 = p at hp
      cases s <;> cases s' <;> simp <;> field_simp

/-- **Square root** -/
theorem ieee_sqrt (x : Binary32) : IsSqrt x (Binary32.sqrt x) where
  nan := by rintro rfl; rfl
  inf := by
    rintro s rfl
    rw [inf_eq]
    unfold Binary32.sqrt
    dsimp only
    rw [if_neg (by rw [clip_infBits]; decide)]
    cases s
    · rw [if_neg (by decide), if_pos clip_infBits, if_neg (by decide)]
    · rfl
  negative := by
    intro s v hx hv
    obtain ⟨b, rfl, hb, e, h0⟩ := isFinite_iff hx
    have h1 : b.val ≠ 0 := fun h => hv.ne (h0.2 h)
    have h2 : s = true := by
      by_contra hs
      rw [Bool.not_eq_true] at hs
      subst hs
      have : 0 ≤ v := by
        rw [e]
        unfold value
        simp only [Bool.false_eq_true, if_false]
        positivity
      linarith
    subst h2
    unfold Binary32.sqrt
    dsimp only
    rw [if_neg h1, if_pos rfl]
  finite := by
    intro s v hx hv
    obtain ⟨b, rfl, hb, e, h0⟩ := isFinite_iff hx
    rcases eq_or_ne b.val 0 with h1 | h1
    · have hv0 := h0.2 h1
      have e1 : Binary32.sqrt (num s b) = num s b := by
        unfold Binary32.sqrt
        dsimp only
        rw [if_pos h1]
      rw [e1, hv0, Real.sqrt_zero]
      refine ⟨s, b, rfl, ?_, fun _ => rfl⟩
      have h2 := roundsTo_mag 0
      rw [mag_zero] at h2
      have h3 : RoundsTo (|(0 : ℝ)| * 2 ^ 149) 0 := by simpa using h2
      have h4 := rounds_of_roundsTo (s := s) (x := 0) (fun h => absurd rfl h) h3
      rw [h1]
      exact h4
    · have hs : s = false := by
        by_contra hs
        rw [Bool.not_eq_false] at hs
        subst hs
        have h2 : v < 0 := by
          rw [e]
          unfold value
          have := mag_pos h1
          have h3 : (0 : ℝ) < mag b := Nat.cast_pos.2 this
          simp only [if_true]
          push_cast
          exact div_neg_of_neg_of_pos (by linarith) (by positivity)
        linarith
      subst hs
      have e1 : Binary32.sqrt (num false b) = num false (roundSqrt (mag b * 2 ^ 149)) := by
        unfold Binary32.sqrt
        dsimp only
        rw [if_neg h1, if_neg (by decide), if_neg (by omega)]
      rw [e1]
      obtain ⟨r, h2, h3⟩ := roundSqrt_spec (mag b * 2 ^ 149)
      have hv' : v = mag b / 2 ^ 149 := by rw [e]; unfold value; simp
      have hpos : 0 < v := lt_of_le_of_ne hv (fun h => h1 (h0.1 h.symm))
      have e2 : Real.sqrt ((mag b * 2 ^ 149 : Nat) : ℝ) = |Real.sqrt v| * 2 ^ 149 := by
        rw [abs_of_nonneg (Real.sqrt_nonneg _), hv']
        have hp : (0 : ℝ) < 2 ^ 149 := by positivity
        rw [Nat.cast_mul, Nat.cast_pow, Nat.cast_ofNat]
        generalize (2 : ℝ) ^ 149 = p at hp
        rw [show (mag b : ℝ) * p = mag b / p * p ^ 2 by field_simp, Real.sqrt_mul' _ (by positivity), Real.sqrt_sq hp.le]
      rw [e2] at h2
      refine ⟨false, _, rfl, ?_, fun h => absurd h (Real.sqrt_pos.2 hpos).ne'⟩
      rw [h3]
      refine rounds_of_roundsTo (fun _ => ?_) h2
      exact (decide_eq_false (not_lt.2 (Real.sqrt_nonneg _))).symm

/-- **Conversion of an integer** -/
theorem ieee_natCast (n : Nat) : Result n false (n : Binary32) := by
  have h := result_signed (x := (n * 2 ^ 149 : Nat)) (d := 1) (t := false) (z := false) (q := n) (by norm_num)
    (fun _ => (decide_eq_false (not_lt.2 (Int.natCast_nonneg _))).symm) (fun _ => rfl)
    (by rw [Int.cast_natCast, Nat.cast_mul, Nat.cast_pow, Nat.cast_ofNat, Nat.cast_one, div_one, mul_div_cancel_right₀ _ (by positivity)])
  rw [Int.natAbs_natCast] at h
  exact h

theorem fma_inf_eq {x y z : Binary32} (h : ∀ s s' u v, IsFinite x s u → IsFinite y s' v → False) (hz : z ≠ nan)
    (hx : x ≠ nan) (hy : y ≠ nan) : fma x y z = x * y + z := by
  cases x with
  | nan => exact absurd rfl hx
  | num s a =>
    cases y with
    | nan => exact absurd rfl hy
    | num s' b =>
      cases z with
      | nan => exact absurd rfl hz
      | num s'' c =>
        unfold fma
        dsimp only
        rw [if_neg]
        rintro ⟨h1, h2⟩
        exact h _ _ _ _ (isFinite_num s h1) (isFinite_num s' h2)

theorem finite_ne_nan {x : Binary32} {s : Bool} {v : ℝ} (h : IsFinite x s v) : x ≠ nan := by
  rintro rfl; exact not_finite_nan h

/-- **Fused multiply-add** -/
theorem ieee_fma (x y z : Binary32) : IsFma x y z (fma x y z) where
  nan := by
    rintro (rfl | rfl | rfl)
    · rfl
    · cases x <;> rfl
    · cases x <;> cases y <;> rfl
  finite := by
    intro s s' s'' u v w hx hy hz
    obtain ⟨a, rfl, ha, e, _⟩ := isFinite_iff hx
    obtain ⟨b, rfl, hb, e', _⟩ := isFinite_iff hy
    obtain ⟨c, rfl, hc, e'', _⟩ := isFinite_iff hz
    have e1 : fma (num s a) (num s' b) (num s'' c) =
        num (if value s a * value s' b + value s'' c * 2 ^ 149 = 0 then xor s s' && s'' else
          decide (value s a * value s' b + value s'' c * 2 ^ 149 < 0))
          (roundRat (value s a * value s' b + value s'' c * 2 ^ 149).natAbs (2 ^ 149)) := by
      unfold fma
      dsimp only
      rw [if_pos (show a.val < infBits ∧ b.val < infBits from ⟨ha, hb⟩), if_pos hc]
    rw [e1]
    refine result_signed (by positivity) (fun h0 => if_neg h0) (fun h0 => if_pos h0) ?_
    rw [e, e', e'', Int.cast_add, Int.cast_mul, Int.cast_mul, Int.cast_pow, Nat.cast_pow, Nat.cast_ofNat, Int.cast_ofNat]
    have hp : (2 : ℝ) ^ 149 ≠ 0 := by positivity
    generalize (2 : ℝ) ^ 149 = p at hp
    field_simp
  inf_right := by
    rintro s s' s'' u v hx hy rfl
    obtain ⟨a, rfl, ha, _⟩ := isFinite_iff hx
    obtain ⟨b, rfl, hb, _⟩ := isFinite_iff hy
    rw [inf_eq]
    unfold fma
    dsimp only
    rw [if_pos (show a.val < infBits ∧ b.val < infBits from ⟨ha, hb⟩), if_neg (by rw [clip_infBits]; exact lt_irrefl _)]
  inf_zero := by
    intro s s' h
    by_cases hz : z = nan
    · subst hz
      cases x <;> cases y <;> rfl
    rcases h with ⟨rfl, hy⟩ | ⟨hx, rfl⟩
    · rw [fma_inf_eq (fun _ _ _ _ h _ => not_finite_inf h) hz (fun h => by cases h) (finite_ne_nan hy)]
      refine (ieee_add _ z).nan (.inl ?_)
      rw [(ieee_mul _ y).inf_left s s' 0 rfl hy, if_pos rfl]
    · rw [fma_inf_eq (fun _ _ _ _ _ h => not_finite_inf h) hz (finite_ne_nan hx) (fun h => by cases h)]
      refine (ieee_add _ z).nan (.inl ?_)
      rw [(ieee_mul x _).inf_right s s' 0 hx rfl, if_pos rfl]
  inf_left := by
    intro s s' h
    have key : z ≠ nan → fma x y z = inf (xor s s') + z := by
      intro hz
      rcases h with ⟨rfl, rfl | ⟨v, hv, hy⟩⟩ | ⟨⟨v, hv, hx⟩, rfl⟩
      · rw [fma_inf_eq (fun _ _ _ _ h _ => not_finite_inf h) hz (fun h => by cases h) (fun h => by cases h),
          (ieee_mul _ _).inf_inf s s' rfl rfl]
      · rw [fma_inf_eq (fun _ _ _ _ h _ => not_finite_inf h) hz (fun h => by cases h) (finite_ne_nan hy),
          (ieee_mul _ y).inf_left s s' v rfl hy, if_neg hv]
      · rw [fma_inf_eq (fun _ _ _ _ _ h => not_finite_inf h) hz (finite_ne_nan hx) (fun h => by cases h),
          (ieee_mul x _).inf_right s s' v hx rfl, if_neg hv]
    constructor
    · rintro s'' rfl
      rw [key (fun h => by cases h), (ieee_add _ _).inf_inf _ _ rfl rfl]
      split_ifs with h1 h2 h2
      · rw [h1]
      · exact absurd h1.symm h2
      · exact absurd h2.symm h1
      · rfl
    · intro s'' w hz
      rw [key (finite_ne_nan hz), (ieee_add _ z).inf_left _ _ _ rfl hz]

/-- the bits with the sign are in the same order as the values -/
theorem signedBits_lt_iff (s s' : Bool) (b b' : Fin (infBits + 1)) :
    (signedBits s b < signedBits s' b' ↔ value s b < value s' b') ∧ (signedBits s b ≤ signedBits s' b' ↔ value s b ≤ value s' b') := by
  have h1 : ∀ c d : Nat, (mag c ≤ mag d ↔ c ≤ d) := fun c d => mag_le_iff
  have h2 : ∀ c : Nat, (mag c = 0 ↔ c = 0) := fun c => by
    constructor
    · intro h
      by_contra hc
      have := mag_pos hc
      omega
    · rintro rfl; rfl
  have := h1 b b'
  have := h1 b' b
  have := h2 b
  have := h2 b'
  unfold signedBits value
  cases s <;> cases s' <;> simp only [Bool.false_eq_true, if_false, if_true] <;> omega

/-- **Comparison `<`** -/
theorem ieee_lt : IsLess Binary32.lt where
  nan_left := fun x => by cases x <;> rfl
  nan_right := fun x => by cases x <;> rfl
  finite := by
    intro x y s s' v w hx hy
    obtain ⟨b, rfl, hb, e, _⟩ := isFinite_iff hx
    obtain ⟨b', rfl, hb', e', _⟩ := isFinite_iff hy
    unfold Binary32.lt
    dsimp only
    rw [decide_eq_true_iff, (signedBits_lt_iff s s' b b').1, e, e', div_lt_div_iff_of_pos_right (by positivity), Int.cast_lt]
  inf_right := by
    intro x s v hx
    obtain ⟨b, rfl, hb, _⟩ := isFinite_iff hx
    rw [inf_eq, inf_eq]
    unfold Binary32.lt signedBits
    dsimp only
    rw [clip_infBits]
    constructor
    · rw [decide_eq_true_iff]
      cases s <;> simp only [Bool.false_eq_true, if_false, if_true] <;> omega
    · rw [decide_eq_false_iff_not]
      cases s <;> simp only [Bool.false_eq_true, if_false, if_true] <;> omega
  inf_left := by
    intro x s v hx
    obtain ⟨b, rfl, hb, _⟩ := isFinite_iff hx
    rw [inf_eq, inf_eq]
    unfold Binary32.lt signedBits
    dsimp only
    rw [clip_infBits]
    constructor
    · rw [decide_eq_false_iff_not]
      cases s <;> simp only [Bool.false_eq_true, if_false, if_true] <;> omega
    · rw [decide_eq_true_iff]
      cases s <;> simp only [Bool.false_eq_true, if_false, if_true] <;> omega
  inf_inf := by
    intro s s'
    cases s <;> cases s' <;> rfl

/-- **Comparison `<=`**: the negation of `y < x`, apart from nans -/
theorem ieee_le (x y : Binary32) : Binary32.le x y = (if x = nan ∨ y = nan then false else !Binary32.lt y x) := by
  cases x with
  | nan => rfl
  | num s b =>
    cases y with
    | nan => rfl
    | num s' b' =>
      rw [if_neg (by rintro (h | h) <;> cases h)]
      unfold Binary32.le Binary32.lt
      dsimp only
      rw [← decide_not]
      exact decide_eq_decide.2 not_lt.symm

theorem decode_injective {b c : Nat} (h : decode b = decode c) : b = c := by
  rw [decode_eq, decode_eq, div_left_inj' (by positivity)] at h
  exact mag_strictMono.injective (Nat.cast_injective h)

/-- The requirements determine the result of each operation with finite operands. -/
theorem ieee_result_unique {x : ℝ} {z : Bool} {r r' : Binary32} (h : Result x z r) (h' : Result x z r') : r = r' := by
  obtain ⟨s, b, rfl, h1, h2⟩ := h
  obtain ⟨s', b', rfl, h1', h2'⟩ := h'
  have hs : s = s' := by
    rcases eq_or_ne x 0 with hx | hx
    · rw [h2 hx, h2' hx]
    · rw [h1.sign hx, h1'.sign hx]
  subst hs
  rcases lt_or_ge |x| (2 ^ 127 * (2 - 2 ^ (-24 : ℤ))) with hx | hx
  · have hb := h1.finite hx
    have hb' := h1'.finite hx
    have e := le_antisymm (h1.nearest hx _ hb') (h1'.nearest hx _ hb)
    have hbb : b.val = b'.val := by
      by_contra hne
      have ev := h1.even hx b'.val hb' (fun h => hne h.symm) e.symm
      have ev' := h1'.even hx b.val hb hne e
      -- the number in between would be nearer
      have key : ∀ p q : Nat, p < q → q < infBits → p % 2 = 0 → q % 2 = 0 →
          |(decode p - |x|)| = |(decode q - |x|)| → (∀ c < infBits, |(decode p - |x|)| ≤ |(decode c - |x|)|) → False := by
        intro p q hpq hq he he' heq hn
        have h3 := hn (p + 1) (by omega)
        have d1 : decode p < decode (p + 1) := by
          rw [decode_eq, decode_eq, div_lt_div_iff_of_pos_right (by positivity)]
          exact_mod_cast mag_strictMono (Nat.lt_succ_self p)
        have d2 : decode (p + 1) < decode q := by
          rw [decode_eq, decode_eq, div_lt_div_iff_of_pos_right (by positivity)]
          exact_mod_cast mag_strictMono (show p + 1 < q by omega)
        rw [abs_eq_abs] at heq
        rcases heq with heq | heq
        · linarith
        · rw [abs_of_neg (show decode p - |x| < 0 by linarith), le_abs] at h3
          rcases h3 with h3 | h3 <;> linarith
      rcases Nat.lt_or_gt_of_ne hne with hlt | hlt
      · exact key _ _ hlt hb' ev ev' e (h1.nearest hx)
      · exact key _ _ hlt hb ev' ev e.symm (h1'.nearest hx)
    rw [Fin.ext hbb]
  · rw [Fin.ext ((h1.overflow hx).trans (h1'.overflow hx).symm)]

/-! ### Absence of nans in the cutpoints

`Binary32.toOrdered` needs a convention for nan. It is irrelevant for finite predictors, because nan is never obtained. -/

theorem result_ne_nan {x : ℝ} {z : Bool} {r : Binary32} (h : Result x z r) : r ≠ nan := by
  obtain ⟨s, b, rfl, _⟩ := h
  intro h; cases h

theorem result_finite {x : ℝ} {z : Bool} {r : Binary32} (h : Result x z r) (hx : |x| < 2 ^ 127 * (2 - 2 ^ (-24 : ℤ))) :
    ∃ s v, IsFinite r s v := by
  obtain ⟨s, b, rfl, h1, _⟩ := h
  exact ⟨s, _, isFinite_num s (h1.finite hx)⟩

theorem threshold_large : (1 : ℝ) < 2 ^ 127 * (2 - 2 ^ (-24 : ℤ)) := by
  rw [zpow_neg]; norm_num

/-- numbers between 0 and 1 remain so after rounding -/
theorem result_unit {x : ℝ} {z : Bool} {r : Binary32} (h : Result x z r) (h0 : 0 ≤ x) (h1 : x ≤ 1) :
    ∃ s v, IsFinite r s v ∧ 0 ≤ v ∧ v ≤ 1 := by
  obtain ⟨s, b, rfl, hr, _⟩ := h
  have hx : |x| < 2 ^ 127 * (2 - 2 ^ (-24 : ℤ)) := by
    rw [abs_of_nonneg h0]; linarith [threshold_large]
  have hb := hr.finite hx
  refine ⟨s, _, isFinite_num s hb, ?_⟩
  have e1 : decode 0x3f800000 = 1 := by
    rw [decode_eq, show mag 0x3f800000 = 2 ^ 149 by decide +kernel]
    norm_num
  have e0 : decode 0 = 0 := by rw [decode_eq, mag_zero]; simp
  have n1 := hr.nearest hx 0x3f800000 (by decide)
  have n0 := hr.nearest hx 0 (by decide)
  rw [abs_of_nonneg h0, e1, abs_of_nonneg (show 0 ≤ 1 - x by linarith)] at n1
  rw [abs_of_nonneg h0, e0] at n0
  have hd : decode b.val ≤ 1 := by
    have := (abs_le.1 n1).2
    linarith
  have hd0 : 0 ≤ decode b.val := by
    rw [decode_eq]; positivity
  have hv : (value s b : ℝ) / 2 ^ 149 = if s then -decode b.val else decode b.val := by
    rw [decode_eq]
    unfold value
    cases s
    · simp
    · simp [neg_div]
  rw [hv]
  cases hs : s with
  | false => exact ⟨hd0, hd⟩
  | true =>
    have hx0 : x = 0 := by
      by_contra hne
      have := hr.sign hne
      rw [hs] at this
      have := of_decide_eq_true this.symm
      linarith
    rw [hx0, zero_sub, neg_zero, abs_zero, sub_zero, abs_of_nonneg hd0] at n0
    have : decode b.val = 0 := le_antisymm n0 hd0
    simp [this]

theorem finite_lt_threshold {x : Binary32} {s : Bool} {v : ℝ} (h : IsFinite x s v) : |v| < 2 ^ 127 * (2 - 2 ^ (-24 : ℤ)) := by
  obtain ⟨b, rfl, hb, e, _⟩ := isFinite_iff h
  have hp : (0 : ℝ) < 2 ^ 149 := by positivity
  have ht := threshold_eq
  have h1 : (mag b : ℝ) ≤ mag (infBits - 1) := Nat.cast_le.2 (mag_le_iff.2 (by omega))
  have h2 : (mag (infBits - 1) : ℝ) < mag (infBits - 1 + 1) := Nat.cast_lt.2 (mag_lt_succ _)
  rw [e, abs_div, abs_of_pos hp, value_abs, div_lt_iff₀ hp]
  linarith

/-- the product with a number between 0 and 1 does not overflow -/
theorem mul_unit_finite {x y : Binary32} {s s' : Bool} {v w : ℝ} (hx : IsFinite x s v) (hy : IsFinite y s' w) (h0 : 0 ≤ w)
    (h1 : w ≤ 1) : ∃ s'' u, IsFinite (x * y) s'' u := by
  refine result_finite ((ieee_mul x y).finite s s' v w hx hy) (lt_of_le_of_lt ?_ (finite_lt_threshold hx))
  rw [abs_mul, abs_of_nonneg h0]
  exact mul_le_of_le_one_right (abs_nonneg v) h1

theorem natCast_isFinite {n : Nat} (h : n ≤ 2 ^ 24) : ∃ s, IsFinite ((n : Nat) : Binary32) s n := by
  obtain ⟨h1, h2⟩ := natCast_exact h
  cases hc : ((n : Nat) : Binary32) with
  | nan => rw [hc] at h1; exact h1.elim
  | num s b =>
    rw [hc] at h1 h2
    refine ⟨s, ?_⟩
    rw [← h2]
    exact isFinite_num s h1

/-- **the midpoint of two finite predictors is not nan** -/
theorem midpoint_ne_nan {x y : Binary32} {s s' : Bool} {v w : ℝ} (hx : IsFinite x s v) (hy : IsFinite y s' w) :
    (x + y) / ((2 : Nat) : Binary32) ≠ nan := by
  obtain ⟨t, b, e, _⟩ := (ieee_add x y).finite s s' v w hx hy
  obtain ⟨s2, h2⟩ := natCast_isFinite (n := 2) (by norm_num)
  rcases ieee_cases (x + y) with h | ⟨u, h⟩ | ⟨u, q, h⟩
  · rw [h] at e; cases e
  · rw [(ieee_div _ _).inf_left u s2 _ h h2]
    intro h; cases h
  · exact result_ne_nan ((ieee_div _ _).finite u s2 q _ h h2 (by norm_num))

/-- **a grid between finite predictors does not contain nan** -/
theorem grid_ne_nan (fusion : Fusion) {x y : Binary32} {s s' : Bool} {v w : ℝ} (hx : IsFinite x s v) (hy : IsFinite y s' w) {k n : Nat}
    (hk : k ≤ n) (h0 : 0 < n) (hn : n ≤ 2 ^ 24) :
    mulAdd fusion x (1 - (k : Binary32) / (n : Binary32)) y ((k : Binary32) / (n : Binary32)) ≠ nan := by
  obtain ⟨sk, fk⟩ := natCast_isFinite (hk.trans hn)
  obtain ⟨sn, fn⟩ := natCast_isFinite hn
  have hn' : (0 : ℝ) < n := Nat.cast_pos.2 h0
  have hkn : (k : ℝ) ≤ n := Nat.cast_le.2 hk
  obtain ⟨s1, p, f1, p0, p1⟩ := result_unit ((ieee_div _ _).finite sk sn _ _ fk fn hn'.ne') (by positivity)
    ((div_le_one hn').2 hkn)
  have one : ∃ s, IsFinite 1 s 1 := by
    obtain ⟨s, h⟩ := natCast_isFinite (n := 1) (by norm_num)
    rw [Nat.cast_one, show ((1 : Nat) : Binary32) = 1 by decide +kernel] at h
    exact ⟨s, h⟩
  obtain ⟨so, fo⟩ := one
  obtain ⟨s2, q, f2, q0, q1⟩ := result_unit ((ieee_sub _ _).finite so s1 _ _ fo f1) (by linarith) (by linarith)
  obtain ⟨s3, r, f3⟩ := mul_unit_finite hx f2 q0 q1
  obtain ⟨s4, t, f4⟩ := mul_unit_finite hy f1 p0 p1
  cases fusion
  · exact result_ne_nan ((ieee_add _ _).finite _ _ _ _ f3 f4)
  · exact result_ne_nan ((ieee_fma _ _ _).finite _ _ _ _ _ _ hx f2 f4)
  · exact result_ne_nan ((ieee_fma _ _ _).finite _ _ _ _ _ _ hy f1 f3)

/-- with infinite predictors nan is obtained -/
example : mulAdd .none (inf true) (1 - ((1 : Nat) : Binary32) / ((2 : Nat) : Binary32)) (inf false)
    (((1 : Nat) : Binary32) / ((2 : Nat) : Binary32)) = nan := by decide +kernel

/-- the largest random variate obtained from `jax.random.uniform`, by way of example: `(2 - 2 ** -23) - 1` is exact -/
example : Binary32.uniform ⟨2 ^ 23 - 1, by decide⟩ 1 = 1 - 1 / ((2 ^ 23 : Nat) : Binary32) := by decide +kernel

/-- `16777216 + 1` is a tie, rounded to the even number `16777216`, while `16777218 + 1` is rounded to `16777220` -/
example : ((16777216 : Nat) : Binary32) + 1 = ((16777216 : Nat) : Binary32) ∧
    ((16777218 : Nat) : Binary32) + 1 = ((16777220 : Nat) : Binary32) := by decide +kernel

/-- a concrete application: `1 / 3` is within `2 ** -26` of a third -/
example : ∃ neg bits, (1 : Binary32) / ((3 : Nat) : Binary32) = .num neg bits ∧ Rounds (1 / 3) neg bits.val := by
  have f1 : IsFinite 1 false 1 := by
    have := isFinite_num false (b := ⟨0x3f800000, by decide⟩) (by decide)
    have e : mag 0x3f800000 = 2 ^ 149 := by decide +kernel
    have e2 : ((value false ⟨0x3f800000, by decide⟩ : Int) : ℝ) / 2 ^ 149 = 1 := by
      unfold value
      simp only [Bool.false_eq_true, if_false]
      rw [e]
      push_cast
      norm_num
    rw [e2] at this
    exact this
  have f3 : IsFinite ((3 : Nat) : Binary32) false 3 := by
    have h3 : ((3 : Nat) : Binary32) = num false ⟨0x40400000, by decide⟩ := by decide +kernel
    have := isFinite_num false (b := ⟨0x40400000, by decide⟩) (by decide)
    have e : mag 0x40400000 = 3 * 2 ^ 149 := by decide +kernel
    have e2 : ((value false ⟨0x40400000, by decide⟩ : Int) : ℝ) / 2 ^ 149 = 3 := by
      unfold value
      simp only [Bool.false_eq_true, if_false]
      rw [e]
      push_cast
      norm_num
    rw [e2] at this
    rw [h3]
    exact this
  obtain ⟨s, b, h1, h2, _⟩ := (ieee_div _ _).finite _ _ _ _ f1 f3 (by norm_num)
  exact ⟨s, b, h1, h2⟩

/-- special values -/
example : (0 : Binary32) * inf false = nan ∧ (1 : Binary32) / 0 = inf false ∧ inf false + inf true = nan ∧
    Binary32.lt nan 0 = false := by decide +kernel

end Bartz
