import Verif.Lemmas.Binary32
/-! # Monotonicity of the operations in single precision, with sign -/

set_option autoImplicit false

namespace Jax
namespace Binary32

theorem signedBits_false (b : Fin (infBits + 1)) : signedBits false b = (b.val : Int) := rfl

theorem signedBits_true (b : Fin (infBits + 1)) : signedBits true b = -(b.val : Int) := rfl

/-- the bits of the rounding of an integer, with sign -/
def signedRound (z : Int) : Int := if z < 0 then -((roundRat z.natAbs 1).val : Int) else (roundRat z.natAbs 1).val

theorem signedRound_mono {z w : Int} (h : z ≤ w) : signedRound z ≤ signedRound w := by
  unfold signedRound
  split_ifs with h1 h2 h2
  · have := roundRat_mono (n := w.natAbs) (d := 1) (n' := z.natAbs) (d' := 1) (by norm_num) (by norm_num) (by omega)
    omega
  · omega
  · omega
  · have := roundRat_mono (n := z.natAbs) (d := 1) (n' := w.natAbs) (d' := 1) (by norm_num) (by norm_num) (by omega)
    omega

theorem value_mono {s s' : Bool} {b b' : Fin (infBits + 1)} (h : signedBits s b ≤ signedBits s' b') :
    value s b ≤ value s' b' := by
  have key : ∀ x y : Nat, x ≤ y → mag x ≤ mag y := fun x y => mag_le_iff.2
  have hz : mag 0 = 0 := rfl
  cases s <;> cases s'
  · have h1 : (b.val : Int) ≤ b'.val := h
    have := key b b' (by omega)
    show (mag b : Int) ≤ mag b'
    omega
  · have h1 : (b.val : Int) ≤ -(b'.val : Int) := h
    have h2 : b.val = 0 := by omega
    have h3 : b'.val = 0 := by omega
    show (mag b : Int) ≤ -(mag b' : Int)
    rw [h2, h3, hz]; decide
  · show -(mag b : Int) ≤ mag b'
    omega
  · have h1 : -(b.val : Int) ≤ -(b'.val : Int) := h
    have := key b' b (by omega)
    show -(mag b : Int) ≤ -(mag b' : Int)
    omega

/-- the sum of two finite numbers -/
theorem add_finite {s s' : Bool} {b b' : Fin (infBits + 1)} (h : b.val < infBits) (h' : b'.val < infBits) :
    ∃ t c, num s b + num s' b' = num t c ∧ signedBits t c = signedRound (value s b + value s' b') := by
  have e : num s b + num s' b' = add (num s b) (num s' b') := rfl
  rw [e]
  unfold add
  dsimp only
  rw [if_neg (by omega), if_neg (by omega)]
  refine ⟨_, _, rfl, ?_⟩
  generalize value s b + value s' b' = z
  unfold signedRound
  by_cases h3 : z = 0
  · subst h3
    have h5 : (roundRat (Int.natAbs 0) 1).val = 0 := by decide
    unfold signedBits
    rw [h5]
    simp
  · rw [if_neg h3]
    unfold signedBits
    by_cases h4 : z < 0
    · simp [h4]
    · simp [h4]

theorem signedBits_le (s : Bool) (b : Fin (infBits + 1)) : signedBits s b ≤ (infBits : Int) := by
  have := b.isLt
  cases s
  · show (b.val : Int) ≤ _
    omega
  · show -(b.val : Int) ≤ _
    omega

/-- addition is monotone, for terms bounded from below by finite ones -/
theorem le_add {s s' : Bool} {b b' : Fin (infBits + 1)} (hb : b.val < infBits) (hb' : b'.val < infBits) {x y : Binary32}
    (hx : le (num s b) x = true) (hy : le (num s' b') y = true) : le (num s b + num s' b') (x + y) = true := by
  obtain ⟨t, c, e1, e2⟩ := add_finite (s := s) (s' := s') hb hb'
  have pos : ∀ {s t : Bool} {b c : Fin (infBits + 1)}, b.val < infBits → signedBits s b ≤ signedBits t c →
      c.val = infBits → t = false := by
    intro s t b c h1 h2 h3
    cases t with
    | false => rfl
    | true =>
      have h4 : signedBits s b ≤ -(c.val : Int) := h2
      cases s with
      | false =>
        have h5 : (b.val : Int) ≤ -(c.val : Int) := h4
        omega
      | true =>
        have h5 : -(b.val : Int) ≤ -(c.val : Int) := h4
        omega
  cases x with
  | nan => cases hx
  | num r d =>
    cases y with
    | nan => cases hy
    | num r' d' =>
      have hx' : signedBits s b ≤ signedBits r d := of_decide_eq_true hx
      have hy' : signedBits s' b' ≤ signedBits r' d' := of_decide_eq_true hy
      rw [e1]
      have inf : ∀ {u : Fin (infBits + 1)}, u.val = infBits → le (num t c) (num false u) = true := by
        intro u hu
        show decide _ = true
        rw [decide_eq_true_iff]
        have := signedBits_le t c
        show _ ≤ (u.val : Int)
        omega
      by_cases h1 : d.val = infBits
      · have e3 : num r d + num r' d' = add (num r d) (num r' d') := rfl
        have hr := pos hb hx' h1
        subst hr
        rw [e3]
        unfold add
        dsimp only
        rw [if_pos h1]
        by_cases h2 : d'.val = infBits
        · rw [if_pos h2, if_pos (pos hb' hy' h2).symm]; exact inf h1
        · rw [if_neg h2]; exact inf h1
      · by_cases h2 : d'.val = infBits
        · have e3 : num r d + num r' d' = add (num r d) (num r' d') := rfl
          have hr := pos hb' hy' h2
          subst hr
          rw [e3]
          unfold add
          dsimp only
          rw [if_neg h1, if_pos h2]
          exact inf h2
        · have l1 := d.isLt
          have l2 := d'.isLt
          obtain ⟨t', c', e3, e4⟩ := add_finite (s := r) (s' := r') (b := d) (b' := d') (by omega) (by omega)
          rw [e3]
          show decide _ = true
          rw [decide_eq_true_iff, e2, e4]
          exact signedRound_mono (Int.add_le_add (value_mono hx') (value_mono hy'))

/-- division by a positive finite number is monotone, for numerators bounded from below by a finite one -/
theorem le_div {s : Bool} {b c : Fin (infBits + 1)} (hb : b.val < infBits) (hc0 : c.val ≠ 0) (hc : c.val < infBits)
    {x : Binary32} (hx : le (num s b) x = true) : le (num s b / num false c) (x / num false c) = true := by
  have fin : ∀ (t : Bool) (d : Fin (infBits + 1)), d.val < infBits →
      num t d / num false c = num t (roundRat (mag d * 2 ^ 149) (mag c)) := by
    intro t d hd
    show div _ _ = _
    unfold div
    dsimp only
    rw [if_neg (by omega), if_neg (by omega), if_neg hc0, Bool.xor_false]
  have hpos : 0 < mag c := by
    have : mag 0 < mag c := mag_strictMono (by omega)
    omega
  cases x with
  | nan => cases hx
  | num t d =>
    have hx' : signedBits s b ≤ signedBits t d := of_decide_eq_true hx
    rw [fin s b hb]
    by_cases h1 : d.val = infBits
    · have e : num t d / num false c = num t (clip infBits) := by
        show div _ _ = _
        unfold div
        dsimp only
        rw [if_pos h1, if_neg (by omega), Bool.xor_false]
      rw [e]
      show decide _ = true
      rw [decide_eq_true_iff]
      cases t with
      | false =>
        have h2 := signedBits_le s (roundRat (mag b * 2 ^ 149) (mag c))
        have h3 : signedBits false (clip infBits) = (infBits : Int) := by
          unfold signedBits
          rw [clip_of_le le_rfl]
          rfl
        rw [h3]
        exact h2
      | true =>
        exfalso
        have h4 : signedBits s b ≤ -(d.val : Int) := hx'
        cases s with
        | false =>
          have h5 : (b.val : Int) ≤ -(d.val : Int) := h4
          omega
        | true =>
          have h5 : -(b.val : Int) ≤ -(d.val : Int) := h4
          omega
    · have := d.isLt
      rw [fin t d (by omega)]
      show decide _ = true
      rw [decide_eq_true_iff]
      have mono : ∀ u v : Fin (infBits + 1), u.val ≤ v.val →
          (roundRat (mag u * 2 ^ 149) (mag c)).val ≤ (roundRat (mag v * 2 ^ 149) (mag c)).val := by
        intro u v h
        refine roundRat_mono hpos hpos ?_
        have := mag_le_iff.2 h
        exact Nat.mul_le_mul_right _ (Nat.mul_le_mul_right _ this)
      cases s <;> cases t
      · have h1 : (b.val : Int) ≤ d.val := hx'
        have := mono b d (by omega)
        rw [signedBits_false, signedBits_false]
        omega
      · have h1 : (b.val : Int) ≤ -(d.val : Int) := hx'
        have hz : mag 0 = 0 := rfl
        have h2 : mag b = 0 := by
          have : b.val = 0 := by omega
          rw [this, hz]
        have h3 : mag d = 0 := by
          have : d.val = 0 := by omega
          rw [this, hz]
        have e1 : (roundRat 0 (mag c)).val = 0 := by
          have h1 := roundRat_mono (n := 0) (d := mag c) (n' := 0) (d' := 1) hpos (by norm_num) (by omega)
          have h2 : (roundRat 0 1).val = 0 := by decide
          omega
        rw [h2, h3, Nat.zero_mul]
        rw [signedBits_false, signedBits_true]
        omega
      · rw [signedBits_false, signedBits_true]
        omega
      · have h1 : -(b.val : Int) ≤ -(d.val : Int) := hx'
        have := mono d b (by omega)
        rw [signedBits_true, signedBits_true]
        omega

/-- transitivity -/
theorem le_trans {x y z : Binary32} (h : le x y = true) (h' : le y z = true) : le x z = true := by
  cases x with
  | nan => cases h
  | num s b =>
    cases y with
    | nan => cases h
    | num s' b' =>
      cases z with
      | nan => cases h'
      | num s'' b'' => exact decide_eq_true (Int.le_trans (of_decide_eq_true h) (of_decide_eq_true h'))

end Binary32
end Jax
