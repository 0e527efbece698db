import Verif.Lemmas.Opposite
/-! # Opposite numbers in single precision -/

set_option autoImplicit false

namespace Bartz
open Jax Spec

namespace Opposite

/-- opposite numbers in terms of the bits -/
def Bits : Binary32 → Binary32 → Prop
  | .nan, .nan => True
  | .num s b, .num s' b' => b' = b ∧ (s' = !s ∨ b = 0)
  | _, _ => False

theorem zero_def : (0 : Binary32) = .num false 0 := rfl
theorem neg_num (s : Bool) (b : Fin (infBits + 1)) : -(Binary32.num s b) = .num (!s) b := rfl
theorem neg_nan : -Binary32.nan = .nan := rfl

theorem iff_bits (x y : Binary32) : Spec.Opposite x y ↔ Bits x y := by
  unfold Spec.Opposite
  rw [zero_def, neg_num]
  cases x with
  | nan => cases y <;> simp [Bits, neg_nan]
  | num s b =>
    cases y with
    | nan => simp [Bits, neg_num]
    | num s' b' =>
      simp only [Bits, neg_num, Binary32.num.injEq]
      constructor
      · rintro (⟨h1, h2⟩ | ⟨h1, h2⟩)
        · exact ⟨h2, Or.inl h1⟩
        · have hb : b = 0 := by rcases h1 with h | h <;> exact h.2
          have hb' : b' = 0 := by rcases h2 with h | h <;> exact h.2
          exact ⟨hb'.trans hb.symm, Or.inr hb⟩
      · rintro ⟨h1, h2 | h2⟩
        · exact Or.inl ⟨h2, h1⟩
        · subst h1
          refine Or.inr ⟨?_, ?_⟩
          · cases s <;> simp [h2]
          · cases s' <;> simp [h2]

theorem roundRat_zero (d : Nat) : Binary32.roundRat 0 d = 0 := by
  have hl : Nat.log2 0 = 0 := by decide
  unfold Binary32.roundRat Binary32.roundBy
  simp only [Nat.zero_div, hl, Nat.zero_sub, Nat.pow_zero, Nat.mul_zero, Nat.zero_mul, Nat.zero_add, Nat.mul_one, Nat.one_mul, Nat.zero_mod,
    Nat.add_zero]
  cases hc : compare 0 d with
  | lt => rfl
  | eq => rfl
  | gt => exact absurd (Nat.compare_eq_gt.1 hc) (Nat.not_lt_zero _)

theorem mag_zero : Binary32.mag (0 : Fin (infBits + 1)).val = 0 := rfl

theorem value_opp {s s' : Bool} {b : Fin (infBits + 1)} (h : s' = !s ∨ b = 0) : Binary32.value s' b = -Binary32.value s b := by
  unfold Binary32.value
  rcases h with h | h
  · subst h
    cases s <;> simp
  · subst h
    rw [mag_zero]
    cases s <;> cases s' <;> simp

theorem add {x x' y y' : Binary32} (hx : Bits x x') (hy : Bits y y') : Bits (Binary32.add x y) (Binary32.add x' y') := by
  cases x with
  | nan => cases x' with
    | nan => exact trivial
    | num => exact hx.elim
  | num s b => cases x' with
    | nan => exact hx.elim
    | num s' b' =>
      cases y with
      | nan => cases y' with
        | nan => exact trivial
        | num => exact hy.elim
      | num t c => cases y' with
        | nan => exact hy.elim
        | num t' c' =>
          obtain ⟨rfl, hs⟩ := hx
          obtain ⟨rfl, ht⟩ := hy
          have hinf : ∀ {b : Fin (infBits + 1)} {s s' : Bool}, b.val = infBits → (s' = !s ∨ b = 0) → s' = !s := by
            intro b s s' hb h
            rcases h with h | h
            · exact h
            · subst h
              exact absurd hb (by decide)
          unfold Binary32.add
          dsimp only
          by_cases hb : b'.val = infBits
          · rw [if_pos hb, if_pos hb]
            by_cases hc : c'.val = infBits
            · rw [if_pos hc, if_pos hc]
              have e1 := hinf hb hs
              have e2 := hinf hc ht
              subst e1 e2
              cases s <;> cases t <;> simp [Bits]
            · rw [if_neg hc, if_neg hc]
              exact ⟨rfl, hs⟩
          · rw [if_neg hb, if_neg hb]
            by_cases hc : c'.val = infBits
            · rw [if_pos hc, if_pos hc]
              exact ⟨rfl, ht⟩
            · rw [if_neg hc, if_neg hc, value_opp hs, value_opp ht, ← neg_add]
              generalize Binary32.value s b' + Binary32.value t c' = v
              refine ⟨by rw [Int.natAbs_neg], ?_⟩
              by_cases hv : v = 0
              · subst hv
                exact Or.inr (roundRat_zero 1)
              · left
                rw [if_neg hv, if_neg (by omega)]
                rcases lt_or_gt_of_ne hv with h | h
                · have h1 : ¬ -v < 0 := by omega
                  rw [decide_eq_true h, decide_eq_false h1]
                  rfl
                · have h1 : -v < 0 := by omega
                  have h2 : ¬ v < 0 := by omega
                  rw [decide_eq_true h1, decide_eq_false h2]
                  rfl

theorem neg {x x' : Binary32} (hx : Bits x x') : Bits (-x) (-x') := by
  cases x with
  | nan => cases x' with
    | nan => exact trivial
    | num => exact hx.elim
  | num s b => cases x' with
    | nan => exact hx.elim
    | num s' b' =>
      refine ⟨hx.1, ?_⟩
      rcases hx.2 with h | h
      · exact Or.inl (by rw [h])
      · exact Or.inr h

theorem mul {x x' : Binary32} (c : Binary32) (hx : Bits x x') : Bits (Binary32.mul x c) (Binary32.mul x' c) := by
  cases x with
  | nan => cases x' with
    | nan => exact trivial
    | num => exact hx.elim
  | num s b => cases x' with
    | nan => exact hx.elim
    | num s' b' =>
      obtain ⟨rfl, hs⟩ := hx
      cases c with
      | nan => exact trivial
      | num t c =>
        unfold Binary32.mul
        dsimp only
        have hx : ∀ {s s' t : Bool}, s' = !s → xor s' t = !xor s t := by
          rintro (_ | _) s' (_ | _) rfl <;> rfl
        by_cases h1 : b'.val = infBits ∨ c.val = infBits
        · rw [if_pos h1, if_pos h1]
          by_cases h2 : b'.val = 0 ∨ c.val = 0
          · rw [if_pos h2, if_pos h2]
            exact trivial
          · rw [if_neg h2, if_neg h2]
            refine ⟨rfl, Or.inl ?_⟩
            rcases hs with h | h
            · exact hx h
            · subst h
              exact absurd (Or.inl rfl) h2
        · rw [if_neg h1, if_neg h1]
          refine ⟨rfl, ?_⟩
          rcases hs with h | h
          · exact Or.inl (hx h)
          · subst h
            rw [mag_zero, Nat.zero_mul]
            exact Or.inr (roundRat_zero _)

theorem mul_comm (x y : Binary32) : Binary32.mul x y = Binary32.mul y x := by
  cases x with
  | nan => cases y <;> rfl
  | num s b => cases y with
    | nan => rfl
    | num t c =>
      unfold Binary32.mul
      dsimp only
      simp only [or_comm (a := b.val = infBits), or_comm (a := b.val = 0), Bool.xor_comm s, Nat.mul_comm (Binary32.mag b.val)]

theorem div {x x' : Binary32} (c : Binary32) (hx : Bits x x') : Bits (Binary32.div x c) (Binary32.div x' c) := by
  cases x with
  | nan => cases x' with
    | nan => exact trivial
    | num => exact hx.elim
  | num s b => cases x' with
    | nan => exact hx.elim
    | num s' b' =>
      obtain ⟨rfl, hs⟩ := hx
      cases c with
      | nan => exact trivial
      | num t c =>
        have hx : ∀ {s s' t : Bool}, s' = !s → xor s' t = !xor s t := by
          rintro (_ | _) s' (_ | _) rfl <;> rfl
        unfold Binary32.div
        dsimp only
        by_cases h1 : b'.val = infBits
        · rw [if_pos h1, if_pos h1]
          by_cases h2 : c.val = infBits
          · rw [if_pos h2, if_pos h2]
            exact trivial
          · rw [if_neg h2, if_neg h2]
            refine ⟨rfl, Or.inl ?_⟩
            rcases hs with h | h
            · exact hx h
            · subst h
              exact absurd h1 (by decide)
        · rw [if_neg h1, if_neg h1]
          by_cases h2 : c.val = infBits
          · rw [if_pos h2, if_pos h2]
            exact ⟨rfl, Or.inr rfl⟩
          · rw [if_neg h2, if_neg h2]
            by_cases h3 : c.val = 0
            · rw [if_pos h3, if_pos h3]
              by_cases h4 : b'.val = 0
              · rw [if_pos h4, if_pos h4]
                exact trivial
              · rw [if_neg h4, if_neg h4]
                refine ⟨rfl, Or.inl ?_⟩
                rcases hs with h | h
                · exact hx h
                · subst h
                  exact absurd rfl h4
            · rw [if_neg h3, if_neg h3]
              refine ⟨rfl, ?_⟩
              rcases hs with h | h
              · exact Or.inl (hx h)
              · subst h
                rw [mag_zero, Nat.zero_mul]
                exact Or.inr (roundRat_zero _)

theorem sq {x x' : Binary32} (hx : Bits x x') : Binary32.mul x x = Binary32.mul x' x' := by
  cases x with
  | nan => cases x' with
    | nan => rfl
    | num => exact hx.elim
  | num s b => cases x' with
    | nan => exact hx.elim
    | num s' b' =>
      obtain ⟨rfl, hs⟩ := hx
      unfold Binary32.mul
      dsimp only
      rw [Bool.xor_self, Bool.xor_self]

theorem neg_self (x : Binary32) : Bits x (-x) := by
  cases x with
  | nan => exact trivial
  | num s b => exact ⟨rfl, Or.inl rfl⟩

end Opposite

/-- The operations in single precision are compatible with the change of sign. -/
theorem opposite_rel : SignRel Spec.Opposite where
  zero := Or.inr ⟨Or.inl rfl, Or.inl rfl⟩
  default_ := Or.inr ⟨Or.inl rfl, Or.inl rfl⟩
  neg _ := Or.inl rfl
  add x x' y y' hx hy := (Opposite.iff_bits _ _).2 (Opposite.add ((Opposite.iff_bits _ _).1 hx) ((Opposite.iff_bits _ _).1 hy))
  sub x x' y y' hx hy := (Opposite.iff_bits _ _).2
    (Opposite.add ((Opposite.iff_bits _ _).1 hx) (Opposite.neg ((Opposite.iff_bits _ _).1 hy)))
  mul_right x x' c hx := (Opposite.iff_bits _ _).2 (Opposite.mul c ((Opposite.iff_bits _ _).1 hx))
  mul_left c x x' hx := by
    have h := Opposite.mul c ((Opposite.iff_bits _ _).1 hx)
    rw [Opposite.mul_comm x c, Opposite.mul_comm x' c] at h
    exact (Opposite.iff_bits _ _).2 h
  div x x' c hx := (Opposite.iff_bits _ _).2 (Opposite.div c ((Opposite.iff_bits _ _).1 hx))
  sq x x' hx := Opposite.sq ((Opposite.iff_bits _ _).1 hx)

end Bartz
