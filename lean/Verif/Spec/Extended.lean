import Verif.Spec.Real
/-!
# Real numbers with infinities and NaN

A floating point type without rounding, overflow and underflow, but with the special values and the special cases of
IEEE 754 arithmetic: `0 / 0` is NaN, `1 / 0` is infinite, the logarithm of a negative number is NaN, comparisons with
NaN are false, etc. There is only one zero, the positive one.
-/

set_option autoImplicit false

namespace Spec
open Jax

/-- real numbers, infinities, NaN -/
inductive XReal where
  | num (x : ℝ)
  | inf
  | ninf
  | nan

namespace XReal

/-- infinity with the sign of `x`, NaN if `x` is zero -/
noncomputable def infSign (x : ℝ) : XReal := if 0 < x then inf else if x < 0 then ninf else nan

noncomputable instance : Inhabited XReal := ⟨num default⟩
noncomputable instance : Zero XReal := ⟨num 0⟩
noncomputable instance : One XReal := ⟨num 1⟩
noncomputable instance : NatCast XReal := ⟨fun n => num n⟩

noncomputable instance : Neg XReal where
  neg
    | num x => num (-x)
    | inf => ninf
    | ninf => inf
    | nan => nan

/-- addition -/
noncomputable def add : XReal → XReal → XReal
  | num x, num y => num (x + y)
  | nan, _ => nan
  | _, nan => nan
  | inf, ninf => nan
  | ninf, inf => nan
  | inf, _ => inf
  | _, inf => inf
  | ninf, _ => ninf
  | _, ninf => ninf

noncomputable instance : Add XReal := ⟨add⟩
noncomputable instance : Sub XReal := ⟨fun x y => x + -y⟩

/-- multiplication -/
noncomputable def mul : XReal → XReal → XReal
  | num x, num y => num (x * y)
  | nan, _ => nan
  | _, nan => nan
  | num x, inf => infSign x
  | num x, ninf => infSign (-x)
  | inf, num x => infSign x
  | ninf, num x => infSign (-x)
  | inf, inf => inf
  | ninf, ninf => inf
  | inf, ninf => ninf
  | ninf, inf => ninf

noncomputable instance : Mul XReal := ⟨mul⟩

/-- division -/
noncomputable def div : XReal → XReal → XReal
  | num x, num y => if y = 0 then infSign x else num (x / y)
  | nan, _ => nan
  | _, nan => nan
  | num _, inf => num 0
  | num _, ninf => num 0
  | inf, num y => if y < 0 then ninf else inf
  | ninf, num y => if y < 0 then inf else ninf
  | _, _ => nan

noncomputable instance : Div XReal := ⟨div⟩

/-- natural logarithm -/
noncomputable def log : XReal → XReal
  | num x => if 0 < x then num (Real.log x) else if x = 0 then ninf else nan
  | inf => inf
  | _ => nan

/-- square root -/
noncomputable def sqrt : XReal → XReal
  | num x => if 0 ≤ x then num (Real.sqrt x) else nan
  | inf => inf
  | _ => nan

/-- `a < b` -/
noncomputable def lt : XReal → XReal → Bool
  | num x, num y => FltFun.ltb x y
  | num _, inf => true
  | ninf, num _ => true
  | ninf, inf => true
  | _, _ => false

/-- `a <= b` -/
noncomputable def le : XReal → XReal → Bool
  | num x, num y => FltFun.leb x y
  | num _, inf => true
  | ninf, num _ => true
  | ninf, inf => true
  | inf, inf => true
  | ninf, ninf => true
  | _, _ => false

noncomputable instance : FltFun XReal where
  log := log
  log1p x := log (1 + x)
  sqrt := sqrt
  isFinite
    | num _ => true
    | _ => false
  ltb := lt
  leb := le
  cumsum := Jax.cumsum
  tiny := 0

/-- the number is finite -/
def Finite (x : XReal) : Prop := ∃ r, x = num r

@[simp] theorem zero_eq : (0 : XReal) = num 0 := rfl
@[simp] theorem one_eq : (1 : XReal) = num 1 := rfl
@[simp] theorem cast_eq (n : Nat) : ((n : Nat) : XReal) = num n := rfl
@[simp] theorem default_eq : (default : XReal) = num default := rfl
@[simp] theorem neg_num (x : ℝ) : -num x = num (-x) := rfl
@[simp] theorem add_num (x y : ℝ) : num x + num y = num (x + y) := rfl
@[simp] theorem sub_num (x y : ℝ) : num x - num y = num (x - y) :=
  (add_num x (-y)).trans (congrArg num (sub_eq_add_neg x y).symm)
@[simp] theorem mul_num (x y : ℝ) : num x * num y = num (x * y) := rfl
theorem div_num (x : ℝ) {y : ℝ} (hy : y ≠ 0) : num x / num y = num (x / y) := if_neg hy
theorem log_num {x : ℝ} (hx : 0 < x) : FltFun.log (num x) = num (FltFun.log x) := if_pos hx
theorem log1p_num {x : ℝ} (hx : 0 < 1 + x) : FltFun.log1p (num x) = num (FltFun.log1p x) := if_pos hx
theorem sqrt_num {x : ℝ} (hx : 0 ≤ x) : FltFun.sqrt (num x) = num (FltFun.sqrt x) := if_pos hx
@[simp] theorem ltb_num (x y : ℝ) : FltFun.ltb (num x) (num y) = FltFun.ltb x y := rfl
@[simp] theorem leb_num (x y : ℝ) : FltFun.leb (num x) (num y) = FltFun.leb x y := rfl
@[simp] theorem isFinite_num (x : ℝ) : FltFun.isFinite (num x) = true := rfl
theorem nan_add (x : XReal) : nan + x = nan := by cases x <;> rfl
theorem add_nan (x : XReal) : x + nan = nan := by cases x <;> rfl
theorem nan_mul (x : XReal) : nan * x = nan := by cases x <;> rfl
theorem mul_nan (x : XReal) : x * nan = nan := by cases x <;> rfl
theorem nan_div (x : XReal) : nan / x = nan := by cases x <;> rfl

@[simp] theorem tiny_eq : (FltFun.tiny : XReal) = num 0 := rfl

theorem le_zero_cases {x : XReal} (h : FltFun.leb 0 x = true) : x = inf ∨ ∃ r, 0 ≤ r ∧ x = num r := by
  cases x with
  | num r => exact .inr ⟨r, by simpa using h, rfl⟩
  | inf => exact .inl rfl
  | ninf => cases h
  | nan => cases h

theorem addLaws : AddLaws XReal where
  zero_le_zero := by simp
  add_nonneg a b ha hb := by
    rcases le_zero_cases ha with rfl | ⟨a, ha, rfl⟩ <;> rcases le_zero_cases hb with rfl | ⟨b, hb, rfl⟩
    · rfl
    · rfl
    · rfl
    · simp; linarith
  total a b ha hb := by
    rcases le_zero_cases ha with rfl | ⟨a, ha, rfl⟩ <;> rcases le_zero_cases hb with rfl | ⟨b, hb, rfl⟩
    · exact .inl rfl
    · exact .inr rfl
    · exact .inl rfl
    · simpa using le_total a b
  trans a b c ha h1 h2 := by
    rcases le_zero_cases ha with rfl | ⟨a, ha, rfl⟩
    · cases b with
      | num b => cases h1
      | inf => exact h2
      | ninf => cases h1
      | nan => cases h1
    · cases b with
      | num b =>
        cases c with
        | num c => simp at h1 h2 ⊢; linarith
        | inf => rfl
        | ninf => cases h2
        | nan => cases h2
      | inf => cases c <;> first | rfl | cases h2
      | ninf => cases h1
      | nan => cases h1
  lt_iff a b ha hb := by
    rcases le_zero_cases ha with rfl | ⟨a, ha, rfl⟩ <;> rcases le_zero_cases hb with rfl | ⟨b, hb, rfl⟩
    · rfl
    · rfl
    · rfl
    · rw [Bool.eq_iff_iff]; simp
  le_add_right a b ha hb := by
    rcases le_zero_cases ha with rfl | ⟨a, ha, rfl⟩ <;> rcases le_zero_cases hb with rfl | ⟨b, hb, rfl⟩
    · rfl
    · rfl
    · rfl
    · simpa using hb
  le_add_left a b ha hb := by
    rcases le_zero_cases ha with rfl | ⟨a, ha, rfl⟩ <;> rcases le_zero_cases hb with rfl | ⟨b, hb, rfl⟩
    · rfl
    · rfl
    · rfl
    · simpa using ha
  add_zero_le a ha := by
    rcases le_zero_cases ha with rfl | ⟨a, ha, rfl⟩
    · rfl
    · simp
  tiny_nonneg := by simp
  zero_le_one := by simp
  finite := by
    refine ⟨fun x => ∃ r, x = num r, ⟨0, rfl⟩, ?_, ?_, ?_⟩
    · rintro x ⟨r, rfl⟩
      rfl
    · intro x h1 h2
      rcases le_zero_cases h1 with rfl | ⟨r, _, rfl⟩
      · cases h2
      · exact ⟨r, rfl⟩
    · rintro a x _ ⟨r, rfl⟩ h1 h2
      rcases le_zero_cases h1 with rfl | ⟨r', _, rfl⟩
      · cases h2
      · exact ⟨_, rfl⟩

instance : FloatLaws XReal := Bartz.floatLaws_of_left addLaws fun _ => rfl

end XReal

/-- The generator gives the same numbers as another one with real numbers. -/
structure ExtendsDraws (d : Draws XReal) (d' : Draws ℝ) : Prop where
  uniform2 : ∀ r t, d.uniform2 r t = .num (d'.uniform2 r t)
  uniformTo : ∀ hi, d.uniformTo (.num hi) = .num (d'.uniformTo hi)
  randint : ∀ lo hi, d.randint lo hi = d'.randint lo hi
  normal : ∀ t i, d.normal t i = .num (d'.normal t i)
  gamma : ∀ α, d.gamma (.num α) = .num (d'.gamma α)

end Spec
