import Verif.Lemmas.FloatLeft
import Mathlib.Analysis.SpecialFunctions.Log.Basic
import Mathlib.Analysis.SpecialFunctions.Sqrt
/-! # Exact arithmetic: the real numbers as a floating point type -/

set_option autoImplicit false

open Jax Spec

noncomputable instance : FltFun ℝ where
  log := Real.log
  log1p x := Real.log (1 + x)
  sqrt := Real.sqrt
  isFinite _ := true
  ltb a b := by classical exact decide (a < b)
  leb a b := by classical exact decide (a ≤ b)
  cumsum := Jax.cumsum
  tiny := 0

@[simp] theorem Real.ltb_iff (a b : ℝ) : FltFun.ltb a b = true ↔ a < b := by simp [FltFun.ltb]
@[simp] theorem Real.leb_iff (a b : ℝ) : FltFun.leb a b = true ↔ a ≤ b := by simp [FltFun.leb]
@[simp] theorem Real.ltb_iff_false (a b : ℝ) : FltFun.ltb a b = false ↔ b ≤ a := by simp [FltFun.ltb]
@[simp] theorem Real.leb_iff_false (a b : ℝ) : FltFun.leb a b = false ↔ b < a := by simp [FltFun.leb]
@[simp] theorem Real.fltFun_log (a : ℝ) : FltFun.log a = Real.log a := rfl
@[simp] theorem Real.fltFun_log1p (a : ℝ) : FltFun.log1p a = Real.log (1 + a) := rfl
@[simp] theorem Real.fltFun_sqrt (a : ℝ) : FltFun.sqrt a = Real.sqrt a := rfl
@[simp] theorem Real.fltFun_isFinite (a : ℝ) : FltFun.isFinite a = true := rfl

@[simp] theorem Real.fltFun_cumsum (w : List ℝ) : FltFun.cumsum w = Jax.cumsum w := rfl

@[simp] theorem Real.fltFun_tiny : (FltFun.tiny : ℝ) = 0 := rfl

theorem Real.addLaws : AddLaws ℝ where
  zero_le_zero := by simp
  add_nonneg a b := by simpa using add_nonneg
  total a b _ _ := by simpa using le_total a b
  trans a b c _ h1 h2 := by simp at h1 h2 ⊢; linarith
  lt_iff a b _ _ := by
    rw [Bool.eq_iff_iff]; simp
  le_add_right a b _ h := by simp at h ⊢; linarith
  le_add_left a b h _ := by simp at h ⊢; linarith
  add_zero_le a _ := by simp
  tiny_nonneg := by simp
  zero_le_one := by simp
  finite := ⟨fun _ => True, trivial, fun _ _ => rfl, fun _ _ _ => trivial, fun _ _ _ _ _ _ => trivial⟩

instance : FloatLaws ℝ := Bartz.floatLaws_of_left Real.addLaws fun _ => rfl
