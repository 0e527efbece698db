import Verif.Model.Grove
import Verif.Spec.Tree
import Mathlib.Tactic.Linarith
import Mathlib.Tactic.Ring
import Mathlib.Data.List.Basic
/-! # Basic lemmas on the jax primitives -/

set_option autoImplicit false

namespace Jax

theorem gather_of_lt {α : Type _} [Inhabited α] {a : List α} {i : Nat} (h : i < a.length) :
    gather a i = a[i] := by
  have : min i (a.length - 1) = i := by omega
  simp [gather, this, h]

theorem gather_eq_getD {α : Type _} [Inhabited α] {a : List α} {i : Nat} (h : i < a.length)
    (d : α) : gather a i = a.getD i d := by
  rw [gather_of_lt h]; simp [h]

theorem gather_clamp {α : Type _} [Inhabited α] {a : List α} {i : Nat} (h : a.length ≤ i) :
    gather a i = gather a (a.length - 1) := by
  have h1 : min i (a.length - 1) = a.length - 1 := by omega
  simp [gather, h1]

theorem astype_of_lt {bits v : Nat} (h : v < 2 ^ bits) : astype bits v = v := Nat.mod_eq_of_lt h

theorem astype_lt (bits v : Nat) : astype bits v < 2 ^ bits := Nat.mod_lt _ (Nat.two_pow_pos _)

@[simp] theorem length_setDrop {α : Type _} (a : List α) (i : Nat) (v : α) :
    (setDrop a i v).length = a.length := by simp [setDrop]

theorem getD_setDrop {α : Type _} (a : List α) (i j : Nat) (v d : α) :
    (setDrop a i v).getD j d = if i = j ∧ j < a.length then v else a.getD j d := by
  unfold setDrop
  simp only [List.getD_eq_getElem?_getD, List.getElem?_set]
  split_ifs with h1 h2 h3 <;> simp_all

theorem setDrop_of_le {α : Type _} {a : List α} {i : Nat} (h : a.length ≤ i) (v : α) :
    setDrop a i v = a := by
  unfold setDrop; exact List.set_eq_of_length_le h

@[simp] theorem length_vmap {β : Type _} (n : Nat) (f : Nat → β) : (vmap n f).length = n := by
  simp [vmap]

theorem getD_vmap {β : Type _} {n : Nat} {f : Nat → β} {i : Nat} (h : i < n) (d : β) :
    (vmap n f).getD i d = f i := by
  simp [vmap, h]

@[simp] theorem scanN_zero {C : Type _} (f : C → C) (c : C) : scanN f c 0 = c := rfl

theorem scanN_succ {C : Type _} (f : C → C) (c : C) (n : Nat) :
    scanN f c (n + 1) = f (scanN f c n) := rfl

theorem scanN_succ' {C : Type _} (f : C → C) (c : C) (n : Nat) :
    scanN f c (n + 1) = scanN f (f c) n := by
  induction n with
  | zero => rfl
  | succ n ih => rw [scanN_succ, ih]; rfl

theorem scan_length {C X Y : Type _} (f : C → X → C × Y) (c : C) (xs : List X) :
    (scan f c xs).2.length = xs.length := by
  induction xs generalizing c with
  | nil => rfl
  | cons x xs ih => simp [scan, ih]

/-- the carry before processing element `t` -/
def scanCarry {C X Y : Type _} (f : C → X → C × Y) (c : C) (xs : List X) (t : Nat) : C :=
  (scan f c (xs.take t)).1

theorem scan_cons {C X Y : Type _} (f : C → X → C × Y) (c : C) (x : X) (xs : List X) :
    scan f c (x :: xs) = ((scan f (f c x).1 xs).1, (f c x).2 :: (scan f (f c x).1 xs).2) := rfl

theorem scanCarry_zero {C X Y : Type _} (f : C → X → C × Y) (c : C) (xs : List X) :
    scanCarry f c xs 0 = c := by simp [scanCarry, scan]

theorem scanCarry_succ {C X Y : Type _} (f : C → X → C × Y) (c : C) (xs : List X) (t : Nat)
    (h : t < xs.length) :
    scanCarry f c xs (t + 1) = (f (scanCarry f c xs t) xs[t]).1 := by
  induction xs generalizing c t with
  | nil => simp at h
  | cons x xs ih =>
    cases t with
    | zero => simp [scanCarry, scan]
    | succ t =>
      have := ih (f c x).1 t (by simpa using h)
      simpa [scanCarry, scan_cons] using this

theorem scan_fst {C X Y : Type _} (f : C → X → C × Y) (c : C) (xs : List X) :
    (scan f c xs).1 = scanCarry f c xs xs.length := by simp [scanCarry]

theorem scan_getElem {C X Y : Type _} (f : C → X → C × Y) (c : C) (xs : List X) (t : Nat)
    (h : t < xs.length) :
    (scan f c xs).2[t]'(by rw [scan_length]; exact h) = (f (scanCarry f c xs t) xs[t]).2 := by
  induction xs generalizing c t with
  | nil => simp at h
  | cons x xs ih =>
    cases t with
    | zero => simp [scanCarry, scan]
    | succ t =>
      have := ih (f c x).1 t (by simpa using h)
      simpa [scanCarry, scan_cons] using this

end Jax

namespace Bartz
open Jax

/-- The minimal type fits its maximum value. -/
theorem minimal_fits {v : Nat} {m : Int} (h : (v : Int) ≤ m) (h64 : v < 2 ^ 64) :
    v < 2 ^ minimal_unsigned_dtype m := by
  unfold minimal_unsigned_dtype
  split_ifs <;> omega

theorem minimal_ge_8 (m : Int) : 8 ≤ minimal_unsigned_dtype m := by
  unfold minimal_unsigned_dtype
  split_ifs <;> omega

theorem tree_depth_pow {α : Type _} {a : List α} {h : Nat} (hl : a.length = 2 ^ h) :
    tree_depth a = h := by simp [tree_depth, hl, Nat.log2_two_pow]

end Bartz
