import Verif.Spec.Sites
import Verif.Spec.Real
/-! # Probabilities of boxes -/

set_option autoImplicit false

namespace Spec
open Jax MeasureTheory

/-- length of a set of real numbers -/
noncomputable def len (S : Set ℝ) : ℝ := (volume S).toReal

theorem prob_box {P : (Fin 6 → ℝ) → Prop} {S : Fin 6 → Set ℝ} (hS : ∀ i, S i ⊆ Set.Ico 0 1)
    (h : ∀ w ∈ unitCube, P w ↔ ∀ i, w i ∈ S i) :
    prob P = len (S 0) * len (S 1) * len (S 2) * len (S 3) * len (S 4) * len (S 5) := by
  have e : {w | w ∈ unitCube ∧ P w} = Set.univ.pi S := by
    ext w
    simp only [Set.mem_ofPred_eq, Set.mem_univ_pi]
    constructor
    · rintro ⟨h1, h2⟩; exact (h w h1).1 h2
    · intro h1
      have hw : w ∈ unitCube := by
        unfold unitCube; rw [Set.mem_univ_pi]; exact fun i => hS i (h1 i)
      exact ⟨hw, (h w hw).2 h1⟩
  unfold prob len
  rw [e, volume_pi_pi, ENNReal.toReal_prod]
  simp [Fin.prod_univ_succ]
  ring_nf

theorem len_Ico {a b : ℝ} (h : a ≤ b) : len (Set.Ico a b) = b - a := by
  unfold len; rw [Real.volume_Ico, ENNReal.toReal_ofReal (by linarith)]

theorem len_unit : len (Set.Ico 0 1) = 1 := by rw [len_Ico (by norm_num)]; norm_num

theorem unifInt_eq_iff {x : ℝ} (hx : x ∈ Set.Ico (0 : ℝ) 1) {lo hi k : Nat} (hk : lo ≤ k)
    (hk' : k < hi) : unifInt x lo hi = k ↔
      x ∈ Set.Ico (((k - lo : Nat) : ℝ) / ((hi - lo : Nat) : ℝ))
        ((((k - lo : Nat) : ℝ) + 1) / ((hi - lo : Nat) : ℝ)) := by
  have hpos : (0 : ℝ) < ((hi - lo : Nat) : ℝ) := by exact_mod_cast (by omega : 0 < hi - lo)
  unfold unifInt
  rw [if_pos (by omega), Set.mem_Ico, div_le_iff₀ hpos, lt_div_iff₀ hpos]
  have h1 : lo + ⌊((hi - lo : Nat) : ℝ) * x⌋₊ = k ↔ ⌊((hi - lo : Nat) : ℝ) * x⌋₊ = k - lo := by omega
  rw [h1, Nat.floor_eq_iff (mul_nonneg hpos.le hx.1), mul_comm]

theorem unifInt_lt {x : ℝ} (hx : x ∈ Set.Ico (0 : ℝ) 1) {lo hi : Nat} (h : lo < hi) :
    lo ≤ unifInt x lo hi ∧ unifInt x lo hi < hi := by
  have hpos : (0 : ℝ) < ((hi - lo : Nat) : ℝ) := by exact_mod_cast (by omega : 0 < hi - lo)
  unfold unifInt
  rw [if_pos h]
  refine ⟨by omega, ?_⟩
  have : ⌊((hi - lo : Nat) : ℝ) * x⌋₊ < hi - lo := by
    rw [Nat.floor_lt (mul_nonneg hpos.le hx.1)]
    nlinarith [hx.2]
  omega

/-- `unifInt` is uniform -/
theorem len_unifInt {lo hi k : Nat} (hk : lo ≤ k) (hk' : k < hi) :
    len {x | x ∈ Set.Ico (0 : ℝ) 1 ∧ unifInt x lo hi = k} = 1 / ((hi - lo : Nat) : ℝ) := by
  have hpos : (0 : ℝ) < ((hi - lo : Nat) : ℝ) := by exact_mod_cast (by omega : 0 < hi - lo)
  have hle : (((k - lo : Nat) : ℝ) + 1) ≤ ((hi - lo : Nat) : ℝ) := by
    exact_mod_cast (by omega : k - lo + 1 ≤ hi - lo)
  have e : {x | x ∈ Set.Ico (0 : ℝ) 1 ∧ unifInt x lo hi = k} =
      Set.Ico (((k - lo : Nat) : ℝ) / ((hi - lo : Nat) : ℝ))
        ((((k - lo : Nat) : ℝ) + 1) / ((hi - lo : Nat) : ℝ)) := by
    ext x
    simp only [Set.mem_ofPred_eq]
    constructor
    · rintro ⟨h1, h2⟩; exact (unifInt_eq_iff h1 hk hk').1 h2
    · intro h1
      have hx : x ∈ Set.Ico (0 : ℝ) 1 := by
        refine ⟨le_trans (by positivity) h1.1, lt_of_lt_of_le h1.2 ?_⟩
        rw [div_le_one hpos]; exact hle
      exact ⟨hx, (unifInt_eq_iff hx hk hk').2 h1⟩
  rw [e, len_Ico (by apply div_le_div_of_nonneg_right _ hpos.le; linarith)]
  field_simp
  ring

/-- the acceptance probability -/
theorem len_accept (r : ℝ) :
    len {x | x ∈ Set.Ico (0 : ℝ) 1 ∧ Real.log (1 + -x) ≤ r} = min 1 (Real.exp r) := by
  have e : {x | x ∈ Set.Ico (0 : ℝ) 1 ∧ Real.log (1 + -x) ≤ r} =
      Set.Ico (max 0 (1 - Real.exp r)) 1 := by
    ext x
    simp only [Set.mem_ofPred_eq, Set.mem_Ico, max_le_iff]
    constructor
    · rintro ⟨⟨h0, h1⟩, h2⟩
      have h3 : 1 + -x ≤ Real.exp r := (Real.log_le_iff_le_exp (by linarith)).1 h2
      exact ⟨⟨h0, by linarith⟩, h1⟩
    · rintro ⟨⟨h0, h2⟩, h1⟩
      exact ⟨⟨h0, h1⟩, (Real.log_le_iff_le_exp (by linarith)).2 (by linarith)⟩
  rw [e, len_Ico]
  · rcases le_total (Real.exp r) 1 with h | h
    · rw [max_eq_right (by linarith), min_eq_right h]; ring
    · rw [max_eq_left (by linarith), min_eq_left h]; ring
  · rw [max_le_iff]; exact ⟨by norm_num, by have := Real.exp_pos r; linarith⟩

end Spec
