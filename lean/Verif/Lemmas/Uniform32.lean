import Verif.Lemmas.RoundError
import Verif.Lemmas.Basic
/-! # Error of the evenly spaced grid in single precision -/

set_option autoImplicit false

namespace Jax
namespace Binary32

/-- the value of an ordered number -/
noncomputable def real (z : Ordered) : ℝ := toReal (ofOrdered z)

theorem real_eq (z : Ordered) : real z = (sval z.val : ℝ) / 2 ^ 149 := by
  unfold real ofOrdered toReal
  dsimp only
  rw [value_eq]

theorem real_lt {a b : Ordered} : a < b ↔ real a < real b := by
  rw [real_eq, real_eq, div_lt_div_iff_of_pos_right (by positivity), Int.cast_lt, sval_strictMono.lt_iff_lt]
  rfl

theorem ofOrdered_finite {z : Ordered} (h : z.val.natAbs < infBits) : Finite (ofOrdered z) := h

theorem real_toOrdered {x : Binary32} (h : Finite x) : real (toOrdered x) = toReal x := by
  cases x with
  | nan => exact h.elim
  | num s b =>
    rw [real_eq, toOrdered_val, toReal_num]
    unfold signedBits sval
    cases s
    · simp
    · rcases Nat.eq_zero_or_pos b.val with h0 | h0
      · simp [h0]
      · rw [if_pos rfl, if_pos (by omega)]
        simp

theorem mulAdd_error (fusion : Fusion) {a b c d : Binary32} (ha : Finite a) (hb : Finite b) (hc : Finite c) (hd : Finite d)
    {K S : ℝ} (h1 : |toReal a * toReal b| ≤ K) (h2 : |toReal c * toReal d| ≤ K) (hK : 1 / 2 ^ 126 ≤ K) (hKS : K ≤ S)
    (hS : |toReal a * toReal b + toReal c * toReal d| + 2 * (K / 2 ^ 24) ≤ S) (hS' : S ≤ 2 ^ 127) :
    Finite (mulAdd fusion a b c d) ∧
    |toReal (mulAdd fusion a b c d) - (toReal a * toReal b + toReal c * toReal d)| ≤ 2 * (K / 2 ^ 24) + S / 2 ^ 24 := by
  obtain ⟨f1, e1⟩ := mul_error ha hb (h1.trans (hKS.trans hS'))
  obtain ⟨f2, e2⟩ := mul_error hc hd (h2.trans (hKS.trans hS'))
  have e1' := e1.trans (ulp_le h1 hK)
  have e2' := e2.trans (ulp_le h2 hK)
  have hK0 : 0 ≤ K / 2 ^ 24 := by
    have : (0 : ℝ) ≤ K := hK.trans' (by positivity)
    positivity
  -- the last sum, given the errors in the terms
  have key : ∀ p q : ℝ, |p - toReal a * toReal b| ≤ K / 2 ^ 24 → |q - toReal c * toReal d| ≤ K / 2 ^ 24 →
      |p + q - (toReal a * toReal b + toReal c * toReal d)| ≤ 2 * (K / 2 ^ 24) ∧ |p + q| ≤ S := by
    intro p q hp hq
    have : |p + q - (toReal a * toReal b + toReal c * toReal d)| ≤ 2 * (K / 2 ^ 24) := by
      rw [abs_le] at hp hq ⊢
      constructor <;> linarith
    refine ⟨this, ?_⟩
    have h3 := abs_sub_abs_le_abs_sub (p + q) (toReal a * toReal b + toReal c * toReal d)
    linarith
  have fin : ∀ p q : ℝ, |p - toReal a * toReal b| ≤ K / 2 ^ 24 → |q - toReal c * toReal d| ≤ K / 2 ^ 24 → ∀ r : ℝ,
      |r - (p + q)| ≤ ulp (p + q) →
      |r - (toReal a * toReal b + toReal c * toReal d)| ≤ 2 * (K / 2 ^ 24) + S / 2 ^ 24 := by
    intro p q hp hq r hr
    obtain ⟨k1, k2⟩ := key p q hp hq
    have hr' := hr.trans (ulp_le k2 (hK.trans hKS))
    rw [abs_le] at hr' k1 ⊢
    constructor <;> linarith
  have z1 : |toReal a * toReal b - toReal a * toReal b| ≤ K / 2 ^ 24 := by rw [sub_self, abs_zero]; exact hK0
  have z2 : |toReal c * toReal d - toReal c * toReal d| ≤ K / 2 ^ 24 := by rw [sub_self, abs_zero]; exact hK0
  cases fusion with
  | none =>
    obtain ⟨f, e⟩ := add_error f1 f2 ((key _ _ e1' e2').2.trans hS')
    exact ⟨f, fin _ _ e1' e2' _ e⟩
  | first =>
    obtain ⟨f, e⟩ := fma_error ha hb f2 ((key _ _ z1 e2').2.trans hS')
    exact ⟨f, fin _ _ z1 e2' _ e⟩
  | second =>
    have h3 := (key _ _ e1' z2).2.trans hS'
    rw [add_comm] at h3
    obtain ⟨f, e⟩ := fma_error hc hd f1 h3
    refine ⟨f, fin _ _ e1' z2 _ ?_⟩
    rw [add_comm (toReal (a * b))]
    exact e

/-- error of a point of the grid -/
theorem grid_error (fusion : Fusion) {a b : Binary32} (ha : Finite a) (hb : Finite b) {M : ℝ} (hM : 1 / 2 ^ 126 ≤ M)
    (hM' : M ≤ 2 ^ 125) (h1 : |toReal a| ≤ M) (h2 : |toReal b| ≤ M) {k n : Nat} (hk : k ≤ n) (h0 : 0 < n) (hn : n ≤ 2 ^ 24) :
    Finite (mulAdd fusion a (1 - (k : Binary32) / (n : Binary32)) b ((k : Binary32) / (n : Binary32))) ∧
    |toReal (mulAdd fusion a (1 - (k : Binary32) / (n : Binary32)) b ((k : Binary32) / (n : Binary32))) -
      (toReal a + (toReal b - toReal a) * (k / n))| ≤ 7 * (M / 2 ^ 24) := by
  obtain ⟨fk, ek⟩ := natCast_exact (hk.trans hn)
  obtain ⟨fn, en⟩ := natCast_exact hn
  obtain ⟨fo, eo⟩ := one_exact
  have hn' : (0 : ℝ) < n := Nat.cast_pos.2 h0
  have ht1 : (0 : ℝ) ≤ k / n := by positivity
  have ht2 : (k : ℝ) / n ≤ 1 := (div_le_one hn').2 (Nat.cast_le.2 hk)
  have hM0 : 0 < M := lt_of_lt_of_le (by positivity) hM
  have hsmall : (1 : ℝ) / 2 ^ 126 ≤ 1 := by norm_num
  have hone : (1 : ℝ) ≤ 2 ^ 127 := by norm_num
  obtain ⟨fs, es⟩ := div_error fk fn (by rw [en]; exact hn'.ne')
    (by rw [ek, en, abs_of_nonneg ht1]; exact ht2.trans hone)
  rw [ek, en] at es
  have es' := es.trans (ulp_le (M := 1) (by rw [abs_of_nonneg ht1]; exact ht2) hsmall)
  generalize (k : Binary32) / (n : Binary32) = st at fs es' ⊢
  generalize (k : ℝ) / n = t at ht1 ht2 es' ⊢
  have hu : |1 - toReal st| ≤ 1 + 1 / 2 ^ 24 := by
    rw [abs_le] at es' ⊢
    constructor <;> linarith
  obtain ⟨fm, em⟩ := sub_error fo fs (by rw [eo]; exact hu.trans (by norm_num))
  rw [eo] at em
  have em' := em.trans (ulp_le (M := 1 + 1 / 2 ^ 24) hu (by norm_num))
  generalize 1 - st = om at fm em' ⊢
  have hst : |toReal st - t| ≤ 1 / 2 ^ 24 := es'
  have hom : |toReal om - (1 - t)| ≤ (21 / 10) / 2 ^ 24 := by
    rw [abs_le] at em' hst ⊢
    norm_num at em' hst ⊢
    constructor <;> linarith
  have hA : |toReal a * toReal om - toReal a * (1 - t)| ≤ M * ((21 / 10) / 2 ^ 24) := by
    rw [← mul_sub, abs_mul]
    exact mul_le_mul h1 hom (abs_nonneg _) hM0.le
  have hB : |toReal b * toReal st - toReal b * t| ≤ M * (1 / 2 ^ 24) := by
    rw [← mul_sub, abs_mul]
    exact mul_le_mul h2 hst (abs_nonneg _) hM0.le
  have hA' : |toReal a * (1 - t)| ≤ M := by
    rw [abs_mul, abs_of_nonneg (sub_nonneg.2 ht2)]
    exact (mul_le_mul_of_nonneg_right h1 (sub_nonneg.2 ht2)).trans (mul_le_of_le_one_right hM0.le (by linarith))
  have hB' : |toReal b * t| ≤ M := by
    rw [abs_mul, abs_of_nonneg ht1]
    exact (mul_le_mul_of_nonneg_right h2 ht1).trans (mul_le_of_le_one_right hM0.le ht2)
  have hAB : |toReal a * (1 - t) + toReal b * t| ≤ M := by
    rw [abs_le] at h1 h2 ⊢
    have q1 := mul_le_mul_of_nonneg_right h1.1 (sub_nonneg.2 ht2)
    have q2 := mul_le_mul_of_nonneg_right h1.2 (sub_nonneg.2 ht2)
    have q3 := mul_le_mul_of_nonneg_right h2.1 ht1
    have q4 := mul_le_mul_of_nonneg_right h2.2 ht1
    constructor <;> linarith
  obtain ⟨f, e⟩ := mulAdd_error fusion ha fm hb fs (K := M * (1 + 3 / 2 ^ 24)) (S := M * (1 + 6 / 2 ^ 24))
    (by rw [abs_le] at hA hA' ⊢; constructor <;> linarith)
    (by rw [abs_le] at hB hB' ⊢; constructor <;> linarith)
    (by linarith) (by linarith)
    (by
      have : |toReal a * toReal om + toReal b * toReal st| ≤ M * (1 + (31 / 10) / 2 ^ 24) := by
        rw [abs_le] at hA hB hAB ⊢
        constructor <;> linarith
      linarith)
    (by
      refine (mul_le_mul_of_nonneg_right hM' (by norm_num)).trans ?_
      norm_num)
  refine ⟨f, ?_⟩
  have e0 : toReal a + (toReal b - toReal a) * t = toReal a * (1 - t) + toReal b * t := by ring
  rw [e0]
  rw [abs_le] at e hA hB ⊢
  constructor <;> linarith

end Binary32
end Jax
