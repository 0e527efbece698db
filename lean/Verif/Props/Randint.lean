import Verif.Spec.Randint
import Verif.Props.Rules
import Verif.Lemmas.BartKernel
import Verif.Props.Posterior
import Verif.Props.Sampling
import Mathlib.Data.Int.CardIntervalMod
import Mathlib.Logic.Equiv.Fin.Basic
/-!
# Property C90: the integers proposed by the MCMC are uniformly distributed, up to `2 ** -64`

In the other properties `random.randint` is any function with values in the range (`LawfulDraws`), or an exactly uniform variate
(`StepSites`). Here it is the algorithm of JAX applied to random bits.
-/

set_option autoImplicit false

namespace Bartz
open Jax Spec

/-! ### The algorithm -/

/-- number of values in the range, or 1 if it is empty -/
def spanOf (lo hi : Nat) : Nat := if hi ≤ lo then 1 else hi - lo

theorem spanOf_pos (lo hi : Nat) : 0 < spanOf lo hi := by unfold spanOf; split <;> omega

/-- For any random bits, the integer is in the range, or is the lower end of the range if the range is empty. -/
theorem C90_range (h l lo hi : Nat) :
    (lo < hi → lo ≤ randint32 h l lo hi ∧ randint32 h l lo hi < hi) ∧ (hi ≤ lo → randint32 h l lo hi = lo) := by
  have := Nat.mod_lt (astype 32 (astype 32 (h % spanOf lo hi * (astype 32 (2 ^ 16 % spanOf lo hi * (2 ^ 16 % spanOf lo hi)) % spanOf lo hi)) +
    l % spanOf lo hi)) (spanOf_pos lo hi)
  have e : randint32 h l lo hi = lo + astype 32 (astype 32 (h % spanOf lo hi *
    (astype 32 (2 ^ 16 % spanOf lo hi * (2 ^ 16 % spanOf lo hi)) % spanOf lo hi)) + l % spanOf lo hi) % spanOf lo hi := rfl
  rw [e]
  generalize astype 32 (astype 32 (h % spanOf lo hi *
    (astype 32 (2 ^ 16 % spanOf lo hi * (2 ^ 16 % spanOf lo hi)) % spanOf lo hi)) + l % spanOf lo hi) % spanOf lo hi = r at *
  unfold spanOf at this
  split at this <;> constructor <;> intro _ <;> omega

/-- With at most `2 ** 16` values nothing wraps around: the integer is the remainder of the division of the 64 bit random integer by
the number of values. -/
theorem randint32_eq {lo hi : Nat} (hlt : lo < hi) (hs : hi - lo ≤ 2 ^ 16) (h l : Nat) :
    randint32 h l lo hi = lo + (h * 2 ^ 32 + l) % (hi - lo) := by
  unfold randint32
  simp only [if_neg (Nat.not_le.2 hlt)]
  obtain ⟨s, hs'⟩ : ∃ s, s = hi - lo := ⟨_, rfl⟩
  rw [← hs'] at hs ⊢
  have h0 : 0 < s := by omega
  have h1 : 2 ^ 16 % s < s := Nat.mod_lt _ h0
  have h2 : (2 ^ 16 % s) * (2 ^ 16 % s) < 2 ^ 32 := lt_of_lt_of_eq (Nat.mul_lt_mul'' (h1.trans_le hs) (h1.trans_le hs)) (by norm_num)
  have h3 : astype 32 (2 ^ 16 % s * (2 ^ 16 % s)) = 2 ^ 16 % s * (2 ^ 16 % s) := Nat.mod_eq_of_lt h2
  have h4 : 2 ^ 16 % s * (2 ^ 16 % s) % s = 2 ^ 32 % s := by
    rw [← Nat.mul_mod, ← pow_add]
  rw [h3, h4]
  have h5 : h % s ≤ s - 1 := by have := Nat.mod_lt h h0; omega
  have h6 : 2 ^ 32 % s ≤ s - 1 := by have := Nat.mod_lt (2 ^ 32) h0; omega
  have h7 : l % s ≤ s - 1 := by have := Nat.mod_lt l h0; omega
  have h8 : h % s * (2 ^ 32 % s) ≤ (s - 1) * (s - 1) := Nat.mul_le_mul h5 h6
  have h9 : (s - 1) * (s - 1) + (s - 1) < 2 ^ 32 := by
    obtain ⟨k, rfl⟩ : ∃ k, s = k + 1 := ⟨s - 1, by omega⟩
    simp only [Nat.add_sub_cancel]
    nlinarith
  have h10 : astype 32 (h % s * (2 ^ 32 % s)) = h % s * (2 ^ 32 % s) := Nat.mod_eq_of_lt (by omega)
  have h11 : astype 32 (h % s * (2 ^ 32 % s) + l % s) = h % s * (2 ^ 32 % s) + l % s := Nat.mod_eq_of_lt (by omega)
  rw [h10, h11]
  congr 1
  rw [Nat.add_mod, Nat.mod_mod, ← Nat.mul_mod, ← Nat.add_mod]

/-! ### Probability -/

theorem card_words (N : Nat) (p : Nat → Prop) [DecidablePred p] :
    (Finset.univ.filter fun w : Fin N × Fin N => p (w.1 * N + w.2)).card = Nat.count p (N * N) := by
  rw [Nat.count_eq_card_filter_range]
  refine Finset.card_bij (fun w _ => w.1 * N + w.2) ?_ ?_ ?_
  · intro w hw
    simp only [Finset.mem_filter, Finset.mem_univ, true_and, Finset.mem_range] at hw ⊢
    refine ⟨?_, hw⟩
    have h1 := w.1.isLt
    have h2 := w.2.isLt
    nlinarith
  · intro w _ w' _ h
    have h2 := w.2.isLt
    have h2' := w'.2.isLt
    have h3 := congrArg (· % N) h
    have h4 := congrArg (· / N) h
    simp only [Nat.mul_add_mod_self_right, Nat.mod_eq_of_lt h2, Nat.mod_eq_of_lt h2'] at h3
    have hN : 0 < N := by omega
    rw [h3] at h
    have h5 : (w.1 : Nat) = w'.1 := Nat.eq_of_mul_eq_mul_right hN (by omega)
    exact Prod.ext (Fin.ext h5) (Fin.ext h3)
  · intro k hk
    simp only [Finset.mem_filter, Finset.mem_range] at hk
    have hN : 0 < N := by
      rcases Nat.eq_zero_or_pos N with rfl | h
      · omega
      · exact h
    have e : k / N * N + k % N = k := Nat.div_add_mod' k N
    refine ⟨(⟨k / N, Nat.div_lt_of_lt_mul hk.1⟩, ⟨k % N, Nat.mod_lt _ hN⟩), ?_, e⟩
    simp only [Finset.mem_filter, Finset.mem_univ, true_and]
    rw [e]
    exact hk.2

theorem wordsProb_count (p : Nat → Prop) [DecidablePred p] :
    wordsProb (fun w => p (w.1 * 2 ^ 32 + w.2)) = (Nat.count p (2 ^ 64) : ℝ) / 2 ^ 64 := by
  have := card_words (2 ^ 32) p
  rw [← pow_add] at this
  rw [← this]
  unfold wordsProb
  congr

/-- **C90**. The probability of each value in a range with `s <= 2 ** 16` values differs from `1 / s` by less than `2 ** -64`, and it
is `1 / s` if `s` is a power of 2. -/
theorem C90_randint {lo hi v : Nat} (h1 : lo ≤ v) (h2 : v < hi) (hs : hi - lo ≤ 2 ^ 16) :
    |wordsProb (fun w => randint32 w.1 w.2 lo hi = v) - 1 / ((hi - lo : Nat) : ℝ)| < 1 / 2 ^ 64 ∧
    (∀ k, hi - lo = 2 ^ k → wordsProb (fun w => randint32 w.1 w.2 lo hi = v) = 1 / ((hi - lo : Nat) : ℝ)) := by
  classical
  obtain ⟨s, hs'⟩ : ∃ s, s = hi - lo := ⟨_, rfl⟩
  have h0 : 0 < s := by omega
  have hc : wordsProb (fun w => randint32 w.1 w.2 lo hi = v) =
      ((2 ^ 64 / s + if (v - lo) % s < 2 ^ 64 % s then 1 else 0 : Nat) : ℝ) / 2 ^ 64 := by
    rw [← Nat.count_modEq_card _ h0, ← wordsProb_count]
    congr 1
    funext w
    rw [randint32_eq (by omega) hs, ← hs']
    unfold Nat.ModEq
    rw [Nat.mod_eq_of_lt (show v - lo < s by omega), eq_iff_iff]
    omega
  rw [hc, ← hs']
  have hsr : (0 : ℝ) < s := by exact_mod_cast h0
  have hd : ((2 ^ 64 / s : Nat) : ℝ) * s + ((2 ^ 64 % s : Nat) : ℝ) = 2 ^ 64 := by
    have := Nat.div_add_mod (2 ^ 64) s
    rw [mul_comm] at this
    exact_mod_cast this
  have hm : ((2 ^ 64 % s : Nat) : ℝ) < s := by exact_mod_cast Nat.mod_lt _ h0
  have hm0 : (0 : ℝ) ≤ ((2 ^ 64 % s : Nat) : ℝ) := Nat.cast_nonneg _
  constructor
  · have key : ((2 ^ 64 / s + if (v - lo) % s < 2 ^ 64 % s then 1 else 0 : Nat) : ℝ) / 2 ^ 64 - 1 / (s : ℝ) =
        ((if (v - lo) % s < 2 ^ 64 % s then 1 else 0) * s - ((2 ^ 64 % s : Nat) : ℝ)) / s * (1 / 2 ^ 64) := by
      rw [Nat.cast_add, eq_sub_of_add_eq hd |> eq_div_of_mul_eq hsr.ne']
      split_ifs
      · field_simp
        push_cast
        ring
      · field_simp
        push_cast
        ring
    rw [key, abs_mul, abs_of_pos (show (0 : ℝ) < 1 / 2 ^ 64 by positivity)]
    refine (mul_lt_iff_lt_one_left (by positivity)).2 ?_
    rw [abs_div, abs_of_pos hsr, div_lt_one hsr, abs_lt]
    split_ifs with hi
    · have : (0 : ℝ) < ((2 ^ 64 % s : Nat) : ℝ) := by exact_mod_cast Nat.lt_of_le_of_lt (Nat.zero_le _) hi
      constructor <;> linarith
    · constructor <;> linarith
  · intro k hk
    have hdv : 2 ^ 64 % s = 0 := by
      rw [hk]
      refine Nat.mod_eq_zero_of_dvd (pow_dvd_pow 2 ?_)
      have : 2 ^ k ≤ 2 ^ 16 := by omega
      have := (Nat.pow_le_pow_iff_right (by norm_num)).1 this
      omega
    rw [hdv] at hd ⊢
    simp only [Nat.not_lt_zero, if_false, Nat.add_zero]
    rw [div_eq_div_iff (by positivity) hsr.ne']
    push_cast at hd ⊢
    linarith

theorem card_le_fibers (N m : Nat) (p : Nat → Nat → Prop) [∀ h, DecidablePred (p h)]
    (hm : ∀ h, Nat.count (p h) N ≤ m) : (Finset.univ.filter fun w : Fin N × Fin N => p w.1 w.2).card ≤ N * m := by
  rw [Finset.card_filter, Fintype.sum_prod_type]
  refine (Finset.sum_le_card_nsmul _ _ m fun h _ => ?_).trans (by simp)
  refine le_trans (le_of_eq ?_) (hm h)
  rw [Nat.count_eq_card_filter_range, Finset.card_filter, Finset.sum_range]

/-- With any number of values `s`, when the product may wrap around, the probability of each value is at most about twice
`1 / s`. -/
theorem C90_large {lo hi : Nat} (hlt : lo < hi) (hi32 : hi ≤ 2 ^ 32) (v : Nat) :
    wordsProb (fun w => randint32 w.1 w.2 lo hi = v) ≤ 2 / ((hi - lo : Nat) : ℝ) + 2 / 2 ^ 32 := by
  obtain ⟨s, hs'⟩ : ∃ s, s = hi - lo := ⟨_, rfl⟩
  have h0 : 0 < s := by omega
  have hcount : ∀ h, Nat.count (fun l => randint32 h l lo hi = v) (2 ^ 32) ≤ 2 * (2 ^ 32 / s + 1) := by
    intro h
    obtain ⟨c, hc⟩ : ∃ c, c = astype 32 ((h % s) * (astype 32 ((2 ^ 16 % s) * (2 ^ 16 % s)) % s)) := ⟨_, rfl⟩
    have hcl : c < 2 ^ 32 := by rw [hc]; exact Nat.mod_lt _ (by norm_num)
    have e : ∀ l, randint32 h l lo hi = lo + astype 32 (c + l % s) % s := by
      intro l
      unfold randint32
      simp only [if_neg (Nat.not_le.2 hlt), ← hs', ← hc]
    have hmod : ∀ l, randint32 h l lo hi = v → l ≡ v - lo + (s - 1) * c [MOD s] ∨ l ≡ v - lo + 2 ^ 32 + (s - 1) * c [MOD s] := by
      intro l hl
      rw [e] at hl
      have hl' : astype 32 (c + l % s) % s = v - lo := by omega
      have hls : l % s < s := Nat.mod_lt _ h0
      have hsc : c + (s - 1) * c = s * c := by
        obtain ⟨k, rfl⟩ : ∃ k, s = k + 1 := ⟨s - 1, by omega⟩
        simp only [Nat.add_sub_cancel]
        ring
      have key : ∀ z, (c + l % s) % s = z % s → l ≡ z + (s - 1) * c [MOD s] := by
        intro z hz
        have h1 : c + l ≡ z [MOD s] := by
          unfold Nat.ModEq
          rw [← hz, Nat.add_mod_mod]
        have h2 := h1.add_right ((s - 1) * c)
        have h3 : c + l + (s - 1) * c = l + s * c := by rw [← hsc]; ring
        rw [h3] at h2
        exact (Nat.ModEq.symm (by unfold Nat.ModEq; simp)).trans h2
      by_cases hw : c + l % s < 2 ^ 32
      · left
        rw [show astype 32 (c + l % s) = c + l % s from Nat.mod_eq_of_lt hw] at hl'
        refine key _ ?_
        rw [← hl', Nat.mod_mod]
      · right
        refine key _ ?_
        have h4 : astype 32 (c + l % s) + 2 ^ 32 = c + l % s := by
          unfold astype
          omega
        rw [← h4, Nat.add_mod, hl', ← Nat.add_mod_mod]
        rw [Nat.add_mod (v - lo) _ s, Nat.mod_mod, ← Nat.add_mod, Nat.add_mod_mod]
    have hle : ∀ r, Nat.count (· ≡ r [MOD s]) (2 ^ 32) ≤ 2 ^ 32 / s + 1 := by
      intro r
      rw [Nat.count_modEq_card _ h0]
      split <;> omega
    have h1 := hle (v - lo + (s - 1) * c)
    have h2 := hle (v - lo + 2 ^ 32 + (s - 1) * c)
    rw [Nat.count_eq_card_filter_range] at h1 h2 ⊢
    refine le_trans (Finset.card_le_card (t := (Finset.range (2 ^ 32)).filter (· ≡ v - lo + (s - 1) * c [MOD s]) ∪
      (Finset.range (2 ^ 32)).filter (· ≡ v - lo + 2 ^ 32 + (s - 1) * c [MOD s])) ?_) ((Finset.card_union_le _ _).trans (by omega))
    intro l hl
    rw [Finset.mem_filter] at hl
    rw [Finset.mem_union, Finset.mem_filter, Finset.mem_filter]
    rcases hmod l hl.2 with h | h
    · exact Or.inl ⟨hl.1, h⟩
    · exact Or.inr ⟨hl.1, h⟩
  have h1 := card_le_fibers (2 ^ 32) _ (fun h l => randint32 h l lo hi = v) hcount
  have h2 : wordsProb (fun w => randint32 w.1 w.2 lo hi = v) =
      ((Finset.univ.filter fun w : Fin (2 ^ 32) × Fin (2 ^ 32) => randint32 w.1 w.2 lo hi = v).card : ℝ) / 2 ^ 64 := by
    unfold wordsProb
    congr
  rw [h2, ← hs', div_le_iff₀ (by positivity)]
  refine le_trans (Nat.cast_le.2 h1) ?_
  have hsr : (0 : ℝ) < s := by exact_mod_cast h0
  have hd : ((2 ^ 32 / s : Nat) : ℝ) ≤ 2 ^ 32 / s := by
    have := Nat.cast_div_le (α := ℝ) (m := 2 ^ 32) (n := s)
    exact_mod_cast this
  push_cast at hd ⊢
  have : (2 / (s : ℝ) + 2 / 2 ^ 32) * 2 ^ 64 = 2 ^ 32 * (2 * (2 ^ 32 / s + 1)) := by
    field_simp
  rw [this]
  gcongr
  norm_num

theorem ncard_lt (N : Nat) : {u | u < N}.ncard = N := by
  have : {u | u < N} = ((Finset.range N : Finset Nat) : Set Nat) := by ext; simp
  rw [this, Set.ncard_coe_finset, Finset.card_range]

/-- the probability that a function one to one of the random integer has a given value -/
theorem wordsProb_bij {F : Type} {draw : Words → Draws F} (hd : UsesWords draw) {N : Nat} (hN : N ≤ 2 ^ 16) {choice : Draws F → Nat}
    {f : Nat → Nat} {A : Set Nat} (hf : ∀ d, choice d = f (d.randint 0 N)) (hbij : Set.BijOn f {u | u < N} A) :
    (A.Nonempty → ∀ w, choice (draw w) ∈ A) ∧
    ∀ v ∈ A, |wordsProb (fun w => choice (draw w) = v) - 1 / (A.ncard : ℝ)| < 1 / 2 ^ 64 := by
  have hcard : A.ncard = N := by
    rw [← hbij.image_eq, hbij.injOn.ncard_image]
    exact ncard_lt N
  have e : ∀ w, choice (draw w) = f (randint32 w.1 w.2 0 N) := fun w => by rw [hf, hd w 0 N (by norm_num) (by omega)]
  constructor
  · rintro ⟨v, hv⟩ w
    obtain ⟨u, hu, -⟩ := hbij.surjOn hv
    rw [e]
    exact hbij.mapsTo ((C90_range _ _ _ _).1 (Nat.lt_of_le_of_lt (Nat.zero_le u) hu)).2
  · intro v hv
    obtain ⟨u, hu, rfl⟩ := hbij.surjOn hv
    have hu' : u < N := hu
    have h1 := (C90_randint (Nat.zero_le u) hu' (by omega)).1
    rw [hcard]
    have e2 : (fun w => choice (draw w) = f u) = fun w : Words => randint32 w.1 w.2 0 N = u := by
      funext w
      rw [e, eq_iff_iff]
      refine ⟨fun h => ?_, fun h => by rw [h]⟩
      exact hbij.injOn ((C90_range _ _ _ _).1 (Nat.lt_of_le_of_lt (Nat.zero_le u) hu')).2 hu h
    rw [e2]
    exact h1

section
variable {F : Type} [Inhabited F] {draw : Words → Draws F}

/-- **C90** for `choose_variable`: with at most `2 ** 16` predictors, the variable is certainly one of the available ones, and the
probability of each differs from the inverse of their number by less than `2 ** -64`. -/
theorem C90_choose_variable (hd : UsesWords draw) {h var_bits split_bits : Nat} (hh : 1 ≤ h) (h64 : h < 64)
    {var split max_split : List Nat} (hvar : var.length = 2 ^ h) (hval : ValidSplit h split)
    (hp : max_split.length ≤ 2 ^ 16)
    (hcut : ∀ k, IsDecision split k → at0 var k < max_split.length → 1 ≤ at0 max_split (at0 var k))
    (hfill : astype var_bits max_split.length < max_split.length → 1 ≤ at0 max_split (astype var_bits max_split.length))
    (hok : VarOK max_split.length h var) (hr : RulesOK max_split var split)
    {i : Nat} (hleaf : IsLeaf split i) (hi : i < 2 ^ h) (hsb : 8 ≤ split_bits)
    (hfit : ∀ v, at0 max_split v < 2 ^ split_bits) :
    ((availVars split_bits max_split var split i).Nonempty → ∀ w,
      choose_variable var_bits split_bits var split max_split i (draw w) ∈ availVars split_bits max_split var split i) ∧
    ∀ v ∈ availVars split_bits max_split var split i,
      |wordsProb (fun w => choose_variable var_bits split_bits var split max_split i (draw w) = v) -
        1 / ((availVars split_bits max_split var split i).ncard : ℝ)| < 1 / 2 ^ 64 := by
  have := choose_variable_bij (F := F) hh h64 hvar hval (by omega) hcut hfill hok hr hleaf hi hsb hfit
  refine wordsProb_bij hd ?_ this.1 this.2
  refine le_trans ?_ hp
  exact (Set.ncard_le_ncard (fun v hv => hv.1) (Set.finite_lt_nat max_split.length)).trans (ncard_lt _).le

omit [Inhabited F] in
/-- **C90** for `choose_split`: if there are cutpoints available, less than `2 ** 16`, the cutpoint is certainly one of them, and the
probability of each differs from the inverse of their number by less than `2 ** -64`. -/
theorem C90_choose_split (hd : UsesWords draw) {bits h : Nat} (hh : 1 ≤ h) {var split max_split : List Nat}
    (hvar : var.length = 2 ^ h) (hsplit : split.length = 2 ^ h) (hfit : ∀ v, at0 max_split v < 2 ^ bits)
    (hm : ∀ v, at0 max_split v < 2 ^ 16) {i : Nat} (h1 : 1 ≤ i) (hi : i < 2 ^ h)
    (hne : (availSplits max_split var split i (at0 var i)).Nonempty) :
    (∀ w, choose_split bits var split max_split i (draw w) ∈ availSplits max_split var split i (at0 var i)) ∧
    ∀ c ∈ availSplits max_split var split i (at0 var i),
      |wordsProb (fun w => choose_split bits var split max_split i (draw w) = c) -
        1 / ((availSplits max_split var split i (at0 var i)).ncard : ℝ)| < 1 / 2 ^ 64 := by
  obtain ⟨v, hvd⟩ : ∃ v, v = at0 var i := ⟨_, rfl⟩
  rw [← hvd] at hne ⊢
  have hmem : ∀ c, c ∈ availSplits max_split var split i v ↔
      (split_range bits var split max_split i v).1 ≤ c ∧ c < (split_range bits var split max_split i v).2 := by
    intro c
    obtain ⟨c0, hc0⟩ := hne
    have h2 := (nonRedundant_iff h1).1 hc0
    have h3 : (interval var split v (1 + at0 max_split v) i).2 ≤ 1 + at0 max_split v := interval_snd_le
    have h4 := hfit v
    rw [split_range_eq hh hvar hsplit max_split hi, astype_of_lt (by omega)]
    exact nonRedundant_iff h1
  have hv : gather var i = v := by
    rw [hvd, gather_at0 (by omega)]
  have hup : ∀ c ∈ availSplits max_split var split i v, c ≤ at0 max_split v := by
    intro c hc
    obtain ⟨-, y, hy, -, hcy⟩ := hc
    omega
  obtain ⟨l, hl⟩ : ∃ l, l = (split_range bits var split max_split i v).1 := ⟨_, rfl⟩
  obtain ⟨r, hr⟩ : ∃ r, r = (split_range bits var split max_split i v).2 := ⟨_, rfl⟩
  rw [← hl, ← hr] at hmem
  have hlr : l < r := by
    obtain ⟨c, hc⟩ := hne
    have := (hmem c).1 hc
    omega
  have hr16 : r ≤ 2 ^ 16 := by
    have := hup (r - 1) ((hmem _).2 ⟨by omega, by omega⟩)
    have := hm v
    omega
  have hcard : (availSplits max_split var split i v).ncard = r - l := by
    have : availSplits max_split var split i v = ((Finset.Ico l r : Finset Nat) : Set Nat) := by
      ext c
      rw [hmem, Finset.coe_Ico, Set.mem_Ico]
    rw [this, Set.ncard_coe_finset, Nat.card_Ico]
  have e : ∀ w, choose_split bits var split max_split i (draw w) = randint32 w.1 w.2 l r := fun w => by
    rw [← hd w l r (by omega) (by omega)]
    unfold choose_split
    simp only [hv, ← hl, ← hr]
  refine ⟨fun w => ?_, fun c hc => ?_⟩
  · rw [e, hmem]
    exact (C90_range _ _ _ _).1 hlr
  · rw [hcard]
    simp only [e]
    exact (C90_randint ((hmem c).1 hc).1 ((hmem c).1 hc).2 (by omega)).1

/-- **C90** for `randint_masked`, that chooses the node to prune: the probability of each marked index differs from the inverse of
their number by less than `2 ** -64`. -/
theorem C90_randint_masked (hd : UsesWords draw) {mask : List Bool} (hm : mask.length ≤ 2 ^ 16) :
    ({i | mask.getD i false = true}.Nonempty → ∀ w, mask.getD (randint_masked (draw w) mask) false = true) ∧
    ∀ i, mask.getD i false = true →
      |wordsProb (fun w => randint_masked (draw w) mask = i) - 1 / ({i | mask.getD i false = true}.ncard : ℝ)| < 1 / 2 ^ 64 := by
  have h := C24_randint_masked (F := F) mask
  exact wordsProb_bij hd ((List.count_le_length).trans hm) h.1 h.2

end

section
variable {K : Type} [KeyLike K] {a : InitArgs ℝ} {s : State ℝ} {t : Nat} {draw : Words → Draws ℝ}

/-- **C90** in the states of the MCMC, with at most `2 ** 16` predictors, and less than `2 ** 16` cutpoints for each of them. The
variables, cutpoints, and nodes to prune are uniform up to `2 ** -64`: for each leaf `i` above the bottom level, the variable is
one of those counted in the prior; if it is followed by the cutpoint, then all the available cutpoints are about equally probable;
each decision node with two leaf children is about equally probable. -/
theorem C90_state (ha : ValidArgs a) (hp : ProperSettings a) (hs : Reachable K a s) (ht : t < a.num_trees) (hd : UsesWords draw)
    (hP : a.max_split.length ≤ 2 ^ 16) (hm : ∀ m ∈ a.max_split, m < 2 ^ 16) (hdepth : a.p_nonterminal.length ≤ 16) :
    let var := s.var_trees.getD t []
    let split := s.split_trees.getD t []
    (∀ i, IsLeaf split i → i < 2 ^ a.p_nonterminal.length →
      ∀ v ∈ availVars a.split_bits a.max_split var split i,
        |wordsProb (fun w => choose_variable s.var_bits s.split_bits var split s.max_split i (draw w) = v) -
          1 / ((availVars a.split_bits a.max_split var split i).ncard : ℝ)| < 1 / 2 ^ 64) ∧
    (∀ i, IsLeaf split i → i < 2 ^ a.p_nonterminal.length → ∀ v, ∀ c ∈ availSplits a.max_split var split i v,
        |wordsProb (fun w => choose_split s.split_bits (setDrop var i v) split s.max_split i (draw w) = c) -
          1 / ((availSplits a.max_split var split i v).ncard : ℝ)| < 1 / 2 ^ 64) ∧
    ∀ i, IsLeafParent split i → ∀ aff,
      |wordsProb (fun w => (choose_leaf_parent split aff s.p_propose_grow (draw w)).node_to_prune = i) -
        1 / ({i | IsLeafParent split i}.ncard : ℝ)| < 1 / 2 ^ 64 := by
  have hsi := reachable_inv ha hs
  have hT := hsi.tree t ht
  have hfit := (cfgOf_ok ha).ms_fits
  have h16 : ∀ v, at0 a.max_split v < 2 ^ 16 := by
    intro v
    unfold at0
    by_cases hv : v < a.max_split.length
    · rw [List.getD_eq_getElem _ _ hv]
      exact hm _ (List.getElem_mem hv)
    · rw [List.getD_eq_default _ _ (by omega)]
      norm_num
  intro var split
  rw [hsi.cfg.max_split, hsi.cfg.split_bits, hsi.cfg.var_bits]
  refine ⟨fun i hl hi v hv => ?_, fun i hl hi v c hc => ?_, fun i hi aff => ?_⟩
  · exact (C90_choose_variable hd ha.depth_pos ha.depth_lt hT.var_len hT.valid hP (cutsOK (usable_of ha hp) hsi ht)
      (fillOK ha hp.counts) hT.var_ok hT.rules hl hi ha.split_bits hfit).2 v hv
  · have hat : at0 (setDrop var i v) i = v := by
      rw [at0_setDrop, if_pos ⟨rfl, by rw [hT.var_len]; exact hi⟩]
    have hav : availSplits a.max_split (setDrop var i v) split i v = availSplits a.max_split var split i v := by
      refine availSplits_congr hl.1 fun j hj => ?_
      rw [at0_setDrop, if_neg]
      rintro ⟨rfl, -⟩
      exact hj.2 hl.2
    have h := C90_choose_split hd (bits := a.split_bits) (var := setDrop var i v) (split := split) (max_split := a.max_split) ha.depth_pos
      (by rw [length_setDrop]; exact hT.var_len) hT.valid.1 hfit h16 (i := i) hl.1.pos hi
    rw [hat, hav] at h
    exact (h ⟨c, hc⟩).2 c hc
  · have hC := fun j => C05_is_leaves_parent split _ ha.depth_lt hT.valid j
    have hset : {j | IsLeafParent split j} = {j | (is_leaves_parent split).getD j false = true} := by
      ext j
      exact (hC j).2.symm
    have hne : countNonzero (is_leaves_parent split) ≠ 0 := by
      have h07 := C07_prunable split _ ha.depth_pos ha.depth_lt hT.valid
      exact h07.2.1 (h07.1.2 ⟨i, hi⟩)
    rw [hset]
    have h := (C90_randint_masked hd (mask := is_leaves_parent split) ?_).2 i ((hC i).2.2 hi)
    · have e : ∀ w, (choose_leaf_parent split aff s.p_propose_grow (draw w)).node_to_prune =
          randint_masked (draw w) (is_leaves_parent split) := fun w => by
        unfold choose_leaf_parent
        exact if_pos hne
      simp only [e]
      exact h
    · rw [(hC i).1]
      exact Nat.pow_le_pow_right (by norm_num) hdepth

end

/-! ### Examples -/

namespace ExN

/-- three values out of 32 bits can not be exactly uniform -/
example : |wordsProb (fun w => randint32 w.1 w.2 5 8 = 6) - 1 / 3| < 1 / 2 ^ 64 := by
  have := (C90_randint (lo := 5) (hi := 8) (v := 6) (by norm_num) (by norm_num) (by norm_num)).1
  norm_num at this ⊢
  exact this

/-- four can -/
example : wordsProb (fun w => randint32 w.1 w.2 5 9 = 6) = 1 / 4 := by
  have := (C90_randint (lo := 5) (hi := 9) (v := 6) (by norm_num) (by norm_num) (by norm_num)).2 2 (by norm_num)
  norm_num at this ⊢
  exact this

example : randint32 7 11 5 8 = 8 - 3 + (7 * (2 ^ 32 % 3) + 11) % 3 := by decide

/-- variates made from the random bits -/
noncomputable def draw (w : Words) : Draws ℝ :=
  { uniform2 := fun _ _ => 0, uniformTo := fun _ => 0, randint := fun lo hi => randint32 w.1 w.2 lo hi
    normal := fun _ _ => 0, gamma := fun _ => 1 }

theorem draw_words : UsesWords draw := fun _ _ _ _ _ => rfl

/-- after the root of the tree has a rule on the predictor `0` at the first of 3 cutpoints, the cutpoints left on its right are two -/
example : |wordsProb (fun w => choose_split 8 [0, 0, 0, 0] [0, 1, 0, 0] [3, 2] 3 (draw w) = 3) - 1 / 2| < 1 / 2 ^ 64 := by
  have hset : availSplits [3, 2] [0, 0, 0, 0] [0, 1, 0, 0] 3 0 = {2, 3} := by
    ext c
    show NonRedundant _ _ _ 3 0 c ↔ _
    rw [nonRedundant_iff (by norm_num)]
    simp [interval, at0]
    omega
  have h := C90_choose_split draw_words (bits := 8) (h := 2) (var := [0, 0, 0, 0]) (split := [0, 1, 0, 0])
    (max_split := [3, 2]) (by norm_num) rfl rfl (fun v => ?_) (fun v => ?_) (i := 3) (by norm_num) (by norm_num)
  · rw [show at0 [0, 0, 0, 0] 3 = 0 from rfl, hset] at h
    have h2 := (h ⟨2, by simp⟩).2 3 (by simp)
    rw [Set.ncard_pair (by norm_num)] at h2
    exact_mod_cast h2
  · match v with
    | 0 | 1 => decide
    | v + 2 => exact Nat.two_pow_pos 8
  · match v with
    | 0 | 1 => decide
    | v + 2 => exact Nat.two_pow_pos 16

/-- the first state of the MCMC of `ExR.args` -/
example : |wordsProb (fun w => choose_variable (init ExR.args).var_bits (init ExR.args).split_bits
    ((init ExR.args).var_trees.getD 0 []) ((init ExR.args).split_trees.getD 0 []) (init ExR.args).max_split 1 (draw w) = 1) -
      1 / 2| < 1 / 2 ^ 64 := by
  have hset : availVars ExR.args.split_bits ExR.args.max_split ((init ExR.args).var_trees.getD 0 [])
      ((init ExR.args).split_trees.getD 0 []) 1 = {0, 1} := by
    ext v
    simp only [availVars, Set.mem_ofPred_eq, Set.mem_insert_iff, Set.mem_singleton_iff]
    constructor
    · rintro ⟨h, -⟩
      have : v < 2 := h
      omega
    · rintro (rfl | rfl)
      · exact ⟨by simp [ExR.args], Or.inl ⟨0, 1, by norm_num, by simp [ExR.args, at0], .root, .root⟩⟩
      · exact ⟨by simp [ExR.args], Or.inl ⟨0, 1, by norm_num, by simp [ExR.args, at0], .root, .root⟩⟩
  have h := (C90_state (K := ExB.FreeKey) (t := 0) ExR.args_valid ExQ.args_proper Reachable.init (by simp [ExR.args]) draw_words
    (by simp [ExR.args]) (by simp [ExR.args]) (by simp [ExR.args])).1 1 ⟨.root, rfl⟩ (by simp [ExR.args]) 1 (by rw [hset]; simp)
  rw [hset, Set.ncard_pair (by norm_num)] at h
  exact_mod_cast h

end ExN

end Bartz
