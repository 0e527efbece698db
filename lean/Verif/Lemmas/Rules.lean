import Verif.Lemmas.Range
import Verif.Lemmas.Categorical
/-! # Decision rules: invariants and proposals -/

set_option autoImplicit false

namespace Bartz
open Jax Spec

variable {var split var' split' ms : List Nat} {h i v R p vb sb : Nat}

/-- The interval of a node depends only on its ancestors. -/
theorem interval_congr (hn : IsNode split i)
    (hag : ∀ j, IsDecision split j → at0 var' j = at0 var j ∧ at0 split' j = at0 split j) :
    interval var' split' v R i = interval var split v R i := by
  induction i using Nat.strong_induction_on with
  | _ i ih =>
    rcases Nat.lt_or_ge i 2 with h2 | h2
    · rw [interval_le_one (by omega), interval_le_one (by omega)]
    · obtain ⟨hp, hs⟩ := hn.parent h2
      rw [interval_step h2, interval_step h2, ih (i / 2) (by omega) hp, (hag _ ⟨hp, hs⟩).1,
        (hag _ ⟨hp, hs⟩).2]

/-- If no ancestor uses the variable, the interval is the full one. -/
theorem interval_not_ancestor (hna : ∀ k, 1 ≤ k → i / 2 ^ k ≠ 0 → at0 var (i / 2 ^ k) ≠ v) :
    interval var split v R i = (0, R) := by
  induction i using Nat.strong_induction_on with
  | _ i ih =>
    rcases Nat.lt_or_ge i 2 with h2 | h2
    · rw [interval_le_one (by omega)]
    · have h1 := hna 1 (by omega) (by rw [pow_one]; omega)
      rw [pow_one] at h1
      rw [interval_step h2, if_neg h1]
      apply ih (i / 2) (by omega)
      intro k hk hne
      rw [Nat.div_div_eq_div_mul, ← pow_succ'] at hne ⊢
      exact hna (k + 1) (by omega) hne

/-- The rule of a decision node: the split is in the allowed range if the variable has cutpoints;
otherwise it is bounded by the depth. -/
def RuleAt (ms var split : List Nat) (i : Nat) : Prop :=
  1 ≤ at0 split i ∧
  if 1 ≤ at0 ms (at0 var i) then
    (interval var split (at0 var i) (1 + at0 ms (at0 var i)) i).1 < at0 split i ∧
    at0 split i < (interval var split (at0 var i) (1 + at0 ms (at0 var i)) i).2
  else at0 split i ≤ Nat.log2 i + 1

def RulesOK (ms var split : List Nat) : Prop := ∀ i, IsDecision split i → RuleAt ms var split i

theorem interval_nonempty (hr : RulesOK ms var split) (hn : IsNode split i) (hv : 1 ≤ at0 ms v) :
    (interval var split v (1 + at0 ms v) i).1 < (interval var split v (1 + at0 ms v) i).2 := by
  induction i using Nat.strong_induction_on with
  | _ i ih =>
    rcases Nat.lt_or_ge i 2 with h2 | h2
    · rw [interval_le_one (by omega)]; simp
    · obtain ⟨hp, hs⟩ := hn.parent h2
      have ih' := ih (i / 2) (by omega) hp
      rw [interval_step h2]
      by_cases hvv : at0 var (i / 2) = v
      · have hrule := (hr _ ⟨hp, hs⟩).2
        rw [hvv, if_pos hv] at hrule
        rw [if_pos hvv]
        split_ifs
        · simp only; omega
        · simp only; omega
      · rw [if_neg hvv]; exact ih'

theorem log2_half (h2 : 2 ≤ i) : Nat.log2 i = Nat.log2 (i / 2) + 1 := by
  rw [Nat.log2_def, if_pos h2]

theorem interval_fst_bound (hr : RulesOK ms var split) (hn : IsNode split i) (hv : at0 ms v = 0) :
    (interval var split v R i).1 ≤ Nat.log2 i := by
  induction i using Nat.strong_induction_on with
  | _ i ih =>
    rcases Nat.lt_or_ge i 2 with h2 | h2
    · rw [interval_le_one (by omega)]; simp
    · obtain ⟨hp, hs⟩ := hn.parent h2
      have ih' := ih (i / 2) (by omega) hp
      have hl := log2_half h2
      rw [interval_step h2]
      by_cases hvv : at0 var (i / 2) = v
      · have hrule := (hr _ ⟨hp, hs⟩).2
        rw [hvv, if_neg (by omega)] at hrule
        rw [if_pos hvv]
        split_ifs
        · simp only; omega
        · simp only; omega
      · rw [if_neg hvv]; omega

/-- the left end of the split range overflows -/
def Wraps (sb : Nat) (ms var split : List Nat) (i v : Nat) : Prop :=
  (interval var split v (1 + at0 ms v) i).1 + 1 = 2 ^ sb

theorem interval_fst_le (hr : RulesOK ms var split) (hn : IsNode split i) (hv : 1 ≤ at0 ms v) :
    (interval var split v (1 + at0 ms v) i).1 ≤ at0 ms v := by
  have h1 := interval_nonempty hr hn hv
  have h2 : (interval var split v (1 + at0 ms v) i).2 ≤ 1 + at0 ms v := interval_snd_le
  omega

theorem log2_lt_depth (hh : 1 ≤ h) (hi : i < 2 ^ h) : Nat.log2 i < h := by
  rcases Nat.eq_zero_or_pos i with h0 | h0
  · subst h0; simp; omega
  · exact (Nat.log2_lt (by omega)).2 hi

/-- if there is an overflow, the variable is exhausted, and the largest value of its type is a cutpoint -/
theorem Wraps.spec (hw : Wraps sb ms var split i v) (hr : RulesOK ms var split) (hn : IsNode split i)
    (hfit : at0 ms v < 2 ^ sb) (hsb : 8 ≤ sb) (hh : 1 ≤ h) (h64 : h < 64) (hi : i < 2 ^ h) :
    at0 ms v + 1 = 2 ^ sb ∧ (interval var split v (1 + at0 ms v) i).1 = at0 ms v ∧
      (interval var split v (1 + at0 ms v) i).2 = 2 ^ sb := by
  have h8 : 2 ^ 8 ≤ 2 ^ sb := Nat.pow_le_pow_right (by norm_num) hsb
  unfold Wraps at hw
  have h2 : (interval var split v (1 + at0 ms v) i).2 ≤ 1 + at0 ms v := interval_snd_le
  have h1 : 1 ≤ at0 ms v := by
    by_contra hc
    have := interval_fst_bound (R := 1 + at0 ms v) hr hn (by omega : at0 ms v = 0)
    have := log2_lt_depth hh hi
    omega
  have h3 := interval_fst_le hr hn h1
  have h4 := interval_nonempty hr hn h1
  omega

theorem fst_lt (hr : RulesOK ms var split) (hn : IsNode split i)
    (hfit : at0 ms v < 2 ^ sb) (hsb : 8 ≤ sb) (hh : 1 ≤ h) (h64 : h < 64) (hi : i < 2 ^ h) :
    (interval var split v (1 + at0 ms v) i).1 < 2 ^ sb := by
  have h8 : 2 ^ 8 ≤ 2 ^ sb := Nat.pow_le_pow_right (by norm_num) hsb
  by_cases h1 : 1 ≤ at0 ms v
  · have := interval_fst_le hr hn h1
    omega
  · have := interval_fst_bound (R := 1 + at0 ms v) hr hn (by omega : at0 ms v = 0)
    have := log2_lt_depth hh hi
    omega

theorem astype_fst (hw : ¬ Wraps sb ms var split i v) (hr : RulesOK ms var split) (hn : IsNode split i)
    (hfit : at0 ms v < 2 ^ sb) (hsb : 8 ≤ sb) (hh : 1 ≤ h) (h64 : h < 64) (hi : i < 2 ^ h) :
    astype sb ((interval var split v (1 + at0 ms v) i).1 + 1) =
      (interval var split v (1 + at0 ms v) i).1 + 1 := by
  have := fst_lt hr hn hfit hsb hh h64 hi
  unfold Wraps at hw
  exact astype_of_lt (by omega)

/-- there is no overflow if the largest value of the type is never a cutpoint -/
theorem not_wraps (hr : RulesOK ms var split) (hn : IsNode split i)
    (hfit : at0 ms v + 1 < 2 ^ sb) (hsb : 8 ≤ sb) (hh : 1 ≤ h) (h64 : h < 64) (hi : i < 2 ^ h) :
    ¬ Wraps sb ms var split i v := by
  intro hw
  have := (hw.spec hr hn (by omega) hsb hh h64 hi).1
  omega

/-- the values in `var` are predictors, or small -/
def VarOK (p h : Nat) (var : List Nat) : Prop := ∀ i, at0 var i < p ∨ at0 var i < h

theorem varOK_fits {w : Nat} (h64 : h < 64) (hp : p ≤ 2 ^ 64) (hw : w < p ∨ w < h) {m : Int}
    (hm : (p : Int) - 1 ≤ m) : w < 2 ^ minimal_unsigned_dtype m := by
  rcases hw with hw | hw
  · exact minimal_fits (by omega) (by omega)
  · have := minimal_ge_8 m
    have h2 : 2 ^ 8 ≤ 2 ^ minimal_unsigned_dtype m := Nat.pow_le_pow_right (by norm_num) this
    omega

/-- the variables of the ancestors are found -/
theorem mem_ancestor_variables (h64 : h < 64) (hvar : var.length = 2 ^ h) (hp : ms.length ≤ 2 ^ 64)
    (hok : VarOK ms.length h var) (hi : i < 2 ^ h) {k : Nat} (hk : 1 ≤ k) (hne : i / 2 ^ k ≠ 0) :
    at0 var (i / 2 ^ k) ∈ ancestor_variables vb var ms i := by
  rw [ancestor_variables_eq hvar, List.mem_map]
  have hkh : k ≤ h - 1 := by
    by_contra hc
    apply hne
    apply Nat.div_eq_of_lt
    calc i < 2 ^ h := hi
      _ ≤ 2 ^ k := Nat.pow_le_pow_right (by norm_num) (by omega)
  refine ⟨h - 1 - k, by simp; omega, ?_⟩
  have : h - 1 - (h - 1 - k) = k := by omega
  rw [this, ancestorEntry, if_pos hne, gather_at0, astype_of_lt]
  · exact varOK_fits h64 hp (hok _) (by omega)
  · rw [hvar]
    exact lt_of_le_of_lt (Nat.div_le_self _ _) hi

theorem ancestor_of_mem (h64 : h < 64) (hvar : var.length = 2 ^ h) (hp : ms.length < 2 ^ 64)
    (hok : VarOK ms.length h var) (hi : i < 2 ^ h) {w : Nat} (hw : w ≠ astype vb ms.length)
    (hm : w ∈ ancestor_variables vb var ms i) :
    ∃ k, 1 ≤ k ∧ i / 2 ^ k ≠ 0 ∧ at0 var (i / 2 ^ k) = w := by
  rw [ancestor_variables_eq hvar, List.mem_map] at hm
  obtain ⟨j, hj, e⟩ := hm
  simp at hj
  refine ⟨h - 1 - j, by omega, ?_⟩
  unfold ancestorEntry at e
  by_cases hne : i / 2 ^ (h - 1 - j) = 0
  · have hle : astype vb ms.length ≤ ms.length := Nat.mod_le _ _
    rw [if_neg (by simpa using hne), astype_of_lt (minimal_fits (by omega) (by omega))] at e
    exact absurd e.symm hw
  · refine ⟨hne, ?_⟩
    rw [if_pos hne, gather_at0, astype_of_lt] at e
    · exact e
    · exact varOK_fits h64 (by omega) (hok _) (by omega)
    · rw [hvar]
      exact lt_of_le_of_lt (Nat.div_le_self _ _) hi

theorem ancestor_decision {split : List Nat} {k : Nat} (hk : 1 ≤ k) :
    ∀ {i : Nat}, IsNode split i → i / 2 ^ k ≠ 0 → IsDecision split (i / 2 ^ k) := by
  induction k, hk using Nat.le_induction with
  | base =>
    intro i hn h0
    rw [pow_one] at h0 ⊢
    exact hn.parent (by omega)
  | succ k hk ih =>
    intro i hn h0
    have e : i / 2 ^ (k + 1) = i / 2 / 2 ^ k := by rw [Nat.div_div_eq_div_mul, pow_succ, mul_comm]
    rw [e] at h0 ⊢
    refine ih (hn.parent ?_).1 h0
    by_contra hc
    have : i / 2 = 0 := by omega
    rw [this, Nat.zero_div] at h0
    exact h0 rfl

theorem length_ancestor_variables (hvar : var.length = 2 ^ h) :
    (ancestor_variables vb var ms i).length = h - 1 := by
  rw [ancestor_variables_eq hvar]; simp

theorem length_fully_used (hvar : var.length = 2 ^ h) :
    (fully_used_variables vb sb var split ms i).length = h - 1 := by
  unfold fully_used_variables
  rw [List.length_map, length_ancestor_variables hvar]

theorem mem_fully_used (hh : 1 ≤ h) (hvar : var.length = 2 ^ h) (hsplit : split.length = 2 ^ h)
    (hi : i < 2 ^ h) {w : Nat} (hw : w < ms.length) :
    w ∈ fully_used_variables vb sb var split ms i ↔
      w ∈ ancestor_variables vb var ms i ∧
      (interval var split w (1 + at0 ms w) i).2 =
        astype sb ((interval var split w (1 + at0 ms w) i).1 + 1) := by
  unfold fully_used_variables
  rw [List.mem_map]
  constructor
  · rintro ⟨u, hu, e⟩
    rw [split_range_eq hh hvar hsplit ms hi] at e
    simp only at e
    split_ifs at e with hc
    · subst e
      exact ⟨hu, by omega⟩
    · omega
  · rintro ⟨hu, e⟩
    refine ⟨w, hu, ?_⟩
    rw [split_range_eq hh hvar hsplit ms hi]
    simp only
    rw [if_pos (by omega)]

/-- What is known about the variable proposed for a new decision node. -/
structure VarChoice (h vb sb : Nat) (ms var split : List Nat) (i v : Nat) : Prop where
  /-- there is room if the variable has cutpoints, unless there is an overflow -/
  room : 1 ≤ at0 ms v → ¬ Wraps sb ms var split i v → (interval var split v (1 + at0 ms v) i).1 + 1 <
    (interval var split v (1 + at0 ms v) i).2
  small : v < ms.length ∨ v < h
  /-- an invalid predictor is returned only if all predictors are exhausted -/
  full : ms.length ≤ v → ∀ u, u < ms.length → u ∈ fully_used_variables vb sb var split ms i

theorem choose_variable_ok {F : Type} [Inhabited F] [Zero F] [One F] [FltFun F] (hh : 1 ≤ h)
    (h64 : h < 64)
    (hvar : var.length = 2 ^ h) (hsplit : split.length = 2 ^ h) (hp : ms.length ≤ 2 ^ 64)
    (hok : VarOK ms.length h var) (hr : RulesOK ms var split) (hn : IsNode split i) (hi : i < 2 ^ h)
    (hfit : ∀ v, at0 ms v < 2 ^ sb) (hsb : 8 ≤ sb) (draw : Draws F) (hd : LawfulDraws draw) :
    VarChoice h vb sb ms var split i (choose_variable vb sb var split ms i draw) := by
  unfold choose_variable
  generalize hE : fully_used_variables vb sb var split ms i = E
  have hlen : E.length = h - 1 := by rw [← hE]; exact length_fully_used hvar
  dsimp only
  by_cases hall : ∀ u, u < ms.length → u ∈ E
  · have hb := randint_exclude_bound draw ms.length E
    have h0 : ((Finset.range ms.length).filter (· ∈ E)).card = ms.length := by
      rw [Finset.filter_true_of_mem, Finset.card_range]
      intro u hu; exact hall u (by simpa using hu)
    rw [h0, Nat.sub_self, hd.randint_empty 0 0 (le_refl _)] at hb
    have hle : randint_exclude draw ms.length E ≤ h - 1 := by
      rw [hb]
      refine (skipFold_le _ _).trans ?_
      rw [unique_eq, List.length_append, List.length_replicate]
      have := length_sortedUnique_le E
      omega
    have hge : ms.length ≤ randint_exclude draw ms.length E := by
      rw [hb]
      by_contra hc
      push Not at hc
      have hsp : skipFold (sortedUnique E) 0 < ms.length := by
        rw [unique_eq, skipFold_append] at hc
        exact lt_of_le_of_lt (le_skipFold _ _) hc
      have := (skipFold_spec (sortedUnique_sorted E) 0).1
      exact this (mem_sortedUnique.2 (hall _ hsp))
    refine ⟨fun hms _ => ?_, Or.inr (by omega), fun _ => by rw [hE]; exact hall⟩
    rw [at0_of_le hge] at hms
    omega
  · push Not at hall
    obtain ⟨u0, hu0, hu0E⟩ := hall
    have hcard : ((Finset.range ms.length).filter (· ∈ E)).card < ms.length := by
      conv_rhs => rw [← Finset.card_range ms.length]
      apply Finset.card_lt_card
      refine ⟨Finset.filter_subset _ _, fun hc => ?_⟩
      have := hc (Finset.mem_range.2 hu0)
      simp at this
      exact hu0E this.2
    have hb := randint_exclude_bound draw ms.length E
    have hu := (hd.randint_mem 0 (ms.length - ((Finset.range ms.length).filter (· ∈ E)).card)
      (by omega)).2
    have hlt := skipFold_lt E ms.length _ hu
    rw [skipFold_unique_lt _ _ _ hlt] at hb
    rw [hb]
    have hnot : skipFold (sortedUnique E) (draw.randint 0
        (ms.length - ((Finset.range ms.length).filter (· ∈ E)).card)) ∉ E := by
      intro hc
      exact (skipFold_spec (sortedUnique_sorted E) _).1 (mem_sortedUnique.2 hc)
    generalize skipFold (sortedUnique E) (draw.randint 0
        (ms.length - ((Finset.range ms.length).filter (· ∈ E)).card)) = w at hnot hlt
    refine ⟨fun hms hnw => ?_, Or.inl hlt, fun hc => by omega⟩
    have hne := interval_nonempty hr hn hms
    by_cases hanc : w ∈ ancestor_variables vb var ms i
    · by_contra hc
      apply hnot
      rw [← hE, mem_fully_used hh hvar hsplit hi hlt]
      exact ⟨hanc, by rw [astype_fst hnw hr hn (hfit w) hsb hh h64 hi]; omega⟩
    · rw [interval_not_ancestor]
      · simp only; omega
      · intro k hk hne' hw
        apply hanc
        rw [← hw]
        exact mem_ancestor_variables h64 hvar hp hok hi hk hne'

end Bartz
