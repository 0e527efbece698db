import Verif.Lemmas.Missing
import Verif.Spec.Missing
/-!
# Property C94: missing values in the predictors
-/

set_option autoImplicit false

namespace Bartz
open Jax Spec Jax.Binary32

theorem perm_missing {α : Type} (x : List (WithTop α)) : x.Perm ((present x).map WithTop.some ++ List.replicate (missing x) ⊤) := by
  induction x with
  | nil => exact .nil
  | cons v x ih =>
    cases v with
    | top =>
      have e1 : present ((⊤ : WithTop α) :: x) = present x := rfl
      have e2 : missing ((⊤ : WithTop α) :: x) = missing x + 1 := by unfold missing; exact List.countP_cons_of_pos rfl
      rw [e1, e2, List.replicate_succ]
      exact (ih.cons _).trans List.perm_middle.symm
    | coe a =>
      have e1 : present ((a : WithTop α) :: x) = a :: present x := rfl
      have e2 : missing ((a : WithTop α) :: x) = missing x := by unfold missing; exact List.countP_cons_of_neg (by intro h; cases h)
      rw [e1, e2]
      exact ih.cons _

theorem searchsortedLeft_eq_of {α : Type} (p : α → Bool) (a : List α) {b : Nat} (hb : b ≤ a.length)
    (h1 : ∀ i (hi : i < a.length), i < b → p a[i] = true) (h2 : ∀ i (hi : i < a.length), b ≤ i → p a[i] = false) :
    searchsortedLeft p a = b := by
  obtain ⟨a1, a2, a3⟩ := searchsortedRight_spec p a
  change searchsortedRight p a = b
  generalize searchsortedRight p a = R at a1 a2 a3
  apply le_antisymm
  · by_contra hc
    obtain ⟨h', h''⟩ := a3 (by omega)
    rw [h2 _ h' (by omega)] at h''
    cases h''
  · by_contra hc
    have h := a2 (by omega)
    rw [h1 R (by omega) (by omega)] at h
    cases h

theorem bin_row_one {α : Type} [LinearOrder α] (v : α) {splits : List α} (h : splits.length < 2 ^ 64) :
    bin_row [v] splits = [searchsortedLeft (fun s => decide (s < v)) splits] := bin_row_eq [v] splits h

/-- C94, what holds. Full statement: a missing value (nan) in a predictor does not change how the other values of the predictor are
binned. It holds with the binning with quantiles, if the present values, of absolute value lower than `2 ** 127`, and the
missing values are not too many: the bin of any value (of the training or test set) that is not nan is the one obtained from the
training set without nans. There is an additional cutpoint for each missing value. It does not hold with the uniform binning, see
`C94_not`. -/
theorem C94_quantiles_partial {fl : ℚ → ℚ} (x : List (WithTop Ordered)) (max_bins : Nat) (U : List Ordered) (hU : IsUnique (present x) U)
    (hx : ∀ v ∈ present x, v.val.natAbs < 0x7f000000) (h0 : present x ≠ []) (hmax : U.length + missing x ≤ max_bins)
    (h64 : x.length < 2 ^ 64) (v : Ordered) :
    let row := quantilized_row_nan fl x ((min max_bins x.length : Nat) - 1)
    let row' := quantilized_row fl binary32_dtype (present x) ((min max_bins (present x).length : Nat) - 1)
    bin_row [(v : WithTop Ordered)] row.1 = bin_row [v] row'.1 ∧ row.2 = row'.2 + missing x := by
  have hperm := perm_missing x
  have hl : x.length = (present x).length + missing x := by
    have := hperm.length_eq
    rw [List.length_append, List.length_map, List.length_replicate] at this
    exact this
  have hr0 : 0 < (present x).length := List.length_pos_iff.2 h0
  have hU0 : 0 < U.length := unique_pos hU hr0
  have hUl := unique_le hU
  have hinf : (0x7f000000 : Nat) < infBits := by decide
  generalize present x = r at *
  generalize missing x = k at *
  intro row row'
  have c1 : ((min max_bins x.length : Nat) : Int) - 1 = ((min max_bins x.length - 1 : Nat) : Int) := by omega
  have c2 : ((min max_bins r.length : Nat) : Int) - 1 = ((min max_bins r.length - 1 : Nat) : Int) := by omega
  have hrow : row = _ := (congrArg _ c1).trans (nan_row (fl := fl) hperm h0 hU (fun v hv => (hx v hv).trans hinf)
    (m := min max_bins x.length - 1) (by omega) (by omega) h64)
  obtain ⟨hl', hs⟩ := quantilized_row_enough (fl := fl) (t := binary32_dtype) (ok := (· ∈ r))
    (fun _ a ha => midpoint32_pad (ha.imp (fun h => by have := hx a h; omega) id)) (fun _ h => h) hU hU0
    (m := min max_bins r.length - 1) (by omega) (by omega) (by omega)
  obtain ⟨splits, g1, hsort, -⟩ := C81_merged_partial (fl := fl) [r] r.length max_bins (r := 0) (by simp) rfl hx (by omega) (by omega) U hU (by omega)
  obtain ⟨g3, g4⟩ := quantilized_get fl binary32_dtype [r] r.length max_bins (r := 0) (by simp) (by omega)
  have e : splits = row'.1 := by
    rw [g3, Option.some.injEq] at g1
    exact g1.symm.trans (congrArg (fun m => (quantilized_row fl binary32_dtype r m).1) c2.symm)
  have hl'' : row'.1.length = min max_bins r.length - 1 :=
    (congrArg (fun m => (quantilized_row fl binary32_dtype r m).1.length) c2).trans hl'
  have hs'' : ∀ i, i < min max_bins r.length - 1 → row'.1[i]? = some (if h : i + 1 < U.length then
      binary32_dtype.midpoint (U[i]'(by omega)) (U[i + 1]'h) else binary32_dtype.huge) := fun i hi =>
    (congrArg (fun m => (quantilized_row fl binary32_dtype r m).1[i]?) c2).trans (hs i hi)
  rw [e] at hsort
  clear hs hl' g1 e
  refine ⟨?_, ?_⟩
  · rw [hrow]
    dsimp only
    obtain ⟨b, hb⟩ := inBin_exists row'.1 hsort v
    have e1 : bin_row [v] row'.1 = [b] := by
      rw [bin_row_one v (by omega)]
      exact congrArg (fun z => [z]) ((searchsorted_iff hsort v b).2 hb)
    rw [e1, bin_row_one _ (by simp; omega)]
    refine congrArg (fun z => [z]) ?_
    obtain ⟨b1, b2, b3⟩ := hb
    have hget : ∀ i (hi : i < row'.1.length), row'.1[i] = if h : i + 1 < U.length then
        binary32_dtype.midpoint (U[i]'(by omega)) (U[i + 1]'h) else binary32_dtype.huge := by
      intro i hi
      have := hs'' i (by omega)
      rw [List.getElem?_eq_getElem hi, Option.some.injEq] at this
      exact this
    have hmono : ∀ i j (hij : i ≤ j) (hj : j < row'.1.length), row'.1[i]'(by omega) ≤ row'.1[j] := by
      intro i j hij hj
      rcases Nat.eq_or_lt_of_le hij with rfl | h
      · exact le_rfl
      · exact List.pairwise_iff_getElem.1 hsort i j (by omega) hj h
    have hbU : b + 1 ≤ U.length := by
      by_contra hc
      have h1 := b2 _ (by omega) (List.getElem?_eq_getElem (by omega))
      rw [hget (b - 1) (by omega), dif_neg (by omega)] at h1
      exact absurd (le_huge32 v) (not_le.2 h1)
    refine searchsortedLeft_eq_of _ _ (by simp; omega) ?_ ?_
    · intro i hi hib
      rw [List.getElem_map, List.getElem_range, decide_eq_true_eq]
      unfold nanCut
      rw [dif_pos (by omega)]
      have h1 := b2 _ (by omega) (List.getElem?_eq_getElem (by omega))
      have h2 := hmono i (b - 1) (by omega) (by omega)
      rw [hget i (by omega), dif_pos (by omega)] at h2
      exact WithTop.coe_lt_coe.2 (lt_of_le_of_lt h2 h1)
    · intro i hi hib
      rw [List.getElem_map, List.getElem_range, decide_eq_false_iff_not, not_lt]
      unfold nanCut
      by_cases h1 : i + 1 < U.length
      · rw [dif_pos h1]
        have h2 := b3 _ (List.getElem?_eq_getElem (by omega))
        have h3 := hmono b i hib (by omega)
        rw [hget i (by omega), dif_pos h1] at h3
        exact WithTop.coe_le_coe.2 (le_trans h2 h3)
      · rw [dif_neg h1]
        split_ifs
        · exact le_top
        · exact WithTop.coe_le_coe.2 (le_huge32 v)
  · rw [hrow]
    dsimp only
    have e2 : row'.2 = U.length - 1 := by
      obtain ⟨U', hU', hu⟩ := unique_spec r r.length binary32_dtype.huge
      have hUU : U' = U := by
        refine hU'.unique ?_
        rw [List.take_of_length_le (by rw [sort_length])]
        exact hU.congr fun v => (sort_perm r).mem_iff.symm
      subst hUU
      have hf : U'.length - 1 < 2 ^ minimal_unsigned_dtype ((min max_bins r.length - 1 : Nat) : Int) := minimal_fits (by omega) (by omega)
      have hf' : ((U'.length - 1 : Nat) : Int) < 2 ^ minimal_unsigned_dtype ((min max_bins r.length - 1 : Nat) : Int) := by exact_mod_cast hf
      refine (congrArg (fun m => (quantilized_row fl binary32_dtype r m).2) c2).trans ?_
      unfold quantilized_row
      dsimp only
      rw [hu]
      dsimp only
      unfold wrap_int
      rw [if_neg (by decide), show min ((U'.length : Int) - 1) ((min max_bins r.length - 1 : Nat) : Int) = ((U'.length - 1 : Nat) : Int) by omega,
        Int.emod_eq_of_lt (by omega) hf', Int.toNat_natCast]
    omega

/-- C94, partial: in any case, the bin of a missing value is not lower than that of any other value. -/
theorem C94_last_partial (splits : List (WithTop Ordered)) (h : splits.length < 2 ^ 64) (v : WithTop Ordered) :
    ∃ b c, bin_row [v] splits = [b] ∧ bin_row [⊤] splits = [c] ∧ b ≤ c :=
  ⟨_, _, bin_row_one v h, bin_row_one ⊤ h, searchsortedLeft_mono (fun s hs => by
    rw [decide_eq_true_eq] at hs ⊢
    exact lt_of_lt_of_le hs le_top) splits⟩

/-- C94, partial: if there are no missing values in the training set, a missing value in the test set is put after all the
cutpoints. -/
theorem C94_test_partial (splits : List Ordered) (h : splits.length < 2 ^ 64) :
    bin_row [⊤] (splits.map WithTop.some) = [splits.length] := by
  rw [bin_row_one ⊤ (by rw [List.length_map]; exact h), searchsortedLeft_eq_of _ _ (b := splits.length) (by rw [List.length_map])]
  · intro i hi _
    rw [List.getElem_map, decide_eq_true_eq]
    exact WithTop.coe_lt_top _
  · intro i hi hi'
    rw [List.length_map] at hi
    omega

/-- **C94, negation**: with the uniform binning, if a value of a predictor in the training set is missing, then all the values, of
the training or test set, are put in the first bin, so the predictor is ignored. -/
theorem C94_not (fusion : Fusion) (x : List (WithTop Ordered)) (hx : ⊤ ∈ x) (num_bins : Nat) (h0 : 0 < num_bins) (h64 : num_bins < 2 ^ 64) :
    ∃ splits max_split, uniform_row_nan fusion x num_bins = some (splits, max_split) ∧ max_split = num_bins - 1 ∧
      ∀ v, bin_row [v] splits = [0] := by
  have hmax : x.max? = some ⊤ := by
    rw [List.max?_eq_some_iff]
    exact ⟨hx, fun _ _ => le_top⟩
  have hgrid : (Binary32.linspace fusion nan nan num_bins).map toKey = List.replicate (num_bins + 1) ⊤ := by
    unfold Binary32.linspace
    have e : ∀ k : Nat, mulAdd fusion nan (1 - (k : Binary32) / (num_bins : Binary32)) nan ((k : Binary32) / (num_bins : Binary32)) = nan := by
      intro k
      cases fusion
      · exact add_nan _
      · rfl
      · rfl
    simp only [e]
    rw [List.map_append, List.map_map]
    rw [List.replicate_succ']
    refine congrArg₂ (· ++ ·) ?_ rfl
    rw [List.eq_replicate_iff]
    exact ⟨by simp, fun b hb => by obtain ⟨k, -, rfl⟩ := List.mem_map.1 hb; rfl⟩
  refine ⟨List.replicate (num_bins - 1) ⊤, num_bins - 1, ?_, rfl, fun v => ?_⟩
  · unfold uniform_row_nan nan_min?
    rw [if_pos hx, hmax]
    simp only [Option.bind_eq_bind, Option.bind_some]
    rw [show ofKey ⊤ = nan from rfl, hgrid]
    have e : ((List.replicate (num_bins + 1) (⊤ : WithTop Ordered)).drop 1).dropLast = List.replicate (num_bins - 1) ⊤ := by simp
    rw [e, List.length_replicate, guard, if_pos (by omega)]
    have hf : num_bins - 1 < 2 ^ minimal_unsigned_dtype (num_bins - 1) := minimal_fits (by omega) (by omega)
    refine congrArg (fun z => some (_, z)) (Nat.mod_eq_of_lt hf)
  · rw [bin_row_one v (by simp; omega)]
    refine congrArg (fun z => [z]) (searchsortedLeft_eq_of _ _ (Nat.zero_le _) (fun i _ h => absurd h (by omega)) fun i hi _ => ?_)
    rw [List.getElem_replicate, decide_eq_false_iff_not, not_lt]
    exact le_top

/-! ### Examples -/

namespace ExZ

/-- zero -/
def zero : Ordered := ⟨0, by decide⟩
/-- one -/
def one : Ordered := ⟨0x3f800000, by decide⟩

/-- three datapoints, one of which missing -/
def x : List (WithTop Ordered) := [zero, ⊤, one]
/-- the same values, some of which are repeated -/
def y : List (WithTop Ordered) := [zero, ⊤, one, one, one, zero, zero, zero]

theorem x_unique : IsUnique (present x) [zero, one] := by
  refine ⟨by decide, fun v => ?_⟩
  show _ ↔ v ∈ [zero, one]
  rfl

theorem y_unique : IsUnique (present y) [zero, one] := by
  refine ⟨by decide, fun v => ?_⟩
  show _ ↔ v ∈ [zero, one, one, one, zero, zero, zero]
  simp only [List.mem_cons, List.not_mem_nil, or_false]
  tauto

theorem x_row : quantilized_row_nan id x 2 = ((List.range 2).map (nanCut [zero, one] 1), 2) :=
  nan_row (m := 2) (perm_missing x) (by decide) x_unique (by decide) (by decide) (by decide) (by norm_num [x])

theorem y_row : quantilized_row_nan id y 7 = ((List.range 7).map (nanCut [zero, one] 1), 2) :=
  nan_row (m := 7) (perm_missing y) (by decide) y_unique (by decide) (by decide) (by decide) (by norm_num [y])

-- the hypotheses of C94_quantiles_partial can be satisfied
example : bin_row [(one : WithTop Ordered)] (quantilized_row_nan id y ((min 256 y.length : Nat) - 1)).1 =
    bin_row [one] (quantilized_row id binary32_dtype (present y) ((min 256 (present y).length : Nat) - 1)).1 :=
  (C94_quantiles_partial y 256 [zero, one] y_unique (by decide) (by decide) (by decide) (by norm_num [y]) one).1

-- the hypotheses of C94_last_partial can be satisfied
example : ∃ b c, bin_row [(one : WithTop Ordered)] [(zero : WithTop Ordered), ⊤] = [b] ∧ bin_row [⊤] [(zero : WithTop Ordered), ⊤] = [c] ∧ b ≤ c :=
  C94_last_partial _ (by decide) _

-- the hypotheses of C94_test_partial can be satisfied
example : bin_row [⊤] [(zero : WithTop Ordered), one] = [2] := C94_test_partial [zero, one] (by decide)

-- the hypotheses of C94_not can be satisfied
example : ∃ splits max_split, uniform_row_nan .none x 256 = some (splits, max_split) ∧ max_split = 255 ∧ ∀ v, bin_row [v] splits = [0] :=
  C94_not .none x (by simp [x]) 256 (by norm_num) (by norm_num)

end ExZ

/-- **C94, negation**: with the quantiles, a missing value in the training set may be put in the same bin as the maximum or after it,
separated from it by the last cutpoint, depending on the number of repeated values. -/
theorem C94_ties : ∃ x y : List (WithTop Ordered), (∀ v, v ∈ x ↔ v ∈ y) ∧ missing x = 1 ∧ missing y = 1 ∧
    ∃ m : Ordered, (m : WithTop Ordered) ∈ x ∧ (∀ v ∈ present x, v ≤ m) ∧
      bin_row [(m : WithTop Ordered), ⊤] (quantilized_row_nan id x ((min 256 x.length : Nat) - 1)).1 = [1, 1] ∧
      bin_row [(m : WithTop Ordered), ⊤] (quantilized_row_nan id y ((min 256 y.length : Nat) - 1)).1 = [1, 7] ∧
      (quantilized_row_nan id y ((min 256 y.length : Nat) - 1)).2 = 2 := by
  refine ⟨ExZ.x, ExZ.y, fun v => ?_, by decide, by decide, ExZ.one, by simp [ExZ.x], by decide, ?_, ?_, ?_⟩
  · simp only [ExZ.x, ExZ.y, List.mem_cons, List.not_mem_nil, or_false]
    tauto
  · show bin_row _ (quantilized_row_nan id ExZ.x 2).1 = _
    rw [ExZ.x_row]
    decide +kernel
  · show bin_row _ (quantilized_row_nan id ExZ.y 7).1 = _
    rw [ExZ.y_row]
    decide +kernel
  · show (quantilized_row_nan id ExZ.y 7).2 = _
    rw [ExZ.y_row]

end Bartz
