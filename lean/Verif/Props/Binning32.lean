import Verif.Lemmas.Midpoint32
import Verif.Props.Prepcovars
/-!
# Property C81: quantile binning in single precision

C13 and C14 are about predictors in exact arithmetic or integers. Here the predictors are in single precision, and the rounding in
the calculation of the midpoints is taken into account. A midpoint may be rounded to the second of two adjacent numbers, or
overflow, and in both cases different values are put in the same bin although there are enough bins.
-/

set_option autoImplicit false

namespace Bartz
open Jax Spec Jax.Binary32

section
variable {α : Type} [LinearOrder α]

/-- the cutpoints if there are enough bins, without assuming that the midpoints are inbetween -/
theorem quantilized_row_enough {fl : ℚ → ℚ} {t : Dtype α} {ok : α → Prop}
    (ht : t.integer = false → ∀ a, ok a ∨ a = t.huge → t.midpoint a t.huge = t.huge)
    {x U : List α} (hx : ∀ v ∈ x, ok v) (hU : IsUnique x U) (h0 : 0 < U.length) {m : Nat}
    (hm : m + 1 ≤ x.length) (h64 : x.length ≤ 2 ^ 64) (hmU : U.length ≤ m + 1) :
    (quantilized_row fl t x m).1.length = m ∧ ∀ k, k < m → (quantilized_row fl t x m).1[k]? =
      some (if h : k + 1 < U.length then t.midpoint (U[k]'(by omega)) (U[k + 1]'h) else t.huge) := by
  have hUl : U.length ≤ x.length := unique_le hU
  obtain ⟨U', hU', hu⟩ := unique_spec x x.length t.huge
  have hUU : U' = U := by
    refine hU'.unique ?_
    rw [List.take_of_length_le (by rw [sort_length])]
    exact hU.congr fun v => (sort_perm x).mem_iff.symm
  subst hUU
  rw [padTo_of_le hUl] at hu
  have hmid := midpoints_get ht (fun v hv => hx v ((hU.2 v).1 hv)) h0 hUl h64
  set M := quantilized_midpoints t (U' ++ List.replicate (x.length - U'.length) t.huge) ((U'.length : Int) - 1)
    with hM
  have hMl : M.length = x.length - 1 := by rw [hM, midpoints_length]; simp; omega
  have hrow : (quantilized_row fl t x m).1 = M.take m := by
    unfold quantilized_row
    dsimp only
    rw [hu]
    dsimp only
    rw [if_neg (by omega), ← hM]
    unfold sliceTo
    rw [if_neg (by omega), Int.toNat_natCast]
  rw [hrow]
  refine ⟨by rw [List.length_take, hMl]; omega, fun k hk => ?_⟩
  rw [List.getElem?_take_of_lt hk, hmid k (by omega)]

end

theorem le_huge32 (a : Ordered) : a ≤ binary32_dtype.huge := a.property.2

/-- The numbers in single precision that satisfy the requirements of C13, C14, C17, C18: the absolute value is lower than `2 ** 127`
and no two of them are adjacent. -/
theorem lawful_binary32 {x : List Ordered} (hx : ∀ v ∈ x, v.val.natAbs < 0x7f000000)
    (hadj : ∀ a ∈ x, ∀ b ∈ x, b.val ≠ a.val + 1) : LawfulDtype binary32_dtype (· ∈ x) where
  le_huge a _ := le_huge32 a
  midpoint a b ha hb hab := by
    refine ⟨(midpoint32_mem (hx a ha) (hx b hb) hab.le).1, midpoint32_lt (hx a ha) (hx b hb) ?_⟩
    have h1 : a.val < b.val := hab
    have h2 := hadj a ha b hb
    omega
  pad _ a ha := midpoint32_pad (ha.imp (fun h => by
    have h1 := hx a h
    have h2 : (0x7f000000 : Nat) < infBits := by decide
    omega) id)

/-- C81, partial: in single precision, if the predictor has at most `max_bins` distinct values, no two of them are adjacent floating
point numbers, and their absolute values are lower than `2 ** 127`, then there is a cutpoint between any two
consecutive distinct values and the bin of each value is its rank. What is missing is the case of adjacent or large numbers, in which
the property does not hold (`C81_adjacent`, `C81_overflow`). -/
theorem C81_lossless_partial {fl : ℚ → ℚ} (X : List (List Ordered)) (n max_bins : Nat) {r : Nat} (hr : r < X.length)
    (hXn : X[r].length = n) (hX : ∀ v ∈ X[r], v.val.natAbs < 0x7f000000)
    (hadj : ∀ a ∈ X[r], ∀ b ∈ X[r], b.val ≠ a.val + 1) (hn : 1 ≤ n) (h64 : n < 2 ^ 64) (U : List Ordered)
    (hU : IsUnique X[r] U) (hmax : U.length ≤ max_bins) :
    ∃ splits, (quantilized_splits_from_matrix fl binary32_dtype X n max_bins).1[r]? = some splits ∧
      (quantilized_splits_from_matrix fl binary32_dtype X n max_bins).2[r]? = some (U.length - 1) ∧
      splits.length = min max_bins n - 1 ∧
      (∀ k (hk : k + 1 < U.length), ∃ c, splits[k]? = some c ∧ U[k] ≤ c ∧ c < U[k + 1]) ∧
      (∀ k, U.length - 1 ≤ k → k < splits.length → splits[k]? = some binary32_dtype.huge) ∧
      (∀ j (hj : j < n), ∃ b, (bin_row X[r] splits)[j]? = some b ∧ U[b]? = some (X[r][j]'(by omega))) :=
  C13_lossless (lawful_binary32 hX hadj) X n max_bins hr hXn (fun _ h => h) hn h64 U hU hmax

/-- C81, partial: in single precision, if the predictor has at most `max_bins` distinct values and their absolute values are lower than
`2 ** 127`, then the cutpoints are sorted, the binning is monotone, and different values are put in the same bin only if they are
adjacent floating point numbers. -/
theorem C81_merged_partial {fl : ℚ → ℚ} (X : List (List Ordered)) (n max_bins : Nat) {r : Nat} (hr : r < X.length)
    (hXn : X[r].length = n) (hX : ∀ v ∈ X[r], v.val.natAbs < 0x7f000000) (hn : 1 ≤ n) (h64 : n < 2 ^ 64) (U : List Ordered)
    (hU : IsUnique X[r] U) (hmax : U.length ≤ max_bins) :
    ∃ splits, (quantilized_splits_from_matrix fl binary32_dtype X n max_bins).1[r]? = some splits ∧
      splits.Pairwise (· ≤ ·) ∧
      ∀ i j (hi : i < n) (hj : j < n), ∃ b c, (bin_row X[r] splits)[i]? = some b ∧ (bin_row X[r] splits)[j]? = some c ∧
        (X[r][i] ≤ X[r][j] → b ≤ c) ∧ (b = c → X[r][i] < X[r][j] → X[r][j].val = X[r][i].val + 1) := by
  have h0 := unique_pos hU (by omega)
  have hle := unique_le hU
  have hinf : (0x7f000000 : Nat) < infBits := by decide
  obtain ⟨g1, -⟩ := quantilized_get fl binary32_dtype X n max_bins hr (by omega)
  obtain ⟨hl, hs⟩ := quantilized_row_enough (fl := fl) (t := binary32_dtype) (ok := (· ∈ X[r]))
    (fun _ a ha => midpoint32_pad (ha.imp (fun h => by have := hX a h; omega) id)) (fun _ h => h) hU h0
    (m := min max_bins n - 1) (by omega) (by omega) (by omega)
  set splits := (quantilized_row fl binary32_dtype X[r] ((min max_bins n - 1 : Nat) : Int)).1 with hsplits
  have hUX : ∀ k (hk : k < U.length), U[k].val.natAbs < 0x7f000000 := fun k hk => hX _ ((hU.2 _).1 (List.getElem_mem hk))
  have hUlt : ∀ a b (h : a < b) (hb : b < U.length), U[a]'(by omega) < U[b] :=
    fun a b h hb => List.pairwise_iff_getElem.1 hU.1 a b (by omega) hb h
  have hget : ∀ k (hk : k < splits.length), splits[k] =
      if h : k + 1 < U.length then binary32_dtype.midpoint (U[k]'(by omega)) (U[k + 1]'h) else binary32_dtype.huge := by
    intro k hk
    have := hs k (by omega)
    rw [List.getElem?_eq_getElem hk, Option.some.injEq] at this
    exact this
  have hsort : splits.Pairwise (· ≤ ·) := by
    rw [List.pairwise_iff_getElem]
    intro k l hk hl' hkl
    rw [hget k hk, hget l hl']
    by_cases h2 : l + 1 < U.length
    · rw [dif_pos (by omega), dif_pos h2]
      have a1 := (midpoint32_mem (hUX k (by omega)) (hUX (k + 1) (by omega)) (hUlt k (k + 1) (by omega) (by omega)).le).2
      have a2 := (midpoint32_mem (hUX l (by omega)) (hUX (l + 1) (by omega)) (hUlt l (l + 1) (by omega) (by omega)).le).1
      have a3 : U[k + 1]'(by omega) ≤ U[l]'(by omega) := by
        rcases Nat.eq_or_lt_of_le (show k + 1 ≤ l by omega) with h | h
        · exact le_of_eq (by congr 1)
        · exact (hUlt _ _ h _).le
      exact le_trans a1 (le_trans a3 a2)
    · rw [dif_neg h2]
      exact le_huge32 _
  refine ⟨splits, g1, hsort, fun i j hi hj => ?_⟩
  obtain ⟨b, hb⟩ := inBin_exists splits hsort (X[r][i]'(by omega))
  obtain ⟨c, hc⟩ := inBin_exists splits hsort (X[r][j]'(by omega))
  refine ⟨b, c, (bin_row_get hsort (by omega) (by omega) b).2 hb, (bin_row_get hsort (by omega) (by omega) c).2 hc, ?_, ?_⟩
  · intro hij
    by_contra hlt
    have h1 := hb.1
    exact hlt ((C12_decision hsort hc (s := b) (by omega) (by omega)).2
      (lt_of_lt_of_le ((C12_decision hsort hb (s := b) (by omega) (by omega)).1 le_rfl) hij))
  · intro hbc hij
    obtain ⟨k, hk, ek⟩ := List.getElem_of_mem ((hU.2 _).2 (List.getElem_mem (l := X[r]) (n := i) (by omega)))
    obtain ⟨l, hl', el⟩ := List.getElem_of_mem ((hU.2 _).2 (List.getElem_mem (l := X[r]) (n := j) (by omega)))
    rw [← ek, ← el] at hij ⊢
    rw [← ek] at hb
    rw [← el] at hc
    have hkl : k < l := by
      by_contra hc
      rcases Nat.eq_or_lt_of_le (show l ≤ k by omega) with h | h
      · subst h; exact lt_irrefl _ hij
      · exact lt_asymm hij (hUlt _ _ h _)
    have hks : k < splits.length := by omega
    have e := hget k hks
    rw [dif_pos (by omega)] at e
    have a1 := midpoint32_mem (hUX k (by omega)) (hUX (k + 1) (by omega)) (hUlt k (k + 1) (by omega) (by omega)).le
    have a3 : U[k + 1]'(by omega) ≤ U[l]'(by omega) := by
      rcases Nat.eq_or_lt_of_le (show k + 1 ≤ l by omega) with h | h
      · exact le_of_eq (by congr 1)
      · exact (hUlt _ _ h _).le
    rw [← e] at a1
    by_contra hne
    have hlt : splits[k] < U[l] := by
      by_cases hadj : (U[k + 1]'(by omega)).val = U[k].val + 1
      · refine lt_of_le_of_lt a1.2 (lt_of_le_of_ne a3 fun h => hne ?_)
        rw [← h, hadj]
      · refine lt_of_lt_of_le ?_ a3
        rw [e]
        refine midpoint32_lt (hUX k (by omega)) (hUX (k + 1) (by omega)) ?_
        have : U[k].val < (U[k + 1]'(by omega)).val := hUlt k (k + 1) (by omega) (by omega)
        omega
    have d1 := (C12_decision hsort hb (s := k + 1) (by omega) (by omega))
    have d2 := (C12_decision hsort hc (s := k + 1) (by omega) (by omega)).2 hlt
    exact absurd (d1.1 (by omega)) (not_lt.2 a1.1)

/-! ### Counterexamples -/

namespace ExM

/-- the number with given bits -/
def f (z : Int) (h : -(infBits : Int) ≤ z ∧ z ≤ infBits := by decide) : Ordered := ⟨z, h⟩

/-- three numbers: 1, and two adjacent ones a bit larger -/
def near : List Ordered := [f 0x3f800010, f 0x3f800000, f 0x3f800011]

/-- the values of the last two numbers are `1 + 16 / 2 ** 23` and `1 + 17 / 2 ** 23` -/
theorem near_eq : near.map ofOrdered = [1 + ((16 : Nat) : Binary32) / ((2 ^ 23 : Nat) : Binary32), 1,
    1 + ((17 : Nat) : Binary32) / ((2 ^ 23 : Nat) : Binary32)] := by decide +kernel

/-- another pair of adjacent numbers, `1 + 17 / 2 ** 23` and `1 + 18 / 2 ** 23`, and 1 -/
def near' : List Ordered := [f 0x3f800011, f 0x3f800000, f 0x3f800012]

/-- three numbers lower than the largest one, `3.4e38` -/
def large : List Ordered := [f 0, f 0x7f000000, f 0x7f700000]

theorem near_unique : IsUnique near [f 0x3f800000, f 0x3f800010, f 0x3f800011] := by
  refine ⟨by decide +kernel, fun v => ?_⟩
  simp only [near, List.mem_cons, List.not_mem_nil, or_false]
  tauto

theorem near'_unique : IsUnique near' [f 0x3f800000, f 0x3f800011, f 0x3f800012] := by
  refine ⟨by decide +kernel, fun v => ?_⟩
  simp only [near', List.mem_cons, List.not_mem_nil, or_false]
  tauto

theorem large_unique : IsUnique large [f 0, f 0x7f000000, f 0x7f700000] := by
  refine ⟨by decide +kernel, fun v => ?_⟩
  simp only [large, List.mem_cons, List.not_mem_nil, or_false]

/-- the cutpoints with three distinct values -/
theorem row_three {x : List Ordered} {a b c : Ordered} (hx : x.length = 3) (hf : ∀ v ∈ x, v.val.natAbs < infBits)
    (hU : IsUnique x [a, b, c]) :
    (quantilized_row id binary32_dtype x 2).1 = [binary32_dtype.midpoint a b, binary32_dtype.midpoint b c] := by
  obtain ⟨h1, h2⟩ := quantilized_row_enough (fl := id) (t := binary32_dtype) (ok := fun v => v.val.natAbs < infBits)
    (fun _ a ha => midpoint32_pad ha) hf hU (by simp) (m := 2) (by omega) (by rw [hx]; norm_num) (by simp)
  apply List.ext_getElem?
  intro k
  rcases Nat.lt_or_ge k 2 with hk | hk
  · have e := h2 k hk
    refine e.trans ?_
    have : k = 0 ∨ k = 1 := by omega
    rcases this with rfl | rfl <;> rfl
  · rw [List.getElem?_eq_none (by rw [show (2 : Int) = ((2 : Nat) : Int) from rfl, h1]; exact hk),
      List.getElem?_eq_none hk]

end ExM

/-- **C81, negation**: two values of a predictor, that are adjacent floating point numbers, are put in the same bin, although
there are enough bins for all the values. -/
theorem C81_adjacent : ∃ X : List (List Ordered), ∃ splits, (quantilized_splits_from_matrix id binary32_dtype X 3 256).1 = [splits] ∧
    X[0]?.map (fun x => bin_row x splits) = some [1, 0, 1] ∧ X[0]?.map (fun x => decide x.Nodup) = some true ∧
    ∀ x ∈ X, ∀ v ∈ x, v.val.natAbs < 0x7f000000 := by
  refine ⟨[ExM.near'], (quantilized_row id binary32_dtype ExM.near' 2).1, rfl, ?_, ?_, ?_⟩
  · rw [ExM.row_three rfl (by decide +kernel) ExM.near'_unique]
    decide +kernel
  · decide +kernel
  · decide +kernel

/-- **C81, negation**: two values of a predictor, which are not adjacent, are put in the same bin because the calculation of the midpoint
overflows. -/
theorem C81_overflow : ∃ X : List (List Ordered), ∃ splits, (quantilized_splits_from_matrix id binary32_dtype X 3 256).1 = [splits] ∧
    X[0]?.map (fun x => bin_row x splits) = some [0, 1, 1] ∧ X[0]?.map (fun x => decide x.Nodup) = some true ∧
    ∀ x ∈ X, ∀ v ∈ x, v.val.natAbs < infBits := by
  refine ⟨[ExM.large], (quantilized_row id binary32_dtype ExM.large 2).1, rfl, ?_, ?_, ?_⟩
  · rw [ExM.row_three rfl (by decide +kernel) ExM.large_unique]
    decide +kernel
  · decide +kernel
  · decide +kernel

-- with the numbers `near` the midpoint is rounded to the first of the adjacent ones, and there is no loss
example : bin_row ExM.near (quantilized_row id binary32_dtype ExM.near 2).1 = [1, 0, 2] := by
  rw [ExM.row_three rfl (by decide +kernel) ExM.near_unique]
  decide +kernel

-- `C81_merged_partial` applies to `near'`, and `C81_lossless_partial` to numbers that are not adjacent
example := C81_merged_partial (fl := id) [ExM.near'] 3 256 (r := 0) (by decide) rfl (by decide +kernel) (by decide) (by norm_num) _
  ExM.near'_unique (by decide)

namespace ExM

/-- the numbers 1, 0.5, 1 -/
def usual : List Ordered := [f 0x3f800000, f 0x3f000000, f 0x3f800000]

theorem usual_unique : IsUnique usual [f 0x3f000000, f 0x3f800000] := by
  refine ⟨by decide +kernel, fun v => ?_⟩
  simp only [usual, List.mem_cons, List.not_mem_nil, or_false]
  tauto

example := C81_lossless_partial (fl := id) [usual] 3 256 (r := 0) (by decide) rfl (by decide +kernel) (by decide +kernel) (by decide)
  (by norm_num) _ usual_unique (by decide)

end ExM

end Bartz
