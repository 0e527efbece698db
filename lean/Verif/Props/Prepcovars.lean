import Verif.Lemmas.Prepcovars
import Mathlib.Algebra.Order.Ring.Rat
/-!
# Properties of `prepcovars`: C12-C18
-/

set_option autoImplicit false

namespace Bartz
open Jax Spec

variable {α : Type} [LinearOrder α]

/-! ### C12 -/

/-- C12: `bin_predictors` maps `x` to the bin `i` iff `splits[i - 1] < x <= splits[i]`. -/
theorem C12_bin (X splits : List (List α)) {r j : Nat} (hr : r < X.length) (hrs : r < splits.length)
    (hj : j < X[r].length) (hs : splits[r].Pairwise (· ≤ ·)) (h : splits[r].length < 2 ^ 64) (i : Nat) :
    (∃ row, (bin_predictors X splits)[r]? = some row ∧ row[j]? = some i) ↔ InBin splits[r] X[r][j] i := by
  unfold bin_predictors
  rw [List.getElem?_zipWith, List.getElem?_eq_getElem hr, List.getElem?_eq_getElem hrs]
  simp only [Option.some.injEq, exists_eq_left']
  exact bin_row_get hs h hj i

/-- C12: a decision on the bin is a decision on the original value. -/
theorem C12_decision {cuts : List α} (hs : cuts.Pairwise (· ≤ ·)) {x : α} {i : Nat}
    (hi : InBin cuts x i) {s : Nat} (h1 : 1 ≤ s) (h2 : s ≤ cuts.length) :
    s ≤ i ↔ cuts[s - 1]'(by omega) < x := by
  obtain ⟨a1, a2, a3⟩ := hi
  have hsort : ∀ a b (ha : a ≤ b) (hb : b < cuts.length), cuts[a]'(by omega) ≤ cuts[b] := by
    intro a b ha hb
    rcases Nat.eq_or_lt_of_le ha with rfl | h
    · exact le_rfl
    · exact List.pairwise_iff_getElem.1 hs a b (by omega) hb h
  constructor
  · intro h
    exact lt_of_le_of_lt (hsort (s - 1) (i - 1) (by omega) (by omega))
      (a2 _ (by omega) (List.getElem?_eq_getElem (by omega)))
  · intro h
    by_contra hc
    have e := a3 (cuts[i]'(by omega)) (List.getElem?_eq_getElem (by omega))
    exact absurd (lt_of_lt_of_le h (le_trans e (hsort i (s - 1) (by omega) (by omega)))) (lt_irrefl _)

/-- C12: each value is in exactly one bin, and binning is monotone. -/
theorem C12_monotone {cuts : List α} (hs : cuts.Pairwise (· ≤ ·)) {x y : α} (hxy : x ≤ y) :
    ∃ i j, InBin cuts x i ∧ InBin cuts y j ∧ (∀ i', InBin cuts x i' → i' = i) ∧ i ≤ j := by
  obtain ⟨i, hi⟩ := inBin_exists cuts hs x
  obtain ⟨j, hj⟩ := inBin_exists cuts hs y
  refine ⟨i, j, hi, hj, fun i' h => inBin_unique hs h hi, ?_⟩
  by_contra hc
  have h1 := hi.1
  have e : ¬ i ≤ j := hc
  rw [C12_decision hs hj (by omega) h1] at e
  exact e (lt_of_lt_of_le ((C12_decision hs hi (by omega) h1).1 le_rfl) hxy)

example : bin_predictors [[5, -1, 2, 3, 2]] [[0, 2, (4 : Int)]] = [[3, 0, 1, 2, 1]] := by decide

example : InBin [0, 2, (4 : Int)] 2 1 :=
  (C12_bin [[5, -1, 2, 3, 2]] [[0, 2, (4 : Int)]] (r := 0) (j := 2) (by decide) (by decide) (by decide)
    (by decide) (by decide) 1).1 ⟨[3, 0, 1, 2, 1], by decide, by decide⟩

/-! ### Rows of the output of `quantilized_splits_from_matrix` -/

theorem quantilized_get (fl : ℚ → ℚ) (t : Dtype α) (X : List (List α)) (n max_bins : Nat) {r : Nat}
    (hr : r < X.length) (hn : 1 ≤ min max_bins n) :
    (quantilized_splits_from_matrix fl t X n max_bins).1[r]? =
        some (quantilized_row fl t X[r] ((min max_bins n - 1 : Nat) : Int)).1 ∧
      (quantilized_splits_from_matrix fl t X n max_bins).2[r]? =
        some (quantilized_row fl t X[r] ((min max_bins n - 1 : Nat) : Int)).2 := by
  have e : ((min max_bins n : Nat) : Int) - 1 = ((min max_bins n - 1 : Nat) : Int) := by omega
  unfold quantilized_splits_from_matrix
  rw [e]
  simp only [List.unzip_eq_map, List.map_map, List.getElem?_map, List.getElem?_eq_getElem hr,
    Option.map_some, Function.comp]
  exact ⟨trivial, trivial⟩

theorem unique_pos {x U : List α} (hU : IsUnique x U) (hx : 1 ≤ x.length) : 0 < U.length := by
  obtain ⟨v, hv⟩ := List.exists_mem_of_length_pos (show 0 < x.length by omega)
  exact List.length_pos_of_mem ((hU.2 v).2 hv)

theorem unique_le {x U : List α} (hU : IsUnique x U) : U.length ≤ x.length :=
  (List.subperm_of_subset (hU.1.imp ne_of_lt) (fun v hv => (hU.2 v).1 hv)).length_le

/-! ### C13 -/

/-- C13: if the predictor has at most `max_bins` distinct values `U`, there is one cutpoint between
consecutive distinct values, followed by padding, and the bin of each value is its rank among the
distinct values. The rounding of floating point numbers in the calculation of the indices is arbitrary. -/
theorem C13_lossless {fl : ℚ → ℚ} {t : Dtype α} {ok : α → Prop} (ht : LawfulDtype t ok)
    (X : List (List α)) (n max_bins : Nat) {r : Nat} (hr : r < X.length) (hXn : X[r].length = n)
    (hX : ∀ v ∈ X[r], ok v) (hn : 1 ≤ n) (h64 : n < 2 ^ 64) (U : List α) (hU : IsUnique X[r] U)
    (hmax : U.length ≤ max_bins) :
    ∃ splits, (quantilized_splits_from_matrix fl t X n max_bins).1[r]? = some splits ∧
      (quantilized_splits_from_matrix fl t X n max_bins).2[r]? = some (U.length - 1) ∧
      splits.length = min max_bins n - 1 ∧
      (∀ k (hk : k + 1 < U.length), ∃ c, splits[k]? = some c ∧ U[k] ≤ c ∧ c < U[k + 1]) ∧
      (∀ k, U.length - 1 ≤ k → k < splits.length → splits[k]? = some t.huge) ∧
      (∀ j (hj : j < n), ∃ b, (bin_row X[r] splits)[j]? = some b ∧ U[b]? = some (X[r][j]'(by omega))) := by
  have h0 := unique_pos hU (by omega)
  have hle := unique_le hU
  obtain ⟨g1, g2⟩ := quantilized_get fl t X n max_bins hr (by omega)
  obtain ⟨cuts, c1, c2, c3⟩ := quantilized_row_spec (fl := fl) (δ := 0) ht hX hU h0
    (m := min max_bins n - 1) (by omega) (by omega) (fun h => by omega)
  have hcl : cuts.length = U.length - 1 := by omega
  have hpos : ∀ k, position fl (U.length - 1) (min max_bins n - 1) k = k := by
    intro k; unfold position; rw [if_neg (by omega)]
  rw [c1] at g1 g2
  have hok : ∀ v ∈ U, v ≤ t.huge := fun v hv => ht.le_huge v (hX v ((hU.2 v).1 hv))
  obtain ⟨p1, p2⟩ := padded_sorted (min max_bins n - 1 - cuts.length) hU.1 c3 hok
  refine ⟨_, g1, by rw [g2, hcl], by simp; omega, ?_, ?_, ?_⟩
  · intro k hk
    refine ⟨cuts[k]'(by omega), ?_, ?_, ?_⟩
    · rw [List.getElem?_append_left (by omega), List.getElem?_eq_getElem]
    · have := c3.left k (by omega)
      simpa only [hpos] using this
    · have := c3.right k (by omega)
      simpa only [hpos] using this
  · intro k hk1 hk2
    rw [List.getElem?_append_right (by omega), List.getElem?_replicate, if_pos]
    simp at hk2
    omega
  · intro j hj
    obtain ⟨b, hb, e⟩ := List.getElem_of_mem ((hU.2 _).2 (List.getElem_mem (l := X[r]) (n := j) (by omega)))
    refine ⟨b, ?_, by rw [List.getElem?_eq_getElem hb, e]⟩
    rw [bin_row_get p1 (by simp; omega) (by omega), ← e]
    apply inBin_padded (hok _ (List.getElem_mem _))
    rw [cutsAt_bin hU.1 c3 hb]
    simp only [hpos]
    omega

/-! ### C14 -/

/-- C14: if the predictor has more than `max_bins` distinct values `U`, there are `max_bins - 1` strictly
increasing cutpoints, each between two consecutive distinct values, and the number of distinct values in
each bin is within 1 of the ideal one. `δ` is the error in the calculation of the indices with floating
point numbers. -/
theorem C14_balanced {fl : ℚ → ℚ} {δ : ℚ} {t : Dtype α} {ok : α → Prop} (ht : LawfulDtype t ok)
    (X : List (List α)) (n max_bins : Nat) {r : Nat} (hr : r < X.length) (hXn : X[r].length = n)
    (hX : ∀ v ∈ X[r], ok v) (h64 : n < 2 ^ 64) (hb : 1 ≤ max_bins) (U : List α) (hU : IsUnique X[r] U)
    (hmax : max_bins < U.length) (hδ0 : 0 ≤ δ) (hδ : 2 * δ < (U.length : ℚ) / max_bins - 1)
    (hfl : ∀ q : ℚ, -1 ≤ q → q ≤ U.length → |fl q - q| ≤ δ) :
    ∃ splits, (quantilized_splits_from_matrix fl t X n max_bins).1[r]? = some splits ∧
      (quantilized_splits_from_matrix fl t X n max_bins).2[r]? = some (max_bins - 1) ∧
      splits.length = max_bins - 1 ∧ splits.Pairwise (· < ·) ∧
      (∀ c ∈ splits, ∃ a b, [a, b] <:+: U ∧ a ≤ c ∧ c < b) ∧
      (∀ b, b < max_bins →
        |(((bin_row U splits).count b : Nat) : ℚ) - (U.length : ℚ) / max_bins| ≤ 1 + 2 * δ) := by
  have h0 := unique_pos hU (by have := unique_le hU; omega)
  have hle := unique_le hU
  obtain ⟨g1, g2⟩ := quantilized_get fl t X n max_bins hr (by omega)
  obtain ⟨m, rfl⟩ : ∃ m, max_bins = m + 1 := ⟨max_bins - 1, by omega⟩
  obtain ⟨L, hL⟩ : ∃ L, U.length = L + 1 := ⟨U.length - 1, by omega⟩
  have hm : min (m + 1) n - 1 = m := by omega
  have hLm : U.length - 1 = L := by omega
  rw [hm] at g1 g2
  have hsp : (U.length : ℚ) / ((m + 1 : Nat) : ℚ) = spacing L m := by
    unfold spacing; rw [hL]; push_cast; rfl
  rw [hsp] at hδ
  have hfl' : ∀ k, k < m → |fl (grid L m k) - grid L m k| ≤ δ := by
    intro k hk
    have hk1 : (k : ℚ) + 1 ≤ m := by exact_mod_cast hk
    have hk0 : (0 : ℚ) ≤ k := by positivity
    have ht := spacing_total L m
    have hs0 : 0 ≤ spacing L m := by linarith
    apply hfl
    · rw [grid_eq]; nlinarith
    · rw [grid_eq, hL]; push_cast; nlinarith
  obtain ⟨cuts, c1, c2, c3⟩ := quantilized_row_spec (fl := fl) (δ := δ) ht hX hU h0
    (m := m) (by omega) (by omega) (fun h => by rw [hLm]; exact ⟨hδ, hfl'⟩)
  rw [hLm] at c3 c2
  have hcl : cuts.length = m := by omega
  have hrep : cuts ++ List.replicate (m - cuts.length) t.huge = cuts := by rw [hcl]; simp
  rw [c1, hrep] at g1 g2
  refine ⟨cuts, g1, by rw [g2, hcl]; rfl, by omega, cutsAt_sorted hU.1 c3, ?_, ?_⟩
  · intro c hc
    obtain ⟨k, hk, rfl⟩ := List.getElem_of_mem hc
    have h1 := c3.bound k hk
    refine ⟨_, _, ?_, c3.left k hk, c3.right k hk⟩
    refine ⟨U.take (position fl L m k), U.drop (position fl L m k + 2), ?_⟩
    conv_rhs => rw [← List.take_append_drop (position fl L m k) U]
    rw [List.drop_eq_getElem_cons (i := position fl L m k) (by omega),
      List.drop_eq_getElem_cons (i := position fl L m k + 1) (by omega)]
    simp
  · intro b hbm
    rw [hsp]
    have hc := cutsAt_count hU.1 c3 (by omega) h0 (b := b) (by omega)
    have hc' : ((((bin_row U cuts).count b : Nat) : Int) : ℚ) = _ := congrArg (Int.cast (R := ℚ)) hc
    rw [Int.cast_natCast] at hc'
    rw [hc', hcl]
    have hp : ∀ k, k < m → |(position fl L m k : ℚ) - grid L m k| ≤ 1 / 2 + δ := by
      intro k hk
      obtain ⟨q1, q2, q3⟩ := position_spec hδ hfl' hk
      unfold position
      rw [if_pos (by omega)]
      have : (((pyRound (fl (grid L m k))).toNat : Int) : ℚ) = pyRound (fl (grid L m k)) := by
        rw [Int.toNat_of_nonneg q1]
      rw [Int.cast_natCast] at this
      rw [this]
      exact q3
    have htot := spacing_total L m
    have e1 : |(((if b = m then (U.length : Int) - 1 else (position fl L m b : Int)) : Int) : ℚ)
        - (-1 + (b + 1) * spacing L m)| ≤ 1 / 2 + δ := by
      split
      · next h =>
        rw [h, hL]
        push_cast
        rw [htot]
        have : (L : ℚ) + 1 - 1 - (-1 + (L + 1)) = 0 := by ring
        rw [this, abs_zero]
        linarith
      · have := hp b (by omega)
        rw [grid_eq] at this
        rw [Int.cast_natCast]
        exact this
    have e2 : |(((if b = 0 then (-1 : Int) else (position fl L m (b - 1) : Int)) : Int) : ℚ)
        - (-1 + b * spacing L m)| ≤ 1 / 2 + δ := by
      split
      · next h =>
        rw [h]
        push_cast
        have : (-1 : ℚ) - (-1 + 0 * spacing L m) = 0 := by ring
        rw [this, abs_zero]
        linarith
      · have := hp (b - 1) (by omega)
        rw [grid_eq] at this
        have hb1 : (((b - 1 : Nat) : ℚ)) + 1 = b := by
          rw [Nat.cast_sub (by omega)]; push_cast; ring
        rw [hb1] at this
        rw [Int.cast_natCast]
        exact this
    rw [Int.cast_sub]
    rw [abs_le] at e1 e2 ⊢
    constructor <;> linarith

/-- C14: the numbers of distinct values in any two bins differ at most by 2, if the error on the indices
is less than 1/4. -/
theorem C14_difference {a b : Nat} {δ s : ℚ} (hδ : δ < 1 / 4) (ha : |(a : ℚ) - s| ≤ 1 + 2 * δ)
    (hb : |(b : ℚ) - s| ≤ 1 + 2 * δ) : a ≤ b + 2 := by
  rw [abs_le] at ha hb
  have : (a : ℚ) < b + 3 := by linarith
  have : a < b + 3 := by exact_mod_cast this
  omega

/-! ### C15 -/

/-- C15: the midpoint of integers computed with wrap-around arithmetic is correct, even if the difference
overflows. This holds for unsigned types, and for signed types up to 32 bits; `wout` is the number of
bits of the type of the result. Missing: signed types with 64 bits, see `C15_not_int64`. -/
theorem C15_midpoint_partial {signed : Bool} {w wout : Nat} (hw : 1 ≤ w) (hwo : w ≤ wout) {a b : Int}
    (ha : Representable signed w a) (hb : Representable signed w b) (hab : a < b) :
    int_midpoint signed w wout a b = (a + b) / 2 ∧ a ≤ int_midpoint signed w wout a b ∧
      int_midpoint signed w wout a b < b := by
  rw [int_midpoint_eq hw hwo ha hb (by omega)]
  omega

/-- C15 is false for signed integers with 64 bits: the midpoint is converted to floating point, so it
can be less than both values. -/
theorem C15_not_int64 : ∃ a b : Int, Representable true 64 a ∧ Representable true 64 b ∧ a < b ∧
    int64_midpoint a b < a :=
  ⟨2 ^ 62 + 1, 2 ^ 62 + 2, by decide, by decide, by decide, by decide +kernel⟩

/-- the smallest and the largest value, the difference overflows -/
example : int_midpoint true 8 16 (-128) 127 = -1 ∧ wrap_int true 8 (127 - (-128)) = -1 := by decide

example : int_midpoint true 32 32 (-2 ^ 31) (2 ^ 31 - 1) = -1 :=
  (C15_midpoint_partial (by decide) (by decide) (by decide) (by decide) (by decide)).1

/-! ### C16 -/

section
variable {K : Type} [Field K] [LinearOrder K] [IsStrictOrderedRing K]

/-- C16: `uniform_splits_from_matrix` makes an evenly spaced grid of cutpoints between the minimum and the
maximum of the predictor. -/
theorem C16_uniform (x : List K) (num_bins : Nat) (hn : 1 ≤ num_bins) (h64 : num_bins < 2 ^ 64) (low high : K)
    (hlow : low ∈ x) (hhigh : high ∈ x) (hbound : ∀ v ∈ x, low ≤ v ∧ v ≤ high) :
    ∃ splits, uniform_row x num_bins = some (splits, num_bins - 1) ∧ splits.length = num_bins - 1 ∧
      (∀ k, k < num_bins - 1 → splits[k]? = some (low + (k + 1) * ((high - low) / num_bins))) ∧
      (low < high → splits.Pairwise (· < ·) ∧ (∀ c ∈ splits, low < c ∧ c < high) ∧
        InBin splits low 0 ∧ InBin splits high (num_bins - 1)) := by
  have hmin : x.min? = some low := List.min?_eq_some_iff.2 ⟨hlow, fun v hv => (hbound v hv).1⟩
  have hmax : x.max? = some high := List.max?_eq_some_iff.2 ⟨hhigh, fun v hv => (hbound v hv).2⟩
  set splits := (((List.range (num_bins + 1)).map fun k : Nat =>
    low + (k : K) * (high - low) / (num_bins : K)).drop 1).dropLast with hsp
  have hlen : splits.length = num_bins - 1 := by simp [hsp]
  have hget : ∀ k (hk : k < splits.length), splits[k] = low + (k + 1) * ((high - low) / num_bins) := by
    intro k hk
    simp only [hsp, List.getElem_dropLast, List.getElem_drop, List.getElem_map, List.getElem_range]
    push_cast
    ring
  have hbits : astype (minimal_unsigned_dtype (num_bins - 1)) (num_bins - 1) = num_bins - 1 :=
    Nat.mod_eq_of_lt (minimal_fits (by omega) (by omega))
  have hguard : (splits.length : Int) = (num_bins : Int) - 1 := by omega
  refine ⟨splits, ?_, hlen, ?_, ?_⟩
  · unfold uniform_row
    simp only [hmin, hmax, Option.bind_eq_bind, Option.bind_some, Option.pure_def]
    rw [← hsp]
    simp only [hguard, guard, if_true, Option.pure_def, Option.bind_some, hbits]
  · intro k hk
    rw [List.getElem?_eq_getElem (by omega), hget]
  · intro hlt
    have hpos : 0 < (high - low) / num_bins := div_pos (by linarith) (by exact_mod_cast hn)
    have htot : (num_bins : K) * ((high - low) / num_bins) = high - low := by
      have : (num_bins : K) ≠ 0 := by
        have : (0 : K) < num_bins := by exact_mod_cast hn
        exact ne_of_gt this
      field_simp
    have hin : ∀ c ∈ splits, low < c ∧ c < high := by
      intro c hc
      obtain ⟨k, hk, rfl⟩ := List.getElem_of_mem hc
      rw [hget k hk]
      have hk0 : (0 : K) ≤ k := by positivity
      have hk1 : (k : K) + 1 + 1 ≤ num_bins := by
        have : k + 1 + 1 ≤ num_bins := by omega
        exact_mod_cast this
      constructor <;> nlinarith
    refine ⟨?_, hin, ⟨Nat.zero_le _, fun c h0 => absurd h0 (lt_irrefl 0), ?_⟩, ⟨by omega, ?_, ?_⟩⟩
    · rw [List.pairwise_iff_getElem]
      intro a b ha hb hab
      rw [hget a ha, hget b hb]
      have hab' : (a : K) + 1 ≤ b := by exact_mod_cast hab
      nlinarith
    · intro c hc
      exact le_of_lt (hin c (List.mem_of_getElem? hc)).1
    · intro c _ hc
      exact (hin c (List.mem_of_getElem? hc)).2
    · intro c hc
      rw [List.getElem?_eq_none (by omega)] at hc
      exact absurd hc (by simp)

omit [IsStrictOrderedRing K] in
/-- C16: it is an error if there are no values or no bins. -/
theorem C16_error (x : List K) (num_bins : Nat) :
    uniform_row x num_bins = none ↔ x = [] ∨ num_bins = 0 := by
  unfold uniform_row
  cases x with
  | nil => simp
  | cons a x =>
    have hguard : ((num_bins : Int) - 1 = ((num_bins + 1 - 1 - 1 : Nat) : Int)) ↔ num_bins ≠ 0 := by omega
    obtain ⟨lo, hlo⟩ : ∃ lo, (a :: x).min? = some lo := ⟨_, rfl⟩
    obtain ⟨hi, hhi⟩ : ∃ hi, (a :: x).max? = some hi := ⟨_, rfl⟩
    simp only [hlo, hhi, Option.bind_eq_bind, Option.bind_some, List.length_dropLast, List.length_drop,
      List.length_map, List.length_range, guard]
    by_cases h : num_bins = 0
    · subst h; simp
    · rw [if_pos (by omega)]
      simp [h]

omit [IsStrictOrderedRing K] in
/-- C16 for matrices: the function is applied to each row, and fails if it fails for any row -/
theorem C16_matrix (X : List (List K)) (num_bins : Nat) :
    (∀ f : List K → List K × Nat, (∀ x ∈ X, uniform_row x num_bins = some (f x)) →
      uniform_splits_from_matrix X num_bins = some (X.map fun x => (f x).1, X.map fun x => (f x).2)) ∧
    ((∃ x ∈ X, uniform_row x num_bins = none) → uniform_splits_from_matrix X num_bins = none) := by
  unfold uniform_splits_from_matrix
  constructor
  · intro f h
    have e : X.mapM (fun x => uniform_row x num_bins) = some (X.map f) := by
      induction X with
      | nil => rfl
      | cons x X ih =>
        rw [List.mapM_cons, h x (by simp), ih (fun y hy => h y (by simp [hy]))]
        rfl
    rw [e]
    simp [List.unzip_eq_map]
  · rintro ⟨x, hx, h⟩
    have e : X.mapM (fun x => uniform_row x num_bins) = none := by
      induction X with
      | nil => cases hx
      | cons y X ih =>
        rw [List.mapM_cons]
        rcases List.mem_cons.1 hx with rfl | hx
        · rw [h]; rfl
        · rw [ih hx]
          cases uniform_row y num_bins <;> rfl
    rw [e]; rfl

end

example : uniform_row [3, 1, (2 : ℚ)] 4 = some ([3 / 2, 2, 5 / 2], 3) := by decide +kernel

example : ∃ splits, uniform_row [3, 1, (2 : ℚ)] 4 = some (splits, 3) ∧ InBin splits 3 3 := by
  obtain ⟨splits, h1, -, -, h4⟩ := C16_uniform [3, 1, (2 : ℚ)] 4 (by decide) (by decide) 1 3 (by decide)
    (by decide) (by decide)
  exact ⟨splits, h1, (h4 (by decide)).2.2.2⟩

/-! ### C17, C18 -/

/-- common part of C17 and C18: form of the output -/
theorem quantilized_form_cuts {fl : ℚ → ℚ} {δ : ℚ} {t : Dtype α} {ok : α → Prop} (ht : LawfulDtype t ok)
    (X : List (List α)) (n max_bins : Nat) {r : Nat} (hr : r < X.length) (hXn : X[r].length = n)
    (hX : ∀ v ∈ X[r], ok v) (hn : 1 ≤ n) (h64 : n < 2 ^ 64) (hb : 1 ≤ max_bins) (U : List α)
    (hU : IsUnique X[r] U)
    (hfl : max_bins < U.length → 2 * δ < (U.length : ℚ) / max_bins - 1 ∧
      ∀ q : ℚ, -1 ≤ q → q ≤ U.length → |fl q - q| ≤ δ) :
    ∃ cuts, (quantilized_splits_from_matrix fl t X n max_bins).1[r]? =
        some (cuts ++ List.replicate (min max_bins n - 1 - cuts.length) t.huge) ∧
      (quantilized_splits_from_matrix fl t X n max_bins).2[r]? = some cuts.length ∧
      cuts.length = min (U.length - 1) (min max_bins n - 1) ∧
      (cuts ++ List.replicate (min max_bins n - 1 - cuts.length) t.huge).Pairwise (· ≤ ·) ∧
      (∀ c ∈ cuts, c < t.huge) ∧ ∃ i, CutsAt U cuts i := by
  have h0 := unique_pos hU (by omega)
  have hle := unique_le hU
  obtain ⟨g1, g2⟩ := quantilized_get fl t X n max_bins hr (by omega)
  obtain ⟨cuts, c1, c2, c3⟩ := quantilized_row_spec (fl := fl) (δ := δ) ht hX hU h0
    (m := min max_bins n - 1) (by omega) (by omega) (by
      intro h
      have hlt : max_bins < U.length := by omega
      have hfl1 := (hfl hlt).2
      have hδ := (hfl hlt).1
      obtain ⟨m, rfl⟩ : ∃ m, max_bins = m + 1 := ⟨max_bins - 1, by omega⟩
      obtain ⟨L, hL⟩ : ∃ L, U.length = L + 1 := ⟨U.length - 1, by omega⟩
      have hm : min (m + 1) n - 1 = m := by omega
      have hLm : U.length - 1 = L := by omega
      have hsp : (U.length : ℚ) / ((m + 1 : Nat) : ℚ) = spacing L m := by
        unfold spacing; rw [hL]; push_cast; rfl
      rw [hm, hLm]
      rw [hsp] at hδ
      refine ⟨hδ, ?_⟩
      intro k hk
      have hk1 : (k : ℚ) + 1 ≤ m := by exact_mod_cast hk
      have hk0 : (0 : ℚ) ≤ k := by positivity
      have htot := spacing_total L m
      have hs0 : 0 ≤ spacing L m := by unfold spacing; positivity
      apply hfl1
      · rw [grid_eq]; nlinarith
      · rw [grid_eq, hL]; push_cast; nlinarith)
  rw [c1] at g1 g2
  have hok : ∀ v ∈ U, v ≤ t.huge := fun v hv => ht.le_huge v (hX v ((hU.2 v).1 hv))
  obtain ⟨p1, p2⟩ := padded_sorted (min max_bins n - 1 - cuts.length) hU.1 c3 hok
  exact ⟨cuts, g1, g2, c2, p1, p2, _, c3⟩

theorem quantilized_form {fl : ℚ → ℚ} {δ : ℚ} {t : Dtype α} {ok : α → Prop} (ht : LawfulDtype t ok)
    (X : List (List α)) (n max_bins : Nat) {r : Nat} (hr : r < X.length) (hXn : X[r].length = n)
    (hX : ∀ v ∈ X[r], ok v) (hn : 1 ≤ n) (h64 : n < 2 ^ 64) (hb : 1 ≤ max_bins) (U : List α)
    (hU : IsUnique X[r] U)
    (hfl : max_bins < U.length → 2 * δ < (U.length : ℚ) / max_bins - 1 ∧
      ∀ q : ℚ, -1 ≤ q → q ≤ U.length → |fl q - q| ≤ δ) :
    ∃ cuts, (quantilized_splits_from_matrix fl t X n max_bins).1[r]? =
        some (cuts ++ List.replicate (min max_bins n - 1 - cuts.length) t.huge) ∧
      (quantilized_splits_from_matrix fl t X n max_bins).2[r]? = some cuts.length ∧
      cuts.length = min (U.length - 1) (min max_bins n - 1) ∧
      (cuts ++ List.replicate (min max_bins n - 1 - cuts.length) t.huge).Pairwise (· ≤ ·) ∧
      ∀ c ∈ cuts, c < t.huge := by
  obtain ⟨cuts, h1, h2, h3, h4, h5, -⟩ := quantilized_form_cuts ht X n max_bins hr hXn hX hn h64 hb U hU hfl
  exact ⟨cuts, h1, h2, h3, h4, h5⟩

/-- C17: with the cutpoints from `quantilized_splits_from_matrix`, any value of the type of the predictor is
binned to an integer from 0 to `max_split`, that is in the bin according to C12, i.e., without overflow of
the type of the result. -/
theorem C17_range {fl : ℚ → ℚ} {δ : ℚ} {t : Dtype α} {ok : α → Prop} (ht : LawfulDtype t ok)
    (X : List (List α)) (n max_bins : Nat) {r : Nat} (hr : r < X.length) (hXn : X[r].length = n)
    (hX : ∀ v ∈ X[r], ok v) (hn : 1 ≤ n) (h64 : n < 2 ^ 64) (hb : 1 ≤ max_bins) (U : List α)
    (hU : IsUnique X[r] U)
    (hfl : max_bins < U.length → 2 * δ < (U.length : ℚ) / max_bins - 1 ∧
      ∀ q : ℚ, -1 ≤ q → q ≤ U.length → |fl q - q| ≤ δ) :
    ∃ splits max_split, (quantilized_splits_from_matrix fl t X n max_bins).1[r]? = some splits ∧
      (quantilized_splits_from_matrix fl t X n max_bins).2[r]? = some max_split ∧
      ∀ (test : List α), (∀ v ∈ test, v ≤ t.huge) → ∀ j (hj : j < test.length),
        ∃ b, (bin_row test splits)[j]? = some b ∧ b ≤ max_split ∧ InBin splits test[j] b := by
  obtain ⟨cuts, g1, g2, g3, hs, hlt⟩ := quantilized_form ht X n max_bins hr hXn hX hn h64 hb U hU hfl
  refine ⟨_, _, g1, g2, ?_⟩
  intro test htest j hj
  obtain ⟨b, hb'⟩ := inBin_exists cuts ((List.pairwise_append.1 hs).1) test[j]
  have hb2 := inBin_padded (r := min max_bins n - 1 - cuts.length) (htest _ (List.getElem_mem hj)) hb'
  refine ⟨b, ?_, hb'.1, hb2⟩
  rw [bin_row_get hs _ hj]
  · exact hb2
  · rw [List.length_append, List.length_replicate]
    omega

/-- C17 for the uniform grid -/
theorem C17_uniform {K : Type} [Field K] [LinearOrder K] [IsStrictOrderedRing K] (x : List K)
    (num_bins : Nat) (h64 : num_bins < 2 ^ 64) (splits : List K) (max_split : Nat)
    (h : uniform_row x num_bins = some (splits, max_split)) (test : List K) :
    ∀ j (hj : j < test.length), ∃ b, (bin_row test splits)[j]? = some b ∧ b ≤ max_split ∧
      InBin splits test[j] b := by
  have hne : ¬ (x = [] ∨ num_bins = 0) := by
    rw [← C16_error x num_bins, h]; simp
  push Not at hne
  obtain ⟨low, hlow⟩ := Option.ne_none_iff_exists'.1 (mt List.min?_eq_none_iff.1 hne.1)
  obtain ⟨high, hhigh⟩ := Option.ne_none_iff_exists'.1 (mt List.max?_eq_none_iff.1 hne.1)
  have hlow' := List.min?_eq_some_iff.1 hlow
  have hhigh' := List.max?_eq_some_iff.1 hhigh
  obtain ⟨splits', h1, h2, h3, h4⟩ := C16_uniform x num_bins (by omega) h64 low high hlow'.1 hhigh'.1
    fun v hv => ⟨hlow'.2 v hv, hhigh'.2 v hv⟩
  rw [h1] at h
  cases h
  have hs : splits.Pairwise (· ≤ ·) := by
    rcases lt_or_eq_of_le (hlow'.2 high hhigh'.1) with hlt | heq
    · exact (h4 hlt).1.imp le_of_lt
    · rw [List.pairwise_iff_getElem]
      intro a b ha hb _
      have e1 := h3 a (by omega)
      have e2 := h3 b (by omega)
      rw [List.getElem?_eq_getElem ha, Option.some.injEq] at e1
      rw [List.getElem?_eq_getElem hb, Option.some.injEq] at e2
      rw [e1, e2, heq]
      simp
  intro j hj
  obtain ⟨b, hb⟩ := inBin_exists splits hs test[j]
  exact ⟨b, (bin_row_get hs (by omega) hj b).2 hb, by have := hb.1; omega, hb⟩

/-- C18: `max_split` is the number of used values in `splits`. This is false if there are no observations,
see `C18_not`. -/
def C18_statement : Prop :=
  ∀ (X : List (List Int)) (n max_bins r : Nat) (hr : r < X.length), X[r].length = n → 1 ≤ max_bins →
    (∀ v ∈ X[r], Representable true 32 v) → n < 2 ^ 64 →
    ∃ splits max_split,
      (quantilized_splits_from_matrix id (int_dtype true 32 32) X n max_bins).1[r]? = some splits ∧
      (quantilized_splits_from_matrix id (int_dtype true 32 32) X n max_bins).2[r]? = some max_split ∧
      max_split ≤ splits.length

/-- C18 is false: without observations, `max_split` is 255 although there are no cutpoints. -/
theorem C18_not : ¬ C18_statement := by
  intro h
  obtain ⟨splits, max_split, h1, h2, h3⟩ := h [[]] 0 100 0 (by decide) rfl (by decide) (by simp) (by decide)
  have e : quantilized_splits_from_matrix id (int_dtype true 32 32) [[]] 0 100 = ([[]], [255]) := by
    decide +kernel
  rw [e] at h1 h2
  cases h1
  cases h2
  exact absurd h3 (by decide)

/-- C18 holds if there is at least one observation: the first `max_split` values in a row of `splits` are
less than the padding, the others are equal to the padding; and `max_split` is the number of pairs of
consecutive distinct values, limited by the number of bins. -/
theorem C18_max_split_partial {fl : ℚ → ℚ} {δ : ℚ} {t : Dtype α} {ok : α → Prop} (ht : LawfulDtype t ok)
    (X : List (List α)) (n max_bins : Nat) {r : Nat} (hr : r < X.length) (hXn : X[r].length = n)
    (hX : ∀ v ∈ X[r], ok v) (hn : 1 ≤ n) (h64 : n < 2 ^ 64) (hb : 1 ≤ max_bins) (U : List α)
    (hU : IsUnique X[r] U)
    (hfl : max_bins < U.length → 2 * δ < (U.length : ℚ) / max_bins - 1 ∧
      ∀ q : ℚ, -1 ≤ q → q ≤ U.length → |fl q - q| ≤ δ) :
    ∃ splits max_split, (quantilized_splits_from_matrix fl t X n max_bins).1[r]? = some splits ∧
      (quantilized_splits_from_matrix fl t X n max_bins).2[r]? = some max_split ∧
      splits.length = min max_bins n - 1 ∧ max_split ≤ splits.length ∧
      max_split = min (U.length - 1) (max_bins - 1) ∧
      ∀ k (hk : k < splits.length), if k < max_split then splits[k] < t.huge else splits[k] = t.huge := by
  obtain ⟨cuts, g1, g2, g3, hs, hlt⟩ := quantilized_form ht X n max_bins hr hXn hX hn h64 hb U hU hfl
  have hle := unique_le hU
  refine ⟨_, _, g1, g2, by simp; omega, by simp, by omega, ?_⟩
  intro k hk
  split
  · next h =>
    rw [List.getElem_append_left h]
    exact hlt _ (List.getElem_mem h)
  · next h =>
    rw [List.getElem_append_right (by omega), List.getElem_replicate]

/-! ### Examples for C13, C14, C17, C18 -/

namespace ExP

/-- predictor with 5 distinct values, including the largest and smallest ones -/
def X : List (List Int) := [[3, -128, 127, 3, 0, 7, -128]]

/-- the distinct values -/
def U : List Int := [-128, 0, 3, 7, 127]

theorem unique_U : IsUnique X[0] U :=
  ⟨by decide, by
    intro v
    simp only [X, U, List.getElem_cons_zero, List.mem_cons, List.not_mem_nil, or_false]
    tauto⟩

theorem ok_X : ∀ v ∈ X[0], Representable true 8 v := by decide

/-- enough bins -/
example : ∃ splits, (quantilized_splits_from_matrix id (int_dtype true 8 16) X 7 6).1[0]? = some splits ∧
    splits.length = 5 ∧ splits[4]? = some 127 := by
  obtain ⟨splits, h1, h2, h3, h4, h5, h6⟩ := C13_lossless (fl := id) (lawful_int (signed := true) (w := 8)
    (wout := 16) (by decide) (by decide)) X 7 6 (r := 0) (by decide) rfl ok_X (by decide) (by decide) U
    unique_U (by decide)
  exact ⟨splits, h1, h3, h5 4 (by decide) (by rw [h3]; decide)⟩

/-- too few bins -/
example : ∃ splits, (quantilized_splits_from_matrix id (int_dtype true 8 16) X 7 3).1[0]? = some splits ∧
    splits.length = 2 ∧ splits.Pairwise (· < ·) := by
  obtain ⟨splits, h1, h2, h3, h4, h5, h6⟩ := C14_balanced (fl := id) (δ := 0) (lawful_int (signed := true)
    (w := 8) (wout := 16) (by decide) (by decide)) X 7 3 (r := 0) (by decide) rfl ok_X (by decide)
    (by decide) U unique_U (by decide) (by decide) (by norm_num [U]) (by simp)
  exact ⟨splits, h1, h3, h4⟩

/-- the largest value is put in the last bin of the predictor -/
example : ∃ splits max_split,
    (quantilized_splits_from_matrix id (int_dtype true 8 16) X 7 6).1[0]? = some splits ∧
    (quantilized_splits_from_matrix id (int_dtype true 8 16) X 7 6).2[0]? = some max_split ∧
    ∃ b, (bin_row [127] splits)[0]? = some b ∧ b ≤ max_split := by
  obtain ⟨splits, max_split, h1, h2, h3⟩ := C17_range (fl := id) (δ := 0) (lawful_int (signed := true)
    (w := 8) (wout := 16) (by decide) (by decide)) X 7 6 (r := 0) (by decide) rfl ok_X (by decide)
    (by decide) (by decide) U unique_U (fun h => absurd h (by decide))
  obtain ⟨b, e1, e2, -⟩ := h3 [127] (by simp [int_dtype, int_max]) 0 (by decide)
  exact ⟨splits, max_split, h1, h2, b, e1, e2⟩

/-- floating point predictor -/
example : ∃ splits max_split,
    (quantilized_splits_from_matrix id (float_dtype ℚ) [[(2 : ℚ), (1 : ℚ), (2 : ℚ)]] 3 100).1[0]? = some splits ∧
    (quantilized_splits_from_matrix id (float_dtype ℚ) [[(2 : ℚ), (1 : ℚ), (2 : ℚ)]] 3 100).2[0]? =
      some max_split ∧ max_split = 1 ∧ splits.length = 2 := by
  obtain ⟨splits, max_split, h1, h2, h3, h4, h5, -⟩ := C18_max_split_partial (fl := id) (δ := 0)
    (lawful_float (K := ℚ)) [[(2 : ℚ), (1 : ℚ), (2 : ℚ)]] 3 100 (r := 0) (by decide) rfl (by simp) (by decide)
    (by decide) (by decide) [((1 : ℚ) : WithTop ℚ), ((2 : ℚ) : WithTop ℚ)]
    ⟨by simp only [List.pairwise_cons, List.mem_singleton, forall_eq, List.not_mem_nil, false_imp_iff,
        implies_true, List.Pairwise.nil, and_true]; exact_mod_cast one_lt_two, by
      intro v
      simp only [List.getElem_cons_zero, List.mem_cons, List.not_mem_nil, or_false]
      tauto⟩ (fun h => absurd h (by simp))
  exact ⟨splits, max_split, h1, h2, h5, h3⟩

end ExP

end Bartz
