import Verif.Spec.Cuts
import Verif.Lemmas.Unique
import Verif.Lemmas.Searchsorted
import Verif.Lemmas.Basic
import Mathlib.Data.List.GetD
import Mathlib.Data.List.TakeWhile
import Mathlib.Tactic.Linarith
import Mathlib.Tactic.FieldSimp
import Mathlib.Algebra.Order.Field.Basic
/-!
# Lemmas on binning
-/

set_option autoImplicit false

namespace Bartz
open Jax Spec

section
variable {α : Type} [LinearOrder α]

/-- `searchsorted` finds a bin of the value, even if the cutpoints are not sorted -/
theorem searchsorted_inBin (cuts : List α) (x : α) :
    InBin cuts x (searchsortedLeft (fun s => decide (s < x)) cuts) := by
  obtain ⟨h1, h2, h3⟩ := searchsortedRight_spec (fun s => decide (s < x)) cuts
  refine ⟨h1, fun c h0 hc => ?_, fun c hc => ?_⟩
  · obtain ⟨h4, h5⟩ := h3 h0
    obtain ⟨h6, rfl⟩ := List.getElem?_eq_some_iff.1 hc
    exact of_decide_eq_true h5
  · obtain ⟨h6, rfl⟩ := List.getElem?_eq_some_iff.1 hc
    exact not_lt.1 (of_decide_eq_false (h2 h6))

/-- there is only one bin if the cutpoints are sorted -/
theorem inBin_unique {cuts : List α} (hs : cuts.Pairwise (· ≤ ·)) {x : α} {i j : Nat}
    (hi : InBin cuts x i) (hj : InBin cuts x j) : i = j := by
  have key : ∀ i j, InBin cuts x i → InBin cuts x j → ¬ i < j := by
    intro i j hi hj h
    have h1 := hj.1
    have e1 := hi.2.2 (cuts[i]'(by omega)) (List.getElem?_eq_getElem _)
    have e2 := hj.2.1 (cuts[j - 1]'(by omega)) (by omega) (List.getElem?_eq_getElem _)
    have e3 : cuts[i]'(by omega) ≤ cuts[j - 1]'(by omega) := by
      rcases Nat.eq_or_lt_of_le (show i ≤ j - 1 by omega) with h | h
      · exact le_of_eq (by congr 1)
      · exact List.pairwise_iff_getElem.1 hs i (j - 1) (by omega) (by omega) h
    exact absurd (lt_of_le_of_lt (le_trans e1 e3) e2) (lt_irrefl _)
  have h1 := key i j hi hj
  have h2 := key j i hj hi
  omega

/-- `searchsorted` finds the bin -/
theorem searchsorted_iff {cuts : List α} (hs : cuts.Pairwise (· ≤ ·)) (x : α) (i : Nat) :
    searchsortedLeft (fun s => decide (s < x)) cuts = i ↔ InBin cuts x i :=
  ⟨fun h => h ▸ searchsorted_inBin cuts x, fun h => inBin_unique hs (searchsorted_inBin cuts x) h⟩

end

section
variable {α : Type} [LinearOrder α]

theorem bin_row_eq (x splits : List α) (h : splits.length < 2 ^ 64) :
    bin_row x splits = x.map fun v => searchsortedLeft (fun s => decide (s < v)) splits := by
  unfold bin_row
  apply List.map_congr_left
  intro v _
  have h1 := searchsortedLeft_le (fun s => decide (s < v)) splits
  exact Nat.mod_eq_of_lt (Nat.lt_of_le_of_lt h1 (minimal_fits (Int.le_refl _) h))

end

/-! ### Midpoints -/

theorem bmod_eq {v m : Int} {w : Nat} (hm : m = 2 ^ w) (h1 : -m ≤ 2 * v) (h2 : 2 * v < m) :
    Int.bmod v (2 ^ w) = v := by
  apply Int.bmod_eq_of_le_mul_two
  · rw [Nat.cast_pow]; push_cast; omega
  · rw [Nat.cast_pow]; push_cast; omega

theorem wrap_unsigned_diff {signed : Bool} {w : Nat} (d : Int) :
    wrap_int false w (wrap_int signed w d) = d % 2 ^ w := by
  unfold wrap_int
  cases signed with
  | true =>
    simp only [if_true, Bool.false_eq_true, if_false]
    have := Int.bmod_emod (x := d) (m := 2 ^ w)
    exact_mod_cast this
  | false => simp

theorem int_midpoint_eq {signed : Bool} {w wout : Nat} (hw : 1 ≤ w) (hwo : w ≤ wout) {a b : Int}
    (ha : Representable signed w a) (hb : Representable signed w b) (hab : a ≤ b) :
    int_midpoint signed w wout a b = (a + b) / 2 := by
  unfold int_midpoint
  dsimp only
  rw [wrap_unsigned_diff]
  obtain ⟨k, rfl⟩ : ∃ k, w = k + 1 := ⟨w - 1, by omega⟩
  have hpow : (2 : Int) ^ (k + 1) = 2 * 2 ^ k := by rw [pow_succ]; ring
  have hk : (0 : Int) < 2 ^ k := by positivity
  have hd : (b - a) % 2 ^ (k + 1) = b - a := by
    apply Int.emod_eq_of_lt (by omega)
    unfold Representable at ha hb
    cases signed with
    | true => simp only [if_true, Nat.add_sub_cancel] at ha hb; omega
    | false => simp only [Bool.false_eq_true, if_false] at ha hb; omega
  rw [hd]
  have hmid : a + (b - a) / 2 = (a + b) / 2 := by omega
  rw [hmid]
  have hmono : (2 : Int) ^ (k + 1) ≤ 2 ^ wout := pow_le_pow_right₀ (by norm_num) hwo
  unfold Representable at ha hb
  unfold wrap_int
  cases signed with
  | true =>
    simp only [if_true, Nat.add_sub_cancel] at ha hb ⊢
    exact bmod_eq (m := 2 ^ wout) rfl (by omega) (by omega)
  | false =>
    simp only [Bool.false_eq_true, if_false] at ha hb ⊢
    exact Int.emod_eq_of_lt (by omega) (by omega)

theorem lawful_int {signed : Bool} {w wout : Nat} (hw : 1 ≤ w) (hwo : w ≤ wout) :
    LawfulDtype (int_dtype signed w wout) (Representable signed w) := by
  refine ⟨?_, ?_, ?_⟩
  · intro a ha
    show a ≤ int_max signed w
    unfold Representable at ha
    unfold int_max
    cases signed with
    | true => simp only [if_true] at ha ⊢; omega
    | false => simp only [Bool.false_eq_true, if_false] at ha ⊢; omega
  · intro a b ha hb hab
    show a ≤ int_midpoint signed w wout a b ∧ int_midpoint signed w wout a b < b
    rw [int_midpoint_eq hw hwo ha hb (by omega)]
    omega
  · intro h; cases h

theorem lawful_float {K : Type} [Field K] [LinearOrder K] [IsStrictOrderedRing K] :
    LawfulDtype (float_dtype K) (fun v => v ≠ ⊤) := by
  refine ⟨fun a _ => le_top, ?_, ?_⟩
  · intro a b ha hb hab
    obtain ⟨a, rfl⟩ := WithTop.ne_top_iff_exists.1 ha
    obtain ⟨b, rfl⟩ := WithTop.ne_top_iff_exists.1 hb
    have hab' : a < b := WithTop.coe_lt_coe.1 hab
    show (a : WithTop K) ≤ ((b + a) / 2 : K) ∧ (((b + a) / 2 : K) : WithTop K) < b
    rw [WithTop.coe_le_coe, WithTop.coe_lt_coe]
    constructor <;> linarith
  · intro _ a _
    cases a <;> rfl

end Bartz

/-! ### Quantiles -/

namespace Bartz
open Jax Spec

theorem pyRound_near (x : ℚ) : |(pyRound x : ℚ) - x| ≤ 1 / 2 := by
  have h1 := Int.floor_le x
  have h2 := Int.lt_floor_add_one x
  unfold pyRound
  dsimp only
  rw [abs_le]
  split_ifs <;> push_cast <;> constructor <;> linarith

section
variable {α : Type} [LinearOrder α]

theorem midpoints_length (t : Dtype α) (u : List α) (L : Int) :
    (quantilized_midpoints t u L).length = u.length - 1 := by
  unfold quantilized_midpoints
  dsimp only
  split
  · simp [arange]
  · simp

theorem midpoints_get {t : Dtype α} {ok : α → Prop}
    (ht : t.integer = false → ∀ a, ok a ∨ a = t.huge → t.midpoint a t.huge = t.huge) {U : List α} {n : Nat}
    (hX : ∀ v ∈ U, ok v) (hU : 0 < U.length) (hn : U.length ≤ n) (h64 : n ≤ 2 ^ 64) (j : Nat) (hj : j < n - 1) :
    (quantilized_midpoints t (U ++ List.replicate (n - U.length) t.huge) ((U.length : Int) - 1))[j]? =
      some (if h : j + 1 < U.length then t.midpoint U[j] U[j + 1] else t.huge) := by
  set u := U ++ List.replicate (n - U.length) t.huge with hu
  have hul : u.length = n := by simp [hu]; omega
  have hz : (List.zipWith t.midpoint u.dropLast (u.drop 1))[j]?
      = some (t.midpoint (u[j]'(by omega)) (u[j + 1]'(by omega))) := by
    rw [List.getElem?_eq_getElem (by simp; omega)]
    simp only [List.getElem_zipWith, List.getElem_dropLast, List.getElem_drop, Option.some.injEq]
    congr 2
    omega
  have hzl : (List.zipWith t.midpoint u.dropLast (u.drop 1)).length = n - 1 := by simp; omega
  have hlow : j + 1 < U.length → ∀ h1 h2 h3 h4, t.midpoint (u[j]'h1) (u[j + 1]'h2)
      = t.midpoint (U[j]'h3) (U[j + 1]'h4) := by
    intro h h1 h2 h3 h4
    congr 1 <;> simp only [hu] <;> exact List.getElem_append_left _
  unfold quantilized_midpoints
  dsimp only
  cases hint : t.integer with
  | false =>
    simp only [Bool.false_eq_true, if_false]
    rw [hz]
    congr 1
    split
    · next h => exact hlow h _ _ _ _
    · next h =>
      have e : u[j + 1]'(by omega) = t.huge := by
        simp only [hu]
        rw [List.getElem_append_right (by omega), List.getElem_replicate]
      rw [e, ht hint]
      rcases List.mem_append.1 (List.getElem_mem (l := u) (n := j) (by omega)) with h | h
      · exact .inl (hX _ h)
      · exact .inr (List.eq_of_mem_replicate h)
  | true =>
    simp only [if_true]
    rw [List.getElem?_zipWith, hz]
    have e : (arange (List.zipWith t.midpoint u.dropLast (u.drop 1)).length
        (minimal_unsigned_dtype (((List.zipWith t.midpoint u.dropLast (u.drop 1)).length : Int) - 1)))[j]?
        = some j := by
      rw [hzl]
      unfold arange astype
      rw [List.getElem?_map, List.getElem?_range (by omega), Option.map_some]
      congr 1
      apply Nat.mod_eq_of_lt
      exact minimal_fits (by omega) (by omega)
    rw [e]
    dsimp only
    congr 1
    split
    · next h =>
      rw [dif_pos (by omega)]
      exact hlow (by omega) _ _ _ _
    · next h => rw [dif_neg (by omega)]

theorem indices_length (fl : ℚ → ℚ) (L : Int) (m size : Nat) :
    (quantilized_indices fl L m size).length = m := by
  simp only [quantilized_indices, linspace, List.length_map, List.length_dropLast, List.length_drop,
    List.length_range]
  omega

/-- the evenly spaced positions of the cutpoints -/
def grid (L m k : Nat) : ℚ := -1 + (k + 1) * ((L : ℚ) + 1) / (m + 1)

theorem indices_get (fl : ℚ → ℚ) (L m size k : Nat) (hk : k < m) :
    (quantilized_indices fl L m size)[k]? =
      some (astype (minimal_unsigned_dtype (size - 1)) (pyRound (fl (grid L m k))).toNat) := by
  rw [List.getElem?_eq_getElem (by rw [indices_length]; exact hk)]
  simp only [quantilized_indices, linspace, List.getElem_map, List.getElem_dropLast, List.getElem_drop,
    List.getElem_range]
  congr 5
  have e : ((m : Int) + 2).toNat = m + 2 := by omega
  simp only [e]
  unfold grid
  push_cast
  have : (m : ℚ) + 1 ≠ 0 := by positivity
  have h2 : (m : ℚ) + 2 - 1 = m + 1 := by ring
  rw [h2]
  ring

end

end Bartz

namespace Bartz
open Jax Spec

/-- ideal number of values in each bin -/
def spacing (L m : Nat) : ℚ := ((L : ℚ) + 1) / (m + 1)

theorem grid_eq (L m k : Nat) : grid L m k = -1 + (k + 1) * spacing L m := by
  unfold grid spacing; ring

theorem spacing_total (L m : Nat) : (m + 1) * spacing L m = L + 1 := by
  unfold spacing
  have : (m : ℚ) + 1 ≠ 0 := by positivity
  field_simp

theorem position_spec {fl : ℚ → ℚ} {δ : ℚ} {L m : Nat} (hδ : 2 * δ < spacing L m - 1)
    (hfl : ∀ k, k < m → |fl (grid L m k) - grid L m k| ≤ δ) {k : Nat} (hk : k < m) :
    0 ≤ pyRound (fl (grid L m k)) ∧ pyRound (fl (grid L m k)) + 1 ≤ L ∧
      |(pyRound (fl (grid L m k)) : ℚ) - grid L m k| ≤ 1 / 2 + δ := by
  have h1 := pyRound_near (fl (grid L m k))
  have h2 := hfl k hk
  have hd : 0 ≤ δ := le_trans (abs_nonneg _) h2
  rw [abs_le] at h1 h2
  have hs : 1 < spacing L m := by linarith
  have hk1 : (k : ℚ) + 1 ≤ m := by exact_mod_cast hk
  have hk0 : (0 : ℚ) ≤ k := by positivity
  have hg := grid_eq L m k
  have ht := spacing_total L m
  have hge : grid L m k ≥ -1 + spacing L m := by
    rw [hg]; nlinarith
  have hle : grid L m k ≤ L - spacing L m := by
    rw [hg]; nlinarith
  refine ⟨?_, ?_, ?_⟩
  · have : (-1 : ℚ) < pyRound (fl (grid L m k)) := by linarith
    have : (-1 : Int) < pyRound (fl (grid L m k)) := by exact_mod_cast this
    omega
  · have : (pyRound (fl (grid L m k)) : ℚ) < L := by linarith
    have : pyRound (fl (grid L m k)) < (L : Int) := by exact_mod_cast this
    omega
  · rw [abs_le]; constructor <;> linarith

theorem position_lt {fl : ℚ → ℚ} {δ : ℚ} {L m : Nat} (hδ : 2 * δ < spacing L m - 1)
    (hfl : ∀ k, k < m → |fl (grid L m k) - grid L m k| ≤ δ) {k l : Nat} (hkl : k < l) (hl : l < m) :
    pyRound (fl (grid L m k)) < pyRound (fl (grid L m l)) := by
  obtain ⟨-, -, h1⟩ := position_spec hδ hfl (k := k) (by omega)
  obtain ⟨-, -, h2⟩ := position_spec hδ hfl hl
  have hd : 0 ≤ δ := le_trans (abs_nonneg _) (hfl l hl)
  rw [abs_le] at h1 h2
  rw [grid_eq] at h1 h2
  have hkl' : (k : ℚ) + 1 ≤ l := by exact_mod_cast hkl
  have : (pyRound (fl (-1 + (k + 1) * spacing L m)) : ℚ) < pyRound (fl (-1 + (l + 1) * spacing L m)) := by
    nlinarith
  rw [grid_eq, grid_eq]
  exact_mod_cast this

section
variable {α : Type} [LinearOrder α]

/-- the position of the cutpoints among the distinct values -/
def position (fl : ℚ → ℚ) (L m k : Nat) : Nat :=
  if m < L then (pyRound (fl (grid L m k))).toNat else k

theorem quantilized_row_spec {fl : ℚ → ℚ} {δ : ℚ} {t : Dtype α} {ok : α → Prop} (ht : LawfulDtype t ok)
    {x U : List α} (hx : ∀ v ∈ x, ok v) (hU : IsUnique x U) (h0 : 0 < U.length) {m : Nat}
    (hm : m + 1 ≤ x.length) (h64 : x.length ≤ 2 ^ 64)
    (hfl : m < U.length - 1 → 2 * δ < spacing (U.length - 1) m - 1 ∧
      ∀ k, k < m → |fl (grid (U.length - 1) m k) - grid (U.length - 1) m k| ≤ δ) :
    ∃ cuts, quantilized_row fl t x m = (cuts ++ List.replicate (m - cuts.length) t.huge, cuts.length) ∧
      cuts.length = min (U.length - 1) m ∧ CutsAt U cuts (position fl (U.length - 1) m) := by
  have hUl : U.length ≤ x.length :=
    (List.subperm_of_subset (hU.1.imp ne_of_lt) (fun v hv => (hU.2 v).1 hv)).length_le
  have hUx : ∀ k (hk : k < U.length), ok U[k] := fun k hk => hx _ ((hU.2 _).1 (List.getElem_mem hk))
  have hUlt : ∀ a b (h : a < b) (hb : b < U.length), U[a]'(by omega) < U[b] :=
    fun a b h hb => List.pairwise_iff_getElem.1 hU.1 a b (by omega) hb h
  obtain ⟨U', hU', hu⟩ := unique_spec x x.length t.huge
  have hUU : U' = U := by
    refine hU'.unique ?_
    rw [List.take_of_length_le (by rw [sort_length])]
    exact hU.congr fun v => (sort_perm x).mem_iff.symm
  subst hUU
  rw [padTo_of_le hUl] at hu
  set n := x.length with hn
  set L := U'.length - 1 with hL
  have hLi : ((U'.length : Int) - 1) = L := by omega
  have hmid := midpoints_get ht.pad (fun v hv => hx v ((hU.2 v).1 hv)) h0 hUl h64
  set M := quantilized_midpoints t (U' ++ List.replicate (n - U'.length) t.huge) ((U'.length : Int) - 1)
    with hM
  have hMl : M.length = n - 1 := by rw [hM, midpoints_length]; simp; omega
  have hrow : quantilized_row fl t x m =
      (if (L : Int) > m then (quantilized_indices fl L m M.length).map fun i =>
          M.getD (min i (M.length - 1)) t.huge else sliceTo M m,
        (wrap_int false (minimal_unsigned_dtype m) (min (L : Int) m)).toNat) := by
    unfold quantilized_row
    dsimp only
    rw [← hn, hu]
    dsimp only
    rw [hLi] at hM ⊢
    rw [← hM]
  have hmax : (wrap_int false (minimal_unsigned_dtype m) (min (L : Int) m)).toNat = min L m := by
    unfold wrap_int
    simp only [Bool.false_eq_true, if_false]
    have hf : min L m < 2 ^ minimal_unsigned_dtype m :=
      minimal_fits (by omega) (by omega)
    have hf' : ((min L m : Nat) : Int) < 2 ^ minimal_unsigned_dtype m := by exact_mod_cast hf
    rw [show min (L : Int) m = ((min L m : Nat) : Int) by omega,
      Int.emod_eq_of_lt (by omega) hf', Int.toNat_natCast]
  rw [hmax] at hrow
  by_cases hlt : m < L
  · obtain ⟨hδ, hfl⟩ := hfl hlt
    have hidx : ∀ k, k < m → (quantilized_indices fl L m M.length)[k]?
        = some (position fl L m k) ∧ position fl L m k + 1 ≤ L := by
      intro k hk
      obtain ⟨p1, p2, -⟩ := position_spec hδ hfl hk
      rw [indices_get fl L m _ k hk]
      unfold position
      rw [if_pos hlt]
      refine ⟨?_, by omega⟩
      congr 1
      refine Nat.mod_eq_of_lt (minimal_fits ?_ ?_) <;> omega
    refine ⟨(quantilized_indices fl L m M.length).map fun i =>
          M.getD (min i (M.length - 1)) t.huge, ?_, ?_, ?_⟩
    · rw [hrow, if_pos (by omega), List.length_map, indices_length]
      simp; omega
    · rw [List.length_map, indices_length]; omega
    · have hget : ∀ k (hk : k < m) h1 h2 h3, ((quantilized_indices fl L m M.length).map fun i =>
          M.getD (min i (M.length - 1)) t.huge)[k]'h1 =
            t.midpoint (U'[position fl L m k]'h2) (U'[position fl L m k + 1]'h3) := by
        intro k hk h1 h2 h3
        obtain ⟨e1, e2⟩ := hidx k hk
        rw [List.getElem?_eq_getElem (by rw [indices_length]; exact hk), Option.some.injEq] at e1
        rw [List.getElem_map, e1, Nat.min_eq_left (by omega), List.getD_eq_getElem?_getD,
          hmid _ (by omega), Option.getD_some, dif_pos h3]
      have hlen : ∀ k, k < ((quantilized_indices fl L m M.length).map fun i =>
          M.getD (min i (M.length - 1)) t.huge).length → k < m := by
        intro k hk
        rwa [List.length_map, indices_length] at hk
      refine ⟨?_, ?_, ?_, ?_⟩
      · intro k hk
        have := (hidx k (hlen k hk)).2
        omega
      · intro k hk
        have h2 := (hidx k (hlen k hk)).2
        rw [hget k (hlen k hk) _ (by omega) (by omega)]
        exact (ht.midpoint _ _ (hUx _ _) (hUx _ _) (hUlt _ _ (by omega) _)).1
      · intro k hk
        have h2 := (hidx k (hlen k hk)).2
        rw [hget k (hlen k hk) _ (by omega) (by omega)]
        exact (ht.midpoint _ _ (hUx _ _) (hUx _ _) (hUlt _ _ (by omega) _)).2
      · intro k l hkl hl
        have := position_lt hδ hfl hkl (hlen l hl)
        obtain ⟨p1, -, -⟩ := position_spec hδ hfl (k := k) (lt_trans hkl (hlen l hl))
        unfold position
        rw [if_pos hlt, if_pos hlt]
        omega
  · have hpos : ∀ k, position fl L m k = k := fun k => by unfold position; rw [if_neg hlt]
    have hL1 : min L m = L := by omega
    have hget : ∀ k (hk : k < L), M[k]? = some (t.midpoint (U'[k]'(by omega)) (U'[k + 1]'(by omega))) := by
      intro k hk
      rw [hmid k (by omega), dif_pos (by omega)]
    have hcl : (M.take L).length = L := by simp; omega
    refine ⟨M.take L, ?_, ?_, ?_⟩
    · rw [hrow, if_neg (by omega), hcl, hL1]
      congr 1
      unfold sliceTo
      rw [if_neg (by omega), Int.toNat_natCast]
      apply List.ext_getElem?
      intro k
      by_cases hk : k < m
      · rw [List.getElem?_take_of_lt hk]
        by_cases hkL : k < L
        · rw [List.getElem?_append_left (by omega), List.getElem?_take_of_lt hkL]
        · rw [List.getElem?_append_right (by omega), hmid k (by omega), dif_neg (by omega),
            List.getElem?_replicate, if_pos (by omega)]
      · rw [List.getElem?_eq_none (by simp; omega), List.getElem?_eq_none (by simp; omega)]
    · rw [hcl, hL1]
    · have hget' : ∀ k (hk : k < (M.take L).length), (M.take L)[k]
          = t.midpoint (U'[k]'(by omega)) (U'[k + 1]'(by omega)) := by
        intro k hk
        have := hget k (by omega)
        rw [List.getElem?_eq_getElem (by omega), Option.some.injEq] at this
        rw [List.getElem_take, this]
      refine ⟨?_, ?_, ?_, ?_⟩
      · intro k hk
        rw [hpos]; omega
      · intro k hk
        rw [hget' k hk]
        simp only [hpos]
        exact (ht.midpoint _ _ (hUx _ _) (hUx _ _) (hUlt _ _ (by omega) _)).1
      · intro k hk
        rw [hget' k hk]
        simp only [hpos]
        exact (ht.midpoint _ _ (hUx _ _) (hUx _ _) (hUlt _ _ (by omega) _)).2
      · intro k l hkl hl
        rw [hpos, hpos]; exact hkl

end
end Bartz

/-! ### Bins of the distinct values -/

namespace Bartz
open Jax Spec

theorem count_interval {β : Type} [DecidableEq β] (B : List β) (b : β) (lo hi : Nat) (hlo : lo ≤ hi)
    (hhi : hi ≤ B.length) (h : ∀ k (hk : k < B.length), B[k] = b ↔ lo ≤ k ∧ k < hi) :
    B.count b = hi - lo := by
  have e : B = B.take lo ++ ((B.drop lo).take (hi - lo) ++ (B.drop lo).drop (hi - lo)) := by simp
  rw [e, List.count_append, List.count_append]
  have h1 : (B.take lo).count b = 0 := by
    rw [List.count_eq_zero]
    intro hm
    obtain ⟨k, hk, hb⟩ := List.getElem_of_mem hm
    rw [List.getElem_take] at hb
    have := (h k (by simp at hk; omega)).1 hb
    simp at hk
    omega
  have h3 : ((B.drop lo).drop (hi - lo)).count b = 0 := by
    rw [List.count_eq_zero]
    intro hm
    obtain ⟨k, hk, hb⟩ := List.getElem_of_mem hm
    simp only [List.getElem_drop] at hb
    simp only [List.length_drop] at hk
    have := (h _ (by omega)).1 hb
    omega
  have h2 : ((B.drop lo).take (hi - lo)).count b = hi - lo := by
    have : ((B.drop lo).take (hi - lo)).length = hi - lo := by simp; omega
    rw [List.count_eq_length.2, this]
    intro v hv
    obtain ⟨k, hk, hb⟩ := List.getElem_of_mem hv
    rw [← hb, List.getElem_take, List.getElem_drop]
    symm
    exact (h _ (by omega)).2 (by omega)
  omega

section
variable {α : Type} [LinearOrder α]

theorem cutsAt_sorted {U cuts : List α} {i : Nat → Nat} (hU : U.Pairwise (· < ·)) (h : CutsAt U cuts i) :
    cuts.Pairwise (· < ·) := by
  rw [List.pairwise_iff_getElem]
  intro a b ha hb hab
  have h1 := h.right a ha
  have h2 := h.left b hb
  have h3 := h.mono a b hab hb
  have h4 := h.bound b hb
  have h5 : U[i a + 1]'(by omega) ≤ U[i b]'(by omega) := by
    rcases Nat.eq_or_lt_of_le (show i a + 1 ≤ i b by omega) with e | e
    · simp only [e]; exact le_refl _
    · exact le_of_lt (List.pairwise_iff_getElem.1 hU _ _ (by omega) (by omega) e)
  exact lt_of_lt_of_le h1 (le_trans h5 h2)

theorem cutsAt_lt_iff {U cuts : List α} {i : Nat → Nat} (hU : U.Pairwise (· < ·)) (h : CutsAt U cuts i)
    {j k : Nat} (hj : j < cuts.length) (hk : k < U.length) : cuts[j] < U[k] ↔ i j < k := by
  have h1 := h.right j hj
  have h2 := h.left j hj
  have h4 := h.bound j hj
  constructor
  · intro hlt
    by_contra hc
    have h5 : U[k] ≤ U[i j]'(by omega) := by
      rcases Nat.eq_or_lt_of_le (show k ≤ i j by omega) with e | e
      · simp only [e]; exact le_refl _
      · exact le_of_lt (List.pairwise_iff_getElem.1 hU _ _ (by omega) (by omega) e)
    exact absurd (lt_of_lt_of_le hlt (le_trans h5 h2)) (lt_irrefl _)
  · intro hlt
    have h5 : U[i j + 1]'(by omega) ≤ U[k] := by
      rcases Nat.eq_or_lt_of_le (show i j + 1 ≤ k by omega) with e | e
      · simp only [e]; exact le_refl _
      · exact le_of_lt (List.pairwise_iff_getElem.1 hU _ _ (by omega) (by omega) e)
    exact lt_of_lt_of_le h1 h5

/-- padded cutpoints are sorted -/
theorem padded_sorted {U cuts : List α} {i : Nat → Nat} {huge : α} (r : Nat) (hU : U.Pairwise (· < ·))
    (h : CutsAt U cuts i) (hhuge : ∀ v ∈ U, v ≤ huge) :
    (cuts ++ List.replicate r huge).Pairwise (· ≤ ·) ∧ ∀ c ∈ cuts, c < huge := by
  have hlt : ∀ c ∈ cuts, c < huge := by
    intro c hc
    obtain ⟨k, hk, rfl⟩ := List.getElem_of_mem hc
    exact lt_of_lt_of_le (h.right k hk) (hhuge _ (List.getElem_mem _))
  refine ⟨?_, hlt⟩
  rw [List.pairwise_append]
  refine ⟨(cutsAt_sorted hU h).imp le_of_lt, ?_, ?_⟩
  · rw [List.pairwise_replicate]; exact Or.inr (le_refl _)
  · intro a ha b hb
    rw [List.eq_of_mem_replicate hb]
    exact le_of_lt (hlt a ha)

/-- bins with the padding are the bins without it -/
theorem inBin_padded {cuts : List α} {huge v : α} {r i : Nat} (hv : v ≤ huge) (h : InBin cuts v i) :
    InBin (cuts ++ List.replicate r huge) v i := by
  obtain ⟨h1, h2, h3⟩ := h
  refine ⟨by simp; omega, ?_, ?_⟩
  · intro c h0 hc
    rw [List.getElem?_append_left (by omega)] at hc
    exact h2 c h0 hc
  · intro c hc
    by_cases hi : i < cuts.length
    · rw [List.getElem?_append_left hi] at hc
      exact h3 c hc
    · rw [List.getElem?_append_right (by omega)] at hc
      rw [List.eq_of_mem_replicate (List.mem_of_getElem? hc)]
      exact hv

theorem inBin_exists (cuts : List α) (hs : cuts.Pairwise (· ≤ ·)) (v : α) : ∃ i, InBin cuts v i :=
  ⟨_, (searchsorted_iff hs v _).1 rfl⟩

/-- bin of a value -/
theorem cutsAt_bin {U cuts : List α} {i : Nat → Nat} (hU : U.Pairwise (· < ·)) (h : CutsAt U cuts i)
    {k b : Nat} (hk : k < U.length) :
    InBin cuts U[k] b ↔ b ≤ cuts.length ∧ (0 < b → i (b - 1) < k) ∧ (b < cuts.length → k ≤ i b) := by
  unfold InBin
  refine and_congr_right fun hb => and_congr ?_ ?_
  · constructor
    · intro hc h0
      rw [← cutsAt_lt_iff hU h (j := b - 1) (by omega) hk]
      exact hc _ h0 (List.getElem?_eq_getElem (by omega))
    · intro hc c h0 e
      rw [List.getElem?_eq_getElem (by omega), Option.some.injEq] at e
      rw [← e, cutsAt_lt_iff hU h (by omega) hk]
      exact hc h0
  · constructor
    · intro hc h0
      have := hc _ (List.getElem?_eq_getElem h0)
      by_contra hcon
      have h2 := (cutsAt_lt_iff hU h h0 hk).2 (by omega)
      exact absurd (lt_of_le_of_lt this h2) (lt_irrefl _)
    · intro hc c e
      obtain ⟨h0, rfl⟩ := List.getElem?_eq_some_iff.1 e
      by_contra hcon
      have h2 := (cutsAt_lt_iff hU h h0 hk).1 (not_le.1 hcon)
      have := hc h0
      omega

theorem bin_row_get {x splits : List α} (hs : splits.Pairwise (· ≤ ·)) (h : splits.length < 2 ^ 64)
    {j : Nat} (hj : j < x.length) (b : Nat) :
    (bin_row x splits)[j]? = some b ↔ InBin splits x[j] b := by
  rw [bin_row_eq x splits h, List.getElem?_map, List.getElem?_eq_getElem hj, Option.map_some,
    Option.some.injEq, searchsorted_iff hs]

/-- number of distinct values in a bin -/
theorem cutsAt_count {U cuts : List α} {i : Nat → Nat} (hU : U.Pairwise (· < ·)) (h : CutsAt U cuts i)
    (hl : cuts.length < 2 ^ 64) (hUne : 0 < U.length) {b : Nat} (hb : b ≤ cuts.length) :
    (((bin_row U cuts).count b : Nat) : Int) =
      (if b = cuts.length then (U.length : Int) - 1 else i b) - (if b = 0 then -1 else (i (b - 1) : Int)) := by
  have hs := (cutsAt_sorted hU h).imp (S := (· ≤ ·)) le_of_lt
  have hlen : (bin_row U cuts).length = U.length := by rw [bin_row_eq _ _ hl, List.length_map]
  have hbound := h.bound
  have hmono := h.mono
  rw [count_interval (bin_row U cuts) b (if b = 0 then 0 else i (b - 1) + 1)
    (if b = cuts.length then U.length else i b + 1)]
  · have h1 := hbound (b - 1)
    have h2 := hbound b
    have h3 := hmono (b - 1) b
    split_ifs <;> omega
  · have h1 := hbound (b - 1)
    have h2 := hbound b
    have h3 := hmono (b - 1) b
    split_ifs <;> omega
  · have h2 := hbound b
    rw [hlen]
    split_ifs <;> omega
  · intro k hk
    have hk' : k < U.length := by omega
    have := bin_row_get (x := U) hs hl hk' b
    rw [List.getElem?_eq_getElem hk, Option.some.injEq, cutsAt_bin hU h hk'] at this
    rw [this]
    split_ifs <;> omega

end
end Bartz
