import Verif.Spec.Gbart
import Verif.Props.Prepcovars
/-! # The range of the binned predictors in `gbart`, without assumptions on the arithmetic -/

set_option autoImplicit false

namespace Bartz
open Jax Spec

section
variable {K F P : Type} [Field P] [LinearOrder P]

omit [Field P] [LinearOrder P] in
theorem mapM_get {α β : Type} {f : α → Option β} : ∀ {l : List α} {out : List β}, l.mapM f = some out →
    ∀ {i : Nat} (hi : i < l.length), ∃ y, f l[i] = some y ∧ out[i]? = some y
  | [], _, _, i, hi => absurd hi (by simp)
  | x :: l, out, h, i, hi => by
    rw [List.mapM_cons] at h
    simp only [Option.bind_eq_bind, Option.bind_eq_some_iff, Option.pure_def, Option.some.injEq] at h
    obtain ⟨y, hy, ys, hys, rfl⟩ := h
    cases i with
    | zero => exact ⟨y, hy, rfl⟩
    | succ i =>
      obtain ⟨z, h1, h2⟩ := mapM_get hys (i := i) (by simpa using hi)
      exact ⟨z, h1, h2⟩

omit [Field P] [LinearOrder P] in
theorem mapM_length {α β : Type} {f : α → Option β} : ∀ {l : List α} {out : List β}, l.mapM f = some out →
    out.length = l.length
  | [], out, h => by
    simp only [List.mapM_nil, Option.pure_def, Option.some.injEq] at h
    simp [← h]
  | x :: l, out, h => by
    rw [List.mapM_cons] at h
    simp only [Option.bind_eq_bind, Option.bind_eq_some_iff, Option.pure_def, Option.some.injEq] at h
    obtain ⟨y, hy, ys, hys, rfl⟩ := h
    simp [mapM_length hys]

theorem uniform_row_length {x : List P} {num_bins : Nat} {r : List P × Nat} (h : uniform_row x num_bins = some r) :
    r.1.length = num_bins - 1 ∧
      r.2 = astype (minimal_unsigned_dtype ((num_bins : Int) - 1)) (num_bins - 1) := by
  unfold uniform_row at h
  simp only [Option.bind_eq_bind, Option.bind_eq_some_iff, Option.pure_def, Option.some.injEq] at h
  obtain ⟨_, _, _, _, _, _, rfl⟩ := h
  constructor
  · simp
  · rfl

theorem bin_row_le {α : Type} [LinearOrder α] (x splits : List α) {j L : Nat} (hj : j < x.length)
    (h : splits.length ≤ L ∨ ∀ k, L ≤ k → ∀ c, splits[k]? = some c → x[j] ≤ c) :
    (bin_row x splits).getD j 0 ≤ L := by
  have hin := searchsorted_inBin splits x[j]
  have e : (bin_row x splits).getD j 0 ≤ searchsortedLeft (fun s => decide (s < x[j])) splits := by
    rw [List.getD_eq_getElem _ _ (by simpa [bin_row] using hj)]
    simp only [bin_row, List.getElem_map]
    exact Nat.mod_le _ _
  refine e.trans ?_
  generalize searchsortedLeft (fun s => decide (s < x[j])) splits = b at hin
  rcases h with h | h
  · exact hin.1.trans h
  · by_contra hb
    have h1 := hin.1
    have hk : b - 1 < splits.length := by omega
    have h2 := hin.2.1 _ (by omega) (List.getElem?_eq_getElem hk)
    exact absurd h2 (not_lt.2 (h (b - 1) (by omega) _ (List.getElem?_eq_getElem hk)))

omit [LinearOrder P] in
theorem float_midpoint_top (a : WithTop P) : float_midpoint a ⊤ = ⊤ := by
  cases a <;> rfl

/-- the cutpoints of a predictor: if there are more than `max_split`, the others are infinite -/
theorem quantilized_row_top (fl : ℚ → ℚ) (x : List (WithTop P)) (m : Nat) (hx : 1 ≤ x.length) (hm : m < 2 ^ 64) :
    (quantilized_row fl (float_dtype P) x m).1.length ≤ (quantilized_row fl (float_dtype P) x m).2 ∨
      ∀ k, (quantilized_row fl (float_dtype P) x m).2 ≤ k → ∀ c,
        (quantilized_row fl (float_dtype P) x m).1[k]? = some c → c = ⊤ := by
  obtain ⟨u, hu, e⟩ := unique_spec x x.length (⊤ : WithTop P)
  have hu' : IsUnique x u := hu.congr fun v => by
    rw [← sort_length x, List.take_length]; exact (sort_perm x).mem_iff
  have hpos := unique_pos hu' hx
  have hle := unique_le hu'
  have fits : ∀ v : Nat, v ≤ m → (wrap_int false (minimal_unsigned_dtype (m : Int)) (v : Int)).toNat = v := by
    intro v hv
    have h1 : v < 2 ^ minimal_unsigned_dtype (m : Int) := lt_of_le_of_lt hv (minimal_fits le_rfl hm)
    simp only [wrap_int, Bool.false_eq_true, if_false]
    have : ((v : Int) % 2 ^ minimal_unsigned_dtype (m : Int)) = v :=
      Int.emod_eq_of_lt (by omega) (by exact_mod_cast h1)
    rw [this, Int.toNat_natCast]
  unfold quantilized_row
  simp only [show (float_dtype P).huge = ⊤ from rfl, e]
  have hL : ((u.length : Int) - 1) = ((u.length - 1 : Nat) : Int) := by omega
  rw [hL]
  by_cases hc : m < u.length - 1
  · left
    rw [if_pos (by omega), List.length_map, indices_length, min_eq_right (by omega), fits m le_rfl]
  · right
    rw [if_neg (by omega), min_eq_left (by omega), fits _ (by omega)]
    intro k hk c hkc
    simp only [sliceTo, quantilized_midpoints, show (float_dtype P).integer = false from rfl,
      Bool.false_eq_true, if_false] at hkc
    rw [if_neg (by omega), List.getElem?_take] at hkc
    split_ifs at hkc with h1
    rw [List.getElem?_zipWith, padTo_of_le hle] at hkc
    rw [List.getElem?_drop] at hkc
    have h2 : (u ++ List.replicate (x.length - u.length) (⊤ : WithTop P))[1 + k]? = none ∨
        (u ++ List.replicate (x.length - u.length) (⊤ : WithTop P))[1 + k]? = some ⊤ := by
      rw [List.getElem?_append_right (by omega), List.getElem?_replicate]
      split_ifs <;> simp
    rcases h2 with h2 | h2
    · rw [h2] at hkc; simp at hkc
    · rw [h2] at hkc
      cases h3 : (u ++ List.replicate (x.length - u.length) (⊤ : WithTop P)).dropLast[k]? with
      | none => rw [h3] at hkc; simp at hkc
      | some w =>
        rw [h3] at hkc
        simp only [Option.some.injEq] at hkc
        rw [← hkc]
        exact float_midpoint_top w

/-- the binned predictors are not larger than the largest cutpoint -/
theorem determine_splits_bins (lib : Lib F P) {x : List (List F)} {n : Nat} {usequants : Bool} {numcut : Nat}
    {sp : Splits P} (hsp : determine_splits lib x n usequants numcut = some sp)
    (hrow : ∀ row ∈ x, row.length = n) (hc : numcut + 1 < 2 ^ 64) {v j : Nat}
    (hv : v < x.length) (hj : j < n) :
    ((gbart_bin_predictors lib x sp.splits).getD v []).getD j 0 ≤ at0 sp.max_split v := by
  have hr := hrow _ (List.getElem_mem hv)
  have hlen : v < (exact_matrix lib x).length := by simpa [exact_matrix] using hv
  have hrl : ((exact_matrix lib x)[v]).length = n := by simp [exact_matrix, hr]
  have key : ∀ (row : List (WithTop P)) (L : Nat), sp.splits[v]? = some row → sp.max_split[v]? = some L →
      (row.length ≤ L ∨ ∀ k, L ≤ k → ∀ c, row[k]? = some c → c = ⊤) →
      ((gbart_bin_predictors lib x sp.splits).getD v []).getD j 0 ≤ at0 sp.max_split v := by
    intro row L h1 h2 h3
    have e : (gbart_bin_predictors lib x sp.splits).getD v [] = bin_row (exact_matrix lib x)[v] row := by
      rw [List.getD_eq_getElem?_getD, gbart_bin_predictors, bin_predictors, List.getElem?_zipWith, h1,
        List.getElem?_eq_getElem hlen]
      rfl
    have e2 : at0 sp.max_split v = L := by
      unfold at0
      rw [List.getD_eq_getElem?_getD, h2]; rfl
    rw [e, e2]
    refine bin_row_le _ _ (by omega) (h3.imp id fun h k hk c hkc => ?_)
    rw [h k hk c hkc]
    exact le_top
  cases usequants with
  | true =>
    unfold determine_splits at hsp
    simp only [if_true, Option.some.injEq] at hsp
    subst hsp
    obtain ⟨g1, g2⟩ := quantilized_get lib.fl (float_dtype P) (exact_matrix lib x) n (numcut + 1) hlen
      (by omega)
    exact key _ _ g1 g2 (quantilized_row_top _ _ _ (by omega) (by omega))
  | false =>
    unfold determine_splits uniform_splits_from_matrix at hsp
    simp only [Bool.false_eq_true, if_false, Option.bind_eq_bind, Option.bind_eq_some_iff, Option.some.injEq,
      Option.map_eq_some_iff] at hsp
    obtain ⟨out, ⟨rows, h1, rfl⟩, rfl⟩ := hsp
    obtain ⟨r, hr1, hr2⟩ := mapM_get h1 (i := v) (by simpa using hv)
    obtain ⟨hr3, hr4⟩ := uniform_row_length hr1
    refine key (r.1.map fun v : P => ((v : P) : WithTop P)) r.2 (by simp [hr2]) (by simp [hr2]) (Or.inl ?_)
    rw [List.length_map, hr3, hr4]
    refine le_of_eq (Eq.symm (Nat.mod_eq_of_lt ?_))
    exact minimal_fits (by push_cast; omega) (by omega)

/-- the largest cutpoint is not the largest number represented by the type -/
theorem determine_splits_fits (lib : Lib F P) {x : List (List F)} {n : Nat} {usequants : Bool} {numcut : Nat}
    {sp : Splits P} (hsp : determine_splits lib x n usequants numcut = some sp)
    (hrow : ∀ row ∈ x, row.length = n) (hn : 0 < n) (hc : numcut + 1 < 2 ^ 64)
    (hb : ∀ b ∈ [8, 16, 32], (if usequants then min (numcut + 1) n - 1 else numcut) ≠ 2 ^ b - 1) :
    ∀ m ∈ sp.max_split, m + 1 < 2 ^ sp.bits := by
  have bound : ∀ k : Nat, k + 1 < 2 ^ 64 → (∀ b ∈ [8, 16, 32], k ≠ 2 ^ b - 1) →
      k + 1 < 2 ^ minimal_unsigned_dtype (k : Int) := by
    intro k hk hb
    have h8 := hb 8 (by simp)
    have h16 := hb 16 (by simp)
    have h32 := hb 32 (by simp)
    unfold minimal_unsigned_dtype
    norm_num at h8 h16 h32 hk ⊢
    split_ifs <;> norm_num <;> omega
  cases usequants with
  | true =>
    simp only [if_true] at hb
    have hk := bound _ (by omega) hb
    unfold determine_splits at hsp
    simp only [if_true, Option.some.injEq] at hsp
    subst hsp
    have e : (((min (numcut + 1) n : Nat) : Int) - 1) = ((min (numcut + 1) n - 1 : Nat) : Int) := by omega
    intro m hm
    simp only [quantilized_splits_from_matrix, e, List.unzip_snd, List.mem_map] at hm ⊢
    obtain ⟨r, ⟨row, hr, rfl⟩, rfl⟩ := hm
    have hrl : row.length = n := by
      obtain ⟨row', h1, rfl⟩ := List.mem_map.1 hr
      rw [List.length_map]; exact hrow _ h1
    refine lt_of_le_of_lt ?_ hk
    refine Nat.add_le_add_right ?_ 1
    obtain ⟨u, hu, eu⟩ := unique_spec row row.length (⊤ : WithTop P)
    have hu' : IsUnique row u := hu.congr fun v => by
      rw [← sort_length row, List.take_length]; exact (sort_perm row).mem_iff
    have hpos := unique_pos hu' (by omega)
    unfold quantilized_row
    simp only [show (float_dtype P).huge = ⊤ from rfl, eu]
    simp only [wrap_int, Bool.false_eq_true, if_false]
    have h0 : (0 : Int) ≤ min ((u.length : Int) - 1) ((min (numcut + 1) n - 1 : Nat) : Int) := by omega
    have h1 : min ((u.length : Int) - 1) ((min (numcut + 1) n - 1 : Nat) : Int) ≤
        ((min (numcut + 1) n - 1 : Nat) : Int) := min_le_right _ _
    generalize min ((u.length : Int) - 1) ((min (numcut + 1) n - 1 : Nat) : Int) = w at h0 h1
    have h2 : w % 2 ^ minimal_unsigned_dtype ((min (numcut + 1) n - 1 : Nat) : Int) ≤ w := by
      lift w to Nat using h0
      exact_mod_cast Nat.mod_le _ _
    omega
  | false =>
    simp only [Bool.false_eq_true, if_false] at hb
    have hk := bound _ hc hb
    unfold determine_splits uniform_splits_from_matrix at hsp
    simp only [Bool.false_eq_true, if_false, Option.bind_eq_bind, Option.bind_eq_some_iff, Option.some.injEq,
      Option.map_eq_some_iff] at hsp
    obtain ⟨out, ⟨rows, h1, rfl⟩, rfl⟩ := hsp
    intro m hm
    simp only [List.unzip_snd, List.mem_map] at hm
    obtain ⟨r, hr, rfl⟩ := hm
    obtain ⟨i, hi, rfl⟩ := List.getElem_of_mem hr
    have hil : i < (x.map fun row => row.map lib.exact).length := by
      rw [← mapM_length h1]; exact hi
    obtain ⟨r, hr1, hr2⟩ := mapM_get h1 hil
    rw [List.getElem?_eq_getElem hi, Option.some.injEq] at hr2
    rw [hr2, (uniform_row_length hr1).2]
    have e : (((numcut + 1 : Nat) : Int) - 1) = (numcut : Int) := by omega
    simp only [e]
    refine lt_of_le_of_lt (Nat.add_le_add_right (Nat.mod_le _ _) 1) ?_
    simpa using hk

end
end Bartz
