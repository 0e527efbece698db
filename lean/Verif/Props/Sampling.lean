import Verif.Lemmas.Categorical
import Verif.Spec.Real
import Mathlib.MeasureTheory.Measure.Lebesgue.Basic
/-!
# Properties C24–C26: sampling helpers of `mcmcstep.py`

"The variate is uniform over the set S" is expressed as: the code asks for one uniform variate in a
given range, and maps that range one to one onto `S` (for discrete variates), or maps onto each
element a subset of the range of the required length (for continuous variates).
-/

set_option autoImplicit false

namespace Bartz
open Jax Spec

/-! ### C24 -/

/-- C24. `randint_masked` asks for an integer in `[0, number of marked indices)` and maps it one to
one onto the marked indices. -/
theorem C24_randint_masked {F : Type} [Inhabited F] (mask : List Bool) :
    (∀ draw : Draws F, randint_masked draw mask =
      randint_masked (constRandint (F := F) (draw.randint 0 (mask.count true))) mask) ∧
    Set.BijOn (fun u => randint_masked (constRandint (F := F) u) mask)
      {u | u < mask.count true} {i | mask.getD i false = true} := by
  refine ⟨fun draw => randint_masked_bound draw mask, ?_, ?_, ?_⟩
  · -- maps to
    intro u hu
    simp only [Set.mem_ofPred_eq] at hu ⊢
    have hlt : randint_masked (constRandint (F := F) u) mask < mask.length := by
      have h0 : 0 < mask.length := by
        by_contra hc
        have : mask = [] := List.eq_nil_of_length_eq_zero (by omega)
        simp [this] at hu
      have h : randint_masked (constRandint (F := F) u) mask <
          (cumsum (mask.map Bool.toNat)).length := by
        unfold randint_masked
        have hl : (cumsum (mask.map Bool.toNat)).length = mask.length := by rw [length_cumsum, List.length_map]
        refine searchsortedRight_lt_of_last _ _ (by omega) ?_
        rw [cumsum_mask_getElem mask _ (by omega), List.take_of_length_le (by omega)]
        have hu' : ¬ mask.count true ≤ u := by omega
        exact decide_eq_false hu'
      rw [length_cumsum] at h
      simpa using h
    have := ((randint_masked_eq_iff (F := F) mask u _ hlt).1 rfl).1
    simpa [hlt] using this
  · -- injective
    intro u hu v hv e
    simp only [Set.mem_ofPred_eq] at hu hv e
    have hlt : ∀ w, w < mask.count true →
        randint_masked (constRandint (F := F) w) mask < mask.length := by
      intro w hw
      by_contra hc
      have h0 : 0 < mask.length := by
        by_contra hc
        have : mask = [] := List.eq_nil_of_length_eq_zero (by omega)
        simp [this] at hw
      have h : randint_masked (constRandint (F := F) w) mask <
          (cumsum (mask.map Bool.toNat)).length := by
        unfold randint_masked
        have hl : (cumsum (mask.map Bool.toNat)).length = mask.length := by rw [length_cumsum, List.length_map]
        refine searchsortedRight_lt_of_last _ _ (by omega) ?_
        rw [cumsum_mask_getElem mask _ (by omega), List.take_of_length_le (by omega)]
        have hw' : ¬ mask.count true ≤ w := by omega
        exact decide_eq_false hw'
      rw [length_cumsum] at h
      simp at h; omega
    have h1 := ((randint_masked_eq_iff (F := F) mask u _ (hlt u hu)).1 rfl).2
    have h2 := ((randint_masked_eq_iff (F := F) mask v _ (hlt v hv)).1 rfl).2
    rw [← h1, ← h2, e]
  · -- surjective
    intro i hi
    simp only [Set.mem_ofPred_eq] at hi
    have hlt : i < mask.length := by
      by_contra hc
      rw [List.getD_eq_default _ _ (by omega)] at hi; simp at hi
    have hm : mask[i] = true := by simpa [hlt] using hi
    refine ⟨(mask.take i).count true, ?_, (randint_masked_eq_iff mask _ i hlt).2 ⟨hm, rfl⟩⟩
    simp only [Set.mem_ofPred_eq]
    have h1 := take_succ_count mask i hlt
    have h2 : (mask.take (i + 1)).count true ≤ mask.count true :=
      (List.take_sublist _ _).count_le _
    rw [hm] at h1
    simp at h1
    omega

/-- C24, empty mask: the length is returned. -/
theorem C24_randint_masked_empty {F : Type} [Inhabited F] (mask : List Bool) (draw : Draws F)
    (h : ∀ b ∈ mask, b = false) : randint_masked draw mask = mask.length := by
  rw [randint_masked_bound]
  unfold randint_masked
  rw [searchsortedRight_eq_length]
  · rw [length_cumsum]; simp
  · intro x hx
    obtain ⟨i, hi, rfl⟩ := List.getElem_of_mem hx
    rw [length_cumsum, List.length_map] at hi
    rw [cumsum_mask_getElem mask i hi, List.count_eq_zero.2]
    · simp
    · intro hc
      have := h true (List.mem_of_mem_take hc)
      simp at this

example : List.map (fun u => randint_masked (constRandint (F := Nat) u)
    [false, true, false, true, true, false]) [0, 1, 2] = [1, 3, 4] := by decide

/-! ### C25 -/

/-- C25. `randint_exclude` asks for an integer in `[0, number of allowed values)` and maps it one to
one onto the allowed values. -/
theorem C25_randint_exclude {F : Type} [Inhabited F] (sup : Nat) (exclude : List Nat) :
    (∀ draw : Draws F, randint_exclude draw sup exclude =
      randint_exclude (constRandint (F := F)
        (draw.randint 0 ((Finset.range sup).filter (· ∉ exclude)).card)) sup exclude) ∧
    Set.BijOn (fun u => randint_exclude (constRandint (F := F) u) sup exclude)
      {u | u < ((Finset.range sup).filter (· ∉ exclude)).card}
      {v | v < sup ∧ v ∉ exclude} := by
  have hcard : ((Finset.range sup).filter (· ∉ exclude)).card =
      sup - ((Finset.range sup).filter (· ∈ exclude)).card := by
    have := Finset.card_filter_add_card_filter_not (s := Finset.range sup) (· ∈ exclude)
    rw [Finset.card_range] at this
    omega
  have heval : ∀ u, randint_exclude (constRandint (F := F) u) sup exclude =
      skipFold (Jax.unique exclude exclude.length sup) u := by
    intro u; rw [randint_exclude_bound]; rfl
  have hin : ∀ u, u < ((Finset.range sup).filter (· ∉ exclude)).card →
      randint_exclude (constRandint (F := F) u) sup exclude = skipFold (sortedUnique exclude) u ∧
      skipFold (sortedUnique exclude) u < sup := by
    intro u hu
    rw [hcard] at hu
    have h1 := skipFold_lt exclude sup u hu
    exact ⟨by rw [heval, skipFold_unique_lt _ _ _ h1], h1⟩
  have hmaps : Set.MapsTo (fun u => randint_exclude (constRandint (F := F) u) sup exclude)
      {u | u < ((Finset.range sup).filter (· ∉ exclude)).card} {v | v < sup ∧ v ∉ exclude} := by
    intro u hu
    obtain ⟨e, hlt⟩ := hin u hu
    simp only [Set.mem_ofPred_eq]
    rw [e]
    refine ⟨hlt, fun hc => ?_⟩
    exact (skipFold_spec (sortedUnique_sorted exclude) u).1 (mem_sortedUnique.2 hc)
  have hinj : Set.InjOn (fun u => randint_exclude (constRandint (F := F) u) sup exclude)
      {u | u < ((Finset.range sup).filter (· ∉ exclude)).card} := by
    intro u hu v hv e
    simp only at e
    rw [(hin u hu).1, (hin v hv).1] at e
    have h1 := (skipFold_spec (sortedUnique_sorted exclude) u).2
    have h2 := (skipFold_spec (sortedUnique_sorted exclude) v).2
    rw [e] at h1
    omega
  refine ⟨fun draw => ?_, hmaps, hinj, ?_⟩
  · rw [heval, randint_exclude_bound, hcard]
  · intro v hv
    simp only [Set.mem_ofPred_eq] at hv
    have := Finset.surj_on_of_inj_on_of_card_le
      (s := Finset.range ((Finset.range sup).filter (· ∉ exclude)).card)
      (t := (Finset.range sup).filter (· ∉ exclude))
      (fun u _ => randint_exclude (constRandint (F := F) u) sup exclude)
      (by
        intro u hu
        have := hmaps (x := u) (by simpa using hu)
        simpa using this)
      (by
        intro u w hu hw e
        exact hinj (by simpa using hu) (by simpa using hw) e)
      (by simp) v (by simpa using hv)
    obtain ⟨u, hu, e⟩ := this
    exact ⟨u, by simpa using hu, e.symm⟩

/-- C25, full statement of the last part of the documentation: "If all values in the range are
excluded, return `sup`". It is **false**, see `C25_not_sup`. -/
def C25_sup_statement : Prop :=
  ∀ (sup : Nat) (exclude : List Nat) (draw : Draws Nat),
    (∀ lo hi, hi ≤ lo → draw.randint lo hi = lo) →
    (∀ v, v < sup → v ∈ exclude) → randint_exclude draw sup exclude = sup

/-- A generator that always returns the lower bound. -/
def lowRandint {F : Type} [Inhabited F] : Draws F where
  uniform2 _ _ := default
  uniformTo _ := default
  randint lo _ := lo
  normal _ _ := default
  gamma _ := default

/-- With `sup = 1` and `exclude = [0, 0]` the code returns 2 instead of 1: the padding of the array
of unique values is itself skipped. -/
theorem C25_not_sup : ¬ C25_sup_statement := by
  intro h
  have := h 1 [0, 0] lowRandint (by intro lo hi _; rfl) (by simp)
  revert this
  decide

/-- C25, what holds if all the values are excluded (instead of `C25_sup_statement`): the result is
at least `sup` (so it is recognizable as invalid) and at most the length of the array `exclude`, thus
it is `sup` if `exclude` lists each value once. -/
theorem C25_all_excluded_partial {F : Type} (sup : Nat) (exclude : List Nat)
    (draw : Draws F) (hd : ∀ lo hi, hi ≤ lo → draw.randint lo hi = lo)
    (hall : ∀ v, v < sup → v ∈ exclude) :
    sup ≤ randint_exclude draw sup exclude ∧
    randint_exclude draw sup exclude ≤ exclude.length ∧
    (exclude.length = sup → randint_exclude draw sup exclude = sup) := by
  have h0 : (Finset.range sup).filter (· ∈ exclude) = Finset.range sup :=
    Finset.filter_true_of_mem fun v hv => hall v (by simpa using hv)
  have e : randint_exclude draw sup exclude =
      skipFold (Jax.unique exclude exclude.length sup) 0 := by
    rw [randint_exclude_bound, h0, Finset.card_range, Nat.sub_self, hd 0 0 (le_refl 0)]
  have hlen : (Jax.unique exclude exclude.length sup).length = exclude.length := by
    rw [unique_eq]
    have := length_sortedUnique_le exclude
    simp; omega
  have h1 : sup ≤ randint_exclude draw sup exclude := by
    rw [e, unique_eq, skipFold_append]
    refine le_trans ?_ (le_skipFold _ _)
    by_contra hc
    exact (skipFold_spec (sortedUnique_sorted exclude) 0).1
      (mem_sortedUnique.2 (hall _ (by omega)))
  have h2 : randint_exclude draw sup exclude ≤ exclude.length := by
    rw [e]
    have := skipFold_le (Jax.unique exclude exclude.length sup) 0
    omega
  exact ⟨h1, h2, fun _ => by omega⟩

example : List.map (fun u => randint_exclude (constRandint (F := Nat) u) 6 [4, 1, 9, 1]) [0, 1, 2, 3]
    = [0, 2, 3, 5] := by decide

/-! ### C26 -/

/-- A generator that returns the given number for any upper bound. -/
def constUniform {F : Type} [Inhabited F] (u : F) : Draws F where
  uniform2 _ _ := default
  uniformTo _ := u
  randint _ _ := default
  normal _ _ := default
  gamma _ := default

theorem cumsum_real_getElem (w : List ℝ) (i : Nat) (h : i < w.length) :
    (cumsum w)[i]'(by rw [length_cumsum]; exact h) = (w.take (i + 1)).sum := by
  induction i with
  | zero =>
    rw [cumsum_getElem_zero _ h]
    cases w with
    | nil => simp at h
    | cons b m => simp
  | succ i ih =>
    rw [cumsum_getElem_succ _ i h, ih (by omega), List.sum_take_succ w (i + 1) h]

theorem last_cumsum_real (w : List ℝ) (h : w ≠ []) : last (cumsum w) = w.sum := by
  have hlen : 0 < w.length := List.length_pos_of_ne_nil h
  rw [last_eq _ (by rw [length_cumsum]; exact hlen)]
  have : (cumsum w).length - 1 = w.length - 1 := by rw [length_cumsum]
  simp only [this]
  rw [cumsum_real_getElem w _ (by omega), List.take_of_length_le (by omega)]

theorem take_sum_mono (w : List ℝ) (hw : ∀ x ∈ w, 0 ≤ x) {i j : Nat} (hij : i ≤ j) :
    (w.take i).sum ≤ (w.take j).sum := by
  obtain ⟨k, rfl⟩ : ∃ k, j = i + k := ⟨j - i, by omega⟩
  rw [List.take_add, List.sum_append]
  have : 0 ≤ ((w.drop i).take k).sum :=
    List.sum_nonneg fun x hx => hw x (List.mem_of_mem_drop (List.mem_of_mem_take hx))
  linarith

theorem sorted_cumsum_real (w : List ℝ) (hw : ∀ x ∈ w, 0 ≤ x) (u : ℝ) :
    Sorted (fun x => FltFun.leb x u) (cumsum w) := by
  intro i j hij hj
  rw [length_cumsum] at hj
  simp only [Real.leb_iff]
  rw [cumsum_real_getElem w i (by omega), cumsum_real_getElem w j hj]
  exact le_trans (take_sum_mono w hw (by omega))

/-- C26. `categorical` asks for a uniform number in `[0, total weight)`, and the numbers mapped to
index `i` form an interval with length the weight of `i`, so that zero weight indices are never
returned; the second output is the total weight. -/
theorem C26_categorical (w : List ℝ) (hne : w ≠ []) (hw : ∀ x ∈ w, 0 ≤ x) :
    (∀ draw : Draws ℝ, categorical draw w = categorical (constUniform (draw.uniformTo w.sum)) w ∧
      (categorical draw w).2 = w.sum) ∧
    ∀ i, (hi : i < w.length) →
      {u | 0 ≤ u ∧ u < w.sum ∧ (categorical (constUniform u) w).1 = i} =
        Set.Ico (w.take i).sum (w.take (i + 1)).sum ∧
      MeasureTheory.volume {u | 0 ≤ u ∧ u < w.sum ∧ (categorical (constUniform u) w).1 = i} =
        ENNReal.ofReal w[i] := by
  refine ⟨fun draw => ?_, fun i hi => ?_⟩
  · unfold categorical
    simp only [Real.fltFun_cumsum, last_cumsum_real w hne]
    exact ⟨rfl, trivial⟩
  · have hset : {u | 0 ≤ u ∧ u < w.sum ∧ (categorical (constUniform u) w).1 = i} =
        Set.Ico (w.take i).sum (w.take (i + 1)).sum := by
      ext u
      simp only [Set.mem_ofPred_eq, Set.mem_Ico]
      unfold categorical
      dsimp only
      rw [Real.fltFun_cumsum, searchsortedRight_eq_iff _ _ (sorted_cumsum_real w hw _) _
        (by rw [length_cumsum]; exact hi), cumsum_real_getElem w i hi]
      show 0 ≤ u ∧ u < w.sum ∧ (∀ k, (hk : k < i) → FltFun.leb _ u = true) ∧
        FltFun.leb _ u = false ↔ _
      rw [Real.leb_iff_false]
      constructor
      · rintro ⟨h0, _, h1, h2⟩
        refine ⟨?_, h2⟩
        cases i with
        | zero => simpa using h0
        | succ i =>
          have := h1 i (by omega)
          rw [cumsum_real_getElem w i (by omega), Real.leb_iff] at this
          exact this
      · rintro ⟨h1, h2⟩
        have h3 := take_sum_mono w hw (i := 0) (j := i) (by omega)
        have h4 := take_sum_mono w hw (i := i + 1) (j := w.length) (by omega)
        rw [List.take_of_length_le (le_refl _)] at h4
        simp at h3
        refine ⟨by linarith, by linarith, ?_, h2⟩
        intro k hk
        rw [cumsum_real_getElem w k (by omega), Real.leb_iff]
        have := take_sum_mono w hw (i := k + 1) (j := i) (by omega)
        linarith
    refine ⟨hset, ?_⟩
    rw [hset, Real.volume_Ico, List.sum_take_succ w i hi]
    congr 1
    ring

/-- C26, all weights zero: the length is returned. -/
theorem C26_categorical_zero (w : List ℝ) (draw : Draws ℝ) (h0 : 0 ≤ draw.uniformTo 0)
    (hw : ∀ x ∈ w, x = 0) : (categorical draw w).1 = w.length := by
  have hcum : ∀ x ∈ cumsum w, x = 0 := by
    intro x hx
    obtain ⟨i, hi, rfl⟩ := List.getElem_of_mem hx
    rw [length_cumsum] at hi
    rw [cumsum_real_getElem w i hi]
    exact List.sum_eq_zero fun y hy => hw y (List.mem_of_mem_take hy)
  unfold categorical
  dsimp only
  rw [Real.fltFun_cumsum, searchsortedRight_eq_length, length_cumsum]
  intro x hx
  rw [hcum x hx, Real.leb_iff]
  have : last (cumsum w) = 0 := by
    cases hc : cumsum w with
    | nil => rfl
    | cons a l =>
      have hlen : 0 < (cumsum w).length := by simp [hc]
      rw [← hc, last_eq _ hlen]
      exact hcum _ (List.getElem_mem _)
  rw [this]; exact h0

-- weights 1, 0, 2: the number 1.5 is mapped to index 2
example : (categorical (constUniform (3 / 2 : ℝ)) [1, 0, 2]).1 = 2 := by
  have := (C26_categorical [1, 0, 2] (by simp) (by simp)).2 2 (by simp)
  have h : (3 / 2 : ℝ) ∈ Set.Ico (([1, 0, 2] : List ℝ).take 2).sum (([1, 0, 2] : List ℝ).take 3).sum
    := by simp; norm_num
  rw [← this.1] at h
  exact h.2.2

end Bartz
