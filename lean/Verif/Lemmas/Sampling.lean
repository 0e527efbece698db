import Verif.Model.Mcmcstep
import Verif.Lemmas.Masks
import Verif.Lemmas.Searchsorted
import Mathlib.Data.Finset.Card
import Mathlib.Data.List.TakeWhile
import Mathlib.Data.Set.Function
/-! # Lemmas on the sampling helpers -/

set_option autoImplicit false

namespace Jax

theorem length_cumsumFrom {α : Type _} [Add α] (acc : α) (l : List α) :
    (cumsumFrom acc l).length = l.length := by
  induction l generalizing acc with
  | nil => rfl
  | cons x xs ih => simp [cumsumFrom, ih]

theorem length_cumsum {α : Type _} [Add α] (l : List α) : (cumsum l).length = l.length := by
  cases l with
  | nil => rfl
  | cons x xs => simp [cumsum, length_cumsumFrom]

theorem cumsumFrom_getElem_succ {α : Type _} [Add α] (acc : α) (l : List α) (i : Nat)
    (h : i + 1 < l.length) :
    (cumsumFrom acc l)[i + 1]'(by rw [length_cumsumFrom]; exact h) =
      (cumsumFrom acc l)[i]'(by rw [length_cumsumFrom]; omega) + l[i + 1] := by
  induction l generalizing acc i with
  | nil => simp at h
  | cons x xs ih =>
    cases i with
    | zero =>
      cases xs with
      | nil => simp at h
      | cons y ys => simp [cumsumFrom]
    | succ i =>
      simp only [cumsumFrom, List.getElem_cons_succ]
      exact ih (acc + x) i (by simpa using h)

theorem cumsum_getElem_zero {α : Type _} [Add α] (l : List α) (h : 0 < l.length) :
    (cumsum l)[0]'(by rw [length_cumsum]; exact h) = l[0] := by
  cases l with
  | nil => simp at h
  | cons x xs => simp [cumsum]

theorem cumsum_getElem_succ {α : Type _} [Add α] (l : List α) (i : Nat) (h : i + 1 < l.length) :
    (cumsum l)[i + 1]'(by rw [length_cumsum]; exact h) =
      (cumsum l)[i]'(by rw [length_cumsum]; omega) + l[i + 1] := by
  cases l with
  | nil => simp at h
  | cons x xs =>
    cases i with
    | zero =>
      cases xs with
      | nil => simp at h
      | cons y ys => simp [cumsum, cumsumFrom]
    | succ i =>
      simp only [cumsum, List.getElem_cons_succ]
      exact cumsumFrom_getElem_succ x xs i (by simpa using h)

theorem last_eq {α : Type _} [Inhabited α] (a : List α) (h : 0 < a.length) :
    last a = a[a.length - 1] := by
  unfold last
  cases a with
  | nil => simp at h
  | cons x xs => simp [List.getLast?_eq_getElem?]

/-- cumulative sum of a 0/1 vector: counts -/
theorem cumsum_mask_getElem (mask : List Bool) (i : Nat) (h : i < mask.length) :
    (cumsum (mask.map Bool.toNat))[i]'(by rw [length_cumsum]; simpa using h) =
      (mask.take (i + 1)).count true := by
  induction i with
  | zero =>
    rw [cumsum_getElem_zero _ (by simpa using h)]
    cases mask with
    | nil => simp at h
    | cons b m => cases b <;> simp
  | succ i ih =>
    rw [cumsum_getElem_succ _ i (by simpa using h), ih (by omega)]
    rw [List.take_add_one (i := i + 1), List.count_append, List.getElem?_eq_getElem h]
    simp only [List.getElem_map, Option.toList]
    cases mask[i + 1] <;> simp

end Jax

namespace Bartz
open Jax

/-- A generator that returns the given integer, whatever the bounds. -/
def constRandint {F : Type} [Inhabited F] (u : Nat) : Draws F where
  uniform2 _ _ := default
  uniformTo _ := default
  randint _ _ := u
  normal _ _ := default
  gamma _ := default

section masked
variable {F : Type} [Inhabited F]

theorem randint_masked_bound (draw : Draws F) (mask : List Bool) :
    randint_masked draw mask =
      randint_masked (constRandint (F := F) (draw.randint 0 (countNonzero mask))) mask := by
  have : last (cumsum (mask.map Bool.toNat)) = countNonzero mask := by
    cases hm : mask with
    | nil => rfl
    | cons b m =>
      have hlen : 0 < (cumsum (mask.map Bool.toNat)).length := by
        rw [length_cumsum]; simp [hm]
      rw [← hm, last_eq _ hlen, cumsum_mask_getElem mask _ (by rw [length_cumsum]; simp [hm])]
      rw [List.take_of_length_le (by rw [length_cumsum]; simp; omega)]
      rfl
  unfold randint_masked
  simp only [this]
  rfl

theorem take_succ_count (mask : List Bool) (i : Nat) (h : i < mask.length) :
    (mask.take (i + 1)).count true = (mask.take i).count true + (mask[i]).toNat := by
  rw [List.take_add_one, List.count_append, List.getElem?_eq_getElem h]
  simp only [Option.toList]
  cases mask[i] <;> simp

theorem take_count_mono (mask : List Bool) {i j : Nat} (h : i ≤ j) :
    (mask.take i).count true ≤ (mask.take j).count true :=
  List.Sublist.count_le _ (List.take_sublist_take_left h)

theorem sorted_cumsum_mask (mask : List Bool) (u : Nat) :
    Sorted (fun x => decide (x ≤ u)) (cumsum (mask.map Bool.toNat)) := by
  intro i j hij hj
  have hj' : j < mask.length := by rw [length_cumsum] at hj; simpa using hj
  rw [cumsum_mask_getElem mask j hj', cumsum_mask_getElem mask i (by omega)]
  have := take_count_mono mask (i := i + 1) (j := j + 1) (by omega)
  simp only [decide_eq_true_eq]
  omega

/-- index `i` is returned iff it is marked and there are `u` marked indices before it -/
theorem randint_masked_eq_iff (mask : List Bool) (u i : Nat) (hi : i < mask.length) :
    randint_masked (constRandint (F := F) u) mask = i ↔
      mask[i] = true ∧ (mask.take i).count true = u := by
  unfold randint_masked
  have hi' : i < (cumsum (mask.map Bool.toNat)).length := by rw [length_cumsum]; simpa using hi
  rw [searchsortedRight_eq_iff _ _ (sorted_cumsum_mask mask _) _ hi', cumsum_mask_getElem mask i hi]
  show (∀ k, (hk : k < i) → decide (_ ≤ u) = true) ∧ decide (_ ≤ u) = false ↔ _
  rw [take_succ_count mask i hi]
  constructor
  · rintro ⟨h1, h2⟩
    simp only [decide_eq_false_iff_not, not_le] at h2
    have h3 : (mask.take i).count true ≤ u := by
      cases i with
      | zero => simp
      | succ i =>
        have := h1 i (by omega)
        rw [cumsum_mask_getElem mask i (by omega)] at this
        simpa using this
    cases hm : mask[i] with
    | true => rw [hm] at h2; simp at h2; exact ⟨rfl, by omega⟩
    | false => rw [hm] at h2; simp at h2; omega
  · rintro ⟨hm, hu⟩
    rw [hm]
    refine ⟨?_, by simp; omega⟩
    intro k hk
    rw [cumsum_mask_getElem mask k (by omega)]
    have := take_count_mono mask (i := k + 1) (j := i) (by omega)
    simp; omega

end masked

/-! ### `jnp.unique` -/

theorem mem_insertUnique {x y : Nat} {l : List Nat} : y ∈ insertUnique x l ↔ y = x ∨ y ∈ l := by
  induction l with
  | nil => simp [insertUnique]
  | cons a l ih =>
    simp only [insertUnique]
    split_ifs with h1 h2
    · simp
    · subst h2; simp
    · rw [List.mem_cons, ih, List.mem_cons]; tauto

theorem insertUnique_sorted {x : Nat} {l : List Nat} (h : l.Pairwise (· < ·)) :
    (insertUnique x l).Pairwise (· < ·) := by
  induction l with
  | nil => simp [insertUnique]
  | cons a l ih =>
    simp only [insertUnique]
    rw [List.pairwise_cons] at h
    split_ifs with h1 h2
    · rw [List.pairwise_cons]
      refine ⟨?_, List.pairwise_cons.2 h⟩
      intro b hb
      rw [List.mem_cons] at hb
      rcases hb with rfl | hb
      · exact h1
      · have := h.1 b hb; omega
    · exact List.pairwise_cons.2 h
    · rw [List.pairwise_cons]
      refine ⟨?_, ih h.2⟩
      intro b hb
      rw [mem_insertUnique] at hb
      rcases hb with rfl | hb
      · omega
      · exact h.1 b hb

theorem sortedUnique_sorted (l : List Nat) : (sortedUnique l).Pairwise (· < ·) := by
  unfold sortedUnique
  induction l with
  | nil => simp
  | cons a l ih => exact insertUnique_sorted ih

theorem mem_sortedUnique {x : Nat} {l : List Nat} : x ∈ sortedUnique l ↔ x ∈ l := by
  unfold sortedUnique
  induction l with
  | nil => simp
  | cons a l ih => rw [List.foldr_cons, mem_insertUnique, ih, List.mem_cons]

theorem length_insertUnique_le (x : Nat) (l : List Nat) :
    (insertUnique x l).length ≤ l.length + 1 := by
  induction l with
  | nil => simp [insertUnique]
  | cons a l ih =>
    simp only [insertUnique]
    split_ifs <;> simp; omega

theorem length_sortedUnique_le (l : List Nat) : (sortedUnique l).length ≤ l.length := by
  unfold sortedUnique
  induction l with
  | nil => simp
  | cons a l ih =>
    rw [List.foldr_cons, List.length_cons]
    have := length_insertUnique_le a (l.foldr insertUnique [])
    omega

/-- the fold in `randint_exclude` -/
def skipFold (l : List Nat) (u : Nat) : Nat := l.foldl (fun u i => if i ≤ u then u + 1 else u) u

theorem skipFold_nil (u : Nat) : skipFold [] u = u := rfl

theorem skipFold_cons (a : Nat) (l : List Nat) (u : Nat) :
    skipFold (a :: l) u = skipFold l (if a ≤ u then u + 1 else u) := rfl

theorem skipFold_append (l l' : List Nat) (u : Nat) :
    skipFold (l ++ l') u = skipFold l' (skipFold l u) := by simp [skipFold]

theorem skipFold_of_gt {l : List Nat} {u : Nat} (h : ∀ a ∈ l, u < a) : skipFold l u = u := by
  induction l with
  | nil => rfl
  | cons a l ih =>
    rw [skipFold_cons, if_neg (by have := h a (by simp); omega)]
    exact ih fun b hb => h b (by simp [hb])

theorem skipFold_le (l : List Nat) (u : Nat) : skipFold l u ≤ u + l.length := by
  induction l generalizing u with
  | nil => simp [skipFold_nil]
  | cons a l ih =>
    rw [skipFold_cons]
    have := ih (if a ≤ u then u + 1 else u)
    rw [List.length_cons]
    split_ifs at this ⊢ <;> omega

theorem le_skipFold (l : List Nat) (u : Nat) : u ≤ skipFold l u := by
  induction l generalizing u with
  | nil => simp [skipFold_nil]
  | cons a l ih =>
    rw [skipFold_cons]
    have := ih (if a ≤ u then u + 1 else u)
    split_ifs at this ⊢ <;> omega

/-- the fold skips the listed values -/
theorem skipFold_spec {l : List Nat} (hl : l.Pairwise (· < ·)) (u : Nat) :
    skipFold l u ∉ l ∧ skipFold l u = u + l.countP (· < skipFold l u) := by
  induction l generalizing u with
  | nil => simp [skipFold_nil]
  | cons a l ih =>
    rw [List.pairwise_cons] at hl
    rw [skipFold_cons]
    by_cases ha : a ≤ u
    · rw [if_pos ha]
      obtain ⟨h1, h2⟩ := ih hl.2 (u + 1)
      have h3 := le_skipFold l (u + 1)
      refine ⟨?_, ?_⟩
      · rw [List.mem_cons]
        rintro (h | h)
        · omega
        · exact h1 h
      · rw [List.countP_cons, if_pos (by simp; omega)]
        omega
    · rw [if_neg ha]
      have hgt : ∀ b ∈ l, u < b := fun b hb => by have := hl.1 b hb; omega
      rw [skipFold_of_gt hgt]
      refine ⟨?_, ?_⟩
      · rw [List.mem_cons]
        rintro (h | h)
        · omega
        · have := hgt u h; omega
      · rw [List.countP_eq_zero.2]
        · rfl
        · intro b hb
          rw [List.mem_cons] at hb
          rcases hb with rfl | hb
          · simp; omega
          · have := hgt b hb; simp; omega

theorem unique_eq (l : List Nat) (fill : Nat) :
    Jax.unique l l.length fill =
      sortedUnique l ++ List.replicate (l.length - (sortedUnique l).length) fill := by
  unfold Jax.unique
  dsimp only
  rw [List.take_of_length_le (length_sortedUnique_le l)]

section exclude
variable {F : Type}

/-- the number of distinct excluded values in range -/
theorem countP_unique (l : List Nat) (sup : Nat) :
    (Jax.unique l l.length sup).countP (fun i => decide (i < sup)) =
      ((Finset.range sup).filter (· ∈ l)).card := by
  rw [unique_eq, List.countP_append, List.countP_replicate]
  simp only [Nat.lt_irrefl, decide_false, Bool.false_eq_true, if_false, Nat.add_zero]
  rw [List.countP_eq_length_filter]
  have hnd : ((sortedUnique l).filter fun i => decide (i < sup)).Nodup :=
    ((sortedUnique_sorted l).imp (fun h => Nat.ne_of_lt h)).filter _
  rw [← List.toFinset_card_of_nodup hnd]
  congr 1
  ext i
  simp [mem_sortedUnique, and_comm]

/-- the fold over the whole padded array, in case the result is in range -/
theorem skipFold_unique_lt (l : List Nat) (sup u : Nat) (h : skipFold (sortedUnique l) u < sup) :
    skipFold (Jax.unique l l.length sup) u = skipFold (sortedUnique l) u := by
  rw [unique_eq, skipFold_append]
  apply skipFold_of_gt
  intro a ha
  rw [List.mem_replicate] at ha
  omega

theorem skipFold_lt (l : List Nat) (sup u : Nat)
    (hu : u < sup - ((Finset.range sup).filter (· ∈ l)).card) :
    skipFold (sortedUnique l) u < sup := by
  by_contra hc
  obtain ⟨_, h2⟩ := skipFold_spec (sortedUnique_sorted l) u
  -- the largest possible value before reaching `sup`
  have key : ∀ (L : List Nat) (_ : L.Pairwise (· < ·)) (w : Nat),
      w + L.countP (fun i => decide (i < sup)) < sup → skipFold L w < sup := by
    intro L
    induction L with
    | nil => intro _ w hw; simpa [skipFold_nil] using hw
    | cons a L ih =>
      intro hL w hw
      rw [List.pairwise_cons] at hL
      rw [skipFold_cons]
      by_cases ha : a ≤ w
      · rw [if_pos ha]
        apply ih hL.2
        rw [List.countP_cons] at hw
        rw [if_pos (by simp; omega)] at hw
        omega
      · rw [if_neg ha]
        apply ih hL.2
        rw [List.countP_cons] at hw
        omega
  apply hc
  apply key _ (sortedUnique_sorted l)
  have : (sortedUnique l).countP (fun i => decide (i < sup)) =
      ((Finset.range sup).filter (· ∈ l)).card := by
    rw [← countP_unique, unique_eq, List.countP_append, List.countP_replicate]
    simp
  omega

theorem randint_exclude_bound (draw : Draws F) (sup : Nat) (l : List Nat) :
    randint_exclude draw sup l = skipFold (Jax.unique l l.length sup)
      (draw.randint 0 (sup - ((Finset.range sup).filter (· ∈ l)).card)) := by
  unfold randint_exclude
  dsimp only
  rw [countP_unique]
  rfl

end exclude

end Bartz
