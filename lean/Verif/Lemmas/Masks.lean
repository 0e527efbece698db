import Verif.Lemmas.Tree
import Mathlib.Data.Finset.Card
import Mathlib.Data.Finset.Image
import Mathlib.Data.Finset.Max
import Mathlib.Data.List.GetD
import Mathlib.Order.Interval.Finset.Nat
/-! # Lemmas on the masks over nodes (`is_actual_leaf`, `is_leaves_parent`, `tree_depths`) -/

set_option autoImplicit false

namespace Bartz
open Jax Spec

variable {split : List Nat} {h i : Nat}

theorem getD_zipWith_and (a b : List Bool) (i : Nat) :
    (List.zipWith (· && ·) a b).getD i false = (a.getD i false && b.getD i false) := by
  simp only [List.getD_eq_getElem?_getD, List.getElem?_zipWith]
  cases a[i]? <;> cases b[i]? <;> simp

theorem getD_map_lt {α β : Type _} {f : α → β} {a : List α} {i : Nat} (hi : i < a.length) (d : α)
    (d' : β) : (a.map f).getD i d' = f (a.getD i d) := by
  simp [hi]

@[simp] theorem length_arange (n bits : Nat) : (arange n bits).length = n := by simp [arange]

theorem getD_arange {n bits i d : Nat} (hi : i < n) (hb : i < 2 ^ bits) :
    (arange n bits).getD i d = i := by
  simp [arange, hi, astype_of_lt hb]

theorem length_is_actual_leaf (split : List Nat) (b : Bool) :
    (is_actual_leaf split b).length = if b then 2 * split.length else split.length := by
  cases b <;> simp [is_actual_leaf]; omega

theorem size_fits {n i : Nat} (hi : i < n) (h64 : n ≤ 2 ^ 64) :
    i < 2 ^ minimal_unsigned_dtype ((n : Int) - 1) :=
  minimal_fits (by omega) (by omega)

/-- elementwise description of `is_actual_leaf`, for arbitrary content of the array -/
theorem is_actual_leaf_getD {b : Bool} (hs : split.length = 2 ^ h) (hh : 1 ≤ h) (h64 : h < 64)
    (hi : i < if b then 2 ^ (h + 1) else 2 ^ h) :
    (is_actual_leaf split b).getD i false =
      (at0 split i == 0 && (i == 1 || at0 split (i / 2) != 0)) := by
  have hp : 2 ≤ 2 ^ h := by
    calc 2 = 2 ^ 1 := rfl
      _ ≤ 2 ^ h := Nat.pow_le_pow_right (by omega) hh
  have hpow : (2 : Nat) ^ (h + 1) = 2 ^ h * 2 := pow_succ 2 h
  have h64' : (2 : Nat) ^ h * 2 ≤ 2 ^ 64 := by
    rw [← hpow]; exact Nat.pow_le_pow_right (by omega) (by omega)
  unfold is_actual_leaf
  simp only [getD_zipWith_and]
  have hi' : i < 2 ^ h * 2 := by cases b <;> simp at hi <;> omega
  -- leaf part
  have e1 : (if b = true then split.map (· == 0) ++ (split.map (· == 0)).map (fun _ => true)
      else split.map (· == 0)).getD i false = (at0 split i == 0) := by
    rcases Nat.lt_or_ge i (2 ^ h) with hlt | hge
    · have : (split.map (· == 0)).getD i false = (at0 split i == 0) :=
        getD_map_lt (by omega) 0 false
      cases b
      · simpa using this
      · rw [if_pos rfl, List.getD_append _ _ _ _ (by simp; omega)]; exact this
    · cases b
      · simp at hi; omega
      · rw [if_pos rfl, List.getD_append_right _ _ _ _ (by simp; omega), at0_of_le (by omega),
          List.getD_eq_getElem _ _ (by simp; omega)]
        simp
  rw [e1]
  congr 1
  -- parent part
  generalize hsz : (if b = true then split.length * 2 else split.length) = size
  have hsize : i < size := by cases b <;> simp_all
  have hsize64 : size ≤ 2 ^ 64 := by cases b <;> simp_all; omega
  rw [getD_setDrop]
  by_cases h1 : i = 1
  · subst h1; simp [hsize]
  · have : ¬ (1 = i) := fun e => h1 e.symm
    simp only [this, false_and, if_false]
    rw [getD_map_lt (d := 0) (by simpa using hsize), getD_map_lt (d := 0) (by simpa using hsize),
      getD_arange hsize (size_fits hsize hsize64)]
    have hsh : i >>> 1 = i / 2 := by simp [Nat.shiftRight_eq_div_pow]
    rw [hsh, gather_at0 (by omega)]
    simp [h1]

theorem is_actual_leaf_iff {b : Bool} (hv : ValidSplit h split) (hh : 1 ≤ h) (h64 : h < 64)
    (hi : i < if b then 2 ^ (h + 1) else 2 ^ h) :
    (is_actual_leaf split b).getD i false = true ↔ IsLeaf split i := by
  rw [is_actual_leaf_getD hv.length hh h64 hi]
  simp only [Bool.and_eq_true, beq_iff_eq, Bool.or_eq_true, bne_iff_ne]
  unfold IsLeaf
  rw [hv.isNode_iff]
  constructor
  · rintro ⟨h0, h1 | h1⟩
    · exact ⟨.inl h1, h0⟩
    · refine ⟨.inr ⟨?_, h1⟩, h0⟩
      by_contra hc
      have : i / 2 = 0 := by omega
      rw [this] at h1; exact h1 hv.zero
  · rintro ⟨h1 | h1, h0⟩
    · exact ⟨h0, .inl h1⟩
    · exact ⟨h0, .inr h1.2⟩

theorem length_is_leaves_parent (split : List Nat) :
    (is_leaves_parent split).length = split.length := by
  simp [is_leaves_parent]

theorem is_leaves_parent_getD (hs : split.length = 2 ^ h) (h64 : h < 64) (hi : i < 2 ^ h) :
    (is_leaves_parent split).getD i false =
      (at0 split i != 0 && at0 split (2 * i) == 0 && at0 split (2 * i + 1) == 0) := by
  have hpow : (2 : Nat) ^ (h + 1) = 2 ^ h * 2 := pow_succ 2 h
  have hb := traverse_bits_ok h64
  rw [← hs] at hb
  unfold is_leaves_parent
  generalize hbits : minimal_unsigned_dtype (2 * (split.length : Int) - 1) = bits
  rw [hbits] at hb
  simp only [getD_zipWith_and]
  have hi' : i < split.length := by omega
  rw [getD_map_lt (d := 0) hi', getD_map_lt (d := 0) (by simpa using hi'),
    getD_map_lt (d := 0) (by simpa using hi'), getD_map_lt (d := 0) (by simpa using hi'),
    getD_map_lt (d := 0) (by simpa using hi'), getD_arange hi' (by omega), getD_map_lt (d := 0) (by simpa using hi'), getD_arange hi' (by omega)]
  have hsh : i <<< 1 = 2 * i := by simp [Nat.shiftLeft_eq, mul_comm]
  rw [hsh, astype_of_lt (v := 2 * i) (by omega), astype_of_lt (v := 2 * i + 1) (by omega)]
  rfl

theorem is_leaves_parent_iff (hv : ValidSplit h split) (h64 : h < 64) (hi : i < 2 ^ h) :
    (is_leaves_parent split).getD i false = true ↔ IsLeafParent split i := by
  rw [is_leaves_parent_getD hv.length h64 hi]
  simp only [Bool.and_eq_true, beq_iff_eq, bne_iff_ne]
  unfold IsLeafParent IsLeaf
  rw [hv.isDecision_iff]
  constructor
  · rintro ⟨⟨h0, h1⟩, h2⟩
    have hn := hv.isNode_of_ne h0
    exact ⟨h0, ⟨.left hn h0, h1⟩, ⟨.right hn h0, h2⟩⟩
  · rintro ⟨h0, ⟨_, h1⟩, ⟨_, h2⟩⟩
    exact ⟨⟨h0, h1⟩, h2⟩

/-- `count_nonzero` counts the indices where the mask is true -/
theorem countNonzero_eq_card (m : List Bool) :
    countNonzero m = ((Finset.range m.length).filter fun i => m.getD i false = true).card := by
  unfold countNonzero
  induction m with
  | nil => simp
  | cons b m ih =>
    have hset : ((Finset.range (m.length + 1)).filter
        fun i => (b :: m).getD i false = true) =
        (if b = true then {0} else ∅) ∪
          (((Finset.range m.length).filter fun i => m.getD i false = true).image (· + 1)) := by
      ext i
      cases i with
      | zero => cases b <;> simp
      | succ i => cases b <;> simp
    rw [List.length_cons, hset, Finset.card_union_of_disjoint, Finset.card_image_of_injective,
      ← ih, List.count_cons]
    · cases b <;> simp [add_comm]
    · intro a c; simp
    · cases b <;> simp

theorem countNonzero_pos_iff (m : List Bool) :
    0 < countNonzero m ↔ ∃ i < m.length, m.getD i false = true := by
  rw [countNonzero_eq_card, Finset.card_pos]
  constructor
  · rintro ⟨i, hi⟩
    rw [Finset.mem_filter, Finset.mem_range] at hi
    exact ⟨i, hi.1, hi.2⟩
  · rintro ⟨i, h1, h2⟩
    exact ⟨i, by rw [Finset.mem_filter, Finset.mem_range]; exact ⟨h1, h2⟩⟩

/-- in a non-root tree there is a decision node with two leaf children -/
theorem exists_leafParent (hv : ValidSplit h split) (h1 : at0 split 1 ≠ 0) :
    ∃ i < 2 ^ h, IsLeafParent split i := by
  classical
  have hlen := hv.length
  -- the largest decision node
  let S := (Finset.range (2 ^ h)).filter fun i => at0 split i ≠ 0
  have hne : S.Nonempty := ⟨1, by
    have := lt_of_at0_ne h1
    rw [Finset.mem_filter, Finset.mem_range]; exact ⟨by omega, h1⟩⟩
  obtain ⟨i, hi, hmax⟩ := S.exists_max_image id hne
  rw [Finset.mem_filter, Finset.mem_range] at hi
  have hpos : 1 ≤ i := (hv.isNode_of_ne hi.2).pos
  have hn := hv.isNode_of_ne hi.2
  have key : ∀ j, i < j → at0 split j = 0 := by
    intro j hj
    by_contra hc
    have hjl := lt_of_at0_ne hc
    have := hmax j (by rw [Finset.mem_filter, Finset.mem_range]; exact ⟨by omega, hc⟩)
    simp at this; omega
  exact ⟨i, hi.1, ⟨hn, hi.2⟩, ⟨.left hn hi.2, key _ (by omega)⟩, ⟨.right hn hi.2, key _ (by omega)⟩⟩

/-! ### depths -/

theorem length_tree_depths_loop (fuel i : Nat) (d : Int) :
    (tree_depths_loop fuel i d).length = fuel := by
  induction fuel generalizing i d with
  | zero => rfl
  | succ f ih => simp [tree_depths_loop, ih]

theorem tree_depths_loop_getElem (fuel : Nat) : ∀ (i D k : Nat), 1 ≤ i → i ≤ 2 ^ D → 2 ^ D < 2 * i →
    ∀ hk : k < (tree_depths_loop fuel i D).length,
    (tree_depths_loop fuel i D)[k] = (Nat.log2 (i + k) : Int) := by
  induction fuel with
  | zero => intro i D k _ _ _ hk; simp [tree_depths_loop] at hk
  | succ f ih =>
    intro i D k h1 h2 h3 hk
    by_cases he : i = 2 ^ D
    · have hc : ((i : Int) = 2 ^ (Int.toNat (D : Int))) := by simp [he]
      have el : tree_depths_loop (f + 1) i D = (D : Int) :: tree_depths_loop f (i + 1) (D + 1 : Nat)
          := by
        simp only [tree_depths_loop, if_pos hc]; simp
      simp only [el]
      cases k with
      | zero => simp [he, Nat.log2_two_pow]
      | succ k =>
        simp only [List.getElem_cons_succ]
        rw [ih (i + 1) (D + 1) k (by omega) (by rw [pow_succ]; omega) (by rw [pow_succ]; omega)]
        congr 2; omega
    · have hc : ¬ ((i : Int) = 2 ^ (Int.toNat (D : Int))) := by
        intro hcon; apply he; simp at hcon; exact_mod_cast hcon
      have hD : 1 ≤ D := by
        by_contra hcon
        have : D = 0 := by omega
        subst this; simp at h2 he; omega
      have el : tree_depths_loop (f + 1) i D = ((D : Int) - 1) :: tree_depths_loop f (i + 1) D
          := by
        simp only [tree_depths_loop, if_neg hc]
      simp only [el]
      cases k with
      | zero =>
        have : Nat.log2 i = D - 1 := by
          rw [Nat.log2_eq_iff (by omega)]
          obtain ⟨D', rfl⟩ : ∃ D', D = D' + 1 := ⟨D - 1, by omega⟩
          simp only [Nat.add_sub_cancel]
          rw [pow_succ] at h3 ⊢
          rw [pow_succ] at h2 he
          omega
        simp [this]; omega
      | succ k =>
        simp only [List.getElem_cons_succ]
        rw [ih (i + 1) D k (by omega) (by omega) (by omega)]
        congr 2; omega

theorem length_tree_depths (n : Nat) : (tree_depths n).length = n := by
  simp [tree_depths, length_tree_depths_loop]

theorem tree_depths_getD {n i : Nat} (hi : i < n) : (tree_depths n).getD i 0 = Nat.log2 i := by
  have hlen := length_tree_depths n
  rw [List.getD_eq_getElem _ _ (by omega)]
  unfold tree_depths
  simp only [List.getElem_map]
  cases i with
  | zero => simp
  | succ i =>
    obtain ⟨m, rfl⟩ : ∃ m, n = m + 1 := ⟨n - 1, by omega⟩
    have el : tree_depths_loop (m + 1) 0 0 = -1 :: tree_depths_loop m 1 (0 : Nat) := by
      simp [tree_depths_loop]
    simp only [el, List.set_cons_zero, List.getElem_cons_succ]
    rw [tree_depths_loop_getElem m 1 0 i (by omega) (by simp) (by simp)]
    simp [add_comm]

end Bartz
