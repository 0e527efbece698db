import Verif.Model.Jax
import Mathlib.Data.List.TakeWhile
import Mathlib.Data.List.Forall2
import Mathlib.Tactic.Ring
/-! # Lemmas on `searchsorted` -/

set_option autoImplicit false

namespace Jax

/-! ### Bisection -/

theorem ceilLog2From_spec (n : Nat) : ∀ fuel k, n ≤ 2 ^ (k + fuel) → n ≤ 2 ^ ceilLog2From n fuel k := by
  intro fuel
  induction fuel with
  | zero => intro k h; exact h
  | succ fuel ih =>
    intro k h
    unfold ceilLog2From
    split_ifs with hc
    · exact hc
    · exact ih (k + 1) (by rw [show k + 1 + fuel = k + (fuel + 1) by omega]; exact h)

theorem ceilLog2_le (n : Nat) : n ≤ 2 ^ ceilLog2 n :=
  ceilLog2From_spec n n 0 (by rw [Nat.zero_add]; exact n.lt_two_pow_self.le)

/-- the loop invariant of the bisection: the result is in `[0, high]`, or it is in `[low + 1, high]` if the element
at `low` is known to be low enough; `c` is the number of values the result can have -/
structure BisectInv {α : Type _} (p : α → Bool) (a : List α) (low high c : Nat) : Prop where
  high_le : high ≤ a.length
  above : ∀ h : high < a.length, p a[high] = false
  below : (low = 0 ∧ c = high + 1) ∨ (∃ h : low < a.length, p a[low] = true ∧ low + c = high ∧ 0 < c)

theorem bisect_spec {α : Type _} (p : α → Bool) (a : List α) : ∀ levels low high c,
    BisectInv p a low high c → c ≤ 2 ^ levels → ∃ low', BisectInv p a low' (bisect p a levels low high) 1 := by
  intro levels
  induction levels with
  | zero =>
    intro low high c h hc
    have : c = 1 := by
      rcases h.below with ⟨_, h1⟩ | ⟨_, _, _, h1⟩ <;> omega
    subst this
    exact ⟨low, h⟩
  | succ levels ih =>
    intro low high c h hc
    rw [Nat.pow_succ] at hc
    have hmid : low ≤ (low + high) / 2 ∧ (low + high) / 2 ≤ high := by
      rcases h.below with ⟨h1, h2⟩ | ⟨_, _, h1, h2⟩ <;> omega
    have h1 := h.high_le
    unfold bisect
    dsimp only
    cases hm : a[(low + high) / 2]? with
    | none =>
      have hn : a.length ≤ (low + high) / 2 := List.getElem?_eq_none_iff.1 hm
      refine ih low _ ((low + high) / 2 + 1) ⟨by omega, fun hc => by omega, ?_⟩ ?_
      · rcases h.below with ⟨h2, h3⟩ | ⟨h2, h3, h4, h5⟩
        · exact Or.inl ⟨h2, rfl⟩
        · omega
      · rcases h.below with ⟨h2, h3⟩ | ⟨h2, h3, h4, h5⟩ <;> omega
    | some x =>
      obtain ⟨hlt, hx⟩ := List.getElem?_eq_some_iff.1 hm
      dsimp only
      cases hp : p x with
      | true =>
        rw [if_pos rfl]
        -- the new number of values
        rcases Nat.lt_or_ge ((low + high) / 2) high with hlt2 | hge
        · refine ih _ _ (high - (low + high) / 2) ⟨h1, h.above, Or.inr ⟨hlt, by rw [hx]; exact hp, by omega, by omega⟩⟩ ?_
          rcases h.below with ⟨h2, h3⟩ | ⟨_, _, h2, h3⟩ <;> omega
        · -- impossible, because then `high` would be low enough
          have he : (low + high) / 2 = high := by omega
          have := h.above (by omega)
          simp only [he] at hx
          rw [hx, hp] at this
          exact absurd this (by decide)
      | false =>
        rw [if_neg (by decide)]
        rcases h.below with ⟨h2, h3⟩ | ⟨h2, h3, h4, h5⟩
        · exact ih low _ ((low + high) / 2 + 1) ⟨by omega, fun _ => by rw [hx]; exact hp, Or.inl ⟨h2, rfl⟩⟩ (by omega)
        · refine ih low _ ((low + high) / 2 - low) ⟨by omega, fun _ => by rw [hx]; exact hp,
            Or.inr ⟨h2, h3, by omega, ?_⟩⟩ (by omega)
          by_contra hc0
          have he : (low + high) / 2 = low := by omega
          simp only [he] at hx
          rw [hx, hp] at h3
          exact absurd h3 (by decide)

/-- what `searchsorted(..., 'right')` guarantees for any array, even not sorted: the element at the index returned is
not low enough, while the previous one is -/
theorem searchsortedRight_spec {α : Type _} (p : α → Bool) (a : List α) :
    searchsortedRight p a ≤ a.length ∧
    (∀ h : searchsortedRight p a < a.length, p a[searchsortedRight p a] = false) ∧
    (0 < searchsortedRight p a → ∃ h' : searchsortedRight p a - 1 < a.length,
      p (a[searchsortedRight p a - 1]) = true) := by
  obtain ⟨low, h⟩ := bisect_spec p a (ceilLog2 (a.length + 1)) 0 a.length (a.length + 1)
    ⟨le_refl _, fun h => by omega, Or.inl ⟨rfl, rfl⟩⟩ (ceilLog2_le _)
  refine ⟨h.high_le, h.above, fun h0 => ?_⟩
  rcases h.below with ⟨h1, h2⟩ | ⟨h1, h2, h3, _⟩
  · have e : searchsortedRight p a = bisect p a (ceilLog2 (a.length + 1)) 0 a.length := rfl
    omega
  · have e : searchsortedRight p a - 1 = low := by
      have e : searchsortedRight p a = bisect p a (ceilLog2 (a.length + 1)) 0 a.length := rfl
      omega
    simp only [e]
    exact ⟨h1, h2⟩

theorem searchsortedRight_le {α : Type _} (p : α → Bool) (a : List α) :
    searchsortedRight p a ≤ a.length := (searchsortedRight_spec p a).1

theorem searchsortedRight_eq_length {α : Type _} (p : α → Bool) (a : List α)
    (h : ∀ x ∈ a, p x = true) : searchsortedRight p a = a.length := by
  obtain ⟨h1, h2, _⟩ := searchsortedRight_spec p a
  by_contra hc
  have := h2 (by omega)
  rw [h _ (List.getElem_mem _)] at this
  exact absurd this (by decide)

/-- it is sufficient that the last element is too high -/
theorem searchsortedRight_lt_of_last {α : Type _} (p : α → Bool) (a : List α) (h0 : 0 < a.length)
    (h : p (a[a.length - 1]) = false) : searchsortedRight p a < a.length := by
  obtain ⟨h1, _, h3⟩ := searchsortedRight_spec p a
  by_contra hc
  have e : searchsortedRight p a = a.length := by omega
  obtain ⟨h4, h5⟩ := h3 (by omega)
  simp only [e, h] at h5
  exact absurd h5 (by decide)

/-- the elements low enough are at the beginning, as it happens if `a` is sorted and `p` is `(· <= v)` -/
def Sorted {α : Type _} (p : α → Bool) (a : List α) : Prop :=
  ∀ i j, (hij : i ≤ j) → (hj : j < a.length) → p a[j] = true → p (a[i]'(by omega)) = true

/-- characterization of `searchsorted(..., 'right')` -/
theorem searchsortedRight_eq_iff {α : Type _} (p : α → Bool) (a : List α) (hs : Sorted p a) (i : Nat)
    (hi : i < a.length) :
    searchsortedRight p a = i ↔ (∀ k, (hk : k < i) → p (a[k]'(by omega)) = true) ∧ p a[i] = false := by
  obtain ⟨h1, h2, h3⟩ := searchsortedRight_spec p a
  constructor
  · intro he
    subst he
    refine ⟨fun k hk => ?_, h2 hi⟩
    obtain ⟨h4, h5⟩ := h3 (by omega)
    exact hs k _ (by omega) h4 h5
  · rintro ⟨h4, h5⟩
    rcases Nat.lt_trichotomy (searchsortedRight p a) i with hlt | he | hgt
    · have := h2 (by omega)
      rw [h4 _ hlt] at this
      exact absurd this (by decide)
    · exact he
    · obtain ⟨h6, h7⟩ := h3 (by omega)
      rw [hs i _ (by omega) h6 h7] at h5
      exact absurd h5 (by decide)

theorem getElem_length_takeWhile {α : Type _} (p : α → Bool) (a : List α) (h : (a.takeWhile p).length < a.length) :
    p (a[(a.takeWhile p).length]) = false := by
  induction a with
  | nil => simp at h
  | cons x xs ih =>
    cases hp : p x with
    | false =>
      simp only [List.takeWhile_cons_of_neg (show ¬ p x = true by simp [hp]), List.length_nil,
        List.getElem_cons_zero, hp]
    | true =>
      simp only [List.takeWhile_cons_of_pos hp, List.length_cons, List.getElem_cons_succ] at h ⊢
      exact ih (by omega)

/-- `searchsorted(a, v, 'right')` is the number of elements `x` of `a` with `x <= v`, if `a` is sorted -/
theorem searchsortedRight_eq_takeWhile {α : Type _} (p : α → Bool) (a : List α) (hs : Sorted p a) :
    searchsortedRight p a = (a.takeWhile p).length := by
  have hle : (a.takeWhile p).length ≤ a.length := (List.takeWhile_prefix p).length_le
  have hbefore : ∀ k, (hk : k < (a.takeWhile p).length) → p (a[k]'(by omega)) = true := by
    intro k hk
    have := List.mem_takeWhile_imp (List.getElem_mem hk)
    rwa [(List.takeWhile_prefix p).getElem hk] at this
  rcases Nat.lt_or_ge (a.takeWhile p).length a.length with hlt | hge
  · refine (searchsortedRight_eq_iff p a hs _ hlt).2 ⟨hbefore, ?_⟩
    exact getElem_length_takeWhile p a hlt
  · have e : (a.takeWhile p).length = a.length := by omega
    rw [e]
    refine searchsortedRight_eq_length p a fun x hx => ?_
    obtain ⟨k, hk, rfl⟩ := List.getElem_of_mem hx
    exact hbefore k (by omega)

theorem bisect_map {α β : Type _} (f : β → α) (p : α → Bool) (a : List β) : ∀ levels low high,
    bisect p (a.map f) levels low high = bisect (fun x => p (f x)) a levels low high := by
  intro levels
  induction levels with
  | zero => intro low high; rfl
  | succ levels ih =>
    intro low high
    unfold bisect
    dsimp only
    rw [List.getElem?_map]
    cases a[(low + high) / 2]? with
    | none => exact ih _ _
    | some x =>
      dsimp only [Option.map_some]
      rw [ih, ih]

theorem searchsortedRight_map {α β : Type _} (f : β → α) (p : α → Bool) (a : List β) :
    searchsortedRight p (a.map f) = searchsortedRight (fun x => p (f x)) a := by
  unfold searchsortedRight
  rw [List.length_map]
  exact bisect_map f p a _ _ _

theorem bisect_congr {α β : Type _} (p : α → Bool) (q : β → Bool) {l : List α} {l' : List β}
    (h : List.Forall₂ (fun s s' => q s' = p s) l l') : ∀ levels low high,
    bisect q l' levels low high = bisect p l levels low high := by
  intro levels
  induction levels with
  | zero => intro low high; rfl
  | succ levels ih =>
    intro low high
    have h' := (List.forall₂_iff_get.1 h)
    unfold bisect
    dsimp only
    by_cases hm : (low + high) / 2 < l.length
    · have e := h'.2 _ hm (by rw [← h'.1]; exact hm)
      simp only [List.get_eq_getElem] at e
      rw [List.getElem?_eq_getElem hm, List.getElem?_eq_getElem (by rw [← h'.1]; exact hm)]
      dsimp only
      rw [e, ih, ih]
    · have := h'.1
      rw [List.getElem?_eq_none (by omega), List.getElem?_eq_none (by omega)]
      exact ih _ _

/-- The elements of the two arrays are on the same sides of the values searched. -/
theorem searchsortedLeft_congr {α β : Type _} (p : α → Bool) (q : β → Bool) {l : List α} {l' : List β}
    (h : List.Forall₂ (fun s s' => q s' = p s) l l') : searchsortedLeft q l' = searchsortedLeft p l := by
  unfold searchsortedLeft
  rw [h.length_eq]
  exact bisect_congr p q h _ _ _

theorem bisect_bounds {α : Type _} (p : α → Bool) (a : List α) : ∀ levels low high, low ≤ high →
    low ≤ bisect p a levels low high ∧ bisect p a levels low high ≤ high := by
  intro levels
  induction levels with
  | zero => intro low high h; exact ⟨h, le_refl _⟩
  | succ levels ih =>
    intro low high h
    unfold bisect
    dsimp only
    have hl := ih low ((low + high) / 2) (by omega)
    have hr := ih ((low + high) / 2) high (by omega)
    cases a[(low + high) / 2]? with
    | none => dsimp only; omega
    | some x => dsimp only; split <;> omega

/-- The result of the bisection increases with the value searched, even if the array is not sorted. -/
theorem bisect_mono {α : Type _} {p q : α → Bool} (h : ∀ x, p x = true → q x = true) (a : List α) :
    ∀ levels low high, low ≤ high → bisect p a levels low high ≤ bisect q a levels low high := by
  intro levels
  induction levels with
  | zero => intro low high _; exact le_refl _
  | succ levels ih =>
    intro low high hlh
    unfold bisect
    dsimp only
    have hl := ih low ((low + high) / 2) (by omega)
    have hr := ih ((low + high) / 2) high (by omega)
    have h1 := bisect_bounds p a levels low ((low + high) / 2) (by omega)
    have h2 := bisect_bounds q a levels ((low + high) / 2) high (by omega)
    cases a[(low + high) / 2]? with
    | none => exact hl
    | some x =>
      dsimp only
      cases hp : p x with
      | true => rw [h x hp]; exact hr
      | false =>
        cases hq : q x with
        | true => simp only [Bool.false_eq_true, if_false, if_true]; omega
        | false => exact hl

theorem searchsortedLeft_mono {α : Type _} {p q : α → Bool} (h : ∀ x, p x = true → q x = true) (a : List α) :
    searchsortedLeft p a ≤ searchsortedLeft q a := bisect_mono h a _ _ _ (Nat.zero_le _)

theorem searchsortedLeft_le {α : Type _} (p : α → Bool) (a : List α) : searchsortedLeft p a ≤ a.length :=
  searchsortedRight_le p a

theorem searchsortedLeft_singleton {α : Type _} (p : α → Bool) (x : α) :
    searchsortedLeft p [x] = if p x = true then 1 else 0 := by
  have e : ceilLog2 (1 + 1) = 1 := by decide
  unfold searchsortedLeft
  rw [List.length_singleton, e]
  cases h : p x <;> simp [bisect, h]

end Jax
