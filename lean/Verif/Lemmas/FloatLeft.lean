import Verif.Lemmas.Sampling
import Verif.Spec.Float
/-! # Cumulative sums computed from the left satisfy `FloatLaws` -/

set_option autoImplicit false

namespace Bartz
open Jax Spec

variable {F : Type} [Zero F] [One F] [Add F] [FltFun F]

theorem ecdf_nonneg (hF : AddLaws F) (w : List F) (hw : ∀ x ∈ w, FltFun.leb 0 x = true) (i : Nat)
    (hi : i < w.length) : FltFun.leb 0 ((cumsum w)[i]'(by rw [length_cumsum]; exact hi)) = true := by
  induction i with
  | zero => rw [cumsum_getElem_zero w hi]; exact hw _ (List.getElem_mem hi)
  | succ i ih =>
    rw [cumsum_getElem_succ w i hi]
    exact hF.add_nonneg _ _ (ih (by omega)) (hw _ (List.getElem_mem hi))

theorem ecdf_ge_weight (hF : AddLaws F) (w : List F) (hw : ∀ x ∈ w, FltFun.leb 0 x = true) (i : Nat)
    (hi : i < w.length) :
    FltFun.leb w[i] ((cumsum w)[i]'(by rw [length_cumsum]; exact hi)) = true := by
  have hrefl : ∀ x : F, FltFun.leb 0 x = true → FltFun.leb x x = true := fun x hx => by
    rcases hF.total x x hx hx with h | h <;> exact h
  cases i with
  | zero => rw [cumsum_getElem_zero w hi]; exact hrefl _ (hw _ (List.getElem_mem hi))
  | succ i =>
    rw [cumsum_getElem_succ w i hi]
    exact hF.le_add_left _ _ (ecdf_nonneg hF w hw i (by omega)) (hw _ (List.getElem_mem hi))

theorem ecdf_mono (hF : AddLaws F) (w : List F) (hw : ∀ x ∈ w, FltFun.leb 0 x = true) (i k : Nat)
    (hi : i + k < w.length) :
    FltFun.leb ((cumsum w)[i]'(by rw [length_cumsum]; omega))
      ((cumsum w)[i + k]'(by rw [length_cumsum]; exact hi)) = true := by
  induction k with
  | zero =>
    have h := ecdf_nonneg hF w hw i (by omega)
    rcases hF.total _ _ h h with h | h <;> exact h
  | succ k ih =>
    have h1 := ih (by omega)
    have h2 := cumsum_getElem_succ w (i + k) (by omega)
    refine hF.trans _ _ _ (ecdf_nonneg hF w hw i (by omega)) h1 ?_
    show FltFun.leb _ ((cumsum w)[i + k + 1]'_) = true
    rw [h2]
    exact hF.le_add_right _ _ (ecdf_nonneg hF w hw _ (by omega)) (hw _ (List.getElem_mem _))

theorem floatLaws_of_left (hF : AddLaws F) (hc : ∀ w : List F, FltFun.cumsum w = cumsum w) : FloatLaws F where
  zero_le_zero := hF.zero_le_zero
  trans := hF.trans
  lt_iff := hF.lt_iff
  length_cumsum w := by rw [hc, length_cumsum]
  cumsum_nonneg w hw s hs := by
    rw [hc] at hs
    obtain ⟨i, hi, rfl⟩ := List.getElem_of_mem hs
    exact ecdf_nonneg hF w hw i (by rw [length_cumsum] at hi; exact hi)
  cumsum_zero w hw i hi h0 := by
    rw [List.getD_eq_getElem _ _ hi] at h0
    rw [hc, List.getD_eq_getElem _ _ (by rw [length_cumsum]; exact hi)]
    cases i with
    | zero =>
      rw [if_pos rfl, cumsum_getElem_zero w hi, h0]
      exact hF.zero_le_zero
    | succ i =>
      rw [if_neg (by omega), cumsum_getElem_succ w i hi, h0, Nat.add_sub_cancel,
        List.getD_eq_getElem _ _ (by rw [length_cumsum]; omega)]
      exact hF.add_zero_le _ (ecdf_nonneg hF w hw i (by omega))
  cumsum_pos w hw hpos := by
    obtain ⟨x, hx, ht, hx0⟩ := hpos
    obtain ⟨k, hk, rfl⟩ := List.getElem_of_mem hx
    rw [hc, List.getD_eq_getElem _ _ (by rw [length_cumsum]; omega)]
    have h1 := ecdf_ge_weight hF w hw k hk
    have h2 := ecdf_mono hF w hw k (w.length - 1 - k) (by omega)
    have e : k + (w.length - 1 - k) = w.length - 1 := by omega
    simp only [e] at h2
    have h3 := hF.trans _ _ _ (hw _ hx) h1 h2
    refine ⟨hF.trans _ _ _ hF.tiny_nonneg ht h3, ?_⟩
    by_contra hcon
    rw [Bool.not_eq_false] at hcon
    have h4 := hF.trans _ _ _ (hw _ hx) h3 hcon
    rw [hx0] at h4
    exact absurd h4 (by decide)
  tiny_nonneg := hF.tiny_nonneg
  zero_le_one := hF.zero_le_one
  cumsum_finite w hw := by
    obtain ⟨B, h0, hB, h1, h2⟩ := hF.finite
    have hw' : ∀ x ∈ w, FltFun.leb 0 x = true := fun x hx => (hw x hx).1
    have key : ∀ i, (hi : i < w.length) → B ((cumsum w)[i]'(by rw [length_cumsum]; exact hi)) := by
      intro i
      induction i with
      | zero =>
        intro hi
        rw [cumsum_getElem_zero w hi]
        exact h1 _ (hw _ (List.getElem_mem hi)).1 (hw _ (List.getElem_mem hi)).2
      | succ i ih =>
        intro hi
        rw [cumsum_getElem_succ w i hi]
        exact h2 _ _ (ecdf_nonneg hF w hw' i (by omega)) (ih (by omega)) (hw _ (List.getElem_mem hi)).1
          (hw _ (List.getElem_mem hi)).2
    rw [hc]
    rcases Nat.eq_zero_or_pos w.length with h | h
    · rw [List.getD_eq_default _ _ (by rw [length_cumsum]; omega)]
      exact hB _ h0
    · rw [List.getD_eq_getElem _ _ (by rw [length_cumsum]; omega)]
      exact hB _ (key _ (by omega))

end Bartz
