import Verif.Spec.Ensemble
import Mathlib.Data.Finset.Sort
import Verif.Lemmas.Gbart
/-! # Decision trees on the original predictors -/

set_option autoImplicit false

namespace Bartz
open Jax Spec

section
variable {F P : Type} [LinearOrder P]

/-- translation of the bins to cutpoints -/
def toR (p : Nat) (splits : List (List (WithTop P))) : DTree F → RTree F P
  | .leaf v => .leaf v
  | .node var split l r => .node (min var (p - 1)) ((splits.getD (min var (p - 1)) []).getD (split - 1) ⊤)
      (toR p splits l) (toR p splits r)

theorem toR_eval {p : Nat} {splits : List (List (WithTop P))} {b : List Nat} {x : Nat → P} (hb : b.length = p)
    (hp : 0 < p) (hx : ∀ v, v < p → ∀ s, 1 ≤ s →
      (s ≤ b.getD v 0 ↔ (splits.getD v []).getD (s - 1) ⊤ < ((x v : P) : WithTop P)))
    (dflt : F) (leaf : List F) (var split : List Nat) (k i : Nat) :
    (readTree dflt leaf var split k i).eval b = (toR p splits (readTree dflt leaf var split k i)).eval x := by
  induction k generalizing i with
  | zero => rfl
  | succ k ih =>
    unfold readTree
    by_cases h : at0 split i = 0
    · simp only [if_pos h]; rfl
    · simp only [if_neg h, DTree.eval, toR, RTree.eval]
      have key := hx (min (at0 var i) (p - 1)) (by omega) (at0 split i) (by omega)
      have hc : coord b (at0 var i) = b.getD (min (at0 var i) (p - 1)) 0 := by
        unfold coord; rw [hb]
      rw [ih, ih]
      by_cases hlt : coord b (at0 var i) < at0 split i
      · rw [if_pos hlt, if_pos]
        rw [← not_lt, ← key]
        omega
      · rw [if_neg hlt, if_neg]
        rw [not_le, ← key]
        omega

theorem toR_depth (p : Nat) (splits : List (List (WithTop P))) (dflt : F) (leaf : List F) (var split : List Nat)
    (k i : Nat) : (toR p splits (readTree dflt leaf var split k i)).depth ≤ k := by
  induction k generalizing i with
  | zero => exact le_rfl
  | succ k ih =>
    unfold readTree
    by_cases h : at0 split i = 0
    · rw [if_pos h]; exact Nat.zero_le _
    · rw [if_neg h]
      simp only [toR, RTree.depth]
      have h1 := ih (2 * i)
      have h2 := ih (2 * i + 1)
      omega

theorem toR_rules {p : Nat} (hp : 0 < p) (splits : List (List (WithTop P))) (T : DTree F) :
    (toR p splits T).Rules fun v c => v < p ∧ (c = ⊤ ∨ c ∈ splits.getD v []) := by
  induction T with
  | leaf => trivial
  | node var split l r ihl ihr =>
    refine ⟨⟨by omega, ?_⟩, ihl, ihr⟩
    by_cases h : split - 1 < (splits.getD (min var (p - 1)) []).length
    · right
      rw [List.getD_eq_getElem _ _ h]
      exact List.getElem_mem h
    · left
      exact List.getD_eq_default _ _ (by omega)

omit [LinearOrder P] in
theorem RTree.Rules.mono {ok ok' : Nat → WithTop P → Prop} (h : ∀ v c, ok v c → ok' v c) {T : RTree F P}
    (hT : T.Rules ok) : T.Rules ok' := by
  induction T with
  | leaf => trivial
  | node var cut l r ihl ihr => exact ⟨h _ _ hT.1, ihl hT.2.1, ihr hT.2.2⟩

theorem RTree.eval_congr {ok : Nat → WithTop P → Prop} {x x' : Nat → P}
    (h : ∀ v c, ok v c → (((x v : P) : WithTop P) ≤ c ↔ ((x' v : P) : WithTop P) ≤ c)) {T : RTree F P}
    (hT : T.Rules ok) : T.eval x = T.eval x' := by
  induction T with
  | leaf => rfl
  | node var cut l r ihl ihr =>
    simp only [RTree.eval, h _ _ hT.1, ihl hT.2.1, ihr hT.2.2]

/-- a decision on the bin, including splits beyond the last cutpoint -/
theorem decision_getD {cuts : List (WithTop P)} (hs : cuts.Pairwise (· ≤ ·)) {x : P} {i : Nat}
    (hi : InBin cuts ((x : P) : WithTop P) i) {s : Nat} (h1 : 1 ≤ s) :
    s ≤ i ↔ cuts.getD (s - 1) ⊤ < ((x : P) : WithTop P) := by
  by_cases h2 : s ≤ cuts.length
  · rw [C12_decision hs hi h1 h2, List.getD_eq_getElem _ _ (by omega)]
  · rw [List.getD_eq_default _ _ (by omega)]
    have := hi.1
    constructor
    · intro h; omega
    · intro h; exact absurd h (by simp)

end

section
variable {α : Type} [LinearOrder α]

theorem exists_isUnique (x : List α) : ∃ U, IsUnique x U := by
  refine ⟨x.toFinset.sort (· ≤ ·), (Finset.sortedLT_sort _).pairwise, ?_⟩
  intro v
  simp

end

section
variable {K F P : Type} [Field P] [LinearOrder P] [IsStrictOrderedRing P]

/-- what is known about the cutpoints of a predictor with the given values -/
structure CutsSpec (usequants : Bool) (col : List P) (row : List (WithTop P)) : Prop where
  sorted : row.Pairwise (· ≤ ·)
  length : row.length < 2 ^ 64
  range : ∀ c ∈ row, c = ⊤ ∨ ∃ lo ∈ col, ∃ hi ∈ col, ((lo : P) : WithTop P) ≤ c ∧ c ≤ ((hi : P) : WithTop P) ∧
    (usequants = true ∨ (∃ v ∈ col, ∃ w ∈ col, v ≠ w) → c < ((hi : P) : WithTop P))

theorem cutsSpec_quantiles {fl : ℚ → ℚ} {δ : ℚ} (X : List (List (WithTop P))) (n max_bins : Nat) {r : Nat}
    (hr : r < X.length) (col : List P) (hcol : X[r] = col.map fun v => ((v : P) : WithTop P))
    (hXn : col.length = n) (hn : 1 ≤ n) (h64 : n < 2 ^ 64) (hb : 1 ≤ max_bins)
    (U : List (WithTop P)) (hU : IsUnique X[r] U)
    (hfl : max_bins < U.length → 2 * δ < (U.length : ℚ) / max_bins - 1 ∧
      ∀ q : ℚ, -1 ≤ q → q ≤ U.length → |fl q - q| ≤ δ) :
    CutsSpec true col ((quantilized_splits_from_matrix fl (float_dtype P) X n max_bins).1.getD r []) := by
  have hle := unique_le hU
  obtain ⟨cuts, h1, -, h3, h4, h5, i, h6⟩ := quantilized_form_cuts lawful_float X n max_bins hr
    (by rw [hcol, List.length_map, hXn]) (by rw [hcol]; simp) hn h64 hb U hU hfl
  have e : (quantilized_splits_from_matrix fl (float_dtype P) X n max_bins).1.getD r [] =
      cuts ++ List.replicate (min max_bins n - 1 - cuts.length) (float_dtype P).huge := by
    rw [List.getD_eq_getElem?_getD, h1]; rfl
  rw [e]
  refine ⟨h4, ?_, ?_⟩
  · rw [List.length_append, List.length_replicate]; omega
  · intro c hc
    rcases List.mem_append.1 hc with hc | hc
    · right
      obtain ⟨k, hk, rfl⟩ := List.getElem_of_mem hc
      have hbnd := h6.bound k hk
      have hl := h6.left k hk
      have hrr := h6.right k hk
      have m1 := (hU.2 _).1 (List.getElem_mem (show i k < U.length by omega))
      have m2 := (hU.2 _).1 (List.getElem_mem hbnd)
      rw [hcol, List.mem_map] at m1 m2
      obtain ⟨lo, hlo, e1⟩ := m1
      obtain ⟨hi, hhi, e2⟩ := m2
      refine ⟨lo, hlo, hi, hhi, ?_, ?_, fun _ => ?_⟩
      · rw [e1]; exact hl
      · rw [e2]; exact hrr.le
      · rw [e2]; exact hrr
    · left
      exact (List.mem_replicate.1 hc).2

theorem cutsSpec_uniform (col : List P) (num_bins : Nat) (hn : 1 ≤ num_bins) (h64 : num_bins < 2 ^ 64)
    (hcol : col ≠ []) :
    ∃ splits, uniform_row col num_bins = some (splits, num_bins - 1) ∧
      CutsSpec false col (splits.map fun v => ((v : P) : WithTop P)) := by
  obtain ⟨low, hlow⟩ := Option.ne_none_iff_exists'.1 (mt List.min?_eq_none_iff.1 hcol)
  obtain ⟨high, hhigh⟩ := Option.ne_none_iff_exists'.1 (mt List.max?_eq_none_iff.1 hcol)
  have hlow' := List.min?_eq_some_iff.1 hlow
  have hhigh' := List.max?_eq_some_iff.1 hhigh
  obtain ⟨splits, h1, h2, h3, h4⟩ := C16_uniform col num_bins hn h64 low high hlow'.1 hhigh'.1
    fun v hv => ⟨hlow'.2 v hv, hhigh'.2 v hv⟩
  have hlh := hlow'.2 high hhigh'.1
  refine ⟨splits, h1, ?_, ?_, ?_⟩
  · rw [List.pairwise_map]
    rcases lt_or_eq_of_le hlh with hlt | heq
    · exact (h4 hlt).1.imp fun h => WithTop.coe_le_coe.2 h.le
    · rw [List.pairwise_iff_getElem]
      intro a b ha hb _
      have e1 := h3 a (by omega)
      have e2 := h3 b (by omega)
      rw [List.getElem?_eq_getElem ha] at e1
      rw [List.getElem?_eq_getElem hb] at e2
      rw [Option.some.inj e1, Option.some.inj e2, heq]
      simp
  · rw [List.length_map]; omega
  · intro c hc
    right
    obtain ⟨v, hv, rfl⟩ := List.mem_map.1 hc
    rcases lt_or_eq_of_le hlh with hlt | heq
    · have := (h4 hlt).2.1 v hv
      exact ⟨low, hlow'.1, high, hhigh'.1, WithTop.coe_le_coe.2 this.1.le, WithTop.coe_le_coe.2 this.2.le,
        fun _ => WithTop.coe_lt_coe.2 this.2⟩
    · obtain ⟨k, hk, rfl⟩ := List.getElem_of_mem hv
      have e1 := h3 k (by omega)
      rw [List.getElem?_eq_getElem hk] at e1
      have e1 : splits[k] = high := by
        rw [Option.some.inj e1, heq]; simp
      refine ⟨low, hlow'.1, high, hhigh'.1, ?_, ?_, ?_⟩
      · rw [e1, heq]
      · rw [e1]
      · rintro (h | ⟨v, hv, w, hw, hvw⟩)
        · cases h
        · exfalso
          apply hvw
          have a1 := hlow'.2 v hv
          have a2 := hlow'.2 w hw
          have a3 := hhigh'.2 v hv
          have a4 := hhigh'.2 w hw
          rw [heq] at a1 a2
          exact (le_antisymm a3 a1).trans (le_antisymm a4 a2).symm

theorem cutsSpec_empty {fl : ℚ → ℚ} (X : List (List (WithTop P))) (max_bins : Nat) {r : Nat}
    (hr : r < X.length) (hX : X[r] = []) :
    CutsSpec true [] ((quantilized_splits_from_matrix fl (float_dtype P) X 0 max_bins).1.getD r []) := by
  have e : (quantilized_splits_from_matrix fl (float_dtype P) X 0 max_bins).1.getD r [] = [] := by
    unfold quantilized_splits_from_matrix
    simp only [List.unzip_eq_map, List.map_map, List.getD_eq_getElem?_getD, List.getElem?_map,
      List.getElem?_eq_getElem hr, hX, Option.map_some, Option.getD_some, Function.comp, Nat.min_zero]
    simp [quantilized_row, unique, quantilized_midpoints, float_dtype, sliceTo]
  rw [e]
  exact ⟨List.Pairwise.nil, by simp, by simp⟩

variable [Inhabited F] [Zero F] [One F] [Div F] [NatCast F] [FltFun F]

omit [Inhabited F] in
/-- the cutpoints in `gbart` -/
theorem determine_splits_cuts {lib : Lib F P} {a : GbartArgs K F} (h : ValidGbart lib a) {sp : Splits P}
    (hsp : determine_splits lib a.x_train.x a.x_train.n a.usequants a.numcut = some sp)
    (hacc : AccurateLinspace lib a) (hn : a.y_train.length < 2 ^ 64) (hc : a.numcut + 1 < 2 ^ 64) :
    sp.splits.length = a.x_train.x.length ∧ ∀ v, v < a.x_train.x.length →
      CutsSpec a.usequants ((a.x_train.x.getD v []).map lib.exact) (sp.splits.getD v []) := by
  unfold determine_splits at hsp
  cases hu : a.usequants with
  | true =>
    rw [hu, if_pos rfl] at hsp
    simp only [Option.some.injEq] at hsp
    subst hsp
    refine ⟨by simp [quantilized_splits_from_matrix, exact_matrix], ?_⟩
    intro v hv
    have hlen : v < (exact_matrix lib a.x_train.x).length := by simpa [exact_matrix] using hv
    have hrow := h.row _ (List.getElem_mem hv)
    have hcol : (exact_matrix lib a.x_train.x)[v] =
        ((a.x_train.x.getD v []).map lib.exact).map fun v => ((v : P) : WithTop P) := by
      rw [List.getD_eq_getElem _ _ hv]
      simp [exact_matrix]
    rw [h.length]
    simp only
    by_cases h0 : a.y_train.length = 0
    · have e0 : a.x_train.x.getD v [] = [] := by
        rw [List.getD_eq_getElem _ _ hv]
        exact List.eq_nil_of_length_eq_zero (by omega)
      rw [e0] at hcol ⊢
      rw [h0]
      exact cutsSpec_empty _ _ hlen hcol
    · obtain ⟨U, hU⟩ := exists_isUnique (exact_matrix lib a.x_train.x)[v]
      have hUl := unique_le hU
      have hcl : ((a.x_train.x.getD v []).map lib.exact).length = a.y_train.length := by
        rw [List.length_map, List.getD_eq_getElem _ _ hv, hrow]
      rw [hcol, List.length_map, hcl] at hUl
      by_cases hm : a.numcut + 1 < U.length
      · obtain ⟨δ, hδ, hq⟩ := hacc U.length hm hUl
        exact cutsSpec_quantiles (δ := δ) _ _ _ hlen _ hcol hcl (by omega) hn (by omega) U hU
          fun _ => ⟨hδ, hq⟩
      · exact cutsSpec_quantiles (δ := 0) _ _ _ hlen _ hcol hcl (by omega) hn (by omega) U hU
          fun hc => absurd hc hm
  | false =>
    rw [hu, if_neg (by simp)] at hsp
    have hne : ∀ x ∈ a.x_train.x.map (fun row => row.map lib.exact), x ≠ [] := by
      intro x hx e
      obtain ⟨row, hr, rfl⟩ := List.mem_map.1 hx
      have h1 := h.row row hr
      have h2 := h.datapoints hu
      rw [List.map_eq_nil_iff.1 e] at h1
      simp at h1
      omega
    have hrow := fun x hx => cutsSpec_uniform x (a.numcut + 1) (by omega) hc (hne x hx)
    choose! f hf using hrow
    have hmat := (C16_matrix (a.x_train.x.map fun row => row.map lib.exact) (a.numcut + 1)).1
      (fun x => (f x, a.numcut + 1 - 1)) fun x hx => (hf x hx).1
    rw [hmat] at hsp
    simp only [Option.bind_eq_bind, Option.bind_some, Option.some.injEq] at hsp
    subst hsp
    refine ⟨by simp, ?_⟩
    intro v hv
    have := (hf (a.x_train.x[v].map lib.exact) (List.mem_map_of_mem (List.getElem_mem hv))).2
    simp only [List.getD_eq_getElem?_getD, List.getElem?_map, List.getElem?_eq_getElem hv, Option.map_some,
      Option.getD_some]
    exact this

end

end Bartz
