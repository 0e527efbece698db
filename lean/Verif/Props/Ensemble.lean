import Verif.Lemmas.Ensemble
import Verif.Props.Gbart
/-!
# Properties C66, C67: the predictions of `gbart` are sums of trees on the original predictors
-/

set_option autoImplicit false

namespace Bartz
open Jax Spec

section
variable {K F P : Type} [KeyLike K] [Inhabited F] [Zero F] [One F] [Add F] [Sub F] [Mul F] [Div F]
  [Neg F] [NatCast F] [FltFun F] [FloatLaws F] [Field P] [LinearOrder P] [IsStrictOrderedRing P]
  {lib : Lib F P} {rng : Rng K F} {a : GbartArgs K F}

omit [KeyLike K] [Add F] [Sub F] [Mul F] [Neg F] [FloatLaws F] in
/-- the bin of a predictor at a test point -/
theorem gbart_bins (h : ValidGbart lib a) {sp : Splits P}
    (hsp : determine_splits lib a.x_train.x a.x_train.n a.usequants a.numcut = some sp)
    (hacc : AccurateLinspace lib a) (hn : a.y_train.length < 2 ^ 64) (hc : a.numcut + 1 < 2 ^ 64)
    (x : Predictors F) (hx : x.x.length = a.x_train.x.length) (hrect : Rectangular x) {j : Nat} (hj : j < x.n) :
    ((gbart_bin_predictors lib x.x sp.splits).map fun row => row.getD j 0).length = a.x_train.x.length ∧
    ∀ v, v < a.x_train.x.length → ∀ s, 1 ≤ s →
      (s ≤ ((gbart_bin_predictors lib x.x sp.splits).map fun row => row.getD j 0).getD v 0 ↔
        (sp.splits.getD v []).getD (s - 1) ⊤ < ((lib.exact (predictorValue x v j) : P) : WithTop P)) := by
  obtain ⟨hlen, hcuts⟩ := determine_splits_cuts h hsp hacc hn hc
  refine ⟨by simp [gbart_bin_predictors, bin_predictors, exact_matrix, hlen, hx], ?_⟩
  intro v hv s hs
  have hcut := hcuts v hv
  have hrow := hrect _ (List.getElem_mem (show v < x.x.length by omega))
  have e1 : sp.splits.getD v [] = sp.splits[v]'(by omega) := List.getD_eq_getElem _ _ _
  rw [e1] at hcut ⊢
  have hev : (exact_matrix lib x.x).length = x.x.length := by simp [exact_matrix]
  have hjv : j < ((exact_matrix lib x.x)[v]'(by omega)).length := by
    simp [exact_matrix]; omega
  have hval : ((exact_matrix lib x.x)[v]'(by omega))[j] = ((lib.exact (predictorValue x v j) : P) : WithTop P) := by
    have hj' : j < (x.x[v]'(by omega)).length := by omega
    simp only [exact_matrix, List.getElem_map, predictorValue]
    rw [List.getD_eq_getElem _ _ (by omega : v < x.x.length), List.getD_eq_getElem _ _ hj']
  obtain ⟨i, hi⟩ := inBin_exists _ hcut.sorted ((exact_matrix lib x.x)[v]'(by omega))[j]
  obtain ⟨row, hr1, hr2⟩ := (C12_bin (exact_matrix lib x.x) sp.splits (by omega) (by omega) hjv hcut.sorted
    hcut.length i).2 hi
  rw [hval] at hi
  have e2 : ((gbart_bin_predictors lib x.x sp.splits).map fun row => row.getD j 0).getD v 0 = i := by
    unfold gbart_bin_predictors
    rw [List.getD_eq_getElem?_getD, List.getElem?_map, hr1]
    simp [hr2]
  rw [e2]
  exact decision_getD hcut.sorted hi hs

/-! ### C66 -/

/-- C66. The predictions are sums of decision trees on the original predictors, rescaled and shifted: for each
iteration saved there are `ntree` trees, with depth less than `maxdepth`, which do not depend on the test set, such
that the predictions at any test points are `offset + scale * (sum of the trees)`. In each node a predictor is
compared with one of its cutpoints (or with infinity). -/
theorem C66_ensemble (h : ValidGbart lib a) (hrng : LawfulRng rng) (hacc : AccurateLinspace lib a)
    (hn : a.y_train.length < 2 ^ 64) (hc : a.numcut + 1 < 2 ^ 64) :
    ∃ g, gbart lib rng a = some g ∧ ∃ trees : Nat → List (RTree F P),
      (∀ k, (trees k).length = a.ntree ∧ ∀ T ∈ trees k, T.depth < a.maxdepth ∧
        T.Rules fun v c => v < a.x_train.x.length ∧ (c = ⊤ ∨ c ∈ g.splits.getD v [])) ∧
      ∀ x : Predictors F, Compatible a.x_train x → Rectangular x →
        g.predict lib x = some ((List.range a.ndpost).map fun k => (List.range x.n).map fun j =>
          g.offset + g.scale * ((trees k).map fun T => T.eval fun v => lib.exact (predictorValue x v j)).foldl (· + ·) 0) := by
  obtain ⟨sp, g, h1, hg⟩ := gbart_spec hrng h
  refine ⟨g, h1, fun k => (List.range a.ntree).map fun t =>
    let s := gbartState lib rng a sp (a.nskip + (k + 1) * a.keepevery)
    toR a.x_train.x.length sp.splits
      (readTree default (s.leaf_trees.getD t []) (s.var_trees.getD t []) (s.split_trees.getD t []) (a.maxdepth - 1) 1),
    ?_, ?_⟩
  · intro k
    refine ⟨by simp, ?_⟩
    intro T hT
    obtain ⟨t, -, rfl⟩ := List.mem_map.1 hT
    refine ⟨lt_of_le_of_lt (toR_depth ..) (by have := h.depth_ge; omega), ?_⟩
    rw [hg.splits]
    exact toR_rules h.predictors_pos _ _
  · intro x hx hrect
    rw [hg.predict_eq h hrng x hx, predictions, hg.offset, hg.scale]
    congr 1
    apply List.map_congr_left
    intro k _
    apply List.map_congr_left
    intro j hj
    obtain ⟨b1, b2⟩ := gbart_bins h hg.splits_eq hacc hn hc x hx.2 hrect (List.mem_range.1 hj)
    unfold forestAt
    rw [List.map_map]
    congr 3
    apply List.map_congr_left
    intro t _
    exact toR_eval b1 h.predictors_pos b2 ..

/-! ### C67 -/

/-- The values `x` and `x'` are equal, or both beyond all the values in the list on the same side. -/
def SameBeyond (col : List P) (x x' : P) : Prop :=
  x = x' ∨ (∀ v ∈ col, v ≤ x ∧ v ≤ x') ∨ (∀ v ∈ col, x ≤ v ∧ x' ≤ v)

/-- C67. The predictions do not change if the test predictors are moved outside of the range of the training set,
or clipped to it. If the cutpoints are not quantiles, the predictors must not be constant. -/
theorem C67_clip (h : ValidGbart lib a) (hrng : LawfulRng rng) (hacc : AccurateLinspace lib a)
    (hn : a.y_train.length < 2 ^ 64) (hc : a.numcut + 1 < 2 ^ 64)
    (hconst : a.usequants = true ∨ ∀ v, v < a.x_train.x.length →
      ∃ i j, i < a.x_train.n ∧ j < a.x_train.n ∧ lib.exact (predictorValue a.x_train v i) ≠ lib.exact (predictorValue a.x_train v j))
    (x x' : Predictors F) (hx : Compatible a.x_train x) (hx' : Compatible a.x_train x') (hxr : Rectangular x)
    (hxr' : Rectangular x') (hxn : x'.n = x.n)
    (hsame : ∀ v j, v < a.x_train.x.length → j < x.n →
      SameBeyond ((a.x_train.x.getD v []).map lib.exact) (lib.exact (predictorValue x v j)) (lib.exact (predictorValue x' v j))) :
    ∃ g yhat, gbart lib rng a = some g ∧ g.predict lib x = some yhat ∧ g.predict lib x' = some yhat := by
  obtain ⟨g, h1, trees, ht, hp⟩ := C66_ensemble h hrng hacc hn hc
  refine ⟨g, _, h1, hp x hx hxr, ?_⟩
  rw [hp x' hx' hxr', hxn]
  obtain ⟨sp, g', h1', hg⟩ := gbart_spec hrng h
  rw [h1] at h1'
  cases h1'
  obtain ⟨hlen, hcuts⟩ := determine_splits_cuts h hg.splits_eq hacc hn hc
  congr 1
  apply List.map_congr_left
  intro k _
  apply List.map_congr_left
  intro j hj
  congr 3
  apply List.map_congr_left
  intro T hT
  symm
  refine RTree.eval_congr ?_ ((ht k).2 T hT).2
  rintro v c ⟨hv, hcut⟩
  rcases hcut with rfl | hcut
  · simp
  rw [hg.splits] at hcut
  rcases (hcuts v hv).range c hcut with rfl | ⟨lo, hlo, hi, hhi, c1, c2, c3⟩
  · simp
  have c3 := c3 (by
    rcases hconst with hq | hq
    · exact .inl hq
    · right
      obtain ⟨i, j, hi, hj, hne⟩ := hq v hv
      have hrow := h.row _ (List.getElem_mem hv)
      have hxn := h.length
      have e : a.x_train.x.getD v [] = a.x_train.x[v] := List.getD_eq_getElem _ _ hv
      refine ⟨_, ?_, _, ?_, hne⟩
      · unfold predictorValue
        rw [e, List.getD_eq_getElem _ _ (by omega : i < a.x_train.x[v].length)]
        exact List.mem_map_of_mem (List.getElem_mem _)
      · unfold predictorValue
        rw [e, List.getD_eq_getElem _ _ (by omega : j < a.x_train.x[v].length)]
        exact List.mem_map_of_mem (List.getElem_mem _))
  rcases hsame v j hv (List.mem_range.1 hj) with he | hb | hb
  · rw [he]
  · have hb := hb hi hhi
    refine iff_of_false ?_ ?_
    · exact fun hle => absurd (c3.trans_le ((WithTop.coe_le_coe.2 hb.1).trans hle)) (lt_irrefl _)
    · exact fun hle => absurd (c3.trans_le ((WithTop.coe_le_coe.2 hb.2).trans hle)) (lt_irrefl _)
  · have hb := hb lo hlo
    exact iff_of_true ((WithTop.coe_le_coe.2 hb.1).trans c1) ((WithTop.coe_le_coe.2 hb.2).trans c1)

omit [KeyLike K] [Inhabited F] [Zero F] [One F] [Add F] [Sub F] [Mul F] [Div F] [Neg F] [NatCast F] [FltFun F]
  [FloatLaws F] [Field P] [LinearOrder P] [IsStrictOrderedRing P] in
/-- the assumption on rounding is satisfied without rounding -/
theorem accurateLinspace_exact (h : lib.fl = id) : AccurateLinspace lib a := by
  intro m hm _
  refine ⟨0, ?_, fun q _ _ => by rw [h]; simp⟩
  have h1 : ((a.numcut + 1 : Nat) : ℚ) < m := by exact_mod_cast hm
  have h0 : (0 : ℚ) < ((a.numcut + 1 : Nat) : ℚ) := by positivity
  have := (one_lt_div h0).2 h1
  linarith

end

/-! ### Examples -/

namespace ExG

open Ex
open scoped Ex

theorem accurate : AccurateLinspace lib args := accurateLinspace_exact rfl

example : ∃ g, gbart lib rng args = some g ∧ ∃ trees : Nat → List (RTree Int ℚ),
    (∀ k, (trees k).length = 2 ∧ ∀ T ∈ trees k, T.depth < 3 ∧
      T.Rules fun v c => v < 2 ∧ (c = ⊤ ∨ c ∈ g.splits.getD v [])) ∧
    ∀ x : Predictors Int, Compatible args.x_train x → Rectangular x →
      g.predict lib x = some ((List.range 2).map fun k => (List.range x.n).map fun j =>
        g.offset + g.scale * ((trees k).map fun T => T.eval fun v => lib.exact (predictorValue x v j)).foldl
          (· + ·) 0) :=
  C66_ensemble args_valid rng_lawful accurate (by decide) (by decide)

-- the values of the first predictor are from 1 to 8, so it does not matter if a test value is 9 or 100
example : ∃ g yhat, gbart lib rng args = some g ∧
    g.predict lib { x := [[9, 3], [1, -4]], n := 2, columns := none } = some yhat ∧
    g.predict lib { x := [[100, 3], [1, 0]], n := 2, columns := none } = some yhat := by
  refine C67_clip args_valid rng_lawful accurate (by decide) (by decide) (.inr ?_) _ _ ⟨rfl, rfl⟩ ⟨rfl, rfl⟩
    (by unfold Rectangular; decide) (by unfold Rectangular; decide) rfl ?_
  · intro v hv
    have hv : v < 2 := hv
    exact ⟨0, 3, by decide, by decide, by interval_cases v <;> decide⟩
  · intro v j hv hj
    have hv : v < 2 := hv
    have hj : j < 2 := hj
    unfold SameBeyond
    interval_cases v <;> interval_cases j <;> decide

-- quantiles
example : ∃ g yhat, gbart lib rng { args with usequants := true, x_test := none } = some g ∧
    g.predict lib { x := [[9, 3], [1, -4]], n := 2, columns := none } = some yhat ∧
    g.predict lib { x := [[100, 3], [1, 0]], n := 2, columns := none } = some yhat := by
  have hv : ValidGbart lib { args with usequants := true, x_test := none } :=
    { args_valid with
      datapoints := fun e => nomatch e
      x_test := fun _ e => nomatch e }
  refine C67_clip hv rng_lawful
    (accurateLinspace_exact rfl) (by decide) (by decide) (.inl rfl) _ _ ⟨rfl, rfl⟩ ⟨rfl, rfl⟩
    (by unfold Rectangular; decide) (by unfold Rectangular; decide) rfl ?_
  intro v j hv hj
  have hv : v < 2 := hv
  have hj : j < 2 := hj
  unfold SameBeyond
  interval_cases v <;> interval_cases j <;> decide

end ExG
end Bartz
