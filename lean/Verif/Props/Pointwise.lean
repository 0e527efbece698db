import Verif.Props.Ensemble
/-!
# Property C88: each prediction depends only on its test point, and the fit does not depend on the test set
-/

set_option autoImplicit false

namespace Bartz
open Jax Spec

section
variable {K F P : Type} [KeyLike K] [Inhabited F] [Zero F] [One F] [Add F] [Sub F] [Mul F] [Div F]
  [Neg F] [NatCast F] [FltFun F] [Field P] [LinearOrder P]
  {lib : Lib F P} {rng : Rng K F} {a : GbartArgs K F}

/-- C88, the fit. If `gbart` returns, without the test set it returns the same object, but for the predictions at the
test set; these are those of `predict`, and their average. -/
theorem C88_fit {g : Gbart F P} (hg : gbart lib rng a = some g) :
    gbart lib rng { a with x_test := none } = some { g with yhat_test := none, yhat_test_mean := none } ∧
    (∀ x, a.x_test = some x → ∃ yhat,
      Gbart.predict lib { g with yhat_test := none, yhat_test_mean := none } x = some yhat ∧
      g.yhat_test = some yhat ∧ g.yhat_test_mean = some (meanAxis0 x.n yhat)) ∧
    (a.x_test = none → g.yhat_test = none ∧ g.yhat_test_mean = none) := by
  unfold gbart at hg ⊢
  simp only [Option.bind_eq_bind, Option.bind_eq_some_iff, Option.pure_def] at hg
  obtain ⟨u, h0, sp, hsp, sigma, hs, first, hf, hg⟩ := hg
  simp only [Option.bind_eq_bind, Option.bind_eq_some_iff, Option.pure_def]
  cases hx : a.x_test with
  | none =>
    rw [hx] at hg
    cases hg
    exact ⟨⟨u, h0, sp, hsp, sigma, hs, first, hf, rfl⟩, (fun _ e => nomatch e), fun _ => ⟨rfl, rfl⟩⟩
  | some x =>
    rw [hx] at hg
    simp only [Option.bind_eq_some_iff] at hg
    obtain ⟨y, hy, e⟩ := hg
    cases e
    refine ⟨⟨u, h0, sp, hsp, sigma, hs, first, hf, rfl⟩, ?_, fun e => nomatch e⟩
    rintro _ ⟨⟩
    exact ⟨y, hy, rfl, rfl⟩

omit [Zero F] [Sub F] [Mul F] [Div F] [Neg F] [FltFun F] [One F] [Add F] [NatCast F] [Field P] in
/-- the binned values of a test point depend only on the test point -/
theorem bin_column {x x' : Predictors F} {sp : List (List (WithTop P))}
    (hl : x.x.length = x'.x.length) (hr : Rectangular x) (hr' : Rectangular x') {j j' : Nat} (hj : j < x.n)
    (hj' : j' < x'.n) (hxx : ∀ v < x.x.length, predictorValue x v j = predictorValue x' v j') :
    ((gbart_bin_predictors lib x.x sp).map fun row => row.getD j 0) =
      (gbart_bin_predictors lib x'.x sp).map fun row => row.getD j' 0 := by
  unfold gbart_bin_predictors bin_predictors exact_matrix
  apply List.ext_getElem
  · simp [hl]
  · intro v h1 h2
    simp only [List.length_map, List.length_zipWith] at h1 h2
    have hv : v < x.x.length := by omega
    have hv' : v < x'.x.length := by omega
    have hlj := hr _ (List.getElem_mem hv)
    have hlj' := hr' _ (List.getElem_mem hv')
    have := hxx v hv
    simp only [predictorValue, List.getD_eq_getElem?_getD, List.getElem?_eq_getElem hv,
      List.getElem?_eq_getElem hv', Option.getD_some] at this
    rw [List.getElem?_eq_getElem (by omega), List.getElem?_eq_getElem (by omega)] at this
    simp only [Option.getD_some] at this
    simp only [List.getElem_map, List.getElem_zipWith, bin_row, List.map_map, List.getD_eq_getElem?_getD,
      List.getElem?_map]
    rw [List.getElem?_eq_getElem (by omega), List.getElem?_eq_getElem (by omega)]
    simp [this]

/-- C88, the predictions. The prediction at a test point depends only on the predictors of that test point, not on the
others, nor on how many they are or in which order. -/
theorem C88_pointwise [FloatLaws F] (h : ValidGbart lib a) (hrng : LawfulRng rng) :
    ∃ g, gbart lib rng a = some g ∧ ∀ x x', Compatible a.x_train x → Compatible a.x_train x' →
      Rectangular x → Rectangular x' → ∃ yhat yhat', g.predict lib x = some yhat ∧ g.predict lib x' = some yhat' ∧
      ∀ j < x.n, ∀ j' < x'.n, (∀ v < a.x_train.x.length, predictorValue x v j = predictorValue x' v j') →
        ∀ k < a.ndpost, (yhat.getD k []).getD j default = (yhat'.getD k []).getD j' default := by
  obtain ⟨sp, g, h1, hg⟩ := gbart_spec hrng h
  refine ⟨g, h1, fun x x' hx hx' hr hr' => ⟨_, _, hg.predict_eq h hrng x hx, hg.predict_eq h hrng x' hx', ?_⟩⟩
  intro j hj j' hj' hxx k hk
  have := bin_column (lib := lib) (sp := sp.splits) (hx.2.trans hx'.2.symm) hr hr' hj hj' (by rw [hx.2]; exact hxx)
  simp only [predictions, List.getD_eq_getElem?_getD, List.getElem?_map, List.getElem?_range hk, Option.map_some,
    Option.getD_some, List.getElem?_range hj, List.getElem?_range hj'] at this ⊢
  rw [this]

end

/-! ### Examples -/

namespace ExG

open Ex
open scoped Ex

-- the same test point alone or with others
example : ∃ g, gbart lib rng args = some g ∧ ∃ yhat yhat',
    g.predict lib { x := [[9, 3], [1, -4]], n := 2, columns := none } = some yhat ∧
    g.predict lib { x := [[3], [-4]], n := 1, columns := none } = some yhat' ∧
    ∀ k < 2, (yhat.getD k []).getD 1 default = (yhat'.getD k []).getD 0 default := by
  obtain ⟨g, hg, H⟩ := C88_pointwise args_valid rng_lawful
  obtain ⟨y, y', h1, h2, h3⟩ := H { x := [[9, 3], [1, -4]], n := 2, columns := none }
    { x := [[3], [-4]], n := 1, columns := none } ⟨rfl, rfl⟩ ⟨rfl, rfl⟩ (by unfold Rectangular; decide)
    (by unfold Rectangular; decide)
  refine ⟨g, hg, y, y', h1, h2, fun k hk => h3 1 (by decide) 0 (by decide) ?_ k hk⟩
  intro v hv
  have hv : v < 2 := hv
  interval_cases v <;> rfl

-- with test set and without it
example : ∃ g, gbart lib rng args = some g ∧ g.yhat_test.isSome ∧
    gbart lib rng { args with x_test := none } = some { g with yhat_test := none, yhat_test_mean := none } := by
  obtain ⟨g, hg, -⟩ := C88_pointwise args_valid rng_lawful
  obtain ⟨h1, h2, -⟩ := C88_fit hg
  obtain ⟨y, -, h4, -⟩ := h2 _ rfl
  exact ⟨g, hg, by rw [h4]; rfl, h1⟩

end ExG
end Bartz
