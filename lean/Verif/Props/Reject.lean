import Verif.Props.Gbart
/-!
# Property C75: inconsistent arguments are rejected

Exactly when the construction of `gbart` and its method `predict` fail, for any floating point arithmetic.
-/

set_option autoImplicit false

namespace Bartz
open Jax Spec

section
variable {K F P : Type} [KeyLike K] [Inhabited F] [Zero F] [One F] [Add F] [Sub F] [Mul F] [Div F]
  [Neg F] [NatCast F] [FltFun F] [Field P] [LinearOrder P]
  {lib : Lib F P} {rng : Rng K F} {a : GbartArgs K F}

theorem array_eq_iff (l l' : List String) :
    Columns.eq.array_eq l l' = some true ↔ ∃ name, l = [name] ∧ l' = [name] := by
  unfold Columns.eq.array_eq
  split
  · rename_i u v
    simp only [Option.some.injEq, decide_eq_true_eq, List.cons.injEq, and_true]
    constructor
    · rintro rfl; exact ⟨u, rfl, rfl⟩
    · rintro ⟨n, rfl, rfl⟩; rfl
  · rename_i h
    constructor
    · intro e; cases e
    · rintro ⟨n, rfl, rfl⟩
      exact (h n n rfl rfl).elim

omit [Inhabited F] [Zero F] [One F] [Add F] [Sub F] [Mul F] [Div F] [Neg F] [NatCast F] [FltFun F] in
theorem check_formats_iff (x x' : Predictors F) :
    check_compatible_formats (predictor_format x) (predictor_format x') = some () ↔ SameFormat x x' := by
  unfold predictor_format SameFormat
  cases hc : x.columns with
  | none =>
    cases hc' : x'.columns with
    | none => simp [check_compatible_formats, guard]
    | some c' => simp [check_compatible_formats]
  | some c =>
    cases hc' : x'.columns with
    | none => simp [check_compatible_formats]
    | some c' =>
      have key : check_compatible_formats (.dataframe c) (.dataframe c') = some () ↔ c.eq c' = some true := by
        simp only [check_compatible_formats]
        rcases h : c.eq c' with _ | (_ | _) <;> simp [guard]
      simp only [key]
      cases c with
      | list l =>
        cases c' with
        | list l' =>
          simp only [Columns.eq, Columns.names, Option.some.injEq, decide_eq_true_eq]
          constructor
          · rintro rfl; exact .inr (.inl ⟨l, rfl, rfl⟩)
          · rintro (⟨h, -⟩ | ⟨n, h1, h2⟩ | ⟨i, n, n', h, -⟩ | ⟨c, c', n, rfl, rfl, h1, h2⟩)
            · cases h
            · cases h1; cases h2; rfl
            · cases h
            · exact h1.trans h2.symm
        | index i l' =>
          simp only [Columns.eq, array_eq_iff, Columns.names]
          constructor
          · rintro ⟨n, h1, h2⟩; exact .inr (.inr (.inr ⟨_, _, n, rfl, rfl, h1, h2⟩))
          · rintro (⟨h, -⟩ | ⟨n, h1, h2⟩ | ⟨i, n, n', h, -⟩ | ⟨c, c', n, h3, h4, h1, h2⟩)
            · cases h
            · cases h2
            · cases h
            · cases h3; cases h4; exact ⟨n, h1, h2⟩
      | index i l =>
        cases c' with
        | list l' =>
          simp only [Columns.eq, array_eq_iff, Columns.names]
          constructor
          · rintro ⟨n, h1, h2⟩; exact .inr (.inr (.inr ⟨_, _, n, rfl, rfl, h1, h2⟩))
          · rintro (⟨h, -⟩ | ⟨n, h1, h2⟩ | ⟨i, n, n', h, h'⟩ | ⟨c, c', n, h3, h4, h1, h2⟩)
            · cases h
            · cases h1
            · cases h'
            · cases h3; cases h4; exact ⟨n, h1, h2⟩
        | index i' l' =>
          simp only [Columns.eq]
          split
          · rename_i e
            subst e
            simp only [true_iff]
            exact .inr (.inr (.inl ⟨i, l, l', rfl, rfl⟩))
          · rename_i hne
            rw [array_eq_iff]
            constructor
            · rintro ⟨n, h1, h2⟩; exact .inr (.inr (.inr ⟨_, _, n, rfl, rfl, h1, h2⟩))
            · rintro (⟨h, -⟩ | ⟨n, h1, h2⟩ | ⟨i, n, n', h, h'⟩ | ⟨c, c', n, h3, h4, h1, h2⟩)
              · cases h
              · cases h1
              · cases h; cases h'; exact absurd rfl hne
              · cases h3; cases h4; exact ⟨n, h1, h2⟩

/-- the test set is used only after the fit -/
theorem gbart_x_test (lib : Lib F P) (rng : Rng K F) (a : GbartArgs K F) :
    gbart lib rng a = (gbart lib rng { a with x_test := none }).bind fun g =>
      match a.x_test with
      | none => some g
      | some x => (g.predict lib x).map fun y =>
        { g with yhat_test := some y, yhat_test_mean := some (meanAxis0 x.n y) } := by
  unfold gbart
  simp only [Option.bind_eq_bind, Option.pure_def, Option.bind_assoc]
  refine congrArg _ (funext fun _ => congrArg _ (funext fun sp => ?_))
  refine congrArg _ (funext fun s1 => congrArg _ (funext fun s2 => ?_))
  simp only [Option.bind_some]
  cases a.x_test with
  | none => rfl
  | some x =>
    simp only [Option.map_eq_bind]
    rfl

omit [KeyLike K] [Inhabited F] [Add F] [Sub F] [Mul F] [Neg F] [Field P] [LinearOrder P] in
theorem valid_of_domain (h : InDomain lib a) (hn : a.x_train.n = a.y_train.length)
    (h0 : a.usequants = false → 0 < a.y_train.length) :
    ValidGbart lib { a with x_test := none } where
  depth_ge := h.depth_ge
  depth_le := h.depth_le
  predictors_pos := h.predictors_pos
  predictors_lt := h.predictors_lt
  length := hn
  row := fun row hr => (h.row row hr).trans hn
  datapoints := h0
  nonterminal_pos := h.nonterminal_pos
  x_test := by simp
  numcut_lt := h.numcut_lt
  overflow := h.overflow

variable [FloatLaws F]

/-- C75. The construction fails if and only if the number of datapoints in the predictors and in the responses differ,
or there are no datapoints while the cutpoints are not quantiles, or the columns of the test set are not those
of the training set. -/
theorem C75_fails_iff (h : InDomain lib a) (hrng : LawfulRng rng) :
    gbart lib rng a = none ↔ a.x_train.n ≠ a.y_train.length ∨
      (a.usequants = false ∧ a.y_train.length = 0) ∨
      ∃ x, a.x_test = some x ∧ ¬ SameFormat x a.x_train := by
  by_cases hn : a.x_train.n = a.y_train.length
  · by_cases h0 : a.usequants = false → 0 < a.y_train.length
    · have hv := valid_of_domain h hn h0
      obtain ⟨sp, g, h1, hg⟩ := gbart_spec hrng hv
      have hz : ¬(a.usequants = false ∧ a.y_train.length = 0) := fun ⟨hu, hl⟩ => by
        have := h0 hu; omega
      rw [gbart_x_test, h1]
      simp only [hn, ne_eq, not_true_eq_false, hz, false_or, Option.bind_some]
      cases hx : a.x_test with
      | none => simp
      | some x =>
        simp only [Option.map_eq_none_iff, Option.some.injEq, exists_eq_left', ← check_formats_iff]
        constructor
        · intro hp hc
          have := hg.predict_eq_of_check hv hrng x hc
          rw [hp] at this
          cases this
        · intro hc
          unfold Gbart.predict
          rw [hg.fmt]
          have : check_compatible_formats (predictor_format x) (predictor_format a.x_train) = none := by
            rcases he : check_compatible_formats (predictor_format x) (predictor_format a.x_train) with _ | u
            · rfl
            · exact absurd he hc
          show Option.bind (check_compatible_formats (predictor_format x) (predictor_format a.x_train)) _ = none
          rw [this]
          rfl
    · push Not at h0
      refine ⟨fun _ => .inr (.inl ⟨h0.1, by omega⟩), fun _ => ?_⟩
      refine C49_not h.predictors_pos (fun row hr => ?_) h0.1
      have := h.row row hr
      exact List.length_eq_zero_iff.1 (by omega)
  · refine ⟨fun _ => .inl hn, fun _ => ?_⟩
    unfold gbart
    simp [guard, hn]

/-- C75. `predict` fails if and only if the columns are not those of the training set. -/
theorem C75_predict_fails_iff (h : ValidGbart lib a) (hrng : LawfulRng rng) :
    ∃ g, gbart lib rng a = some g ∧
      ∀ x, g.predict lib x = none ↔ ¬ SameFormat x a.x_train := by
  obtain ⟨sp, g, h1, hg⟩ := gbart_spec hrng h
  refine ⟨g, h1, fun x => ?_⟩
  rw [← check_formats_iff]
  constructor
  · intro hp hc
    have := hg.predict_eq_of_check h hrng x hc
    rw [hp] at this
    cases this
  · intro hc
    unfold Gbart.predict
    rw [hg.fmt]
    rcases he : check_compatible_formats (predictor_format x) (predictor_format a.x_train) with _ | u
    · rfl
    · exact absurd he hc

end

namespace ExG
open Ex (rng rng_lawful)
open scoped Ex

theorem args_domain : InDomain lib args where
  depth_ge := by decide
  depth_le := by decide
  predictors_pos := by decide
  predictors_lt := by decide
  row := by decide
  nonterminal_pos := by decide
  numcut_lt := by decide
  overflow := Or.inl ⟨1, le_rfl, rfl⟩

-- the arguments of the example are accepted
example : gbart lib rng args ≠ none := by
  rw [ne_eq, C75_fails_iff args_domain rng_lawful]
  rintro (h | ⟨-, h⟩ | ⟨x, hx, hc⟩)
  · exact h rfl
  · exact absurd h (by decide)
  · cases hx
    exact hc (.inl ⟨rfl, rfl, rfl⟩)
-- a response is missing
example : gbart lib rng { args with y_train := [0, 4, 8] } = none :=
  (C75_fails_iff ⟨by decide, by decide, by decide, by decide, by decide, by decide, by decide,
    Or.inl ⟨1, le_rfl, rfl⟩⟩ rng_lawful).2
    (.inl (by decide))
-- the test set has one predictor less
example : gbart lib rng { args with x_test := some { x := [[1, 9]], n := 2, columns := none } } = none :=
  (C75_fails_iff ⟨by decide, by decide, by decide, by decide, by decide, by decide, by decide,
    Or.inl ⟨1, le_rfl, rfl⟩⟩ rng_lawful).2
    (.inr (.inr ⟨_, rfl, by simp [SameFormat, args]⟩))
-- different names
example : ∃ g, gbart lib rng pandasArgs = some g ∧
    ∀ x, g.predict lib x = none ↔ ¬ SameFormat x pandasArgs.x_train :=
  C75_predict_fails_iff pandasArgs_valid rng_lawful

end ExG

end Bartz
