import Verif.Lemmas.Gbart
import Verif.Lemmas.GbartExact
import Verif.Lemmas.Unique
import Verif.Lemmas.Prepcovars
import Verif.Spec.PredictorMap
/-!
# Transformation of the predictors
-/

set_option autoImplicit false

namespace Bartz
open Jax Spec

section
variable {α : Type} [LinearOrder α]

theorem sort_map {g : α → α} (hg : StrictMono g) (x : List α) :
    jnp_sort (x.map g) = (jnp_sort x).map g := by
  refine ((sort_perm (x.map g)).trans ((sort_perm x).map g).symm).eq_of_pairwise (le := (· ≤ ·)) ?_
    (sort_sorted _) ?_
  · intro a b _ _ h1 h2
    exact le_antisymm h1 h2
  · rw [List.pairwise_map]
    exact (sort_sorted x).imp fun h => hg.monotone h

theorem isUnique_map {g : α → α} (hg : StrictMono g) {x u : List α} (h : IsUnique x u) :
    IsUnique (x.map g) (u.map g) := by
  refine ⟨?_, ?_⟩
  · rw [List.pairwise_map]
    exact h.1.imp fun h => hg h
  · intro v
    simp only [List.mem_map, h.2]

theorem unique_map {g : α → α} (hg : StrictMono g) (x : List α) (size : Nat) {fill : α} (hfill : g fill = fill) :
    unique (x.map g) size fill = ((unique x size fill).1.map g, (unique x size fill).2) := by
  obtain ⟨u, hu, e⟩ := unique_spec x size fill
  obtain ⟨u', hu', e'⟩ := unique_spec (x.map g) size fill
  have h1 := isUnique_map hg hu
  rw [sort_map hg, ← List.map_take] at hu'
  rw [e, e', hu'.unique h1]
  simp [padTo, hfill]

end

section
variable {P : Type} [Field P] [LinearOrder P]

theorem strictMono_top {f : P → P} (hf : StrictMono f) : StrictMono (WithTop.map f) :=
  WithTop.strictMono_map_iff.2 hf

/-- the two cutpoints separate the values of a predictor in the same way -/
def SameSide (g : WithTop P → WithTop P) (x : List (WithTop P)) (s s' : WithTop P) : Prop :=
  ∀ v ∈ x, s' < g v ↔ s < v

variable {f : P → P}

theorem sameSide_top (x : List (WithTop P)) : SameSide (WithTop.map f) x ⊤ ⊤ := by
  intro v _
  simp

theorem sameSide_map (hf : StrictMono f) (x : List (WithTop P)) (s : WithTop P) :
    SameSide (WithTop.map f) x s (WithTop.map f s) := fun _ _ => (strictMono_top hf).lt_iff_lt

theorem bin_row_sameSide {g : WithTop P → WithTop P} {x x' : List (WithTop P)} {sp sp' : List (WithTop P)}
    (h : List.Forall₂ (SameSide g x) sp sp') (hx : ∀ v ∈ x', v ∈ x) :
    bin_row (x'.map g) sp' = bin_row x' sp := by
  unfold bin_row
  simp only [List.map_map]
  refine List.map_congr_left fun v hv => ?_
  simp only [Function.comp, h.length_eq]
  congr 1
  refine searchsortedLeft_congr _ _ (h.imp ?_)
  intro s s' hs
  exact decide_eq_decide.2 (hs v (hx v hv))

/-! ### Quantiles -/

variable {R : WithTop P → WithTop P → Prop}

omit [LinearOrder P] [Field P] in
theorem forall₂_getD {l l' : List (WithTop P)} (h : List.Forall₂ R l l') (htop : R ⊤ ⊤) (i : Nat) :
    R (l.getD i ⊤) (l'.getD i ⊤) := by
  rw [List.forall₂_iff_get] at h
  obtain ⟨h1, h2⟩ := h
  by_cases hi : i < l.length
  · rw [List.getD_eq_getElem _ _ hi, List.getD_eq_getElem _ _ (h1 ▸ hi)]
    exact h2 i hi (h1 ▸ hi)
  · rw [List.getD_eq_default _ _ (by omega), List.getD_eq_default _ _ (by omega)]
    exact htop

theorem quantilized_row_rel (fl : ℚ → ℚ) (x : List (WithTop P)) (m : Int) (hf : StrictMono f) (htop : R ⊤ ⊤)
    (h : List.Forall₂ R
      (List.zipWith float_midpoint (unique x x.length ⊤).1.dropLast ((unique x x.length ⊤).1.drop 1))
      (List.zipWith float_midpoint ((unique x x.length ⊤).1.map (WithTop.map f)).dropLast
        (((unique x x.length ⊤).1.map (WithTop.map f)).drop 1))) :
    List.Forall₂ R (quantilized_row fl (float_dtype P) x m).1
      (quantilized_row fl (float_dtype P) (x.map (WithTop.map f)) m).1 ∧
    (quantilized_row fl (float_dtype P) (x.map (WithTop.map f)) m).2 =
      (quantilized_row fl (float_dtype P) x m).2 := by
  have hu := unique_map (strictMono_top hf) x x.length (fill := ⊤) rfl
  unfold quantilized_row
  simp only [float_dtype, List.length_map, hu, quantilized_midpoints, Bool.false_eq_true, if_false]
  refine ⟨?_, trivial⟩
  have hl := h.length_eq
  split
  · rw [← hl, List.forall₂_map_left_iff, List.forall₂_map_right_iff]
    exact List.forall₂_same.2 fun i _ => forall₂_getD h htop _
  · unfold sliceTo
    rw [← hl]
    split
    · exact List.forall₂_take _ h
    · exact List.forall₂_take _ h

theorem midpoint_map {c d : P} (hf : ∀ v, f v = c * v + d) [NeZero (2 : P)] (a b : WithTop P) :
    float_midpoint (WithTop.map f a) (WithTop.map f b) = WithTop.map f (float_midpoint a b) := by
  have h2 : (2 : P) ≠ 0 := NeZero.ne 2
  cases a with
  | top => rfl
  | coe a =>
    cases b with
    | top => rfl
    | coe b =>
      change ((((f b + f a) / 2 : P)) : WithTop P) = ((f ((b + a) / 2) : P) : WithTop P)
      rw [hf, hf, hf]
      congr 1
      field_simp
      ring

theorem midpoints_affine {c d : P} (hf : ∀ v, f v = c * v + d) [NeZero (2 : P)] (u : List (WithTop P)) :
    List.Forall₂ (fun s s' => s' = WithTop.map f s)
      (List.zipWith float_midpoint u.dropLast (u.drop 1))
      (List.zipWith float_midpoint (u.map (WithTop.map f)).dropLast ((u.map (WithTop.map f)).drop 1)) := by
  rw [← List.map_dropLast, ← List.map_drop, List.zipWith_map]
  rw [List.forall₂_iff_get]
  refine ⟨by simp, ?_⟩
  intro i h1 h2
  simp only [List.get_eq_getElem, List.getElem_zipWith, midpoint_map hf]

theorem midpoint_sameSide [IsStrictOrderedRing P] (hf : StrictMono f) {a b v : WithTop P} (hlt : a < b)
    (hside : v ≤ a ∨ b ≤ v) :
    float_midpoint (WithTop.map f a) (WithTop.map f b) < WithTop.map f v ↔ float_midpoint a b < v := by
  cases a with
  | top => exact absurd hlt not_top_lt
  | coe a =>
    cases b with
    | top => exact iff_of_false not_top_lt not_top_lt
    | coe b =>
      cases v with
      | top => exact ⟨fun _ => WithTop.coe_lt_top _, fun _ => WithTop.coe_lt_top _⟩
      | coe v =>
        change ((((f b + f a) / 2 : P)) : WithTop P) < (f v : P) ↔ ((((b + a) / 2 : P)) : WithTop P) < (v : P)
        rw [WithTop.coe_lt_coe, WithTop.coe_lt_coe]
        rw [WithTop.coe_lt_coe] at hlt
        rw [WithTop.coe_le_coe, WithTop.coe_le_coe] at hside
        have hfab := hf hlt
        rcases hside with h | h
        · have hfv := hf.monotone h
          exact iff_of_false (by linarith) (by linarith)
        · have hfv := hf.monotone h
          exact iff_of_true (by linarith) (by linarith)

theorem midpoints_sameSide [IsStrictOrderedRing P] (hf : StrictMono f) (x : List (WithTop P)) :
    List.Forall₂ (SameSide (WithTop.map f) x)
      (List.zipWith float_midpoint (unique x x.length ⊤).1.dropLast ((unique x x.length ⊤).1.drop 1))
      (List.zipWith float_midpoint ((unique x x.length ⊤).1.map (WithTop.map f)).dropLast
        (((unique x x.length ⊤).1.map (WithTop.map f)).drop 1)) := by
  obtain ⟨U, hU, e⟩ := unique_spec x x.length (⊤ : WithTop P)
  rw [List.take_of_length_le (by rw [sort_length])] at hU
  replace hU : IsUnique x U := hU.congr fun v => (sort_perm x).mem_iff
  rw [e]
  dsimp only
  rw [← List.map_dropLast, ← List.map_drop, List.zipWith_map]
  rw [List.forall₂_iff_get]
  refine ⟨by simp, ?_⟩
  intro i h1 h2
  simp only [List.get_eq_getElem, List.getElem_zipWith, List.getElem_dropLast, List.getElem_drop]
  have hul : U.length ≤ x.length :=
    (List.subperm_of_subset (hU.1.imp ne_of_lt) (fun v hv => (hU.2 v).1 hv)).length_le
  simp only [padTo, List.take_of_length_le hul]
  simp only [List.length_zipWith, List.length_dropLast, List.length_drop, padTo, List.take_of_length_le hul,
    List.length_append, List.length_replicate] at h1
  by_cases hi : i + 1 < U.length
  · rw [List.getElem_append_left (by omega), List.getElem_append_left (by omega)]
    have hlt : U[i] < U[1 + i] := List.pairwise_iff_getElem.1 hU.1 i (1 + i) (by omega) (by omega) (by omega)
    intro v hv
    have hside : v ≤ U[i] ∨ U[1 + i] ≤ v := by
      obtain ⟨k, hk, rfl⟩ := List.getElem_of_mem ((hU.2 v).2 hv)
      by_cases h : k ≤ i
      · left
        rcases Nat.eq_or_lt_of_le h with rfl | h
        · exact le_rfl
        · exact (List.pairwise_iff_getElem.1 hU.1 k i hk (by omega) h).le
      · right
        rcases Nat.eq_or_lt_of_le (show 1 + i ≤ k by omega) with rfl | h
        · exact le_rfl
        · exact (List.pairwise_iff_getElem.1 hU.1 (1 + i) k (by omega) hk h).le
    exact midpoint_sameSide hf hlt hside
  · have e2 : (U ++ List.replicate (x.length - U.length) (⊤ : WithTop P))[1 + i]'(by simp; omega) = ⊤ := by
      rw [List.getElem_append_right (by omega), List.getElem_replicate]
    rw [e2]
    have ht : ∀ a : WithTop P, float_midpoint a ⊤ = ⊤ := by
      intro a; cases a <;> rfl
    rw [WithTop.map_top, ht, ht]
    exact sameSide_top x

/-! ### Uniform grid -/

omit [Field P] in
theorem min?_map (hf : StrictMono f) (x : List P) : (x.map f).min? = x.min?.map f := by
  cases x with
  | nil => rfl
  | cons a l =>
    simp only [List.map_cons, List.min?_cons', Option.map_some]
    congr 1
    induction l generalizing a with
    | nil => rfl
    | cons b l ih =>
      simp only [List.map_cons, List.foldl_cons]
      rw [← hf.monotone.map_min, ih]

omit [Field P] in
theorem max?_map (hf : StrictMono f) (x : List P) : (x.map f).max? = x.max?.map f := by
  cases x with
  | nil => rfl
  | cons a l =>
    simp only [List.map_cons, List.max?_cons', Option.map_some]
    congr 1
    induction l generalizing a with
    | nil => rfl
    | cons b l ih =>
      simp only [List.map_cons, List.foldl_cons]
      rw [← hf.monotone.map_max, ih]

theorem uniform_row_affine {c d : P} (hf : ∀ v, f v = c * v + d) (hm : StrictMono f) (x : List P) (n : Nat) :
    uniform_row (x.map f) n = (uniform_row x n).map fun o => (o.1.map f, o.2) := by
  unfold uniform_row
  rw [min?_map hm, max?_map hm]
  cases x.min? with
  | none => rfl
  | some low =>
    cases x.max? with
    | none => rfl
    | some high =>
      simp only [Option.map_some, Option.bind_eq_bind, Option.bind_some]
      have e : ((List.range (n + 1)).map fun k : Nat => f low + (k : P) * (f high - f low) / (n : P)) =
          ((List.range (n + 1)).map fun k : Nat => low + (k : P) * (high - low) / (n : P)).map f := by
        rw [List.map_map]
        refine List.map_congr_left fun k _ => ?_
        simp only [Function.comp, hf]
        ring
      rw [e, ← List.map_drop, ← List.map_dropLast, List.length_map]
      simp

end

/-! ### All the predictors -/

theorem list_map_mapIdx {α β γ : Type} (u : Nat → α → β) (v : β → γ) (l : List α) :
    (l.mapIdx u).map v = l.mapIdx fun j a => v (u j a) := by
  apply List.ext_getElem
  · simp
  · intro j h1 h2
    simp

theorem list_mapIdx_map {α β γ : Type} (u : α → β) (v : Nat → β → γ) (l : List α) :
    (l.map u).mapIdx v = l.mapIdx fun j a => v j (u a) := by
  apply List.ext_getElem
  · simp
  · intro j h1 h2
    simp

section
variable {F P : Type} [Field P] [LinearOrder P] {lib : Lib F P} {φ : Nat → F → F} {f : Nat → P → P}

omit [Field P] [LinearOrder P] in
theorem exact_matrix_map (hφ : ∀ j v, lib.exact (φ j v) = f j (lib.exact v)) (x : List (List F)) :
    exact_matrix lib (x.mapIdx fun j row => row.map (φ j)) =
      (exact_matrix lib x).mapIdx fun j row => row.map (WithTop.map (f j)) := by
  unfold exact_matrix
  rw [list_map_mapIdx, list_mapIdx_map]
  congr 1
  funext j row
  simp only [Function.comp_def, List.map_map, hφ, WithTop.map_coe]

/-- the cutpoints separate the values of the predictors `x` in the same way before and after the transformation -/
def SplitsRel (lib : Lib F P) (f : Nat → P → P) (x : List (List F)) (sp sp' : Splits P) : Prop :=
  sp'.max_split = sp.max_split ∧ sp'.bits = sp.bits ∧ sp'.splits.length = sp.splits.length ∧
  ∀ (j : Nat) row r r', (exact_matrix lib x)[j]? = some row → sp.splits[j]? = some r → sp'.splits[j]? = some r' →
    List.Forall₂ (SameSide (WithTop.map (f j)) row) r r'

theorem splits_monotone [IsStrictOrderedRing P] (hφ : ∀ j v, lib.exact (φ j v) = f j (lib.exact v))
    (hf : ∀ j, StrictMono (f j)) (x : List (List F)) (n numcut : Nat) {sp sp' : Splits P}
    (h : determine_splits lib x n true numcut = some sp)
    (h' : determine_splits lib (x.mapIdx fun j row => row.map (φ j)) n true numcut = some sp') :
    SplitsRel lib f x sp sp' := by
  unfold determine_splits at h h'
  simp only [if_true, Option.some.injEq] at h h'
  subst h h'
  rw [exact_matrix_map hφ]
  unfold quantilized_splits_from_matrix
  simp only [List.unzip_fst, List.unzip_snd, list_map_mapIdx, List.map_map]
  have key : ∀ j row, _ := fun j row => quantilized_row_rel (f := f j) (R := SameSide (WithTop.map (f j)) row)
    lib.fl row (((min (numcut + 1) n : Nat) : Int) - 1) (hf j) (sameSide_top row) (midpoints_sameSide (hf j) row)
  refine ⟨?_, rfl, by simp, ?_⟩
  · apply List.ext_getElem
    · simp
    · intro j h1 h2
      simp only [List.getElem_mapIdx, List.getElem_map, Function.comp]
      exact (key j _).2
  · intro j row r r' hrow hr hr'
    simp only [List.getElem?_mapIdx, List.getElem?_map, hrow, Option.map_some, Option.some.injEq] at hr hr'
    subst hr hr'
    exact (key j row).1

/-- the cutpoints after an increasing affine transformation -/
def mapSplits (f : Nat → P → P) (sp : Splits P) : Splits P :=
  { sp with splits := sp.splits.mapIdx fun j r => r.map (WithTop.map (f j)) }

omit [Field P] [LinearOrder P] in
theorem forall₂_eq_map {g : WithTop P → WithTop P} : ∀ {l l' : List (WithTop P)},
    List.Forall₂ (fun s s' => s' = g s) l l' → l' = l.map g
  | _, _, .nil => rfl
  | _, _, .cons h t => by rw [List.map_cons, h, forall₂_eq_map t]

theorem mapM_mapIdx {α β : Type} (u : α → Option β) (g : Nat → α → α) (k : Nat → β → β)
    (h : ∀ j a, u (g j a) = (u a).map (k j)) (x : List α) :
    (x.mapIdx g).mapM u = (x.mapM u).map fun l => l.mapIdx k := by
  induction x generalizing g k with
  | nil => rfl
  | cons a x ih =>
    rw [List.mapIdx_cons, List.mapM_cons, List.mapM_cons, h 0, ih (fun i => g (i + 1)) (fun i => k (i + 1))
      (fun j a => h (j + 1) a)]
    cases u a with
    | none => rfl
    | some b =>
      cases x.mapM u with
      | none => rfl
      | some l => simp

theorem splits_affine [NeZero (2 : P)] {c d : Nat → P} (hφ : ∀ j v, lib.exact (φ j v) = f j (lib.exact v))
    (hf : ∀ j v, f j v = c j * v + d j) (hm : ∀ j, StrictMono (f j)) (x : List (List F)) (n numcut : Nat)
    (usequants : Bool) :
    determine_splits lib (x.mapIdx fun j row => row.map (φ j)) n usequants numcut =
      (determine_splits lib x n usequants numcut).map (mapSplits f) := by
  unfold determine_splits
  cases usequants with
  | true =>
    simp only [if_true, Option.map_some, Option.some.injEq]
    rw [exact_matrix_map hφ]
    have key : ∀ j row, _ := fun j row => quantilized_row_rel (f := f j)
      (R := fun s s' => s' = WithTop.map (f j) s)
      lib.fl row (((min (numcut + 1) n : Nat) : Int) - 1) (hm j) rfl (midpoints_affine (hf j) _)
    simp only [quantilized_splits_from_matrix, List.unzip_fst, List.unzip_snd, list_map_mapIdx, List.map_map,
      mapSplits, Splits.mk.injEq, and_true]
    constructor
    · apply List.ext_getElem
      · simp
      · intro j h1 h2
        simp only [List.getElem_mapIdx, List.getElem_map, Function.comp]
        exact forall₂_eq_map (key j _).1
    · apply List.ext_getElem
      · simp
      · intro j h1 h2
        simp only [List.getElem_mapIdx, List.getElem_map, Function.comp]
        exact (key j _).2
  | false =>
    simp only [Bool.false_eq_true, if_false]
    have e : ((x.mapIdx fun j row => row.map (φ j)).map fun row => row.map lib.exact) =
        (x.map fun row => row.map lib.exact).mapIdx fun j row => row.map (f j) := by
      rw [list_map_mapIdx, list_mapIdx_map]
      congr 1
      funext j row
      simp only [Function.comp_def, List.map_map, hφ]
    unfold uniform_splits_from_matrix
    rw [e, mapM_mapIdx (fun x => uniform_row x (numcut + 1)) _ (fun j o => (o.1.map (f j), o.2))
      (fun j a => uniform_row_affine (hf j) (hm j) a _)]
    cases (x.map fun row => row.map lib.exact).mapM fun x => uniform_row x (numcut + 1) with
    | none => rfl
    | some l =>
      simp only [Option.map_some, Option.bind_eq_bind, Option.bind_some, Option.some.injEq, mapSplits,
        List.unzip_fst, List.unzip_snd, list_map_mapIdx, Splits.mk.injEq, and_true, List.map_map, list_mapIdx_map]
      constructor
      · congr 1
        funext j o
        simp only [Function.comp_def, List.map_map, WithTop.map_coe]
      · apply List.ext_getElem
        · simp
        · intro j h1 h2
          simp

theorem bin_predictors_rel (hφ : ∀ j v, lib.exact (φ j v) = f j (lib.exact v)) {x x' : Predictors F}
    {sp sp' : Splits P} (h : SplitsRel lib f x.x sp sp') (hx : ValuesIn x x') :
    gbart_bin_predictors lib (mapPredictors φ x').x sp'.splits = gbart_bin_predictors lib x'.x sp.splits := by
  obtain ⟨-, -, hl, h⟩ := h
  unfold gbart_bin_predictors bin_predictors mapPredictors
  rw [exact_matrix_map hφ]
  apply List.ext_getElem
  · simp [hl]
  · intro j h1 h2
    simp only [List.length_zipWith, List.length_mapIdx, exact_matrix, List.length_map, lt_inf_iff] at h1
    simp only [List.getElem_zipWith, List.getElem_mapIdx]
    obtain ⟨row, e, hr⟩ := hx j _ (List.getElem?_eq_getElem h1.1)
    refine bin_row_sameSide (h j (row.map fun v => ((lib.exact v : P) : WithTop P)) _ _ ?_
      (List.getElem?_eq_getElem _) (List.getElem?_eq_getElem _)) ?_
    · simp only [exact_matrix, List.getElem?_map, e, Option.map_some]
    · intro v hv
      simp only [exact_matrix, List.getElem_map, List.mem_map] at hv ⊢
      obtain ⟨w, hw, rfl⟩ := hv
      exact ⟨w, hr w hw, rfl⟩

theorem bin_predictors_affine (hφ : ∀ j v, lib.exact (φ j v) = f j (lib.exact v)) (hm : ∀ j, StrictMono (f j))
    (x : Predictors F) (sp : Splits P) :
    gbart_bin_predictors lib (mapPredictors φ x).x (mapSplits f sp).splits =
      gbart_bin_predictors lib x.x sp.splits := by
  unfold gbart_bin_predictors bin_predictors mapPredictors mapSplits
  rw [exact_matrix_map hφ]
  apply List.ext_getElem
  · simp
  · intro j h1 h2
    simp only [List.getElem_zipWith, List.getElem_mapIdx]
    refine bin_row_sameSide (x := (exact_matrix lib x.x)[j]'(by simp at h1; exact h1.1)) ?_ fun v hv => hv
    rw [List.forall₂_map_right_iff]
    exact List.forall₂_same.2 fun s _ => sameSide_map (hm j) _ s

end

/-! ### Settings -/

section
variable {P : Type} (lib : Lib ℝ P)

open Finset in
theorem lstsq_scale (hl : LawfulLstsq lib.lstsq) {n p : Nat} {A A' : List (List ℝ)} {b : List ℝ} {c : Nat → ℝ}
    (hc : ∀ j, c j ≠ 0) (hA : A.length = n) (hA' : A'.length = n) (hb : b.length = n)
    (hr : ∀ row ∈ A, row.length = p) (hr' : ∀ row ∈ A', row.length = p)
    (h : ∀ i j, i < n → j < p → entry A' i j = entry A i j * c j) :
    lib.lstsq A' b = lib.lstsq A b := by
  obtain ⟨h1, r1⟩ := hl n p A b hA hb hr
  obtain ⟨h2, r2⟩ := hl n p A' b hA' hb hr'
  have hset : (Set.range fun β => residualSS n p (entry A') (fun i => b.getD i 0) β) =
      Set.range fun β => residualSS n p (entry A) (fun i => b.getD i 0) β := by
    have e : ∀ β, residualSS n p (entry A') (fun i => b.getD i 0) β =
        residualSS n p (entry A) (fun i => b.getD i 0) fun j => c j * β j := by
      intro β
      unfold residualSS
      refine sum_congr rfl fun i hi => ?_
      congr 2
      refine sum_congr rfl fun j hj => ?_
      rw [h i j (mem_range.1 hi) (mem_range.1 hj), mul_assoc]
    ext v
    constructor
    · rintro ⟨β, rfl⟩
      exact ⟨_, (e β).symm⟩
    · rintro ⟨β, rfl⟩
      refine ⟨fun j => β j / c j, ?_⟩
      dsimp only
      rw [e]
      congr 1
      funext j
      field_simp [hc j]
  rw [hset] at h2
  refine Prod.ext (h2.unique h1) ?_
  rw [r1, r2]
  have e : (Matrix.of fun (i : Fin n) (j : Fin p) => entry A' i j) =
      (Matrix.of fun (i : Fin n) (j : Fin p) => entry A i j) * Matrix.diagonal fun j : Fin p => c j := by
    ext i j
    rw [Matrix.mul_diagonal]
    exact h i j i.2 j.2
  rw [e, Matrix.rank_mul_eq_left_of_isUnit_det]
  rw [Matrix.det_diagonal, isUnit_iff_ne_zero]
  exact Finset.prod_ne_zero_iff.2 fun j _ => hc j

theorem sigest2_predictors (hl : LawfulLstsq lib.lstsq) {c d : Nat → ℝ} (hc : ∀ j, c j ≠ 0)
    (x : List (List ℝ)) {y : List ℝ} (hx : ∀ row ∈ x, row.length = y.length) (sigest : Option ℝ) (offset : ℝ) :
    process_sigest2 lib (x.mapIdx fun j row => row.map fun v => c j * v + d j) y sigest offset =
      process_sigest2 lib x y sigest offset := by
  unfold process_sigest2
  cases sigest with
  | some v => rfl
  | none =>
    simp only [List.length_mapIdx]
    split
    · rfl
    next hn =>
    split
    · rfl
    obtain ⟨h1, h2⟩ := center_rows x y.length
    obtain ⟨h1', h2'⟩ := center_rows (x.mapIdx fun j row => row.map fun v => c j * v + d j) y.length
    rw [List.length_mapIdx] at h2'
    have key : ∀ b : List ℝ, b.length = y.length →
        lib.lstsq (center_predictors (x.mapIdx fun j row => row.map fun v => c j * v + d j) y.length) b =
          lib.lstsq (center_predictors x y.length) b := fun b hb =>
      lstsq_scale lib hl (p := x.length) hc h1 h1' hb h2 h2' ?_
    · exact congrArg (fun r : ℝ × Nat => r.1 / ((y.length - r.2 : Nat) : ℝ))
        (key (y.map fun v => v - mean y) (by simp))
    intro i j hi hj
    unfold entry center_predictors
    rw [getD_vmap hi, getD_vmap hi, List.getD_eq_getElem _ _ (by simpa using hj),
      List.getD_eq_getElem _ _ (by simpa using hj)]
    simp only [List.getElem_map, List.getElem_mapIdx]
    have hlen := hx _ (List.getElem_mem hj)
    rw [mean_affine (by omega), List.getD_eq_getElem _ _ (by simp; omega), List.getD_eq_getElem _ _ (by omega)]
    simp only [List.getElem_map]
    ring

end

end Bartz
