import Verif.Lemmas.Relabel
import Verif.Lemmas.GbartProper
/-! # Reordering of the predictors in `gbart` -/

set_option autoImplicit false

namespace Bartz
open Jax Spec

section
variable {σ : List Nat} {p : Nat}

theorem mapM_getD {α β : Type} [Inhabited α] [Inhabited β] {f : α → Option β} : ∀ {l : List α} {m : List β},
    l.mapM f = some m → l.length = m.length ∧ ∀ i, i < l.length → f (l.getD i default) = some (m.getD i default)
  | [], m, h => by
    simp only [List.mapM_nil, Option.pure_def, Option.some.injEq] at h
    subst h
    simp
  | a :: l, m, h => by
    rw [List.mapM_cons] at h
    simp only [Option.bind_eq_bind, Option.bind_eq_some_iff, Option.pure_def, Option.some.injEq] at h
    obtain ⟨b, hb, m', hm', rfl⟩ := h
    obtain ⟨h1, h2⟩ := mapM_getD hm'
    refine ⟨by simp [h1], fun i hi => ?_⟩
    cases i with
    | zero => simpa using hb
    | succ i => simpa using h2 i (by simpa using hi)

theorem mapM_of_forall {α β : Type} {f : α → Option β} {g : α → β} : ∀ {l : List α}, (∀ a ∈ l, f a = some (g a)) →
    l.mapM f = some (l.map g)
  | [], _ => rfl
  | a :: l, h => by
    rw [List.mapM_cons, h a (by simp), mapM_of_forall fun b hb => h b (by simp [hb])]
    rfl

theorem mapM_reorder {α β : Type} [Inhabited α] [Inhabited β] (hσ : σ.Perm (List.range p)) {f : α → Option β} {l : List α}
    {m : List β} (hl : l.length = p) (h : l.mapM f = some m) : (reorder σ l).mapM f = some (reorder σ m) := by
  obtain ⟨_, h2⟩ := mapM_getD h
  unfold reorder
  rw [List.mapM_map]
  exact mapM_of_forall fun i hi => h2 i (by rw [hl]; exact mem_of_perm hσ hi)

end

section
variable {F P : Type} [Field P] [LinearOrder P] {lib : Lib F P} {σ : List Nat} {p : Nat}

/-- the cutpoints with the predictors in another order -/
def reorderSplits (σ : List Nat) (sp : Splits P) : Splits P :=
  { sp with splits := reorder σ sp.splits, max_split := reorder σ sp.max_split }

theorem splits_reorderPredictors (hσ : σ.Perm (List.range p)) {x : List (List F)} (hx : x.length = p)
    (m numcut : Nat) (usequants : Bool) {sp : Splits P} (hsp : determine_splits lib x m usequants numcut = some sp) :
    determine_splits lib (reorder σ x) m usequants numcut = some (reorderSplits σ sp) ∧
      sp.splits.length = p ∧ sp.max_split.length = p := by
  unfold determine_splits at hsp ⊢
  cases usequants with
  | true =>
    simp only [if_true, Option.some.injEq] at hsp ⊢
    subst hsp
    unfold quantilized_splits_from_matrix exact_matrix reorderSplits
    simp only [List.unzip_eq_map, List.map_map, List.length_map, hx, and_self, and_true]
    rw [← reorder_map hσ hx, ← reorder_map hσ hx]
  | false =>
    simp only [Bool.false_eq_true, if_false, Option.bind_eq_bind, Option.bind_eq_some_iff, Option.some.injEq] at hsp ⊢
    obtain ⟨out, h1, rfl⟩ := hsp
    unfold uniform_splits_from_matrix at h1 ⊢
    rw [Option.map_eq_some_iff] at h1
    obtain ⟨l, hl, rfl⟩ := h1
    have hlen : l.length = p := by rw [mapM_length hl, List.length_map, hx]
    have h2 := mapM_reorder hσ (by simpa using hx) hl
    rw [← reorder_map hσ hx, h2]
    refine ⟨⟨_, rfl, ?_⟩, by simp [List.unzip_eq_map, hlen], by simp [List.unzip_eq_map, hlen]⟩
    unfold reorderSplits
    simp only [List.unzip_eq_map, List.map_map]
    rw [← reorder_map hσ hlen, ← reorder_map hσ hlen]

omit [Field P] in
theorem bins_reorderPredictors (hσ : σ.Perm (List.range p)) {x : List (List F)} (hx : x.length = p)
    {splits : List (List (WithTop P))} (hs : splits.length = p) :
    gbart_bin_predictors lib (reorder σ x) (reorder σ splits) = reorder σ (gbart_bin_predictors lib x splits) := by
  unfold gbart_bin_predictors bin_predictors exact_matrix
  rw [← reorder_map hσ hx, reorder_zipWith hσ (by simpa using hx) hs]

end

section
variable {K P : Type} {lib : Lib ℝ P} {σ : List Nat} {p : Nat}

theorem lstsq_reorderPredictors (hl : LawfulLstsq lib.lstsq) (hσ : σ.Perm (List.range p)) {n : Nat} {A A' : List (List ℝ)}
    {b : List ℝ} (hA : A.length = n) (hA' : A'.length = n) (hb : b.length = n)
    (hr : ∀ row ∈ A, row.length = p) (hr' : ∀ row ∈ A', row.length = p)
    (h : ∀ i j, i < n → j < p → entry A' i j = entry A i (σ.getD j 0)) :
    lib.lstsq A' b = lib.lstsq A b := by
  obtain ⟨h1, r1⟩ := hl n p A b hA hb hr
  obtain ⟨h2, r2⟩ := hl n p A' b hA' hb hr'
  have hs : σ.length = p := by simpa using hσ.length_eq
  have hnd : σ.Nodup := hσ.nodup_iff.2 List.nodup_range
  have hlt : ∀ i, i < p → σ.getD i 0 < p := fun i hi => by
    rw [List.getD_eq_getElem _ _ (by omega)]
    exact mem_of_perm hσ (List.getElem_mem _)
  have e : ∀ β, residualSS n p (entry A') (fun i => b.getD i 0) (fun j => β (σ.getD j 0)) =
      residualSS n p (entry A) (fun i => b.getD i 0) β := by
    intro β
    unfold residualSS
    refine Finset.sum_congr rfl fun i hi => ?_
    rw [← sum_range_reorder hσ fun j => entry A i j * β j]
    congr 2
    refine Finset.sum_congr rfl fun j hj => ?_
    rw [h i j (Finset.mem_range.1 hi) (Finset.mem_range.1 hj)]
  have e' : ∀ β, residualSS n p (entry A') (fun i => b.getD i 0) β =
      residualSS n p (entry A) (fun i => b.getD i 0) (fun j => β (σ.idxOf j)) := by
    intro β
    rw [← e]
    unfold residualSS
    refine Finset.sum_congr rfl fun i _ => ?_
    congr 2
    refine Finset.sum_congr rfl fun j hj => ?_
    have hj := Finset.mem_range.1 hj
    dsimp only
    rw [List.getD_eq_getElem _ _ (show j < σ.length by omega), hnd.idxOf_getElem]
  have hset : (Set.range fun β => residualSS n p (entry A') (fun i => b.getD i 0) β) =
      Set.range fun β => residualSS n p (entry A) (fun i => b.getD i 0) β := by
    ext r
    constructor
    · rintro ⟨β, rfl⟩
      exact ⟨_, (e' β).symm⟩
    · rintro ⟨β, rfl⟩
      exact ⟨_, e β⟩
  rw [hset] at h2
  refine Prod.ext (h2.unique h1) ?_
  rw [r1, r2]
  let f : Fin p → Fin p := fun i => ⟨σ.getD i 0, hlt i i.2⟩
  have hinj : Function.Injective f := by
    intro i j hij
    have hij : σ.getD i 0 = σ.getD j 0 := congrArg Fin.val hij
    rw [List.getD_eq_getElem _ _ (by omega), List.getD_eq_getElem _ _ (by omega)] at hij
    exact Fin.ext (hnd.getElem_inj_iff.1 hij)
  have hm : (Matrix.of fun (i : Fin n) (j : Fin p) => entry A' i j) =
      (Matrix.of fun (i : Fin n) (j : Fin p) => entry A i j).submatrix (Equiv.refl _)
        (Equiv.ofBijective f (Finite.injective_iff_bijective.1 hinj)) := by
    ext i j
    exact h i j i.2 j.2
  rw [hm, Matrix.rank_submatrix]

theorem sigest2_reorderPredictors (hl : LawfulLstsq lib.lstsq) (hσ : σ.Perm (List.range p)) {x : List (List ℝ)} {y : List ℝ}
    (hx : x.length = p) (sigest : Option ℝ) (offset : ℝ) :
    process_sigest2 lib (reorder σ x) y sigest offset = process_sigest2 lib x y sigest offset := by
  have hs : σ.length = p := by simpa using hσ.length_eq
  unfold process_sigest2
  cases sigest with
  | some s => rfl
  | none =>
    simp only [length_reorder, hs, hx]
    split
    · rfl
    split
    · rfl
    · obtain ⟨h1, h2⟩ := center_rows x y.length
      obtain ⟨h1', h2'⟩ := center_rows (reorder σ x) y.length
      rw [length_reorder, hs] at h2'
      rw [hx] at h2
      have key := lstsq_reorderPredictors hl hσ (A := center_predictors x y.length)
        (A' := center_predictors (reorder σ x) y.length) (b := y.map fun v => v - mean y) h1 h1' (by simp) h2 h2' ?_
      · exact congrArg (fun r : ℝ × Nat => r.1 / ((y.length - r.2 : Nat) : ℝ)) key
      · intro i j hi hj
        unfold entry center_predictors
        rw [getD_vmap hi, getD_vmap hi, ← reorder_map hσ hx]
        exact getD_reorder 0 0 hσ (by simpa using hx) hj

theorem settings_reorderPredictors (hl : LawfulLstsq lib.lstsq) {a : GbartArgs K ℝ}
    (hσ : σ.Perm (List.range a.x_train.x.length)) :
    gbart_settings lib (reorderGbart σ a) = gbart_settings lib a := by
  unfold gbart_settings process_noise_variance_settings
  simp only [reorderGbart, reorderMatrix]
  rw [sigest2_reorderPredictors hl hσ rfl]

theorem reorderGbart_valid {a : GbartArgs K ℝ} (h : ValidGbart lib a) (hσ : σ.Perm (List.range a.x_train.x.length)) :
    ValidGbart lib (reorderGbart σ a) where
  depth_ge := h.depth_ge
  depth_le := h.depth_le
  predictors_pos := by
    have := (reorder_perm hσ rfl).length_eq
    simp only [reorderGbart, reorderMatrix]
    rw [this]
    exact h.predictors_pos
  predictors_lt := by
    have := (reorder_perm hσ rfl).length_eq
    simp only [reorderGbart, reorderMatrix]
    rw [this]
    exact h.predictors_lt
  length := h.length
  row := fun row hr => h.row row ((reorder_perm hσ rfl).mem_iff.1 hr)
  datapoints := h.datapoints
  nonterminal_pos := h.nonterminal_pos
  x_test := by
    intro x hx
    simp only [reorderGbart, Option.map_eq_some_iff] at hx
    obtain ⟨x, hx, rfl⟩ := hx
    obtain ⟨h1, h2⟩ := h.x_test x hx
    exact ⟨by simp [reorderGbart, reorderMatrix, h1], by simp [reorderGbart, reorderMatrix]⟩
  numcut_lt := h.numcut_lt
  overflow := h.overflow

theorem reorderGbart_proper (hl : LawfulLstsq lib.lstsq) {a : GbartArgs K ℝ} (h : ProperGbart lib a)
    (hσ : σ.Perm (List.range a.x_train.x.length)) : ProperGbart lib (reorderGbart σ a) where
  trees := h.trees
  cuts := h.cuts
  predictors := fun hu hl row hr => h.predictors hu (by simpa [reorderGbart, reorderMatrix, hσ.length_eq] using hl) row
    ((reorder_perm hσ rfl).mem_iff.1 hr)
  nonterminal := h.nonterminal
  sigdf := h.sigdf
  scale := by rw [settings_reorderPredictors hl hσ]; exact h.scale
  lamda := by rw [settings_reorderPredictors hl hσ]; exact h.lamda
  points := h.points

end

section
variable {K P : Type} [Field P] [LinearOrder P] {lib : Lib ℝ P} {σ : List Nat} {a : GbartArgs K ℝ} {sp : Splits P}

theorem init_args_reorderPredictors (hl : LawfulLstsq lib.lstsq) (hσ : σ.Perm (List.range a.x_train.x.length))
    (hsp : determine_splits lib a.x_train.x a.x_train.n a.usequants a.numcut = some sp) :
    gbart_init_args lib (reorderGbart σ a) (reorderSplits σ sp) = reorderPredictors σ (gbart_init_args lib a sp) := by
  obtain ⟨-, h1, h2⟩ := splits_reorderPredictors hσ rfl _ _ _ hsp
  unfold gbart_init_args
  rw [settings_reorderPredictors hl hσ]
  have e := bins_reorderPredictors (lib := lib) hσ rfl h1
  show setup_args lib (gbart_bin_predictors lib (reorder σ a.x_train.x) (reorder σ sp.splits)) _ _ _ _ _ _ _ _ _ _ = _
  rw [e]
  rfl

end
end Bartz
