import Verif.Lemmas.Reorder
import Verif.Lemmas.PredictorMap
import Mathlib.LinearAlgebra.Matrix.Rank
/-! # Reordering of the datapoints in `gbart` -/

set_option autoImplicit false

namespace Bartz
open Jax Spec

theorem getD_reorder {α : Type} [Inhabited α] {σ : List Nat} {l : List α} {n i : Nat} (d d' : α)
    (hσ : σ.Perm (List.range n)) (hl : l.length = n) (hi : i < n) :
    (reorder σ l).getD i d = l.getD (σ.getD i 0) d' := by
  have hs : σ.length = n := by simpa using hσ.length_eq
  have hlt := mem_of_perm hσ (List.getElem_mem (l := σ) (n := i) (by omega))
  rw [List.getD_eq_getElem _ _ (by simp; omega), List.getD_eq_getElem σ _ (by omega),
    List.getD_eq_getElem l _ (by omega)]
  simp only [reorder, List.getElem_map]
  rw [List.getD_eq_getElem l _ (by omega)]

/-! ### Splits -/

section
variable {α : Type} [LinearOrder α]

theorem sort_of_perm {x x' : List α} (h : x'.Perm x) : jnp_sort x' = jnp_sort x := by
  refine ((sort_perm x').trans (h.trans (sort_perm x).symm)).eq_of_pairwise (le := (· ≤ ·)) ?_
    (sort_sorted _) (sort_sorted _)
  intro a b _ _ h1 h2
  exact le_antisymm h1 h2

theorem unique_of_perm {x x' : List α} (h : x'.Perm x) (size : Nat) (fill : α) :
    unique x' size fill = unique x size fill := by
  obtain ⟨u, hu, e⟩ := unique_spec x size fill
  obtain ⟨u', hu', e'⟩ := unique_spec x' size fill
  rw [sort_of_perm h] at hu'
  rw [e, e', hu'.unique hu]

theorem quantilized_row_of_perm (fl : ℚ → ℚ) (t : Dtype α) {x x' : List α} (h : x'.Perm x) (m : Int) :
    quantilized_row fl t x' m = quantilized_row fl t x m := by
  unfold quantilized_row
  dsimp only
  rw [unique_of_perm h, h.length_eq]

theorem min?_of_perm {x x' : List α} (h : x'.Perm x) : x'.min? = x.min? := by
  induction h with
  | nil => rfl
  | cons a _ ih => rw [List.min?_cons, List.min?_cons, ih]
  | swap a b l =>
    rw [List.min?_cons, List.min?_cons, List.min?_cons, List.min?_cons]
    cases l.min? with
    | none => simp [min_comm]
    | some c => simp [min_left_comm]
  | trans _ _ h1 h2 => rw [h1, h2]

theorem max?_of_perm {x x' : List α} (h : x'.Perm x) : x'.max? = x.max? := by
  induction h with
  | nil => rfl
  | cons a _ ih => rw [List.max?_cons, List.max?_cons, ih]
  | swap a b l =>
    rw [List.max?_cons, List.max?_cons, List.max?_cons, List.max?_cons]
    cases l.max? with
    | none => simp [max_comm]
    | some c => simp [max_left_comm]
  | trans _ _ h1 h2 => rw [h1, h2]

end

theorem mapM_congr_mem {α β : Type} {f g : α → Option β} : ∀ {l : List α}, (∀ a ∈ l, f a = g a) →
    l.mapM f = l.mapM g
  | [], _ => rfl
  | a :: l, h => by
    rw [List.mapM_cons, List.mapM_cons, h a (by simp), mapM_congr_mem fun b hb => h b (by simp [hb])]

section
variable {F P : Type} [Inhabited F] [Field P] [LinearOrder P] {lib : Lib F P} {σ : List Nat} {n : Nat}

theorem splits_reorder (hσ : σ.Perm (List.range n)) {x : List (List F)} (hx : ∀ row ∈ x, row.length = n)
    (m numcut : Nat) (usequants : Bool) :
    determine_splits lib (x.map (reorder σ)) m usequants numcut = determine_splits lib x m usequants numcut := by
  unfold determine_splits
  cases usequants with
  | true =>
    simp only [if_true]
    have e : quantilized_splits_from_matrix lib.fl (float_dtype P) (exact_matrix lib (x.map (reorder σ))) m (numcut + 1) =
        quantilized_splits_from_matrix lib.fl (float_dtype P) (exact_matrix lib x) m (numcut + 1) := by
      unfold quantilized_splits_from_matrix exact_matrix
      simp only [List.map_map]
      congr 1
      refine List.map_congr_left fun row hr => ?_
      exact quantilized_row_of_perm _ _ ((reorder_perm hσ (hx row hr)).map _) _
    rw [e]
  | false =>
    simp only [Bool.false_eq_true, if_false]
    have e : uniform_splits_from_matrix ((x.map (reorder σ)).map fun row => row.map lib.exact) (numcut + 1) =
        uniform_splits_from_matrix (x.map fun row => row.map lib.exact) (numcut + 1) := by
      unfold uniform_splits_from_matrix
      rw [List.map_map, List.mapM_map, List.mapM_map]
      congr 1
      refine mapM_congr_mem fun row hr => ?_
      have hp := (reorder_perm hσ (hx row hr)).map lib.exact
      simp only [Function.comp]
      unfold uniform_row
      rw [min?_of_perm hp, max?_of_perm hp]
    rw [e]

theorem bins_reorder (hσ : σ.Perm (List.range n)) {x : List (List F)} (hx : ∀ row ∈ x, row.length = n)
    (splits : List (List (WithTop P))) :
    gbart_bin_predictors lib (x.map (reorder σ)) splits = (gbart_bin_predictors lib x splits).map (reorder σ) := by
  unfold gbart_bin_predictors bin_predictors exact_matrix
  apply List.ext_getElem
  · simp
  · intro j h1 h2
    simp only [List.length_map, List.length_zipWith, lt_inf_iff] at h2
    simp only [List.getElem_zipWith, List.getElem_map]
    have hr := hx _ (List.getElem_mem h2.1)
    unfold bin_row
    simp only [List.map_map]
    exact (reorder_map hσ hr _).symm

end

/-! ### Settings -/

section
variable {K P : Type} {lib : Lib ℝ P} {σ : List Nat} {n : Nat}

theorem mean_reorder (hσ : σ.Perm (List.range n)) {y : List ℝ} (hy : y.length = n) :
    mean (reorder σ y) = mean y := by
  unfold mean
  rw [jaxSum_reorder hσ hy, (reorder_perm hσ hy).length_eq]

theorem var_reorder (hσ : σ.Perm (List.range n)) {y : List ℝ} (hy : y.length = n) :
    Jax.var (reorder σ y) = Jax.var y := by
  unfold Jax.var
  dsimp only
  rw [mean_reorder hσ hy, ← reorder_map hσ hy, mean_reorder hσ (by simpa using hy)]

theorem scale_reorder (hσ : σ.Perm (List.range n)) {y : List ℝ} (hy : y.length = n) (k : ℝ) :
    process_scale_settings (reorder σ y) k = process_scale_settings y k := by
  have hp := reorder_perm hσ hy
  unfold process_scale_settings
  rw [hp.length_eq]
  split
  · rfl
  · rename_i h
    have h1 : y ≠ [] := by rintro rfl; simp at h
    have h2 : reorder σ y ≠ [] := fun h => h1 (List.perm_nil.1 (h ▸ hp.symm))
    have e : {v | v ∈ reorder σ y} = {v | v ∈ y} := Set.ext fun v => hp.mem_iff
    have e1 := maxF_spec h2
    have e2 := minF_spec h2
    rw [e] at e1 e2
    rw [e1.unique (maxF_spec h1), e2.unique (minF_spec h1)]

theorem sum_range_reorder (hσ : σ.Perm (List.range n)) (f : Nat → ℝ) :
    ∑ i ∈ Finset.range n, f (σ.getD i 0) = ∑ i ∈ Finset.range n, f i := by
  have hs : σ.length = n := by simpa using hσ.length_eq
  have h1 := list_sum_eq (σ.map f)
  have h2 := list_sum_eq ((List.range n).map f)
  rw [(hσ.map f).sum_eq] at h1
  rw [h1, List.length_map, hs, List.length_map, List.length_range] at h2
  calc _ = ∑ i ∈ Finset.range n, (σ.map f).getD i 0 := ?_
    _ = _ := h2
    _ = _ := ?_
  · refine Finset.sum_congr rfl fun i hi => ?_
    rw [Finset.mem_range] at hi
    rw [List.getD_eq_getElem _ _ (by omega), List.getD_eq_getElem _ _ (by simp; omega), List.getElem_map]
  · refine Finset.sum_congr rfl fun i hi => ?_
    rw [Finset.mem_range] at hi
    rw [List.getD_eq_getElem _ _ (by simp; omega), List.getElem_map, List.getElem_range]

theorem lstsq_reorder (hl : LawfulLstsq lib.lstsq) (hσ : σ.Perm (List.range n)) {p : Nat} {A A' : List (List ℝ)}
    {b b' : List ℝ} (hA : A.length = n) (hA' : A'.length = n) (hb : b.length = n) (hb' : b'.length = n)
    (hr : ∀ row ∈ A, row.length = p) (hr' : ∀ row ∈ A', row.length = p)
    (h : ∀ i j, i < n → j < p → entry A' i j = entry A (σ.getD i 0) j)
    (hbb : ∀ i, i < n → b'.getD i 0 = b.getD (σ.getD i 0) 0) :
    lib.lstsq A' b' = lib.lstsq A b := by
  obtain ⟨h1, r1⟩ := hl n p A b hA hb hr
  obtain ⟨h2, r2⟩ := hl n p A' b' hA' hb' hr'
  have hs : σ.length = n := by simpa using hσ.length_eq
  have e : ∀ β, residualSS n p (entry A') (fun i => b'.getD i 0) β =
      residualSS n p (entry A) (fun i => b.getD i 0) β := by
    intro β
    unfold residualSS
    rw [← sum_range_reorder hσ fun i => ((b.getD i 0) - ∑ j ∈ Finset.range p, entry A i j * β j) ^ 2]
    refine Finset.sum_congr rfl fun i hi => ?_
    dsimp only
    rw [hbb i (Finset.mem_range.1 hi)]
    congr 2
    refine Finset.sum_congr rfl fun j hj => ?_
    rw [h i j (Finset.mem_range.1 hi) (Finset.mem_range.1 hj)]
  simp only [e] at h2
  refine Prod.ext (h2.unique h1) ?_
  rw [r1, r2]
  have hlt : ∀ i, i < n → σ.getD i 0 < n := fun i hi => by
    rw [List.getD_eq_getElem _ _ (by omega)]
    exact mem_of_perm hσ (List.getElem_mem _)
  let f : Fin n → Fin n := fun i => ⟨σ.getD i 0, hlt i i.2⟩
  have hinj : Function.Injective f := by
    intro i j hij
    have hij : σ.getD i 0 = σ.getD j 0 := congrArg Fin.val hij
    rw [List.getD_eq_getElem _ _ (by omega), List.getD_eq_getElem _ _ (by omega)] at hij
    exact Fin.ext ((hσ.nodup_iff.2 List.nodup_range).getElem_inj_iff.1 hij)
  have hm : (Matrix.of fun (i : Fin n) (j : Fin p) => entry A' i j) =
      (Matrix.of fun (i : Fin n) (j : Fin p) => entry A i j).submatrix
        (Equiv.ofBijective f (Finite.injective_iff_bijective.1 hinj)) (Equiv.refl _) := by
    ext i j
    exact h i j i.2 j.2
  rw [hm, Matrix.rank_submatrix]

theorem sigest2_reorder (hl : LawfulLstsq lib.lstsq) (hσ : σ.Perm (List.range n)) {x : List (List ℝ)} {y : List ℝ}
    (hy : y.length = n) (hx : ∀ row ∈ x, row.length = n) (sigest : Option ℝ) (offset : ℝ) :
    process_sigest2 lib (x.map (reorder σ)) (reorder σ y) sigest offset = process_sigest2 lib x y sigest offset := by
  unfold process_sigest2
  have hly := (reorder_perm hσ hy).length_eq
  cases sigest with
  | some s => rfl
  | none =>
    simp only [hly, List.length_map]
    split
    · rfl
    split
    · rw [← reorder_map hσ hy, var_reorder hσ (by simpa using hy)]
    · obtain ⟨h1, h2⟩ := center_rows x y.length
      obtain ⟨h1', h2'⟩ := center_rows (x.map (reorder σ)) y.length
      simp only [List.length_map] at h2'
      have key := lstsq_reorder hl hσ (p := x.length) (A := center_predictors x y.length)
        (A' := center_predictors (x.map (reorder σ)) y.length)
        (b := y.map fun v => v - mean y) (b' := (reorder σ y).map fun v => v - mean (reorder σ y))
        (h1.trans hy) (h1'.trans hy) (by simpa using hy) (by simpa [hσ.length_eq] using hy) h2 h2' ?_ ?_
      · exact congrArg (fun r : ℝ × Nat => r.1 / ((y.length - r.2 : Nat) : ℝ)) key
      · intro i j hi hj
        have hs : σ.length = n := by simpa using hσ.length_eq
        have hlt : σ.getD i 0 < n := by
          rw [List.getD_eq_getElem _ _ (by omega)]
          exact mem_of_perm hσ (List.getElem_mem _)
        unfold entry center_predictors
        rw [getD_vmap (by omega), getD_vmap (by omega), List.getD_eq_getElem _ _ (by simpa using hj),
          List.getD_eq_getElem _ _ (by simpa using hj)]
        simp only [List.getElem_map]
        have hlen := hx _ (List.getElem_mem hj)
        rw [mean_reorder hσ hlen, getD_reorder _ _ hσ hlen hi]
      · intro i hi
        rw [mean_reorder hσ hy, ← reorder_map hσ hy, getD_reorder _ _ hσ (by simpa using hy) hi]

theorem settings_reorder (hl : LawfulLstsq lib.lstsq) {a : GbartArgs K ℝ}
    (hσ : σ.Perm (List.range a.y_train.length)) (hx : ∀ row ∈ a.x_train.x, row.length = a.y_train.length) :
    gbart_settings lib (reorderArgs σ a) = gbart_settings lib a := by
  have e1 : process_offset_settings (reorder σ a.y_train) a.offset = process_offset_settings a.y_train a.offset := by
    unfold process_offset_settings
    rw [(reorder_perm hσ rfl).length_eq, mean_reorder hσ rfl]
  unfold gbart_settings process_noise_variance_settings
  simp only [reorderArgs]
  rw [e1, scale_reorder hσ rfl, sigest2_reorder hl hσ rfl hx]

end

/-! ### The Markov chain -/

theorem init_reorder {F : Type} [Inhabited F] [Field F] [FltFun F] {σ : List Nat} {a : InitArgs F}
    (hσ : σ.Perm (List.range a.y.length)) :
    init { a with y := reorder σ a.y, X := a.X.map (reorder σ) } = reorderState σ (init a) := by
  have hs : σ.length = a.y.length := by simpa using hσ.length_eq
  unfold init reorderState
  simp only [length_reorder, hs, List.length_map, map_vmap, reorder_replicate hσ]

section
variable {K P : Type} [KeyLike K] [Field P] [LinearOrder P] {lib : Lib ℝ P} {rng : Rng K ℝ} {a : GbartArgs K ℝ}
  {σ : List Nat} {sp : Splits P}

omit [LinearOrder P] [Field P] [KeyLike K] in
theorem reorderArgs_valid (h : ValidGbart lib a) (hσ : σ.Perm (List.range a.y_train.length)) :
    ValidGbart lib (reorderArgs σ a) where
  depth_ge := h.depth_ge
  depth_le := h.depth_le
  predictors_pos := by simpa [reorderArgs] using h.predictors_pos
  predictors_lt := by simpa [reorderArgs] using h.predictors_lt
  length := by
    simp only [reorderArgs]
    rw [(reorder_perm hσ rfl).length_eq]
    exact h.length
  row := by
    intro row hr
    simp only [reorderArgs, List.mem_map] at hr
    obtain ⟨r, hr, rfl⟩ := hr
    simp [reorderArgs]
  datapoints := by
    simp only [reorderArgs]
    rw [(reorder_perm hσ rfl).length_eq]
    exact h.datapoints
  nonterminal_pos := h.nonterminal_pos
  x_test := by
    intro x hx
    obtain ⟨h1, h2⟩ := h.x_test x hx
    exact ⟨h1, by simpa [reorderArgs] using h2⟩
  numcut_lt := h.numcut_lt
  overflow := by
    simp only [reorderArgs]
    rw [(reorder_perm hσ rfl).length_eq]
    exact h.overflow

theorem gbartState_reorder (hl : LawfulLstsq lib.lstsq) (h : ValidGbart lib a) (hrng : LawfulRng rng)
    (hσ : σ.Perm (List.range a.y_train.length))
    (hsp : determine_splits lib a.x_train.x a.x_train.n a.usequants a.numcut = some sp) (t : Nat) :
    gbartState lib rng (reorderArgs σ a) sp t = reorderState σ (gbartState lib rng a sp t) := by
  have hv := gbart_args_valid h hsp
  have hlen : (gbart_init_args lib a sp).y.length = a.y_train.length := by
    simp [gbart_init_args, setup_args, transform_input]
  have hσ' : σ.Perm (List.range (gbart_init_args lib a sp).y.length) := by rwa [hlen]
  have hinit : init (gbart_init_args lib (reorderArgs σ a) sp) = reorderState σ (init (gbart_init_args lib a sp)) := by
    rw [← init_reorder hσ']
    congr 1
    unfold gbart_init_args
    rw [settings_reorder hl hσ h.row]
    simp only [reorderArgs, setup_args]
    rw [bins_reorder hσ h.row]
    simp only [transform_input]
    rw [reorder_map hσ rfl]
  induction t with
  | zero => exact hinit
  | succ t ih =>
    have hinv := reachable_inv hv (gbartState_reachable (lib := lib) hrng a sp t)
    have hs : ∀ a' : GbartArgs K ℝ, a'.key = a.key → gbartState lib rng a' sp (t + 1) =
        step rng (gbartState lib rng a' sp t) (KeyLike.split (chainKey a.key t) 2 1) := by
      intro a' h
      rw [← h]
      rfl
    rw [hs (reorderArgs σ a) rfl, hs a rfl, ih, step_reorder hσ' hv hinv hrng]

end

end Bartz
