import Verif.Lemmas.Reflect
import Verif.Lemmas.PredictorMap
/-! # Change of sign of the response in `gbart` -/

set_option autoImplicit false

namespace Bartz
open Jax Spec

/-! ### Settings -/

theorem sum_neg (y : List ℝ) : Jax.sum (y.map (-·)) = -Jax.sum y := by
  rw [jaxSum_eq, jaxSum_eq]
  induction y with
  | nil => simp
  | cons v y ih => rw [List.map_cons, List.sum_cons, List.sum_cons, ih]; ring

theorem mean_neg (y : List ℝ) : Jax.mean (y.map (-·)) = -Jax.mean y := by
  unfold Jax.mean
  rw [sum_neg, List.length_map, neg_div]

theorem var_neg (y : List ℝ) : Jax.var (y.map (-·)) = Jax.var y := by
  unfold Jax.var
  dsimp only
  rw [mean_neg, List.map_map]
  congr 1
  refine List.map_congr_left fun v _ => ?_
  simp only [Function.comp]
  ring

theorem maxF_neg {y : List ℝ} (hy : y ≠ []) : Jax.maxF (y.map (-·)) = -Jax.minF y := by
  have h1 := minF_spec hy
  have h2 := maxF_spec (y := y.map (-·)) (by simpa using hy)
  refine h2.unique ⟨List.mem_map.2 ⟨_, h1.1, rfl⟩, ?_⟩
  rintro _ hv
  obtain ⟨v, hv', rfl⟩ := List.mem_map.1 hv
  exact neg_le_neg (h1.2 hv')

theorem minF_neg {y : List ℝ} (hy : y ≠ []) : Jax.minF (y.map (-·)) = -Jax.maxF y := by
  have h1 := maxF_spec hy
  have h2 := minF_spec (y := y.map (-·)) (by simpa using hy)
  refine h2.unique ⟨List.mem_map.2 ⟨_, h1.1, rfl⟩, ?_⟩
  rintro _ hv
  obtain ⟨v, hv', rfl⟩ := List.mem_map.1 hv
  exact neg_le_neg (h1.2 hv')

theorem scale_neg (y : List ℝ) (k : ℝ) : process_scale_settings (y.map (-·)) k = process_scale_settings y k := by
  unfold process_scale_settings
  rw [List.length_map]
  split
  · rfl
  · rename_i h
    have hy : y ≠ [] := by rintro rfl; simp at h
    rw [maxF_neg hy, minF_neg hy]
    ring

theorem offset_neg (y : List ℝ) (o : Option ℝ) :
    process_offset_settings (y.map (-·)) (o.map (-·)) = -process_offset_settings y o := by
  unfold process_offset_settings
  cases o with
  | some o => rfl
  | none =>
    simp only [Option.map_none, List.length_map, mean_neg]
    split
    · exact neg_zero.symm
    · rfl

section
variable {K P : Type} {lib : Lib ℝ P}

theorem lstsq_neg (hl : LawfulLstsq lib.lstsq) {n p : Nat} {A : List (List ℝ)} {b : List ℝ} (hA : A.length = n) (hb : b.length = n)
    (hr : ∀ row ∈ A, row.length = p) : lib.lstsq A (b.map (-·)) = lib.lstsq A b := by
  obtain ⟨h1, r1⟩ := hl n p A b hA hb hr
  obtain ⟨h2, r2⟩ := hl n p A (b.map (-·)) hA (by simpa using hb) hr
  have e : ∀ β, residualSS n p (entry A) (fun i => (b.map (-·)).getD i 0) β =
      residualSS n p (entry A) (fun i => b.getD i 0) fun j => -β j := by
    intro β
    unfold residualSS
    refine Finset.sum_congr rfl fun i hi => ?_
    have hi := Finset.mem_range.1 hi
    dsimp only
    rw [getD_map_real _ _ (by omega)]
    simp only [mul_neg, Finset.sum_neg_distrib]
    ring
  have hset : (Set.range fun β => residualSS n p (entry A) (fun i => (b.map (-·)).getD i 0) β) =
      Set.range fun β => residualSS n p (entry A) (fun i => b.getD i 0) β := by
    ext v
    constructor
    · rintro ⟨β, rfl⟩
      exact ⟨fun j => -β j, (e β).symm⟩
    · rintro ⟨β, rfl⟩
      refine ⟨fun j => -β j, ?_⟩
      dsimp only
      rw [e]
      simp only [neg_neg]
  rw [hset] at h2
  exact Prod.ext (h2.unique h1) (r2.trans r1.symm)

theorem sigest2_neg (hl : LawfulLstsq lib.lstsq) (x : List (List ℝ)) (y : List ℝ) (sigest : Option ℝ) (offset : ℝ) :
    process_sigest2 lib x (y.map (-·)) sigest (-offset) = process_sigest2 lib x y sigest offset := by
  unfold process_sigest2
  cases sigest with
  | some s => rfl
  | none =>
    simp only [List.length_map]
    have e : ∀ c : ℝ, (y.map (-·)).map (fun v => v - -c) = (y.map fun v => v - c).map (-·) := by
      intro c
      rw [List.map_map, List.map_map]
      refine List.map_congr_left fun v _ => ?_
      simp only [Function.comp]
      ring
    split
    · rfl
    split
    · rw [e, var_neg]
    · obtain ⟨h1, h2⟩ := center_rows x y.length
      rw [mean_neg, e]
      exact congrArg (fun r : ℝ × Nat => r.1 / ((y.length - r.2 : Nat) : ℝ)) (lstsq_neg hl h1 (List.length_map _) h2)

theorem settings_neg (hl : LawfulLstsq lib.lstsq) (a : GbartArgs K ℝ) :
    gbart_settings lib (reflectArgs a) = { gbart_settings lib a with offset := -(gbart_settings lib a).offset } := by
  unfold gbart_settings process_noise_variance_settings
  simp only [reflectArgs]
  rw [offset_neg, scale_neg, sigest2_neg hl]

end

/-! ### The Markov chain -/

theorem init_neg (a : InitArgs ℝ) : init { a with y := a.y.map (-·) } = reflectState (init a) := by
  have hf : ∀ n d, make_forest n d (0 : ℝ) = (make_forest n d (0 : ℝ)).map fun tree => tree.map (-·) := by
    intro n d
    unfold make_forest
    rw [map_vmap]
    refine vmap_congr fun t _ => ?_
    unfold make_tree
    rw [List.map_replicate, neg_zero]
  unfold init reflectState
  dsimp only
  rw [← hf, List.length_map]

theorem lawful_reflect {K : Type} {rng : Rng K ℝ} (h : LawfulRng rng) : LawfulRng (reflectRng rng) := by
  intro key
  obtain ⟨⟩ := h key
  constructor <;> assumption

section
variable {K P : Type} [KeyLike K] [Field P] [LinearOrder P] {lib : Lib ℝ P} {rng : Rng K ℝ} {a : GbartArgs K ℝ} {sp : Splits P}

omit [KeyLike K] [Field P] [LinearOrder P] in
theorem reflectArgs_valid (h : ValidGbart lib a) : ValidGbart lib (reflectArgs a) where
  depth_ge := h.depth_ge
  depth_le := h.depth_le
  predictors_pos := h.predictors_pos
  predictors_lt := h.predictors_lt
  length := by simpa [reflectArgs] using h.length
  row := by simpa [reflectArgs] using h.row
  datapoints := by simpa [reflectArgs] using h.datapoints
  nonterminal_pos := h.nonterminal_pos
  x_test := h.x_test
  numcut_lt := h.numcut_lt
  overflow := by simpa [reflectArgs] using h.overflow

omit [Field P] in
theorem gbartState_reflect (hl : LawfulLstsq lib.lstsq) (t : Nat) :
    gbartState lib (reflectRng rng) (reflectArgs a) sp t = reflectState (gbartState lib rng a sp t) := by
  have hinit : init (gbart_init_args lib (reflectArgs a) sp) = reflectState (init (gbart_init_args lib a sp)) := by
    rw [← init_neg]
    congr 1
    unfold gbart_init_args
    rw [settings_neg hl]
    simp only [reflectArgs, setup_args, transform_input, List.map_map]
    congr 1
    refine List.map_congr_left fun v _ => ?_
    simp only [Function.comp]
    ring
  induction t with
  | zero => exact hinit
  | succ t ih =>
    have hs : ∀ (rng : Rng K ℝ) (a' : GbartArgs K ℝ), a'.key = a.key → gbartState lib rng a' sp (t + 1) =
        step rng (gbartState lib rng a' sp t) (KeyLike.split (chainKey a.key t) 2 1) := by
      intro rng a' h
      rw [← h]
      rfl
    rw [hs _ (reflectArgs a) rfl, hs _ a rfl, ih, step_reflect]

end

/-! ### Predictions -/

theorem readTree_neg (leaf : List ℝ) (var split : List Nat) (x : List Nat) (levels i : Nat) :
    (readTree default (leaf.map (-·)) var split levels i).eval x = -(readTree default leaf var split levels i).eval x := by
  have hg : ∀ i, (leaf.map (-·)).getD i default = -leaf.getD i default := by
    intro i
    rw [List.getD_eq_getElem?_getD, List.getD_eq_getElem?_getD, List.getElem?_map]
    cases leaf[i]? with
    | some v => rfl
    | none => exact neg_zero.symm
  induction levels generalizing i with
  | zero => exact hg i
  | succ k ih =>
    unfold readTree
    split
    · exact hg i
    · unfold DTree.eval
      split
      · exact ih _
      · exact ih _

theorem forestAt_neg (h ntree : Nat) (s : State ℝ) (x : List Nat) : forestAt h ntree (reflectState s) x = -forestAt h ntree s x := by
  unfold forestAt
  have e : ((List.range ntree).map fun t => (readTree default ((reflectState s).leaf_trees.getD t []) ((reflectState s).var_trees.getD t [])
      ((reflectState s).split_trees.getD t []) h 1).eval x) = ((List.range ntree).map fun t =>
      (readTree default (s.leaf_trees.getD t []) (s.var_trees.getD t []) (s.split_trees.getD t []) h 1).eval x).map (-·) := by
    rw [List.map_map]
    refine List.map_congr_left fun t _ => ?_
    simp only [Function.comp]
    rw [← readTree_neg, ← getD_map_neg]
    rfl
  rw [e]
  exact sum_neg _

/-! ### The trace -/

/-- the fields with the opposite leaves -/
def reflectDict (d : Dict ℝ) : Dict ℝ := d.map fun kv => (kv.1, reflectValue kv.2)

theorem lookup_reflect (d : Dict ℝ) (key : String) : (reflectDict d).lookup key = (d.lookup key).map reflectValue := by
  induction d with
  | nil => rfl
  | cons kv d ih =>
    obtain ⟨k, v⟩ := kv
    change List.lookup key ((k, reflectValue v) :: reflectDict d) = _
    rw [List.lookup_cons, List.lookup_cons, ih]
    split <;> rfl

theorem select_reflect (s : State ℝ) :
    select_fields (reflectState s) tracelist_main = reflectDict (select_fields s tracelist_main) := by
  obtain ⟨_, _, _, _, _, _, _, _, _, _, _, _, _, _, _, _, _, _, _, _, _, ratios, _, _, _⟩ := s
  cases ratios <;> rfl

theorem empty_reflect (s : State ℝ) : empty_trace (reflectState s) tracelist_main =
    (empty_trace s tracelist_main).map fun kv => (kv.1, kv.2.map reflectValue) := by
  obtain ⟨_, _, _, _, _, _, _, _, _, _, _, _, _, _, _, _, _, _, _, _, _, ratios, _, _, _⟩ := s
  cases ratios <;> rfl

theorem stack_reflect (ds : List (Dict ℝ)) :
    stack_outputs (ds.map reflectDict) = (stack_outputs ds).map fun kv => (kv.1, kv.2.map reflectValue) := by
  cases ds with
  | nil => rfl
  | cons d ds =>
    have hnone : ∀ o : Option (Value ℝ), (o.map reflectValue).getD .none = reflectValue (o.getD .none) := by
      intro o; cases o <;> rfl
    unfold stack_outputs
    simp only [List.map_cons, reflectDict, List.map_map]
    refine List.map_congr_left fun kv _ => ?_
    simp only [Function.comp]
    refine Prod.ext rfl ?_
    have e : ∀ d : Dict ℝ, ((d.map fun kv => (kv.1, reflectValue kv.2)).lookup kv.1).getD .none =
        reflectValue ((d.lookup kv.1).getD .none) := by
      intro d
      rw [← hnone, ← lookup_reflect]
      rfl
    simp only [List.map_cons, List.map_map, e]
    congr 1
    exact List.map_congr_left fun d _ => e d

end Bartz
