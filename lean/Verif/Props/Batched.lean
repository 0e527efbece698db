import Verif.Model.Batched
import Verif.Props.Jaxext
import Verif.Props.Mcmcloop
import Verif.Lemmas.Prepcovars
/-!
# Property C91: the functions that use `autobatch` give the same results as without it
-/

set_option autoImplicit false

namespace Bartz
open Jax Spec

section
variable {α β : Type}

/-- the indices of an array with two axes -/
theorem inRange_two {a b : Nat} {idx : List Nat} (h : inRange [a, b] idx = true) :
    ∃ i j, idx = [i, j] ∧ i < a ∧ j < b := by
  match idx with
  | [] => cases h
  | [_] => simp [inRange] at h
  | [i, j] =>
    simp [inRange] at h
    exact ⟨i, j, rfl, h.1, h.2⟩
  | _ :: _ :: _ :: _ => simp [inRange] at h

theorem inRange_one {a : Nat} {idx : List Nat} (h : inRange [a] idx = true) : ∃ i, idx = [i] ∧ i < a := by
  match idx with
  | [] => cases h
  | [i] =>
    simp [inRange] at h
    exact ⟨i, rfl, h⟩
  | _ :: _ :: _ => simp [inRange] at h

theorem inRange_two_of {a b i j : Nat} (hi : i < a) (hj : j < b) : inRange [a, b] [i, j] = true := by
  simp [inRange, hi, hj]

theorem filterMap_range_getElem? (l : List β) (f : Nat → Option β) (h : ∀ j, j < l.length → f j = l[j]?) :
    (List.range l.length).filterMap f = l := by
  have e : (List.range l.length).filterMap f = (List.range l.length).filterMap fun j => l[j]? :=
    List.filterMap_congr fun j hj => h j (List.mem_range.1 hj)
  rw [e]
  clear e h
  induction l with
  | nil => rfl
  | cons x l ih =>
    rw [List.length_cons, List.range_succ_eq_map, List.filterMap_cons]
    simp only [List.getElem?_cons_zero]
    rw [List.filterMap_map]
    congr 1

theorem toRows_ofRows {e : β → Elem α} {d : Elem α → Option β} (hd : ∀ v, d (e v) = some v) {s c : Nat} {X : List (List β)}
    (hX : ∀ x ∈ X, x.length = c) : (NDArray.ofRows e s c X).toRows d = X := by
  unfold NDArray.toRows
  refine List.ext_getElem ?_ fun i h1 h2 => ?_
  · simp [NDArray.ofRows, NDArray.ofFn]
  · rw [List.getElem_map, List.getElem_range]
    have hc := hX _ (List.getElem_mem h2)
    have : (NDArray.ofRows e s c X).shape.getD 1 0 = X[i].length := by
      rw [hc]
      rfl
    rw [this]
    refine filterMap_range_getElem? _ _ fun j hj => ?_
    have e1 : (NDArray.ofRows e s c X).data [i, j] = e (X[i][j]) := by
      unfold NDArray.ofRows
      rw [NDArray.ofFn_data (inRange_two_of h2 (by omega))]
      simp [List.getD_eq_getElem?_getD, h2, hj]
    rw [e1, hd, List.getElem?_eq_getElem hj]

theorem toVec_ofVec {e : β → Elem α} {d : Elem α → Option β} (hd : ∀ v, d (e v) = some v) {s : Nat} {v : List β} :
    (NDArray.ofVec e s v).toVec d = v := by
  unfold NDArray.toVec
  refine filterMap_range_getElem? _ _ fun j hj => ?_
  unfold NDArray.ofVec
  rw [NDArray.ofFn_data (by simp [inRange, hj])]
  simp [hj, hd]

theorem toRows_num {s c : Nat} {X : List (List α)} (hX : ∀ x ∈ X, x.length = c) :
    (NDArray.ofRows Elem.num s c X).toRows Elem.toNum = X := by
  refine toRows_ofRows (fun _ => ?_) hX
  rfl

theorem toRows_int {s c : Nat} {X : List (List Nat)} (hX : ∀ x ∈ X, x.length = c) :
    (NDArray.ofRows (α := α) Elem.int s c X).toRows Elem.toInt = X := by
  refine toRows_ofRows (fun _ => ?_) hX
  rfl

theorem toVec_int {s : Nat} {v : List Nat} : (NDArray.ofVec (α := α) Elem.int s v).toVec Elem.toInt = v := by
  refine toVec_ofVec fun _ => ?_
  rfl

/-- a range of rows -/
theorem slice_ofRows {e : β → Elem α} {s c lo len : Nat} {X : List (List β)} (h : lo + len ≤ X.length) :
    slice lo len (NDArray.ofRows e s c X) 0 = NDArray.ofRows e s c ((X.drop lo).take len) := by
  have hl : ((X.drop lo).take len).length = len := by
    rw [List.length_take, List.length_drop]
    omega
  refine NDArray.ext' ?_ rfl fun idx hidx => ?_
  · show [len, c] = [_, c]
    rw [hl]
  · have hsh : (slice lo len (NDArray.ofRows e s c X) 0).shape = [len, c] := rfl
    rw [hsh] at hidx
    obtain ⟨i, j, rfl, hi, hj⟩ := inRange_two hidx
    unfold slice
    rw [NDArray.ofFn_data (by exact hidx)]
    unfold NDArray.ofRows
    show (NDArray.ofFn [X.length, c] s _).data [lo + i, j] = _
    rw [NDArray.ofFn_data (inRange_two_of (by omega) hj), NDArray.ofFn_data (inRange_two_of (by omega) hj)]
    simp only [List.getD_cons_zero, List.getD_cons_succ]
    rw [getD_chunk _ _ _ _ hi]

theorem slice_ofVec {e : β → Elem α} {s lo len : Nat} {v : List β} (h : lo + len ≤ v.length) :
    slice lo len (NDArray.ofVec e s v) 0 = NDArray.ofVec e s ((v.drop lo).take len) := by
  have hl : ((v.drop lo).take len).length = len := by
    rw [List.length_take, List.length_drop]
    omega
  refine NDArray.ext' ?_ rfl fun idx hidx => ?_
  · show [len] = [_]
    rw [hl]
  · have hsh : (slice lo len (NDArray.ofVec e s v) 0).shape = [len] := rfl
    rw [hsh] at hidx
    obtain ⟨i, rfl, hi⟩ := inRange_one hidx
    unfold slice
    rw [NDArray.ofFn_data (by exact hidx)]
    unfold NDArray.ofVec
    rw [NDArray.ofFn_data (by simp [inRange]; omega), NDArray.ofFn_data (by simp [inRange]; omega)]
    simp [hi]

theorem mem_chunk {X : List β} {lo len : Nat} {x : β} (h : x ∈ (X.drop lo).take len) : x ∈ X :=
  List.mem_of_mem_drop (List.mem_of_mem_take h)

end

/-! ### Cutpoints -/

section
variable {α : Type} [LinearOrder α]

theorem length_quantilized_row (fl : ℚ → ℚ) (t : Dtype α) {x : List α} {m : Nat} (hm : m + 1 ≤ x.length) :
    (quantilized_row fl t x m).1.length = m := by
  obtain ⟨U, hU, hu⟩ := unique_spec x x.length t.huge
  have hlen : (unique x x.length t.huge).1.length = x.length := by
    rw [hu]
    simp [padTo]
    omega
  have hmid : ∀ k : Int, (quantilized_midpoints t (unique x x.length t.huge).1 k).length = x.length - 1 := by
    intro k
    unfold quantilized_midpoints
    have : (List.zipWith t.midpoint (unique x x.length t.huge).1.dropLast ((unique x x.length t.huge).1.drop 1)).length =
        x.length - 1 := by
      simp [hlen]
    split
    · rw [List.length_zipWith, this]
      simp [arange]
    · exact this
  unfold quantilized_row
  simp only
  split
  · simp [quantilized_indices, linspace]
    omega
  · unfold sliceTo
    rw [if_neg (by omega), List.length_take, hmid]
    omega

/-- `autobatch` along the first axis of all the results and of the given arguments -/
theorem autobatch_first {γ : Type} [Inhabited γ] (isqrt : Nat → Nat) (func : List (NDArray γ) → List (NDArray γ)) (max_io : Nat)
    (hmax : 0 < max_io) {in_axes : Axes} {args : List (NDArray γ)} {ia : List (Option Nat)} {p : Nat}
    (hin : AxesMean in_axes args ia) (hsi : SameSize p ia args) (hone : ∃ b, some b ∈ ia)
    (hso : ∀ y ∈ func args, y.shape.head? = some p)
    (hact : ActsIndependently func p ia ((func args).map fun _ => some 0) args) :
    ∃ out, autobatch isqrt func max_io in_axes (.all 0) args = some out ∧ out.result = func args ∧
      out.nbatches ∣ p ∧ (out.warned = true → out.nbatches = p) ∧
      (out.warned = false → (batchedBytes ia args + ((func args).map fun y => y.shape.prod * y.itemsize).sum) / out.nbatches ≤
        max_io) := by
  have hout : AxesMean (.all 0) (func args) ((func args).map fun _ => some 0) := by
    refine ⟨_, Or.inr ⟨0, rfl, rfl⟩, by simp, by simp, fun k hk => Or.inr ⟨0, 0, ?_, ?_, ?_, Or.inl rfl⟩⟩
    · simp [hk]
    · simp [hk]
    · have := hso _ (List.getElem_mem hk)
      match h : (func args)[k].shape with
      | [] => rw [h] at this; cases this
      | _ :: _ => simp
  have hsome : ∀ x ∈ (func args).map fun _ => some (0 : Nat), x ≠ none := by
    intro x hx
    rw [List.mem_map] at hx
    obtain ⟨_, _, rfl⟩ := hx
    simp
  have hso' : SameSize p ((func args).map fun _ => some 0) (func args) := by
    intro k hk b hb
    have : b = 0 := by simpa [hk, eq_comm] using hb
    subst this
    have := hso _ (List.getElem_mem hk)
    match h : (func args)[k].shape with
    | [] => rw [h] at this; cases this
    | q :: _ => rw [h] at this; simpa using this
  have h10 := C10_autobatch isqrt func max_io hmax in_axes (.all 0) args ia _ p hin hout hsome hsi hso' hone hact
  obtain ⟨out, h1, -, -, h2, -, h3⟩ := C11_autobatch isqrt func max_io hmax in_axes (.all 0) args ia _ p hin hout hsome hsi hso'
    hone hact
  rw [h1, Option.map_some, Option.some.injEq] at h10
  have hbytes : batchedBytes ((func args).map fun _ => some 0) (func args) =
      ((func args).map fun y => y.shape.prod * y.itemsize).sum := by
    unfold batchedBytes
    congr 1
    generalize func args = l
    induction l with
    | nil => rfl
    | cons y l ih => rw [List.map_cons, List.map_cons, List.zipWith_cons_cons, ih]
  rw [hbytes] at h3
  refine ⟨out, h1, h10, h2, fun hw => ?_, fun hw => ?_⟩
  · rcases h3 with h3 | h3
    · rw [hw] at h3; cases h3.2
    · exact h3.2.1
  · rcases h3 with h3 | h3
    · exact h3.1
    · rw [hw] at h3; cases h3.2.2

/-- `AxesMean` for an axis common to all the arguments -/
theorem axesMean_zero {γ : Type} [Inhabited γ] {args : List (NDArray γ)} (h : ∀ x ∈ args, x.shape ≠ []) :
    AxesMean (.all 0) args (args.map fun _ => some 0) := by
  refine ⟨_, Or.inr ⟨0, rfl, rfl⟩, by simp, by simp, fun k hk => Or.inr ⟨0, 0, ?_, ?_, ?_, Or.inl rfl⟩⟩
  · simp [hk]
  · simp [hk]
  · exact List.length_pos_iff.2 (h _ (List.getElem_mem hk))

/-- the batches used for the cutpoints -/
theorem C91_quantilize (isqrt : Nat → Nat) (fl : ℚ → ℚ) (t : Dtype α) (X_bytes splits_bytes : Nat) {X : List (List α)}
    {n m : Nat} (hX : ∀ x ∈ X, x.length = n) :
    ∃ out, autobatch isqrt (quantilize fl t splits_bytes m) (2 ^ 29) (.all 0) (.all 0) [.ofRows .num X_bytes n X] = some out ∧
      out.result = [.ofRows .num splits_bytes m ((X.map fun x => quantilized_row fl t x m).unzip).1,
        .ofVec .int (minimal_unsigned_dtype m / 8) ((X.map fun x => quantilized_row fl t x m).unzip).2] ∧
      out.nbatches ∣ X.length ∧ (out.warned = true → out.nbatches = X.length) ∧
      (out.warned = false → X.length * (n * X_bytes + m * splits_bytes + minimal_unsigned_dtype m / 8) / out.nbatches ≤ 2 ^ 29) := by
  have hf : ∀ Y : List (List α), (∀ x ∈ Y, x.length = n) →
      quantilize fl t splits_bytes m [.ofRows .num X_bytes n Y] =
        [.ofRows .num splits_bytes m ((Y.map fun x => quantilized_row fl t x m).unzip).1,
        .ofVec .int (minimal_unsigned_dtype m / 8) ((Y.map fun x => quantilized_row fl t x m).unzip).2] := by
    intro Y hY
    unfold quantilize
    simp only [toRows_num hY, Int.toNat_natCast]
  have hsi : SameSize (α := Elem α) X.length [some 0] [.ofRows .num X_bytes n X] := by
    intro k hk b hb
    match k, hk with
    | 0, _ => cases hb; rfl
  have hso : ∀ y ∈ (quantilize fl t splits_bytes m) [.ofRows .num X_bytes n X],
      y.shape.head? = some X.length := by
    rw [hf X hX]
    intro y hy
    simp only [List.mem_cons, List.not_mem_nil, or_false] at hy
    rcases hy with rfl | rfl <;> simp [NDArray.ofRows, NDArray.ofVec, NDArray.ofFn]
  have hact : ActsIndependently (quantilize fl t splits_bytes m) X.length [some 0]
      (((quantilize fl t splits_bytes m) [.ofRows .num X_bytes n X]).map fun _ => some 0)
      [.ofRows .num X_bytes n X] := by
    intro lo len hlo
    rw [hf X hX]
    simp only [sliceAll, List.zipWith_cons_cons, List.zipWith_nil_right, List.map_cons, List.map_nil]
    rw [slice_ofRows hlo, hf _ fun x hx => hX x (mem_chunk hx), slice_ofRows (by simpa using hlo), slice_ofVec (by simpa using hlo)]
    simp only [List.unzip_eq_map, List.map_map, List.map_take, List.map_drop]
  obtain ⟨out, h1, h2, h3, h4, h5⟩ := autobatch_first isqrt (quantilize fl t splits_bytes m) (2 ^ 29) (by norm_num)
    (in_axes := .all 0) (args := [.ofRows .num X_bytes n X]) (ia := [some 0]) (p := X.length)
    (axesMean_zero (by simp [NDArray.ofRows, NDArray.ofFn])) hsi ⟨0, by simp⟩ hso hact
  refine ⟨out, h1, h2.trans (hf X hX), h3, h4, fun hw => ?_⟩
  have := h5 hw
  rw [hf X hX] at this
  refine le_trans (le_of_eq ?_) this
  congr 1
  simp [batchedBytes, NDArray.ofRows, NDArray.ofVec, NDArray.ofFn]
  ring

/-- **C91** for the cutpoints -/
theorem C91_quantilized (isqrt : Nat → Nat) (fl : ℚ → ℚ) (t : Dtype α) (X_bytes splits_bytes : Nat) {X : List (List α)}
    {n max_bins : Nat} (hX : ∀ x ∈ X, x.length = n) (hn : 1 ≤ n) (hb : 1 ≤ max_bins) :
    quantilized_splits_batched isqrt fl t X_bytes splits_bytes X n max_bins =
      some (quantilized_splits_from_matrix fl t X n max_bins) := by
  have hm : ((min max_bins n : Nat) : Int) - 1 = ((min max_bins n - 1 : Nat) : Int) := by omega
  unfold quantilized_splits_batched quantilized_splits_from_matrix
  simp only [hm]
  obtain ⟨out, h1, h2, -⟩ := C91_quantilize isqrt fl t X_bytes splits_bytes (m := min max_bins n - 1) hX
  rw [h1]
  simp only [Option.bind_eq_bind, Option.bind_some, h2, Option.pure_def]
  rw [toRows_num, toVec_int]
  intro x hx
  rw [List.unzip_eq_map] at hx
  simp only [List.map_map, List.mem_map] at hx
  obtain ⟨y, hy, rfl⟩ := hx
  exact length_quantilized_row fl t (by rw [hX y hy]; omega)

/-! ### Binning -/

/-- the batches used in binning -/
theorem C91_bin_batches (isqrt : Nat → Nat) (X_bytes splits_bytes : Nat) {X splits : List (List α)} {n m : Nat}
    (hX : ∀ x ∈ X, x.length = n) (hs : ∀ s ∈ splits, s.length = m) (hp : splits.length = X.length) :
    ∃ out, autobatch isqrt bin_predictors_rows (2 ^ 29) (.all 0) (.all 0)
        [.ofRows .num X_bytes n X, .ofRows .num splits_bytes m splits] = some out ∧
      out.result = [.ofRows .int (minimal_unsigned_dtype m / 8) n (bin_predictors X splits)] ∧
      out.nbatches ∣ X.length ∧ (out.warned = true → out.nbatches = X.length) ∧
      (out.warned = false → X.length * (n * X_bytes + m * splits_bytes + n * (minimal_unsigned_dtype m / 8)) / out.nbatches ≤
        2 ^ 29) := by
  have hf : ∀ Y S : List (List α), (∀ x ∈ Y, x.length = n) → (∀ s ∈ S, s.length = m) →
      bin_predictors_rows [.ofRows .num X_bytes n Y, .ofRows .num splits_bytes m S] =
        [.ofRows .int (minimal_unsigned_dtype m / 8) n (bin_predictors Y S)] := by
    intro Y S hY hS
    unfold bin_predictors_rows
    simp only [toRows_num hY, toRows_num hS]
    rfl
  have hlen : (bin_predictors X splits).length = X.length := by simp [bin_predictors, hp]
  have hsi : SameSize (α := Elem α) X.length [some 0, some 0] [.ofRows .num X_bytes n X, .ofRows .num splits_bytes m splits] := by
    intro k hk b hb
    match k, hk with
    | 0, _ => cases hb; rfl
    | 1, _ => cases hb; exact hp
  have hso : ∀ y ∈ (bin_predictors_rows (α := α)) [.ofRows .num X_bytes n X, .ofRows .num splits_bytes m splits],
      y.shape.head? = some X.length := by
    rw [hf X splits hX hs]
    intro y hy
    rw [List.mem_singleton] at hy
    subst hy
    simp [NDArray.ofRows, NDArray.ofFn, hlen]
  have hact : ActsIndependently (bin_predictors_rows (α := α)) X.length [some 0, some 0]
      (((bin_predictors_rows (α := α)) [.ofRows .num X_bytes n X, .ofRows .num splits_bytes m splits]).map fun _ => some 0)
      [.ofRows .num X_bytes n X, .ofRows .num splits_bytes m splits] := by
    intro lo len hlo
    rw [hf X splits hX hs]
    simp only [sliceAll, List.zipWith_cons_cons, List.zipWith_nil_right, List.map_cons, List.map_nil]
    rw [slice_ofRows hlo, slice_ofRows (by omega), hf _ _ (fun x hx => hX x (mem_chunk hx)) (fun x hx => hs x (mem_chunk hx)),
      slice_ofRows (by omega)]
    simp only [bin_predictors, List.take_zipWith, List.drop_zipWith]
  obtain ⟨out, h1, h2, h3, h4, h5⟩ := autobatch_first isqrt (bin_predictors_rows (α := α)) (2 ^ 29) (by norm_num)
    (in_axes := .all 0) (args := [.ofRows .num X_bytes n X, .ofRows .num splits_bytes m splits]) (ia := [some 0, some 0])
    (p := X.length) (axesMean_zero (by simp [NDArray.ofRows, NDArray.ofFn])) hsi ⟨0, by simp⟩ hso hact
  refine ⟨out, h1, h2.trans (hf X splits hX hs), h3, h4, fun hw => ?_⟩
  have := h5 hw
  rw [hf X splits hX hs] at this
  refine le_trans (le_of_eq ?_) this
  congr 1
  simp [batchedBytes, NDArray.ofRows, NDArray.ofFn, hlen, hp]
  ring

/-- **C91** for binning -/
theorem C91_bin (isqrt : Nat → Nat) (X_bytes splits_bytes : Nat) {X splits : List (List α)} {n m : Nat}
    (hX : ∀ x ∈ X, x.length = n) (hs : ∀ s ∈ splits, s.length = m) (hp : splits.length = X.length) :
    bin_predictors_batched isqrt X_bytes splits_bytes X splits n m = some (bin_predictors X splits) := by
  unfold bin_predictors_batched
  obtain ⟨out, h1, h2, -⟩ := C91_bin_batches isqrt X_bytes splits_bytes hX hs hp
  rw [h1]
  simp only [Option.bind_eq_bind, Option.bind_some, h2, Option.pure_def]
  rw [toRows_int]
  intro x hx
  unfold bin_predictors at hx
  rw [List.mem_iff_getElem] at hx
  obtain ⟨k, hk, rfl⟩ := hx
  rw [List.getElem_zipWith]
  simp only [bin_row, List.length_map]
  exact hX _ (List.getElem_mem _)

end

/-! ### Predictions -/

section
variable {F : Type} [Inhabited F]

theorem mapM_congr_mem {γ δ : Type} {f g : γ → Option δ} {l : List γ} (h : ∀ x ∈ l, f x = g x) : l.mapM f = l.mapM g := by
  induction l with
  | nil => rfl
  | cons x l ih =>
    rw [List.mapM_cons, List.mapM_cons, h x (List.mem_cons_self ..), ih fun y hy => h y (List.mem_cons_of_mem _ hy)]

/-- evaluating a range of trees -/
theorem evaluate_chunk {n lo len : Nat} {X : List (List Nat)} {leaf_trees : List (List F)} {var_trees split_trees : List (List Nat)}
    (h : lo + len ≤ leaf_trees.length) (hv : var_trees.length = leaf_trees.length) :
    evaluate_forest_trees n X ((leaf_trees.drop lo).take len) ((var_trees.drop lo).take len) ((split_trees.drop lo).take len) =
      ((evaluate_forest_trees n X leaf_trees var_trees split_trees).drop lo).take len := by
  have hl : ∀ {γ : Type} (l : List γ), lo + len ≤ l.length → ((l.drop lo).take len).length = len := by
    intro γ l hl
    rw [List.length_take, List.length_drop]
    omega
  have hlen : ∀ leaf var split, (evaluate_forest_trees (F := F) n X leaf var split).length = leaf.length := by
    simp [evaluate_forest_trees, vmap]
  have hget : ∀ (leaf : List (List F)) (var split : List (List Nat)) t (ht : t < leaf.length) (htv : t < var.length),
      (evaluate_forest_trees n X leaf var split)[t]'(by rw [hlen]; exact ht) =
        vmap n fun j => gather (leaf.getD t []) (traverse_tree (column X j) (var.getD t []) (split.getD t [])) := by
    intro leaf var split t ht htv
    simp only [evaluate_forest_trees, traverse_forest, vmap, List.getElem_map, List.getElem_range]
    refine List.map_congr_left fun j hj => ?_
    rw [List.mem_range] at hj
    congr 1
    simp [List.getD_eq_getElem?_getD, htv, hj]
  refine List.ext_getElem ?_ fun t h1 h2 => ?_
  · rw [hlen, hl _ h, hl _ (by rw [hlen]; exact h)]
  · rw [hlen, hl _ h] at h1
    rw [hget _ _ _ t (by rw [hl _ h]; exact h1) (by rw [hl _ (by omega)]; exact h1), List.getElem_take, List.getElem_drop,
      hget _ _ _ (lo + t) (by omega) (by omega), getD_chunk _ _ _ _ h1, getD_chunk _ _ _ _ h1, getD_chunk _ _ _ _ h1]

/-- the batches used to evaluate the trees -/
theorem C91_evaluate_trees (isqrt : Nat → Nat) (bytes : TraceBytes) {n h : Nat} {X : List (List Nat)}
    {leaf_trees : List (List F)} {var_trees split_trees : List (List Nat)} (hX : ∀ x ∈ X, x.length = n)
    (hl : ∀ x ∈ leaf_trees, x.length = 2 ^ (h + 1)) (hv : ∀ x ∈ var_trees, x.length = 2 ^ h)
    (hs : ∀ x ∈ split_trees, x.length = 2 ^ h) (hvl : var_trees.length = leaf_trees.length)
    (hsl : split_trees.length = leaf_trees.length) :
    ∃ out, autobatch isqrt evaluate_trees (2 ^ 29) (.each [none, some 0, some 0, some 0]) (.all 0)
        [.ofRows .int bytes.X n X, .ofRows .num bytes.leaf (2 ^ (h + 1)) leaf_trees, .ofRows .int bytes.var (2 ^ h) var_trees,
          .ofRows .int bytes.split (2 ^ h) split_trees] = some out ∧
      out.result = [.ofRows .num bytes.leaf n (evaluate_forest_trees n X leaf_trees var_trees split_trees)] ∧
      out.nbatches ∣ leaf_trees.length ∧ (out.warned = true → out.nbatches = leaf_trees.length) ∧
      (out.warned = false → leaf_trees.length * (2 ^ (h + 1) * bytes.leaf + 2 ^ h * bytes.var + 2 ^ h * bytes.split +
        n * bytes.leaf) / out.nbatches ≤ 2 ^ 29) := by
  have hf : ∀ (L : List (List F)) (V S : List (List Nat)), (∀ x ∈ L, x.length = 2 ^ (h + 1)) → (∀ x ∈ V, x.length = 2 ^ h) →
      (∀ x ∈ S, x.length = 2 ^ h) → evaluate_trees [.ofRows .int bytes.X n X, .ofRows .num bytes.leaf (2 ^ (h + 1)) L,
        .ofRows .int bytes.var (2 ^ h) V, .ofRows .int bytes.split (2 ^ h) S] =
      [.ofRows .num bytes.leaf n (evaluate_forest_trees n X L V S)] := by
    intro L V S h1 h2 h3
    unfold evaluate_trees
    simp only [toRows_num h1, toRows_int h2, toRows_int h3, toRows_int hX]
    rfl
  have hlen : (evaluate_forest_trees n X leaf_trees var_trees split_trees).length = leaf_trees.length := by
    simp [evaluate_forest_trees, vmap]
  obtain ⟨args, hargs⟩ : ∃ args : List (NDArray (Elem F)), args = [.ofRows .int bytes.X n X,
      .ofRows .num bytes.leaf (2 ^ (h + 1)) leaf_trees, .ofRows .int bytes.var (2 ^ h) var_trees,
      .ofRows .int bytes.split (2 ^ h) split_trees] := ⟨_, rfl⟩
  rw [← hargs]
  have hfa : evaluate_trees args = [.ofRows .num bytes.leaf n (evaluate_forest_trees n X leaf_trees var_trees split_trees)] := by
    rw [hargs]
    exact hf _ _ _ hl hv hs
  have hin : AxesMean (.each [none, some 0, some 0, some 0]) args [none, some 0, some 0, some 0] := by
    rw [hargs]
    refine ⟨_, Or.inl rfl, rfl, rfl, fun k hk => ?_⟩
    match k, hk with
    | 0, _ => exact Or.inl ⟨rfl, rfl⟩
    | 1, _ => exact Or.inr ⟨0, 0, rfl, rfl, by simp [NDArray.ofRows, NDArray.ofFn], Or.inl rfl⟩
    | 2, _ => exact Or.inr ⟨0, 0, rfl, rfl, by simp [NDArray.ofRows, NDArray.ofFn], Or.inl rfl⟩
    | 3, _ => exact Or.inr ⟨0, 0, rfl, rfl, by simp [NDArray.ofRows, NDArray.ofFn], Or.inl rfl⟩
  have hsi : SameSize leaf_trees.length [none, some 0, some 0, some 0] args := by
    subst hargs
    intro k hk b hb
    match k, hk with
    | 0, _ => cases hb
    | 1, _ => cases hb; rfl
    | 2, _ => cases hb; exact hvl
    | 3, _ => cases hb; exact hsl
  have hso : ∀ y ∈ evaluate_trees args, y.shape.head? = some leaf_trees.length := by
    rw [hfa]
    intro y hy
    rw [List.mem_singleton] at hy
    subst hy
    simp [NDArray.ofRows, NDArray.ofFn, hlen]
  have hact : ActsIndependently evaluate_trees leaf_trees.length [none, some 0, some 0, some 0]
      ((evaluate_trees args).map fun _ => some 0) args := by
    intro lo len hlo
    rw [hfa, hargs]
    simp only [sliceAll, List.zipWith_cons_cons, List.zipWith_nil_right, List.map_cons, List.map_nil]
    rw [slice_ofRows hlo, slice_ofRows (by omega), slice_ofRows (by omega), hf _ _ _ (fun x hx => hl x (mem_chunk hx))
      (fun x hx => hv x (mem_chunk hx)) (fun x hx => hs x (mem_chunk hx)), slice_ofRows (by omega), evaluate_chunk hlo hvl]
  obtain ⟨out, h1, h2, h3, h4, h5⟩ := autobatch_first isqrt evaluate_trees (2 ^ 29) (by norm_num) hin hsi ⟨0, by simp⟩ hso hact
  refine ⟨out, h1, h2.trans hfa, h3, h4, fun hw => ?_⟩
  have := h5 hw
  rw [hfa, hargs] at this
  refine le_trans (le_of_eq ?_) this
  congr 1
  simp [batchedBytes, NDArray.ofRows, NDArray.ofFn, hlen, hvl, hsl]
  ring

variable [Zero F] [Add F]

/-- **C91** for the evaluation of the trace: the batches chosen by `autobatch` do not matter. -/
theorem C91_evaluate_trace (isqrt isqrt' : Nat → Nat) (bytes : TraceBytes) (nbytes n m h : Nat) (h64 : h < 64)
    (X : List (List Nat)) (hX : ∀ x ∈ X, x.length = n) (trace : Trace F) (L : List (List (List F))) (V S : List (List (List Nat)))
    (htl : trace.lookup "leaf_trees" = some (L.map .floatTrees))
    (htv : trace.lookup "var_trees" = some (V.map .intTrees))
    (hts : trace.lookup "split_trees" = some (S.map .intTrees))
    (hVL : V.length = L.length) (hSL : S.length = L.length)
    (hl : ∀ f ∈ L, f.length = m ∧ ∀ x ∈ f, x.length = 2 ^ (h + 1))
    (hv : ∀ f ∈ V, f.length = m ∧ ∀ x ∈ f, x.length = 2 ^ h)
    (hs : ∀ f ∈ S, f.length = m ∧ ∀ x ∈ f, x.length = 2 ^ h) :
    evaluate_trace_batched isqrt bytes n h trace X = evaluate_trace isqrt' nbytes n trace X := by
  unfold evaluate_trace evaluate_trace_batched
  rw [htl, htv, hts]
  simp only [Option.bind_eq_bind, Option.bind_some, List.length_map]
  rw [guard, if_pos ⟨hVL, hSL⟩]
  simp only [Option.pure_def, Option.bind_some]
  refine mapM_congr_mem fun k hk => ?_
  rw [List.mem_range] at hk
  have hk2 : k < V.length := by omega
  have hk3 : k < S.length := by omega
  have e1 : (L.map Value.floatTrees).getD k .none = .floatTrees L[k] := by
    simp [List.getD_eq_getElem?_getD, hk]
  have e2 : (V.map (Value.intTrees (F := F))).getD k .none = .intTrees V[k] := by
    simp [List.getD_eq_getElem?_getD, hk2]
  have e3 : (S.map (Value.intTrees (F := F))).getD k .none = .intTrees S[k] := by
    simp [List.getD_eq_getElem?_getD, hk3]
  rw [e1, e2, e3]
  obtain ⟨l1, l2⟩ := hl _ (List.getElem_mem hk)
  obtain ⟨v1, v2⟩ := hv _ (List.getElem_mem hk2)
  obtain ⟨s1, s2⟩ := hs _ (List.getElem_mem hk3)
  unfold evaluate_trace_loop evaluate_trace_loop_batched
  obtain ⟨nb, w, hc, _, _, hdvd, _⟩ := choose_nbatches_spec isqrt' L[k].length nbytes (2 ^ 29) (by decide)
  rw [l1] at hdvd
  obtain ⟨out, o1, o2, -⟩ := C91_evaluate_trees isqrt bytes (h := h) hX l2 v2 s2 (v1.trans l1.symm) (s1.trans l1.symm)
  have hgetD : ∀ {γ : Type} {f : List (List γ)} {c : Nat}, (∀ x ∈ f, x.length = c) → ∀ t < f.length, (f.getD t []).length = c := by
    intro γ f c hf t ht
    rw [List.getD_eq_getElem _ _ ht]
    exact hf _ (List.getElem_mem ht)
  simp only [hc, o1, o2, Option.bind_eq_bind, Option.bind_some, Option.pure_def, Option.some.injEq]
  rw [evaluate_trees_batched_eq nb n m h h64 hdvd X _ _ _ l1 v1 s1 (fun t ht => hgetD l2 t (by omega))
    (fun t ht => hgetD v2 t (by omega)) (fun t ht => hgetD s2 t (by omega)), toRows_num]
  intro x hx
  simp only [evaluate_forest_trees, vmap, List.mem_map] at hx
  obtain ⟨t, -, rfl⟩ := hx
  simp

end

section
variable {K F : Type} [KeyLike K] [Inhabited F] [Zero F] [One F] [Add F] [Sub F] [Mul F] [Div F]
  [Neg F] [NatCast F] [FltFun F] [FloatLaws F] {a : InitArgs F} {s : State F}

/-- **C91** for the trace produced by `run_mcmc` -/
theorem C91_run (ha : ValidArgs a) (hs : Reachable K a s) (rng : Rng K F) (hrng : LawfulRng rng) (key : K)
    (n_burn n_save n_skip : Nat) (isqrt isqrt' : Nat → Nat) (bytes : TraceBytes) (nbytes : Nat) {n : Nat} {X : List (List Nat)}
    (hX : ∀ x ∈ X, x.length = n) :
    evaluate_trace_batched isqrt bytes n a.p_nonterminal.length (run_mcmc rng s n_burn n_save n_skip key).main_trace X =
      evaluate_trace isqrt' nbytes n (run_mcmc rng s n_burn n_save n_skip key).main_trace X := by
  have h := (C42_trace rng s key n_burn n_save n_skip).2
  set S := fun k => chain (step rng) s key (n_burn + (k + 1) * n_skip) with hS
  have hr : ∀ k, Reachable K a (S k) := fun k => C42_reachable rng s key hs hrng _
  have hall : ∀ {γ : Type} {f : List (List γ)} {m c : Nat}, f.length = m → (∀ t < m, (f.getD t []).length = c) →
      f.length = m ∧ ∀ x ∈ f, x.length = c := by
    intro γ f m c hm hf
    refine ⟨hm, fun x hx => ?_⟩
    obtain ⟨t, ht, rfl⟩ := List.getElem_of_mem hx
    have := hf t (by omega)
    rwa [List.getD_eq_getElem _ _ ht] at this
  refine C91_evaluate_trace isqrt isqrt' bytes nbytes n a.num_trees a.p_nonterminal.length ha.depth_lt X hX _
    ((List.range n_save).map fun k => (S k).leaf_trees)
    ((List.range n_save).map fun k => (S k).var_trees)
    ((List.range n_save).map fun k => (S k).split_trees)
    (by rw [h ("leaf_trees", fun s => .floatTrees s.leaf_trees) (by simp [treeFields])]
        simp [Function.comp_def, hS])
    (by rw [h ("var_trees", fun s => .intTrees s.var_trees) (by simp [treeFields])]
        simp [Function.comp_def, hS])
    (by rw [h ("split_trees", fun s => .intTrees s.split_trees) (by simp [treeFields])]
        simp [Function.comp_def, hS])
    (by simp) (by simp) ?_ ?_ ?_
  all_goals
    intro f hf
    rw [List.mem_map] at hf
    obtain ⟨k, -, rfl⟩ := hf
    have := C19_valid_trees ha (hr k)
  · exact hall this.1 fun t ht => (this.2.2.2 t ht).1
  · exact hall this.2.1 fun t ht => (this.2.2.2 t ht).2.1
  · exact hall this.2.2.1 fun t ht => (this.2.2.2 t ht).2.2.2.length

end

/-! ### Examples -/

namespace ExJ

-- two predictors with 4 and 2 distinct values
example : quantilized_splits_batched Nat.sqrt id (int_dtype true 8 16) 1 2 [[5, 3, 9, 7], [1, 1, 2, 2]] 4 100 =
    some (quantilized_splits_from_matrix id (int_dtype true 8 16) [[5, 3, 9, 7], [1, 1, 2, 2]] 4 100) :=
  C91_quantilized Nat.sqrt id _ 1 2 (by simp) (by norm_num) (by norm_num)

-- the predictors are binned in one batch with 20 bytes
example : bin_predictors_batched (α := Int) Nat.sqrt 1 2 [[5, 3, 9, 7], [1, 1, 2, 2]] [[4, 6, 8], [1, 127, 127]] 4 3 =
    some [[1, 0, 3, 2], [0, 0, 1, 1]] := by
  rw [C91_bin Nat.sqrt 1 2 (by simp) (by simp) (by simp)]
  decide +kernel

end ExJ

namespace Ex

example : evaluate_trace_batched Nat.sqrt ⟨1, 4, 1, 1⟩ 2 2 (run_mcmc rng (init args) 1 2 2 ()).main_trace [[0, 3], [1, 1]] =
    some [[2, 2], [2, 2]] := by
  have h1 := C91_run args_valid .init rng rng_lawful () 1 2 2 Nat.sqrt Nat.sqrt ⟨1, 4, 1, 1⟩ 100 (n := 2) (X := [[0, 3], [1, 1]])
    (by simp)
  rw [show args.p_nonterminal.length = 2 from rfl] at h1
  rw [h1]
  exact (C45_run args_valid .init rng rng_lawful () 1 2 2 Nat.sqrt 100 2 [[0, 3], [1, 1]]).trans (by decide)

end Ex
end Bartz
