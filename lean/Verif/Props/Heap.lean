import Verif.Spec.Heap
import Verif.Lemmas.Basic
import Verif.Props.Mcmc
/-!
# Property C41: steps do not modify their input state

False when `save_ratios` is on.
-/

set_option autoImplicit false

namespace Bartz
open Jax Spec

section
variable {K F : Type}

/-- memory with an additional dictionary -/
def Heap.push (h : Heap F) (d : HDict F) : Heap F :=
  { dicts := fun x => if x = h.size then d else h.dicts x, size := h.size + 1 }

theorem copy_eq (h : Heap F) (a : Nat) : h.copy a = (h.push (h.dicts a), h.size) := rfl

theorem push_set (h : Heap F) (d : HDict F) (k : String) (v : Value F) :
    (h.push d).set h.size k v = h.push (setItem d k (.val v)) := by
  unfold Heap.push Heap.set
  simp only [if_true]
  congr 1
  funext x
  by_cases hx : x = h.size <;> simp [hx]

theorem push_dicts_size (h : Heap F) (d : HDict F) : (h.push d).dicts h.size = d := by
  simp [Heap.push]

theorem push_dicts_lt (h : Heap F) (d : HDict F) {x : Nat} (hx : x < h.size) :
    (h.push d).dicts x = h.dicts x := by
  unfold Heap.push
  have : x ≠ h.size := by omega
  simp [this]

theorem push_size (h : Heap F) (d : HDict F) : (h.push d).size = h.size + 1 := rfl

theorem set_size (h : Heap F) (r : Nat) (k : String) (v : Value F) : (h.set r k v).size = h.size := rfl

theorem set_dicts (h : Heap F) (r x : Nat) (k : String) (v : Value F) :
    (h.set r k v).dicts x = if x = r then setItem (h.dicts r) k (.val v) else h.dicts x := rfl

variable [KeyLike K] [Inhabited F] [Zero F] [One F] [Add F] [Sub F] [Mul F] [Div F]
  [Neg F] [NatCast F] [FltFun F]

/-- memory after the first stage: `s1` is the partially updated state -/
theorem heap_parallel_eq (rng : Rng K F) (s : State F) (moves : List (Move F)) (key : K) (h : Heap F)
    (a : Nat) (tail : HDict F) (ha : h.dicts a = arrayFields s ++ tail) :
    ∃ s1 : State F, heap_parallel_stage rng s moves key h a = (h.push (arrayFields s1 ++ tail), h.size) ∧
      s1 = { s with
        var_trees := moves.map fun m => m.var_tree
        leaf_indices := (moves.mapIdx fun t move => parallel_stage_tree rng s key t move).map
          fun w => w.leaf_indices
        leaf_trees := (moves.mapIdx fun t move => parallel_stage_tree rng s key t move).map
          fun w => w.leaf_tree
        affluence_trees := match s.min_points_per_leaf with
          | none => s.affluence_trees
          | some m => some ((moves.mapIdx fun t move => parallel_stage_tree rng s key t move).map fun w =>
              (w.count_tree.take (s.var_trees.getD 0 []).length).map fun c => decide (c ≥ 2 * m))
        grow_prop_count := countNonzero (moves.map fun m => m.grow)
        prune_prop_count := countNonzero (moves.map fun m => m.allowed && !m.grow) } := by
  refine ⟨_, ?_, rfl⟩
  unfold heap_parallel_stage
  simp only [copy_eq, push_set, ha]
  cases hm : s.min_points_per_leaf with
  | none =>
    simp only [push_set, Prod.mk.injEq, and_true]
    congr 1
    simp [arrayFields, setItem, hm]
  | some m =>
    simp only [push_set, Prod.mk.injEq, and_true]
    congr 1
    simp [arrayFields, setItem, hm]

theorem heap_sequential_none (s1 final : State F) (h : Heap F) (a : Nat)
    (ha : h.dicts a = arrayFields s1) :
    heap_sequential_stage final h a = (h.push (arrayFields { s1 with
      resid := final.resid, leaf_trees := final.leaf_trees }), h.size) := by
  unfold heap_sequential_stage
  simp only [copy_eq, push_set, ha, push_dicts_size]
  have e : setItem (setItem (arrayFields s1) "resid" (.val (.floats final.resid))) "leaf_trees"
      (.val (.floatTrees final.leaf_trees)) = arrayFields { s1 with
      resid := final.resid, leaf_trees := final.leaf_trees } := by
    simp [arrayFields, setItem]
  have e2 : ∀ s : State F, (arrayFields s).lookup "ratios" = none := fun s => rfl
  rw [e, e2]

theorem heap_sequential_some (s1 final : State F) (h : Heap F) (a r : Nat) (x y : List F)
    (ha : h.dicts a = arrayFields s1 ++ [("ratios", .ref r)]) (hf : final.ratios = some (x, y)) :
    heap_sequential_stage final h a = (((h.push (arrayFields { s1 with
      resid := final.resid, leaf_trees := final.leaf_trees } ++ [("ratios", .ref r)])).set r
        "log_trans_prior" (.floats x)).set r "log_likelihood" (.floats y), h.size) := by
  unfold heap_sequential_stage
  simp only [copy_eq, push_set, ha, push_dicts_size]
  have e : setItem (setItem (arrayFields s1 ++ [("ratios", .ref r)]) "resid" (.val (.floats final.resid)))
      "leaf_trees" (.val (.floatTrees final.leaf_trees)) = arrayFields { s1 with
      resid := final.resid, leaf_trees := final.leaf_trees } ++ [("ratios", .ref r)] := by
    simp [arrayFields, setItem]
  have e2 : ∀ s : State F, (arrayFields s ++ [("ratios", HVal.ref r)]).lookup "ratios" = some (.ref r) :=
    fun s => rfl
  rw [e, e2, hf]

theorem heap_final_eq (s2 final : State F) (h : Heap F) (a : Nat) (tail : HDict F)
    (ha : h.dicts a = arrayFields s2 ++ tail) :
    heap_final_stage final h a = (h.push (arrayFields { s2 with
      grow_acc_count := final.grow_acc_count, prune_acc_count := final.prune_acc_count
      leaf_indices := final.leaf_indices, split_trees := final.split_trees } ++ tail), h.size) := by
  unfold heap_final_stage
  simp only [copy_eq, push_set, ha]
  simp [arrayFields, setItem]

theorem heap_sigma_eq (s3 final : State F) (h : Heap F) (a : Nat) (tail : HDict F)
    (ha : h.dicts a = arrayFields s3 ++ tail) :
    heap_sample_sigma final h a =
      (h.push (arrayFields { s3 with sigma2 := final.sigma2 } ++ tail), h.size) := by
  unfold heap_sample_sigma
  simp only [copy_eq, push_set, ha]
  simp [arrayFields, setItem]

/-- memory after a step, without ratios -/
theorem heap_step_none (rng : Rng K F) (s : State F) (key : K) (h : Heap F) (a : Nat)
    (ha : h.dicts a = arrayFields s) : ∃ d1 d2 d3, heap_step rng s key h a =
      ((((h.push d1).push d2).push d3).push (arrayFields (step rng s key)), h.size + 3) := by
  unfold heap_step
  obtain ⟨s1, e1, hs1⟩ := heap_parallel_eq rng s
    (sample_moves rng s (KeyLike.split (KeyLike.split key 2 1) 2 1))
    (KeyLike.split (KeyLike.split key 2 1) 2 0) h a [] (by rw [List.append_nil]; exact ha)
  rw [List.append_nil] at e1
  simp only [e1]
  simp only [heap_sequential_none s1 _ _ _ (push_dicts_size _ _)]
  have hd : ∀ (g : Heap F) (s : State F), (g.push (arrayFields s)).dicts g.size = arrayFields s ++ [] := by
    intro g d; rw [push_dicts_size, List.append_nil]
  simp only [heap_final_eq (F := F) _ _ _ _ _ (hd _ _)]
  simp only [heap_sigma_eq (F := F) _ _ _ _ _ (push_dicts_size _ _)]
  subst hs1
  simp only [List.append_nil]
  exact ⟨_, _, _, rfl⟩

/-- memory after a step, with ratios -/
theorem heap_step_some (rng : Rng K F) (s : State F) (key : K) (h : Heap F) (a r : Nat) (x y : List F)
    (ha : h.dicts a = arrayFields s ++ [("ratios", .ref r)]) (hr : r < h.size)
    (hx : (step rng s key).ratios = some (x, y)) : ∃ d1 d2 d3, heap_step rng s key h a =
      (((((((h.push d1).push d2).set r "log_trans_prior" (.floats x)).set r "log_likelihood" (.floats y)).push
        d3).push (arrayFields (step rng s key) ++ [("ratios", .ref r)])), h.size + 3) := by
  unfold heap_step
  obtain ⟨s1, e1, hs1⟩ := heap_parallel_eq rng s
    (sample_moves rng s (KeyLike.split (KeyLike.split key 2 1) 2 1))
    (KeyLike.split (KeyLike.split key 2 1) 2 0) h a _ ha
  simp only [e1]
  have hx' : (accept_moves_and_sample_leaves rng s
      (sample_moves rng s (KeyLike.split (KeyLike.split key 2 1) 2 1))
      (KeyLike.split (KeyLike.split key 2 1) 2 0)).ratios = some (x, y) := hx
  simp only [heap_sequential_some s1 _ _ _ r x y (push_dicts_size _ _) hx']
  have hd : ∀ (g : Heap F) (d : HDict F) (u v : Value F), r < g.size →
      (((g.push d).set r "log_trans_prior" u).set r "log_likelihood" v).dicts g.size = d := by
    intro g d u v hrn
    have : g.size ≠ r := by omega
    rw [set_dicts, if_neg this, set_dicts, if_neg this, push_dicts_size]
  have hf := fun (d1 : HDict F) (s2 final : State F) (u v : Value F) => heap_final_eq (F := F) s2 final
    ((((h.push d1).push (arrayFields s2 ++ [("ratios", .ref r)])).set r "log_trans_prior" u).set r
      "log_likelihood" v) (h.push d1).size _ (hd _ _ u v (by rw [push_size]; omega))
  simp only [hf]
  simp only [heap_sigma_eq (F := F) _ _ _ _ _ (push_dicts_size _ _)]
  subst hs1
  exact ⟨_, _, _, rfl⟩

theorem step_ratios_isSome (rng : Rng K F) (s : State F) (key : K) :
    (step rng s key).ratios.isSome = s.ratios.isSome := by
  unfold step sample_sigma sample_trees accept_moves_and_sample_leaves
  simp only [Option.isSome_map]

/-- C41. The dictionary returned by a step contains the new state, so the model with memory agrees with
the one without. -/
theorem C41_result (rng : Rng K F) (s : State F) (key : K) (h : Heap F) (a r : Nat)
    (hs : HoldsAt h a r s) :
    HoldsAt (heap_step rng s key h a).1 (heap_step rng s key h a).2 r (step rng s key) ∧
    h.size ≤ (heap_step rng s key h a).2 := by
  have hi := step_ratios_isSome rng s key
  unfold HoldsAt at hs
  cases hr : s.ratios with
  | none =>
    rw [hr] at hs hi
    obtain ⟨d1, d2, d3, e⟩ := heap_step_none rng s key h a hs.2
    rw [e]
    have hn : (step rng s key).ratios = none := by simpa using hi
    refine ⟨⟨by simp [push_size], ?_⟩, by simp⟩
    rw [hn]
    exact push_dicts_size (((h.push d1).push d2).push d3) _
  | some xy =>
    obtain ⟨x0, y0⟩ := xy
    rw [hr] at hs hi
    obtain ⟨_, hrs, hra, hda, hdr⟩ := hs
    obtain ⟨⟨x, y⟩, hn⟩ := Option.isSome_iff_exists.1 (hi.trans rfl)
    obtain ⟨d1, d2, d3, e⟩ := heap_step_some rng s key h a r x y hda hrs hn
    rw [e]
    refine ⟨⟨by simp [push_size, set_size], ?_⟩, by simp⟩
    rw [hn]
    refine ⟨by simp only [push_size, set_size]; omega, by simp only; omega, ?_, ?_⟩
    · exact push_dicts_size _ _
    · rw [push_dicts_lt _ _ (by simp only [push_size, set_size]; omega),
        push_dicts_lt _ _ (by simp only [push_size, set_size]; omega)]
      rw [set_dicts, if_pos rfl, set_dicts, if_pos rfl,
        push_dicts_lt _ _ (by simp only [push_size]; omega), push_dicts_lt _ _ hrs, hdr]
      simp [setItem]

/-- C41 (partial). If the ratios are saved, the only dictionary modified is the one with the ratios, which
is contained in the input state. -/
theorem C41_only_ratios_partial (rng : Rng K F) (s : State F) (key : K) (h : Heap F) (a r : Nat)
    (hs : HoldsAt h a r s) (z : Nat) (hz : z < h.size) (hzr : z ≠ r) :
    (heap_step rng s key h a).1.dicts z = h.dicts z := by
  have hi := step_ratios_isSome rng s key
  unfold HoldsAt at hs
  cases hr : s.ratios with
  | none =>
    rw [hr] at hs hi
    obtain ⟨d1, d2, d3, e⟩ := heap_step_none rng s key h a hs.2
    rw [e]
    rw [push_dicts_lt _ _ (by simp only [push_size]; omega),
      push_dicts_lt _ _ (by simp only [push_size]; omega),
      push_dicts_lt _ _ (by simp only [push_size]; omega), push_dicts_lt _ _ hz]
  | some xy =>
    obtain ⟨x0, y0⟩ := xy
    rw [hr] at hs hi
    obtain ⟨_, hrs, hra, hda, hdr⟩ := hs
    obtain ⟨⟨x, y⟩, hn⟩ := Option.isSome_iff_exists.1 (hi.trans rfl)
    obtain ⟨d1, d2, d3, e⟩ := heap_step_some rng s key h a r x y hda hrs hn
    rw [e]
    rw [push_dicts_lt _ _ (by simp only [push_size, set_size]; omega),
      push_dicts_lt _ _ (by simp only [push_size, set_size]; omega), set_dicts, if_neg hzr, set_dicts,
      if_neg hzr, push_dicts_lt _ _ (by simp only [push_size]; omega), push_dicts_lt _ _ hz]

/-- C41 (partial). If the ratios are not saved, a step does not modify any of the dictionaries already
existing. What is missing is the case with the ratios, see `C41_not`. -/
theorem C41_unmodified_partial (rng : Rng K F) (s : State F) (key : K) (h : Heap F) (a r : Nat)
    (hs : HoldsAt h a r s) (hr : s.ratios = none) (z : Nat) (hz : z < h.size) :
    (heap_step rng s key h a).1.dicts z = h.dicts z := by
  have h1 : HoldsAt h a h.size s := by
    unfold HoldsAt at hs ⊢
    rw [hr] at hs ⊢
    exact hs
  exact C41_only_ratios_partial rng s key h a h.size h1 z hz (by omega)

/-- C41 is false if the ratios are saved: after the step, the input dictionary contains the ratios of the
output state. -/
theorem C41_not (rng : Rng K F) (s : State F) (key : K) (h : Heap F) (a r : Nat)
    (hs : HoldsAt h a r s) (hr : s.ratios ≠ none) :
    HoldsAt (heap_step rng s key h a).1 a r { s with ratios := (step rng s key).ratios } := by
  have h1 := C41_result rng s key h a r hs
  have h2 := C41_only_ratios_partial rng s key h a r hs
  have hi := step_ratios_isSome rng s key
  unfold HoldsAt at hs h1 ⊢
  obtain ⟨⟨x, y⟩, hxy⟩ := Option.isSome_iff_exists.1 (Option.isSome_iff_ne_none.2 hr)
  rw [hxy] at hs hi
  obtain ⟨has, hrs, hra, hda, hdr⟩ := hs
  obtain ⟨⟨x', y'⟩, hn⟩ := Option.isSome_iff_exists.1 (hi.trans rfl)
  rw [hn] at h1 ⊢
  refine ⟨by omega, h1.1.2.1, hra, ?_, h1.1.2.2.2.2⟩
  rw [h2 a has (Ne.symm hra), hda]
  rfl

end

/-! ### Example: the first step from the initial state overwrites the initial ratios -/

namespace Ex

/-- like `args`, with a visible initial value of the ratios -/
def args7 : InitArgs Int := { args with nan := 7 }

/-- initial state in memory -/
def heap : Heap Int :=
  { dicts := fun x => if x = 0 then arrayFields (init args7) ++ [("ratios", .ref 1)]
      else [("log_trans_prior", .val (.floats [7, 7])), ("log_likelihood", .val (.floats [7, 7]))]
    size := 2 }

theorem heap_holds : HoldsAt heap 0 1 (init args7) :=
  ⟨by decide, by decide, by decide, rfl, rfl⟩

example : (init args7).ratios = some ([7, 7], [7, 7]) := by decide
example : (step rng (init args7) ()).ratios = some ([0, 0], [0, 0]) := by decide

-- the ratios in the dictionary passed to `step` are those of the new state
example : (heap_step rng (init args7) () heap 0).1.dicts 1 ≠ heap.dicts 1 := by
  have h := C41_not rng (init args7) () heap 0 1 heap_holds (by decide)
  have e : (step rng (init args7) ()).ratios = some ([0, 0], [0, 0]) := by decide
  unfold HoldsAt at h
  rw [e] at h
  rw [h.2.2.2.2]
  intro h'
  simp [heap] at h'

end Ex
end Bartz
