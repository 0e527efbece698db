import Verif.Model.Missing
import Verif.Lemmas.Midpoint32
import Verif.Props.Binning32
import Verif.Props.Ieee
/-!
# Lemmas on missing values in the predictors
-/

set_option autoImplicit false

namespace Bartz
open Jax Spec Jax.Binary32 Spec.Ieee

/-! ### nan -/

theorem nan_add (x : Binary32) : nan + x = nan := rfl
theorem add_nan (x : Binary32) : x + nan = nan := by cases x <;> rfl
theorem nan_div (x : Binary32) : nan / x = nan := rfl
theorem nan_mul (x : Binary32) : nan * x = nan := rfl
theorem fma_nan (x y : Binary32) : fma x y nan = nan := by cases x <;> cases y <;> rfl
theorem fma_nan_left (x y : Binary32) : fma nan x y = nan := rfl

theorem toKey_of_ne {x : Binary32} (h : x ≠ nan) : toKey x = (toOrdered x : Ordered) := by
  cases x with
  | nan => exact absurd rfl h
  | num s b => rfl

theorem ofOrdered_finite {z : Ordered} (h : z.val.natAbs < infBits) : ∃ s v, IsFinite (ofOrdered z) s v :=
  ⟨_, _, ⟨⟨_, h, rfl, rfl⟩⟩⟩

theorem nan_midpoint_some {a b : Ordered} (ha : a.val.natAbs < infBits) (hb : b.val.natAbs < infBits) :
    nan_dtype.midpoint (a : WithTop Ordered) b = (binary32_dtype.midpoint a b : Ordered) := by
  obtain ⟨s, v, h1⟩ := ofOrdered_finite ha
  obtain ⟨s', w, h2⟩ := ofOrdered_finite hb
  exact toKey_of_ne (midpoint_ne_nan h2 h1)

theorem nan_midpoint_left (b : WithTop Ordered) : nan_dtype.midpoint ⊤ b = ⊤ := by
  show toKey ((ofKey b + nan) / ((2 : Nat) : Binary32)) = ⊤
  rw [add_nan, nan_div]
  rfl

theorem nan_midpoint_right (a : WithTop Ordered) : nan_dtype.midpoint a ⊤ = ⊤ := by
  show toKey ((nan + ofKey a) / ((2 : Nat) : Binary32)) = ⊤
  rw [nan_add, nan_div]
  rfl

theorem nan_midpoint_huge : nan_dtype.midpoint nan_dtype.huge nan_dtype.huge = nan_dtype.huge := by decide +kernel

theorem nan_midpoint_pad {a : Ordered} (ha : a.val.natAbs < infBits) : nan_dtype.midpoint a nan_dtype.huge = nan_dtype.huge := by
  have h2 : num false ⟨infBits, by decide⟩ / ((2 : Nat) : Binary32) = num false (clip infBits) := by decide +kernel
  have e : ofOrdered binary32_dtype.huge + ofOrdered a = num false ⟨infBits, by decide⟩ := by
    show add _ _ = _
    have e' : ofOrdered binary32_dtype.huge = num false ⟨infBits, by decide⟩ := by decide +kernel
    rw [e']
    unfold ofOrdered add
    dsimp only
    rw [if_pos rfl, if_neg (by omega)]
  show toKey ((ofOrdered binary32_dtype.huge + ofOrdered a) / ((2 : Nat) : Binary32)) = _
  rw [e, h2]
  decide +kernel

/-! ### `unique` -/

theorem sort_nan {x : List (WithTop Ordered)} {r : List Ordered} {k : Nat}
    (h : x.Perm (r.map WithTop.some ++ List.replicate k ⊤)) :
    jnp_sort x = (jnp_sort r).map WithTop.some ++ List.replicate k ⊤ := by
  refine List.Perm.eq_of_pairwise (le := (· ≤ ·)) (fun a b _ _ h1 h2 => le_antisymm h1 h2) (sort_sorted x) ?_
    ((sort_perm x).trans (h.trans (((sort_perm r).map _).symm.append_right _)))
  rw [List.pairwise_append]
  refine ⟨?_, by simp [List.pairwise_replicate], fun a _ b hb => ?_⟩
  · rw [List.pairwise_map]
    exact (sort_sorted r).imp fun h => WithTop.coe_le_coe.2 h
  · rw [List.eq_of_mem_replicate hb]
    exact le_top

/-- the carry of the loop, without nans -/
def carryKey (c : Nat × Ordered × List Ordered) : Nat × WithTop Ordered × List (WithTop Ordered) :=
  (c.1, (c.2.1 : WithTop Ordered), c.2.2.map WithTop.some)

theorem unique_loop_key (c : Nat × Ordered × List Ordered) (v : Ordered) :
    unique_loop_nan (carryKey c) v = carryKey (unique_loop c v) := by
  obtain ⟨i, l, out⟩ := c
  have e : nan_eq (v : WithTop Ordered) (l : WithTop Ordered) = decide (v = l) := by
    unfold nan_eq
    simp [WithTop.coe_inj]
  unfold unique_loop_nan unique_loop carryKey
  dsimp only
  rw [e]
  by_cases h : v = l <;> simp [h, List.map_set]

theorem unique_fold_key (l : List Ordered) : ∀ c, (l.map WithTop.some).foldl unique_loop_nan (carryKey c) =
    carryKey (l.foldl unique_loop c) := by
  induction l with
  | nil => intro c; rfl
  | cons v l ih => intro c; rw [List.map_cons, List.foldl_cons, List.foldl_cons, unique_loop_key, ih]

theorem unique_fold_nan (fill : WithTop Ordered) (k : Nat) : ∀ (u : List (WithTop Ordered)) (last : WithTop Ordered) (m : Nat), u ≠ [] → k ≤ m →
    ∃ l, (List.replicate k ⊤).foldl unique_loop_nan (u.length - 1, last, u ++ List.replicate m fill) =
      (u.length + k - 1, l, u ++ List.replicate k ⊤ ++ List.replicate (m - k) fill) := by
  induction k with
  | zero => intro u last m _ _; exact ⟨last, by simp⟩
  | succ k ih =>
    intro u last m hu hm
    have h0 : 0 < u.length := List.length_pos_iff.2 hu
    obtain ⟨m, rfl⟩ : ∃ m', m = m' + 1 := ⟨m - 1, by omega⟩
    have e : unique_loop_nan (u.length - 1, last, u ++ List.replicate (m + 1) fill) ⊤ =
        ((u ++ [⊤]).length - 1, ⊤, (u ++ [⊤]) ++ List.replicate m fill) := by
      unfold unique_loop_nan
      dsimp only
      have e1 : nan_eq ⊤ last = false := by simp [nan_eq]
      rw [e1, if_neg (by decide), show u.length - 1 + 1 = u.length by omega, List.replicate_succ]
      simp
    rw [List.replicate_succ (n := k), List.foldl_cons, e]
    obtain ⟨l, hl⟩ := ih (u ++ [⊤]) ⊤ m (by simp) (by omega)
    refine ⟨l, hl.trans ?_⟩
    have e2 : (u ++ [⊤]).length + k - 1 = u.length + (k + 1) - 1 := by rw [List.length_append, List.length_singleton]; omega
    have e3 : m + 1 - (k + 1) = m - k := by omega
    rw [e2, e3]
    simp

/-- `unique` with nans: each nan is a distinct value -/
theorem unique_nan_spec {x : List (WithTop Ordered)} {r U : List Ordered} {k : Nat} {fill : Ordered}
    (h : x.Perm (r.map WithTop.some ++ List.replicate k ⊤)) (hr : r ≠ []) (hU : IsUnique r U) :
    unique_nan x x.length fill = (U.map WithTop.some ++ List.replicate k ⊤ ++
      List.replicate (x.length - U.length - k) (fill : WithTop Ordered), U.length + k) := by
  have hl : x.length = r.length + k := by rw [h.length_eq]; simp
  have hr0 : 0 < r.length := List.length_pos_iff.2 hr
  have hU0 : 0 < U.length := unique_pos hU hr0
  have hUl := unique_le hU
  unfold unique_nan
  rw [if_neg (by omega), if_neg (by omega)]
  dsimp only
  rw [List.take_of_length_le (by rw [sort_length]), sort_nan h, List.foldl_append]
  obtain ⟨U', hU', hu⟩ := unique_spec r x.length fill
  have hUU : U' = U := by
    refine hU'.unique ?_
    rw [List.take_of_length_le (by rw [sort_length]; omega)]
    exact hU.congr fun v => (sort_perm r).mem_iff.symm
  subst hUU
  unfold unique at hu
  rw [if_neg (by omega), if_neg (by omega)] at hu
  dsimp only at hu
  rw [List.take_of_length_le (by rw [sort_length]; omega)] at hu
  have e : ((0 : Nat), ((jnp_sort r).map WithTop.some ++ List.replicate k ⊤).headD (fill : WithTop Ordered),
      List.replicate x.length (fill : WithTop Ordered)) = carryKey (0, (jnp_sort r).headD fill, List.replicate x.length fill) := by
    have hs : (jnp_sort r).length = r.length := sort_length r
    cases hc : jnp_sort r with
    | nil => rw [hc] at hs; simp at hs; omega
    | cons a l => simp [carryKey]
  rw [e, unique_fold_key]
  generalize (jnp_sort r).foldl unique_loop (0, (jnp_sort r).headD fill, List.replicate x.length fill) = c at hu
  obtain ⟨i, l, out⟩ := c
  dsimp only at hu
  rw [Prod.mk.injEq] at hu
  obtain ⟨h1, h2⟩ := hu
  rw [padTo_of_le (by omega)] at h1
  have e2 : carryKey (i, l, out) = ((U'.map WithTop.some).length - 1, (l : WithTop Ordered),
      (U'.map WithTop.some) ++ List.replicate (x.length - U'.length) (fill : WithTop Ordered)) := by
    unfold carryKey
    dsimp only
    rw [h1, List.length_map, ← h2]
    simp
  rw [e2]
  obtain ⟨l', hl'⟩ := unique_fold_nan (fill : WithTop Ordered) k (U'.map WithTop.some) l (x.length - U'.length)
    (by intro h; rw [List.map_eq_nil_iff] at h; rw [h] at hU0; simp at hU0) (by omega)
  rw [hl', List.length_map]
  dsimp only
  rw [show U'.length + k - 1 + 1 = U'.length + k by omega]

/-! ### the cutpoints -/

/-- the cutpoint of index `i` -/
def nanCut (U : List Ordered) (k i : Nat) : WithTop Ordered :=
  if h : i + 1 < U.length then (binary32_dtype.midpoint (U[i]'(by omega)) (U[i + 1]'h) : Ordered)
  else if i < U.length + k ∧ 0 < k then ⊤ else nan_dtype.huge

theorem nan_u_get (U : List Ordered) (k p i : Nat) (hi : i < U.length + k + p) :
    (U.map WithTop.some ++ List.replicate k ⊤ ++ List.replicate p nan_dtype.huge)[i]? =
      some (if h : i < U.length then (U[i] : WithTop Ordered) else if i < U.length + k then ⊤ else nan_dtype.huge) := by
  by_cases h1 : i < U.length
  · rw [dif_pos h1, List.append_assoc, List.getElem?_append_left (by simpa using h1), List.getElem?_map, List.getElem?_eq_getElem h1]
    rfl
  · rw [dif_neg h1]
    by_cases h2 : i < U.length + k
    · rw [if_pos h2, List.getElem?_append_left (by simpa using h2), List.getElem?_append_right (by simpa using h1), List.getElem?_replicate]
      rw [if_pos (by simp; omega)]
    · rw [if_neg h2, List.getElem?_append_right (by simp; omega), List.getElem?_replicate, if_pos (by simp; omega)]

theorem nan_row {fl : ℚ → ℚ} {x : List (WithTop Ordered)} {r U : List Ordered} {k : Nat}
    (h : x.Perm (r.map WithTop.some ++ List.replicate k ⊤)) (hr : r ≠ []) (hU : IsUnique r U)
    (hfin : ∀ v ∈ r, v.val.natAbs < infBits) {m : Nat} (hm : m + 1 ≤ x.length) (hmU : U.length + k ≤ m + 1) (h64 : x.length < 2 ^ 64) :
    quantilized_row_nan fl x m = ((List.range m).map (nanCut U k), U.length + k - 1) := by
  have hl : x.length = r.length + k := by rw [h.length_eq]; simp
  have hr0 : 0 < r.length := List.length_pos_iff.2 hr
  have hU0 : 0 < U.length := unique_pos hU hr0
  have hUl := unique_le hU
  have hu : unique_nan x x.length nan_dtype.huge = _ := unique_nan_spec (fill := binary32_dtype.huge) h hr hU
  unfold quantilized_row_nan
  dsimp only
  rw [hu]
  dsimp only
  rw [if_neg (by push_cast; omega)]
  refine Prod.ext ?_ ?_
  · dsimp only
    unfold sliceTo
    rw [if_neg (by omega), Int.toNat_natCast]
    unfold quantilized_midpoints
    dsimp only
    rw [if_neg (by show ¬ (false = true); decide)]
    have hlen : (U.map WithTop.some ++ List.replicate k ⊤ ++
        List.replicate (x.length - U.length - k) nan_dtype.huge).length = x.length := by simp; omega
    change List.take m (List.zipWith _ (U.map WithTop.some ++ List.replicate k ⊤ ++
        List.replicate (x.length - U.length - k) nan_dtype.huge).dropLast (List.drop 1 (U.map WithTop.some ++ List.replicate k ⊤ ++
        List.replicate (x.length - U.length - k) nan_dtype.huge))) = _
    have hg := fun i hi => nan_u_get U k (x.length - U.length - k) i hi
    generalize U.map WithTop.some ++ List.replicate k ⊤ ++
        List.replicate (x.length - U.length - k) nan_dtype.huge = u at hlen hg
    apply List.ext_getElem?
    intro i
    by_cases hi : i < m
    · rw [List.getElem?_take_of_lt hi, List.getElem?_map, List.getElem?_range hi, List.getElem?_zipWith, List.getElem?_dropLast,
        if_pos (by omega), List.getElem?_drop, hg i (by omega), hg (1 + i) (by omega)]
      dsimp only [Option.map_some]
      unfold nanCut
      by_cases h1 : i + 1 < U.length
      · rw [dif_pos (by omega), dif_pos (by omega), dif_pos h1]
        have e : U[1 + i]'(by omega) = U[i + 1] := by congr 1; omega
        rw [e, nan_midpoint_some (hfin _ ((hU.2 _).1 (List.getElem_mem _))) (hfin _ ((hU.2 _).1 (List.getElem_mem _)))]
      · rw [dif_neg (show ¬ 1 + i < U.length by omega), dif_neg h1]
        by_cases h2 : i < U.length
        · rw [dif_pos h2]
          by_cases h3 : 0 < k
          · rw [if_pos (by omega), if_pos ⟨by omega, h3⟩, nan_midpoint_right]
          · rw [if_neg (by omega), if_neg (by omega)]
            rw [nan_midpoint_pad (hfin _ ((hU.2 _).1 (List.getElem_mem _)))]
        · rw [dif_neg h2]
          by_cases h3 : i < U.length + k
          · rw [if_pos h3, nan_midpoint_left, if_pos ⟨h3, by omega⟩]
          · rw [if_neg h3, if_neg (by omega), if_neg (by omega), nan_midpoint_huge]
    · rw [List.getElem?_eq_none (by simp; omega), List.getElem?_eq_none (by simpa using hi)]
  · dsimp only
    have hf : U.length + k - 1 < 2 ^ minimal_unsigned_dtype m := minimal_fits (by omega) (by omega)
    have hf' : ((U.length + k - 1 : Nat) : Int) < 2 ^ minimal_unsigned_dtype m := by exact_mod_cast hf
    unfold wrap_int
    rw [if_neg (by decide), show min (((U.length + k : Nat) : Int) - 1) m = ((U.length + k - 1 : Nat) : Int) by omega,
      Int.emod_eq_of_lt (by omega) hf', Int.toNat_natCast]

end Bartz
