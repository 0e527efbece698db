import Verif.Lemmas.Counts32
import Verif.Props.Mcmc
/-!
# Property C98: the counts do not overflow 32 bit integers

The functions that count the datapoints in the leaves work on all the trees together, in 32 bit arithmetic. With less than `2 ** 31`
datapoints, the results are the same as those of the functions of the model of `step` (`compute_count_tree`), which work on one tree, and on
natural numbers.
-/

set_option autoImplicit false

namespace Bartz
open Jax Spec

/-- **C98** for `count_datapoints_per_leaf`, that works on all trees: with any batch size, each entry is the number of the datapoints of
the tree in the leaf. -/
theorem C98_count {leaf_indices : List (List Nat)} {n : Nat} (hn : ∀ idx ∈ leaf_indices, idx.length = n) (h32 : n < 2 ^ 32) (size : Nat)
    (b : Option Nat) :
    (count_datapoints_per_leaf32 leaf_indices n size b).map (fun c => c.map BitVec.toNat) =
      leaf_indices.map fun idx => (List.range size).map fun k => idx.count k := by
  rw [count32_eq hn, List.map_map]
  refine List.map_congr_left fun idx hi => ?_
  rw [Function.comp_apply, List.map_map]
  apply List.ext_getElem
  · rw [List.length_map, length_count, List.length_map, List.length_range]
  · intro k h1 h2
    have hk : k < size := by simpa using h2
    have e := count_getD idx size b k hk
    rw [List.getD_eq_getElem _ _ (by rw [length_count]; exact hk)] at e
    rw [List.getElem_map, List.getElem_map, List.getElem_range, Function.comp_apply, e]
    refine toNat_ofNat (lt_of_le_of_lt List.count_le_length ?_)
    rw [hn idx hi]
    exact h32

section
variable {F : Type}

/-- **C98** for `compute_count_trees`: with less than `2 ** 31` datapoints, the results are those obtained from each tree separately,
without overflow. -/
theorem C98_compute_count_trees {leaf_indices : List (List Nat)} {moves : List (Move F)} {n half_size : Nat} (b : Option Nat)
    (hn : ∀ idx ∈ leaf_indices, idx.length = n) (h31 : n < 2 ^ 31) (hlen : moves.length = leaf_indices.length)
    (hsize : ∀ m ∈ moves, m.var_tree.length = half_size) (hpos : 0 < half_size) :
    let r := compute_count_trees32 leaf_indices moves n half_size b
    let one := fun idx m => compute_count_tree idx m b
    r.1.map (fun c => c.map BitVec.toNat) = List.zipWith (fun idx m => (one idx m).1) leaf_indices moves ∧
    r.2.left.map BitVec.toNat = List.zipWith (fun idx m => (one idx m).2.left) leaf_indices moves ∧
    r.2.right.map BitVec.toNat = List.zipWith (fun idx m => (one idx m).2.right) leaf_indices moves ∧
    r.2.total.map BitVec.toNat = List.zipWith (fun idx m => (one idx m).2.total) leaf_indices moves := by
  intro r one
  -- the counts of one tree
  obtain ⟨cnt, hcnt⟩ : ∃ cnt : List Nat → List Nat, ∀ idx, cnt idx = count_datapoints_per_leaf idx (half_size * 2) b := ⟨_, fun _ => rfl⟩
  have hle : ∀ idx ∈ leaf_indices, ∀ c ∈ cnt idx, c < 2 ^ 31 := by
    intro idx hi c hc
    rw [hcnt] at hc
    have := count_le hc
    rw [hn idx hi] at this
    omega
  have hlc : ∀ idx, (cnt idx).length = half_size * 2 := fun idx => by rw [hcnt, length_count]
  have hne : ∀ idx, cnt idx ≠ [] := fun idx h => by
    have := hlc idx
    rw [h, List.length_nil] at this
    omega
  have hg : ∀ idx ∈ leaf_indices, ∀ i, gather (cnt idx) i < 2 ^ 31 := by
    intro idx hi i
    refine hle idx hi _ ?_
    have h : min i ((cnt idx).length - 1) < (cnt idx).length := by
      rw [hlc]; omega
    unfold gather
    rw [List.getD_eq_getElem _ _ h]
    exact List.getElem_mem _
  have hcs : count_datapoints_per_leaf32 leaf_indices n (half_size * 2) b =
      leaf_indices.map fun idx => (cnt idx).map (BitVec.ofNat 32) := by
    rw [count32_eq hn]
    simp only [hcnt]
  have hrow : ∀ t (ht : t < leaf_indices.length), gather (count_datapoints_per_leaf32 leaf_indices n (half_size * 2) b) t =
      (cnt leaf_indices[t]).map (BitVec.ofNat 32) := by
    intro t ht
    rw [hcs, gather_of_lt (by simpa using ht), List.getElem_map]
  have hone : ∀ t (ht : t < leaf_indices.length), one leaf_indices[t] (moves[t]'(by omega)) =
      (setDrop (cnt leaf_indices[t]) (moves[t]'(by omega)).node
        (gather (cnt leaf_indices[t]) (moves[t]'(by omega)).left + gather (cnt leaf_indices[t]) (moves[t]'(by omega)).right),
        { left := gather (cnt leaf_indices[t]) (moves[t]'(by omega)).left
          right := gather (cnt leaf_indices[t]) (moves[t]'(by omega)).right
          total := gather (cnt leaf_indices[t]) (moves[t]'(by omega)).left + gather (cnt leaf_indices[t]) (moves[t]'(by omega)).right }) := by
    intro t ht
    show compute_count_tree _ _ b = _
    unfold compute_count_tree
    simp only [hsize _ (List.getElem_mem _), ← hcnt]
  -- the entries for the move
  have hentry : ∀ (f : Move F → Nat), vmap moves.length (fun t => gather (gather (count_datapoints_per_leaf32 leaf_indices n (half_size * 2)
      b) t) ((moves.map f).getD t 0)) =
      List.zipWith (fun idx m => BitVec.ofNat 32 (gather (cnt idx) (f m))) leaf_indices moves := by
    intro f
    apply List.ext_getElem
    · simp [vmap, hlen]
    · intro t h1 h2
      have ht : t < leaf_indices.length := by simp at h2; omega
      have ht' : t < moves.length := by omega
      simp only [vmap, List.getElem_map, List.getElem_range, List.getElem_zipWith]
      rw [hrow t ht, List.getD_eq_getElem _ _ (by simpa using ht'), List.getElem_map, gather_map _ _ (hne _)]
  have hmap : ∀ (f : Move F → Nat), (List.zipWith (fun idx m => BitVec.ofNat 32 (gather (cnt idx) (f m))) leaf_indices moves).map
      BitVec.toNat = List.zipWith (fun idx m => gather (cnt idx) (f m)) leaf_indices moves := by
    intro f
    apply List.ext_getElem
    · simp
    · intro t h1 h2
      have ht : t < leaf_indices.length := by simp at h2; omega
      rw [List.getElem_map, List.getElem_zipWith, List.getElem_zipWith]
      have := hg _ (List.getElem_mem ht) (f (moves[t]'(by omega)))
      exact toNat_ofNat (by omega)
  have htot : List.zipWith (· + ·) (List.zipWith (fun idx m => BitVec.ofNat 32 (gather (cnt idx) m.left)) leaf_indices moves)
      (List.zipWith (fun idx m => BitVec.ofNat 32 (gather (cnt idx) m.right)) leaf_indices moves) =
      List.zipWith (fun idx m => BitVec.ofNat 32 (gather (cnt idx) m.left + gather (cnt idx) m.right)) leaf_indices moves := by
    apply List.ext_getElem
    · simp
    · intro t h1 h2
      simp only [List.getElem_zipWith, BitVec.ofNat_add]
  have hr2 : r.2 = { left := List.zipWith (fun idx m => BitVec.ofNat 32 (gather (cnt idx) m.left)) leaf_indices moves
                     right := List.zipWith (fun idx m => BitVec.ofNat 32 (gather (cnt idx) m.right)) leaf_indices moves
                     total := List.zipWith (fun idx m => BitVec.ofNat 32 (gather (cnt idx) m.left + gather (cnt idx) m.right))
                       leaf_indices moves } := by
    show (compute_count_trees32 leaf_indices moves n half_size b).2 = _
    unfold compute_count_trees32
    simp only [hentry (fun m => m.left), hentry (fun m => m.right), htot]
  have hzip : ∀ {β : Type} (f : List Nat × MoveCounts → β) (g : List Nat → Move F → β),
      (∀ t (ht : t < leaf_indices.length), f (one leaf_indices[t] (moves[t]'(by omega))) = g leaf_indices[t] (moves[t]'(by omega))) →
      List.zipWith g leaf_indices moves = List.zipWith (fun idx m => f (one idx m)) leaf_indices moves := by
    intro β f g h
    apply List.ext_getElem
    · simp
    · intro t h1 h2
      have ht : t < leaf_indices.length := by simp at h2; omega
      rw [List.getElem_zipWith, List.getElem_zipWith, h t ht]
  refine ⟨?_, ?_, ?_, ?_⟩
  · have hr1 : r.1 = (List.range moves.length).foldl (fun a t => a.modify t fun row =>
        setDrop row ((moves.map fun m => m.node).getD t 0) (r.2.total.getD t 0))
        (leaf_indices.map fun idx => (cnt idx).map (BitVec.ofNat 32)) := by
      rw [hr2]
      show (compute_count_trees32 leaf_indices moves n half_size b).1 = _
      unfold compute_count_trees32
      simp only [hentry (fun m => m.left), hentry (fun m => m.right), htot]
      simp only [hcs]
    rw [hr1, hr2]
    apply List.ext_getElem?
    intro t
    rw [List.getElem?_map, foldl_modify]
    by_cases ht : t < leaf_indices.length
    · have ht' : t < moves.length := by omega
      rw [if_pos ht', List.getElem?_map, List.getElem?_eq_getElem ht, List.getElem?_eq_getElem (by simp; omega)]
      simp only [Option.map_some, List.getElem_zipWith]
      rw [hone t ht, List.getD_eq_getElem _ _ (by simpa using ht'), List.getElem_map, List.getD_eq_getElem _ _ (by simp; omega),
        List.getElem_zipWith]
      congr 1
      show List.map _ (List.set _ _ _) = List.set _ _ _
      rw [List.map_set, List.map_map]
      have h1 := hg _ (List.getElem_mem ht) moves[t].left
      have h2 := hg _ (List.getElem_mem ht) moves[t].right
      rw [toNat_ofNat (by omega)]
      congr 1
      refine (List.map_congr_left fun c hc => ?_).trans (List.map_id _)
      have := hle _ (List.getElem_mem ht) c hc
      exact toNat_ofNat (by omega)
    · rw [if_neg (by omega), List.getElem?_eq_none (by simp; omega), List.getElem?_eq_none (by simp; omega)]
      rfl
  · rw [hr2]
    simp only [hmap fun m => m.left]
    exact hzip (fun x => x.2.left) _ fun t ht => by rw [hone t ht]
  · rw [hr2]
    simp only [hmap fun m => m.right]
    exact hzip (fun x => x.2.right) _ fun t ht => by rw [hone t ht]
  · rw [hr2]
    rw [← hzip (fun x => x.2.total) (fun idx m => gather (cnt idx) m.left + gather (cnt idx) m.right)
      fun t ht => by rw [hone t ht]]
    apply List.ext_getElem
    · simp
    · intro t h1 h2
      have ht : t < leaf_indices.length := by simp at h2; omega
      simp only [List.getElem_map, List.getElem_zipWith]
      have h1 := hg _ (List.getElem_mem ht) (moves[t]'(by omega)).left
      have h2 := hg _ (List.getElem_mem ht) (moves[t]'(by omega)).right
      exact toNat_ofNat (by omega)

end

/-- **C98** for the comparisons with the minimum number of datapoints per leaf, if this is lower than `2 ** 30`. -/
theorem C98_thresholds (signed : Bool) {c m : Nat} (hc : c < 2 ^ 31) (hm : m < 2 ^ 30) :
    above32 signed (BitVec.ofNat 32 c) (BitVec.ofNat 32 m) = decide (2 * m ≤ c) ∧
    enough32 signed (BitVec.ofNat 32 c) (BitVec.ofNat 32 m) = decide (m ≤ c) := by
  have e : (2 : BitVec 32) * BitVec.ofNat 32 m = BitVec.ofNat 32 (2 * m) := by
    rw [BitVec.ofNat_mul]
    rfl
  unfold above32 enough32
  rw [e]
  cases signed with
  | false => simp only [toNat_ofNat (show 2 * m < 2 ^ 32 by omega), toNat_ofNat (show c < 2 ^ 32 by omega),
      toNat_ofNat (show m < 2 ^ 32 by omega)]; exact ⟨rfl, rfl⟩
  | true =>
    simp only [toInt_ofNat (show 2 * m < 2 ^ 31 by omega), toInt_ofNat hc, toInt_ofNat (show m < 2 ^ 31 by omega), if_true]
    constructor <;> (congr 1; apply propext; omega)

theorem two_counts_le {i j : Nat} (h : i ≠ j) (l : List Nat) : l.count i + l.count j ≤ l.length := by
  induction l with
  | nil => simp
  | cons x l ih =>
    rw [List.count_cons, List.count_cons, List.length_cons]
    by_cases h1 : x = i
    · have h2 : ¬ x = j := fun h2 => h (h1.symm.trans h2)
      simp only [beq_iff_eq, h1, if_true]
      rw [if_neg (h1 ▸ h2)]
      omega
    · simp only [beq_iff_eq, if_neg h1]
      split_ifs <;> omega

theorem cumsumFrom32 (mask : List Bool) : ∀ acc : Nat, acc + mask.length < 2 ^ 32 →
    (cumsumFrom (BitVec.ofNat 32 acc) (maskInts mask)).map BitVec.toNat = cumsumFrom acc (mask.map Bool.toNat) ∧
    (maskInts mask).foldl (· + ·) (BitVec.ofNat 32 acc) = BitVec.ofNat 32 (acc + mask.count true) := by
  induction mask with
  | nil => intro acc _; exact ⟨rfl, rfl⟩
  | cons b mask ih =>
    intro acc h
    rw [List.length_cons] at h
    have e : BitVec.ofNat 32 acc + (if b then 1 else 0) = BitVec.ofNat 32 (acc + b.toNat) := by
      rw [BitVec.ofNat_add]
      cases b <;> rfl
    have hb : b.toNat ≤ 1 := Bool.toNat_le b
    obtain ⟨h1, h2⟩ := ih (acc + b.toNat) (by omega)
    simp only [maskInts, List.map_cons, cumsumFrom, List.foldl_cons, e] at h1 h2 ⊢
    rw [h1, h2, toNat_ofNat (by omega), List.count_cons]
    refine ⟨rfl, ?_⟩
    congr 1
    cases b <;> simp <;> omega

/-- **C98** for the number of marked elements, and the cumulative sums: with less than `2 ** 31` elements, they are the exact ones,
as signed integers. -/
theorem C98_masks {mask : List Bool} (h : mask.length < 2 ^ 31) :
    (countNonzero32 mask).toInt = countNonzero mask ∧
    (cumsum32 mask).map BitVec.toNat = cumsum (mask.map Bool.toNat) ∧ ∀ x ∈ cumsum32 mask, x.toInt = x.toNat := by
  have h0 := cumsumFrom32 mask 0 (by omega)
  rw [zero_add] at h0
  have h1 : cumsum32 mask = cumsumFrom (BitVec.ofNat 32 0) (maskInts mask) := by
    unfold cumsum32
    cases mask with
    | nil => rfl
    | cons b mask =>
      have : (BitVec.ofNat 32 0 : BitVec 32) + (if b then 1 else 0) = if b then 1 else 0 := by cases b <;> rfl
      simp only [maskInts, List.map_cons, cumsum, cumsumFrom, this]
  have h2 : cumsum (mask.map Bool.toNat) = cumsumFrom 0 (mask.map Bool.toNat) := by
    cases mask with
    | nil => rfl
    | cons b mask => simp only [List.map_cons, cumsum, cumsumFrom, zero_add]
  refine ⟨?_, by rw [h1, h2]; exact h0.1, fun x hx => ?_⟩
  · unfold countNonzero32 Jax.sum
    have := h0.2
    rw [show (0 : BitVec 32) = BitVec.ofNat 32 0 from rfl, this]
    exact toInt_ofNat (lt_of_le_of_lt List.count_le_length h)
  · rw [BitVec.toInt_eq_toNat_of_lt]
    have hle : ∀ (mask : List Bool) acc, ∀ y ∈ cumsumFrom acc (mask.map Bool.toNat), y ≤ acc + mask.length := by
      intro mask
      induction mask with
      | nil => intro acc y hy; simp [cumsumFrom] at hy
      | cons b mask ih =>
        intro acc y hy
        have hb : b.toNat ≤ 1 := Bool.toNat_le b
        rw [List.map_cons, cumsumFrom, List.mem_cons] at hy
        rw [List.length_cons]
        rcases hy with rfl | hy
        · omega
        · have := ih _ y hy
          omega
    have hmem : x.toNat ∈ cumsumFrom 0 (mask.map Bool.toNat) := by
      rw [← h0.1, ← h1]
      exact List.mem_map_of_mem hx
    have := hle mask 0 _ hmem
    omega

section
variable {K F : Type} [KeyLike K] [Inhabited F] [Zero F] [One F] [Add F] [Sub F] [Mul F] [Div F]
  [Neg F] [NatCast F] [FltFun F] [FloatLaws F] {a : InitArgs F} {s : State F}

/-- the counts of the nodes that can have children -/
theorem count_tree_le (ha : ValidArgs a) (hs : StateInv a s) (rng : Rng K F) (hrng : LawfulRng rng) (key : K) {t : Nat}
    (ht : t < a.num_trees) {x : Nat} (hx : x ∈ (workOf rng s key t).count_tree.take (2 ^ a.p_nonterminal.length)) : x ≤ a.y.length := by
  have hm := moveOf_ok ha hs rng hrng (KeyLike.split key 2 1) ht
  have hlen : (workOf rng s key t).leaf_indices.length = a.y.length := by
    rw [workOf_idx hs]
    exact length_grow_idx (cfgOf_ok ha) (hs.tree t ht).idx_len
  have hp : 2 ^ (a.p_nonterminal.length + 1) = 2 ^ a.p_nonterminal.length * 2 := pow_succ ..
  obtain ⟨i, hi, rfl⟩ := List.getElem_of_mem hx
  have hi' : i < 2 ^ a.p_nonterminal.length := by rw [List.length_take] at hi; omega
  have e := count_tree_getD (mv := moveOf rng s (KeyLike.split key 2 1) t) (workOf rng s key t).leaf_indices a.p_nonterminal.length hm.len
    s.count_batch_size i (by omega)
  rw [← workOf_counts rng s key t] at e
  dsimp only at e
  rw [List.getElem_take, ← List.getD_eq_getElem _ 0, e]
  split_ifs with hn
  · have h := (counts_lr (mv := moveOf rng s (KeyLike.split key 2 1) t) (workOf rng s key t).leaf_indices a.p_nonterminal.length hm.len
      hm.left hm.right s.count_batch_size (hn ▸ hi')).2.2
    rw [← workOf_counts rng s key t] at h
    dsimp only at h
    rw [h, ← hlen]
    exact two_counts_le (by omega) _
  · rw [← hlen]
    exact List.count_le_length

/-- **C98** along the MCMC. In a state reached by any run, with less than `2 ** 31` datapoints, counting in 32 bit arithmetic with all the
trees together gives the counts that determine the next state in the model; and, if the minimum number of datapoints per leaf is lower
than `2 ** 30`, the leaves marked as having enough datapoints to grow are those found by 32 bit arithmetic. -/
theorem C98_step (ha : ValidArgs a) (hs : Reachable K a s) (h31 : a.y.length < 2 ^ 31) (rng : Rng K F) (hrng : LawfulRng rng) (key : K) :
    let moves := sample_moves rng s (KeyLike.split key 2 1)
    let work := moves.mapIdx fun t move => parallel_stage_tree rng s (KeyLike.split key 2 0) t move
    let r := compute_count_trees32 (work.map fun w => w.leaf_indices) moves a.y.length (2 ^ a.p_nonterminal.length) s.count_batch_size
    r.1.map (fun c => c.map BitVec.toNat) = work.map (fun w => w.count_tree) ∧
    r.2.left.map BitVec.toNat = work.map (fun w => w.counts.left) ∧
    r.2.right.map BitVec.toNat = work.map (fun w => w.counts.right) ∧
    r.2.total.map BitVec.toNat = work.map (fun w => w.counts.total) ∧
    ∀ m, a.min_points_per_leaf = some m → m < 2 ^ 30 → ∀ signed,
      (sample_trees rng s key).affluence_trees = some (r.1.map fun c => (c.take (2 ^ a.p_nonterminal.length)).map fun c =>
        above32 signed c (BitVec.ofNat 32 m)) := by
  intro moves work r
  have hI := reachable_inv ha hs
  have hnt : s.leaf_trees.length = a.num_trees := hI.leaf_length
  have hmoves : moves = vmap a.num_trees (moveOf rng s (KeyLike.split key 2 1)) := by rw [← hnt]; exact sample_moves_eq ..
  have hwork : work = vmap a.num_trees (workOf rng s key) := by
    show moves.mapIdx _ = _
    rw [hmoves, mapIdx_vmap]
    rfl
  have hlw : ∀ t, t < a.num_trees → (workOf rng s key t).leaf_indices.length = a.y.length := by
    intro t ht
    have hT := hI.tree t ht
    rw [workOf_idx hI]
    exact length_grow_idx (cfgOf_ok ha) hT.idx_len
  have hone : ∀ t, compute_count_tree (workOf rng s key t).leaf_indices (moveOf rng s (KeyLike.split key 2 1) t) s.count_batch_size =
      ((workOf rng s key t).count_tree, (workOf rng s key t).counts) := fun t => rfl
  have hidx : ∀ idx ∈ work.map (fun w => w.leaf_indices), idx.length = a.y.length := by
    intro idx h
    rw [hwork, map_vmap] at h
    simp only [vmap, List.mem_map, List.mem_range] at h
    obtain ⟨t, ht, rfl⟩ := h
    exact hlw t ht
  have hC := C98_compute_count_trees (leaf_indices := work.map fun w => w.leaf_indices) (moves := moves)
    (n := a.y.length) (half_size := 2 ^ a.p_nonterminal.length) s.count_batch_size hidx
    h31 (by rw [hwork, hmoves]; simp [vmap]) (by
      intro m hm
      rw [hmoves] at hm
      simp only [vmap, List.mem_map, List.mem_range] at hm
      obtain ⟨t, ht, rfl⟩ := hm
      exact (moveOf_ok ha hI rng hrng (KeyLike.split key 2 1) ht).len) (by positivity)
  obtain ⟨h1, h2, h3, h4⟩ := hC
  have h1' : r.1.map (fun c => c.map BitVec.toNat) = work.map (fun w => w.count_tree) := by
    show (compute_count_trees32 _ _ _ _ _).1.map _ = _
    rw [h1, hwork, hmoves]
    simp only [map_vmap, zipWith_vmap, hone]
  refine ⟨h1', ?_, ?_, ?_, ?_⟩
  · show (compute_count_trees32 _ _ _ _ _).2.left.map _ = _
    rw [h2, hwork, hmoves]
    simp only [map_vmap, zipWith_vmap, hone]
  · show (compute_count_trees32 _ _ _ _ _).2.right.map _ = _
    rw [h3, hwork, hmoves]
    simp only [map_vmap, zipWith_vmap, hone]
  · show (compute_count_trees32 _ _ _ _ _).2.total.map _ = _
    rw [h4, hwork, hmoves]
    simp only [map_vmap, zipWith_vmap, hone]
  · intro m hm hm30 signed
    have hv0 : 0 < a.num_trees → (s.var_trees.getD 0 []).length = 2 ^ a.p_nonterminal.length := fun h => (hI.tree 0 h).var_len
    have haff : (sample_trees rng s key).affluence_trees = some (work.map fun w =>
        (w.count_tree.take (s.var_trees.getD 0 []).length).map fun c => decide (c ≥ 2 * m)) := by
      rw [sample_trees_eq, hwork, map_vmap, ← hnt]
      dsimp only
      rw [hI.cfg.min_points_per_leaf, hm]
    rw [haff]
    have e : (work.map fun w => (w.count_tree.take (s.var_trees.getD 0 []).length).map fun c => decide (c ≥ 2 * m)) =
        (work.map fun w => w.count_tree).map fun c => (c.take (2 ^ a.p_nonterminal.length)).map fun c => decide (c ≥ 2 * m) := by
      rw [List.map_map]
      refine List.map_congr_left fun w hw => ?_
      rw [hwork] at hw
      simp only [vmap, List.mem_map, List.mem_range] at hw
      obtain ⟨t, ht, rfl⟩ := hw
      rw [Function.comp_apply, hv0 (by omega)]
    rw [e, ← h1', List.map_map]
    congr 1
    refine List.map_congr_left fun c hc => ?_
    rw [Function.comp_apply, ← List.map_take, List.map_map]
    refine List.map_congr_left fun x hx => ?_
    -- each count fits
    have hx31 : x.toNat < 2 ^ 31 := by
      have hmem : c.map BitVec.toNat ∈ work.map fun w => w.count_tree := by
        rw [← h1']
        exact List.mem_map_of_mem hc
      rw [List.mem_map] at hmem
      obtain ⟨w, hw, hwc⟩ := hmem
      rw [hwork] at hw
      simp only [vmap, List.mem_map, List.mem_range] at hw
      obtain ⟨t, ht, rfl⟩ := hw
      have hxm : x.toNat ∈ (workOf rng s key t).count_tree.take (2 ^ a.p_nonterminal.length) := by
        rw [hwc, ← List.map_take]
        exact List.mem_map_of_mem hx
      have := count_tree_le ha hI rng hrng key ht hxm
      omega
    have := (C98_thresholds signed hx31 hm30).1
    rw [BitVec.ofNat_toNat, BitVec.setWidth_eq] at this
    rw [Function.comp_apply, this]

end

/-! ### Examples -/

open scoped Ex

-- two trees, five datapoints, batches
example : count_datapoints_per_leaf32 [[2, 3, 3, 2, 3], [1, 1, 1, 1, 1]] 5 4 (some 2) = [[0, 0, 2, 3], [0, 5, 0, 0]] ∧
    count_datapoints_per_leaf32 [[2, 3, 3, 2, 3], [1, 1, 1, 1, 1]] 5 4 none = [[0, 0, 2, 3], [0, 5, 0, 0]] := by decide

example := C98_count (leaf_indices := [[2, 3, 3, 2, 3], [1, 1, 1, 1, 1]]) (n := 5) (by decide) (by decide) 4 (some 2)

-- the first step from the initial state of the example: both trees are grown, with one datapoint at the left and three at the right
example :
    let moves := sample_moves Ex.rng (init Ex.args) ()
    let work := moves.mapIdx fun t move => parallel_stage_tree Ex.rng (init Ex.args) () t move
    let r := compute_count_trees32 (work.map fun w => w.leaf_indices) moves 4 4 (some 3)
    r.1 = [[0, 4, 1, 3, 0, 0, 0, 0], [0, 4, 1, 3, 0, 0, 0, 0]] ∧ r.2.left = [1, 1] ∧ r.2.right = [3, 3] ∧ r.2.total = [4, 4] := by decide

example := C98_step Ex.args_valid Ex.state1_reachable (by decide) Ex.rng Ex.rng_lawful ()

-- if the number of datapoints per leaf is too large, the comparison overflows: an empty leaf is considered large enough to grow, while
-- it is not large enough to be created
example : above32 true 0 (2 ^ 30) = true ∧ enough32 true 0 (2 ^ 30) = false ∧
    above32 true (2 ^ 30) (2 ^ 29) = true ∧ above32 true (2 ^ 30 - 1) (2 ^ 29) = false := by decide

-- a number of datapoints that does not fit: the count of `2 ** 32` datapoints in one leaf is 0
example : (BitVec.ofNat 32 (2 ^ 32) : BitVec 32) = 0 := by decide

example : cumsum32 [true, false, true, true] = [1, 1, 2, 3] ∧ countNonzero32 [true, false, true, true] = 3 := by decide

end Bartz
