import Verif.Spec.Bart
import Verif.Props.Balance
/-! # Consistent states -/

set_option autoImplicit false

namespace Bartz
open Jax Spec

/-! ### Congruence of the available rules -/

theorem valueReaches_congr {v x i : Nat} {var var' split : List Nat} (hn : IsNode split i)
    (hag : ∀ j, IsDecision split j → at0 var' j = at0 var j) :
    ValueReaches v x var' split i ↔ ValueReaches v x var split i := by
  have k1 := valueReaches_iff_interval (var := var) (split := split) (v := v) (R := x + 1) (a := x) hn.pos
  have k2 := valueReaches_iff_interval (var := var') (split := split) (v := v) (R := x + 1) (a := x) hn.pos
  rw [interval_congr hn (fun j hj => ⟨hag j hj, rfl⟩), ← k1] at k2
  simpa using k2

theorem availVars_congr {i sb : Nat} {ms var var' split : List Nat} (hn : IsNode split i)
    (hag : ∀ j, IsDecision split j → at0 var' j = at0 var j) :
    availVars sb ms var' split i = availVars sb ms var split i := by
  ext v
  simp only [availVars, HasSplit, Miscounted, Overflows, Set.mem_ofPred_eq, valueReaches_congr hn hag]

theorem availSplits_congr {i v : Nat} {ms var var' split : List Nat} (hn : IsNode split i)
    (hag : ∀ j, IsDecision split j → at0 var' j = at0 var j) :
    availSplits ms var' split i v = availSplits ms var split i v := by
  ext v
  simp only [availSplits, NonRedundant, Set.mem_ofPred_eq, valueReaches_congr hn hag]

theorem pointsIn_congr {i : Nat} {X : List (List Nat)} {n : Nat} {var var' split : List Nat}
    (hag : ∀ j, IsDecision split j → at0 var' j = at0 var j) :
    pointsIn X n var' split i = pointsIn X n var split i := by
  simp only [pointsIn, fallsInto_congr hag]

/-! ### The tree without the unused entries -/

section
variable {a : InitArgs ℝ} {s : State ℝ} {t : Nat}

/-- the settings and data for which the decision rules are always possible, and are counted in the same way at all nodes -/
structure Usable (a : InitArgs ℝ) : Prop where
  valid : ValidArgs a
  trees : 0 < a.num_trees
  fill : FillOK a
  good : (cfgOf a).Good

theorem cutsOK (hu : Usable a) (hs : StateInv a s) (ht : t < a.num_trees) : CutsOK a s t :=
  fun k hk _ => (hs.tree t ht).good hu.good k hk

/-- a predictor with a possible decision rule has cutpoints -/
theorem cuts_of_avail {ms var split : List Nat} {i v x : Nat} (h : x ∈ availSplits ms var split i v) : 1 ≤ at0 ms v := by
  obtain ⟨⟨u, _, _, h1⟩, ⟨w, h2, _, h3⟩⟩ := h
  omega

theorem length_treeOf : (treeOf a s t).1.var.length = 2 ^ a.p_nonterminal.length := by
  simp [treeOf]

theorem at0_treeOf (hl : (spOf s t).length = 2 ^ a.p_nonterminal.length) (i : Nat) [Decidable (IsDecision (spOf s t) i)] :
    at0 (treeOf a s t).1.var i = if IsDecision (spOf s t) i then at0 (vaOf s t) i else 0 := by
  unfold at0
  rcases Nat.lt_or_ge i (2 ^ a.p_nonterminal.length) with h | h
  · rw [List.getD_eq_getElem _ _ (by rw [length_treeOf]; exact h)]
    simp only [treeOf, List.getElem_map, List.getElem_range]
    congr 1
  · rw [List.getD_eq_default _ _ (by rw [length_treeOf]; exact h), if_neg]
    intro hd
    have := hd.lt hl
    omega

theorem agree_treeOf (hl : (spOf s t).length = 2 ^ a.p_nonterminal.length) (i : Nat)
    (hd : IsDecision (spOf s t) i) : at0 (treeOf a s t).1.var i = at0 (vaOf s t) i := by
  classical
  rw [at0_treeOf hl, if_pos hd]

theorem possible_of_inv (hu : Usable a) (hs : StateInv a s) (ht : t < a.num_trees) :
    PossibleTree a (treeOf a s t).1 := by
  classical
  have hT := hs.tree t ht
  have hl := hT.valid.length
  have hag := fun j hd => agree_treeOf (a := a) (s := s) (t := t) hl j hd
  have hv : ∀ i, IsDecision (spOf s t) i → at0 (vaOf s t) i < a.max_split.length := fun i hd =>
    lt_of_at0_ne (split := a.max_split) (Nat.one_le_iff_ne_zero.1 (hT.good hu.good i hd))
  refine ⟨hT.valid, length_treeOf, ?_, ?_, ?_, ?_⟩
  · intro i hd
    rw [at0_treeOf hl]; exact if_neg hd
  · intro i hd
    have := (rule_avail hu.valid hs ht (cutsOK hu hs ht) hd (hv i hd)).1
    rw [hag i hd]
    rw [hs.cfg.split_bits, hs.cfg.max_split, ← availVars_congr (split := spOf s t) hd.1 hag] at this
    exact this
  · intro i hd
    have := (rule_avail hu.valid hs ht (cutsOK hu hs ht) hd (hv i hd)).2
    rw [hag i hd]
    rw [hs.cfg.max_split, ← availSplits_congr (split := spOf s t) hd.1 hag] at this
    exact this
  · intro m hm hr i hi
    have := hT.minpts m hm hr i hi
    rw [hT.count_eq (cfgOf_ok hu.valid)] at this
    show m ≤ pointsIn _ _ _ (spOf s t) i
    rw [pointsIn_congr hag]
    exact this

/-! ### Values of the trees -/

theorem treeValue_eq {N : Nat} {h : Nat} (h64 : h < 64) {X : List (List Nat)} {j : Nat} {x : Tree N}
    (hv : x.1.var.length = 2 ^ h) (hs : x.1.split.length = 2 ^ h) (i : Fin N)
    (hf : FallsInto (point X j) x.1.var x.1.split i) : treeValue X j x = x.2 i := by
  classical
  unfold treeValue
  rw [Finset.sum_eq_single i]
  · rw [if_pos hf]
  · intro k _ hk
    rw [if_neg]
    intro hf'
    exact hk (Fin.ext (fallsInto_unique h64 hv hs hf' hf))
  · intro h; exact absurd (Finset.mem_univ i) h

theorem leaf_lt {h : Nat} {split : List Nat} (hl : split.length = 2 ^ h) {i : Nat}
    (hi : IsLeaf split i) : i < 2 ^ (h + 1) := by
  rcases Nat.lt_or_ge i 2 with h2 | h2
  · calc i < 2 ^ 1 := h2
      _ ≤ _ := Nat.pow_le_pow_right (by norm_num) (by omega)
  · obtain ⟨hp, hd⟩ := hi.1.parent h2
    have hd' : IsDecision split (i / 2) := ⟨hp, hd⟩
    have := hd'.lt hl
    rw [pow_succ]; omega

theorem treeValue_treeOf (h64 : a.p_nonterminal.length < 64)
    (hl : (spOf s t).length = 2 ^ a.p_nonterminal.length) {X : List (List Nat)} {j i : Nat}
    (hf : FallsInto (point X j) (vaOf s t) (spOf s t) i) :
    treeValue X j (treeOf a s t) = (s.leaf_trees.getD t []).getD i 0 := by
  have hi := leaf_lt hl hf.1
  rw [treeValue_eq h64 length_treeOf hl ⟨i, hi⟩ ((fallsInto_congr (agree_treeOf hl)).2 hf)]
  exact if_pos hf.1

/-- the value of a tree at any point -/
theorem readTree_treeValue (ha : ValidArgs a) (hs : StateInv a s) (ht : t < a.num_trees) (X : List (List Nat))
    (j : Nat) : (readTree default (s.leaf_trees.getD t []) (s.var_trees.getD t []) (s.split_trees.getD t [])
      a.p_nonterminal.length 1).eval (point X j) = treeValue X j (treeOf a s t) := by
  have hT := hs.tree t ht
  rw [eval_readTree_root _ _ ha.depth_lt hT.var_len hT.valid.length]
  have hf := traverse_fallsInto (x := point X j) ha.depth_lt hT.var_len hT.valid.length
  rw [treeValue_treeOf ha.depth_lt hT.valid.length hf]
  rfl

theorem treeAt_eq (ha : ValidArgs a) (hs : StateInv a s) (ht : t < a.num_trees) {j : Nat}
    (hj : j < a.y.length) :
    treeAt a.p_nonterminal.length s t (point s.X j) = treeValue a.X j (treeOf a s t) := by
  have hT := hs.tree t ht
  rw [treeAt_train ha hs ht hj]
  exact (treeValue_treeOf ha.depth_lt hT.valid.length (hT.falls j hj)).symm

/-! ### Consistent states -/

theorem treeInv_of_possible (hu : Usable a) {var split idx : List Nat} {aff : Option (List Bool)}
    {T : Rules} (hT : PossibleTree a T) (hsp : split = T.split)
    (hag : ∀ j, IsDecision split j → at0 T.var j = at0 var j)
    (hlen : var.length = 2 ^ a.p_nonterminal.length)
    (hz : at0 var 0 = 0) (hok : VarOK a.max_split.length a.p_nonterminal.length var)
    (hil : idx.length = a.y.length)
    (hf : ∀ j, j < a.y.length → FallsInto (point a.X j) var split (at0 idx j))
    (hal : AffLen a.p_nonterminal.length aff) (has : aff.isSome = a.min_points_per_leaf.isSome)
    (haff : ∀ m x, a.min_points_per_leaf = some m → aff = some x → ∀ i, IsLeaf split i →
      i < 2 ^ a.p_nonterminal.length →
      (x.getD i false = true ↔ 2 * m ≤ pointsIn a.X a.y.length var split i)) :
    TreeInv (cfgOf a) var split idx aff := by
  subst hsp
  have ha := hu.valid
  have hc := cfgOf_ok ha
  have hcount : ∀ i, idx.count i = pointsIn a.X a.y.length var T.split i := by
    intro i
    rw [count_eq_card, hil, pointsIn, ← Set.ncard_coe_finset]
    congr 1
    ext j
    simp only [Finset.coe_filter, Finset.mem_range, Set.mem_ofPred_eq]
    refine and_congr_right fun hj => ?_
    constructor
    · intro e; rw [← e]; exact hf j hj
    · intro hf'; exact fallsInto_unique ha.depth_lt hlen hT.split.length (hf j hj) hf'
  have hvar : ∀ i, IsDecision T.split i → at0 var i < a.max_split.length := fun i hd => by
    rw [← hag i hd]; exact (hT.var_avail i hd).1
  refine
    { var_len := hlen, valid := hT.split, var_zero := hz, var_ok := hok, rules := ?_, idx_len := hil,
      falls := hf, aff_len := hal, aff_some := has, aff_ok := ?_, minpts := ?_,
      good := fun _ i hd => by
        have := cuts_of_avail (hT.split_avail i hd)
        rwa [hag i hd] at this }
  · intro i hd
    have h1 := hT.split_avail i hd
    rw [hag i hd, availSplits_congr hd.1 hag] at h1
    have hlt := hd.lt hT.split.length
    have h2 := (nonRedundant_iff hd.1.pos).1 h1
    refine ⟨by have := hd.2; omega, ?_⟩
    rw [if_pos (show 1 ≤ at0 (cfgOf a).ms (at0 var i) from cuts_of_avail h1)]
    exact ⟨h2.1, h2.2⟩
  · intro m x hm hx i hl hi
    rw [Bool.eq_iff_iff, decide_eq_true_iff, hcount]
    exact haff m x hm hx i hl hi
  · intro m hm hr i hl
    rw [hcount, ← pointsIn_congr hag]
    exact hT.points m hm hr i hl

theorem Consistent.inv (hu : Usable a) (h : Consistent a s) : StateInv a s ∧ ResidInv a s := by
  have hS : StateInv a s :=
    { cfg :=
        { p_nonterminal := by rw [h.settings], p_propose_grow := by rw [h.settings]
          sigma2_alpha := by rw [h.settings]; rfl
          sigma2_beta := by rw [h.settings]; rfl
          max_split := by rw [h.settings]; rfl
          y := by rw [h.settings]; rfl
          X := by rw [h.settings]; rfl
          min_points_per_leaf := by rw [h.settings]; rfl
          resid_batch_size := by rw [h.settings]; rfl
          count_batch_size := by rw [h.settings]; rfl
          ratios := h.ratios.1
          var_bits := by rw [h.settings]; rfl
          split_bits := by rw [h.settings]; rfl
          idx_bits := by rw [h.settings]; simp [init, cfgOf] }
      leaf_length := h.leaf_length, var_length := h.var_length, split_length := h.split_length
      idx_length := h.indices_length, aff_length := fun x hx => (h.affluence.2 x hx).1
      resid_length := h.resid_length, leaf_size := h.leaf_size, ratios_length := h.ratios.2
      tree := by
        intro t ht
        have hP := h.possible t ht
        refine treeInv_of_possible hu hP rfl (fun j hd => agree_treeOf hP.split.length j hd)
          (h.var_size t ht) (h.var_range t ht).1 (h.var_range t ht).2 (h.indices_size t ht)
          (h.indices t ht) ?_ (by rw [Option.isSome_map]; exact h.affluence.1) ?_
        · intro x hx
          obtain ⟨z, hz, rfl⟩ := Option.map_eq_some_iff.1 hx
          exact ((h.affluence.2 z hz).2 t ht).1
        · intro m x hm hx i hl hi
          obtain ⟨z, hz, rfl⟩ := Option.map_eq_some_iff.1 hx
          exact ((h.affluence.2 z hz).2 t ht).2 m hm i hi hl }
  refine ⟨hS, fun j hj => ?_⟩
  rw [h.resid j hj]
  congr 1
  refine Finset.sum_congr rfl fun t ht => ?_
  rw [Finset.mem_range] at ht
  have hT := hS.tree t ht
  exact treeValue_treeOf hu.valid.depth_lt hT.valid.length (hT.falls j hj)

theorem consistent_of_inv (hu : Usable a) (hS : StateInv a s) (hR : ResidInv a s) : Consistent a s := by
  have ha := hu.valid
  have hc := hS.cfg
  refine
    { settings := ?_, ratios := ⟨hc.ratios, hS.ratios_length⟩, leaf_length := hS.leaf_length
      var_length := hS.var_length, split_length := hS.split_length, indices_length := hS.idx_length
      leaf_size := hS.leaf_size, var_size := fun t ht => (hS.tree t ht).var_len
      indices_size := fun t ht => (hS.tree t ht).idx_len
      var_range := fun t ht => ⟨(hS.tree t ht).var_zero, (hS.tree t ht).var_ok⟩
      possible := fun t ht => possible_of_inv hu hS ht
      indices := fun t ht => (hS.tree t ht).falls
      affluence := ?_, resid_length := hS.resid_length, resid := ?_ }
  · have hi : s.idx_bits = (init a).idx_bits := by rw [hc.idx_bits]; simp [init, cfgOf]
    obtain ⟨⟩ := s
    have e1 := hc.p_nonterminal
    have e2 := hc.p_propose_grow
    have e3 := hc.sigma2_alpha
    have e4 := hc.sigma2_beta
    have e5 := hc.max_split
    have e6 := hc.y
    have e7 := hc.X
    have e8 := hc.min_points_per_leaf
    have e9 := hc.resid_batch_size
    have e10 := hc.count_batch_size
    have e11 := hc.var_bits
    have e12 := hc.split_bits
    dsimp only at e1 e2 e3 e4 e5 e6 e7 e8 e9 e10 e11 e12 hi
    subst e1 e2 e3 e4 e5 e6 e7 e8 e9 e10 e11 e12 hi
    rfl
  · have hsome : s.affluence_trees.isSome = a.min_points_per_leaf.isSome := by
      have := (hS.tree 0 hu.trees).aff_some
      rw [Option.isSome_map] at this
      exact this
    refine ⟨hsome, fun x hx => ⟨hS.aff_length x hx, fun t ht => ?_⟩⟩
    have hT := hS.tree t ht
    have hx' : affOf s t = some (x.getD t []) := by simp [affOf, hx]
    refine ⟨hT.aff_len _ hx', fun m hm i hi hl => ?_⟩
    rw [hT.aff_ok m _ hm hx' i hl hi, decide_eq_true_iff, hT.count_eq (cfgOf_ok ha)]
    rfl
  · intro j hj
    rw [hR j hj]
    congr 1
    refine Finset.sum_congr rfl fun t ht => ?_
    rw [Finset.mem_range] at ht
    have hT := hS.tree t ht
    exact (treeValue_treeOf ha.depth_lt hT.valid.length (hT.falls j hj)).symm

/-! ### A state with given parameters -/

theorem getD_ofFn {α : Type} {n t : Nat} (f : Fin n → α) (d : α) (h : t < n) :
    (List.ofFn f).getD t d = f ⟨t, h⟩ := by
  rw [List.getD_eq_getElem _ _ (by simpa using h), List.getElem_ofFn]

/-- a state with given parameters -/
noncomputable def stateOf (a : InitArgs ℝ) (θ : Params a.num_trees (nodes a)) : State ℝ :=
  { init a with
    leaf_trees := List.ofFn fun t => List.ofFn (θ.1 t).2
    var_trees := List.ofFn fun t => (θ.1 t).1.var
    split_trees := List.ofFn fun t => (θ.1 t).1.split
    resid := (List.range a.y.length).map fun j => a.y.getD j 0 - ∑ t, treeValue a.X j (θ.1 t)
    sigma2 := θ.2
    leaf_indices := List.ofFn fun t => (List.range a.y.length).map fun j =>
      traverse_tree (point a.X j) (θ.1 t).1.var (θ.1 t).1.split
    affluence_trees := a.min_points_per_leaf.map fun m => List.ofFn fun t =>
      (List.range (2 ^ a.p_nonterminal.length)).map fun i =>
        decide (2 * m ≤ pointsIn a.X a.y.length (θ.1 t).1.var (θ.1 t).1.split i) }

section
variable {θ : Params a.num_trees (nodes a)}

theorem va_stateOf (ht : t < a.num_trees) : vaOf (stateOf a θ) t = (θ.1 ⟨t, ht⟩).1.var :=
  getD_ofFn _ _ ht

theorem sp_stateOf (ht : t < a.num_trees) : spOf (stateOf a θ) t = (θ.1 ⟨t, ht⟩).1.split :=
  getD_ofFn _ _ ht

theorem treeOf_stateOf (ht : t < a.num_trees) (hP : PossibleTree a (θ.1 ⟨t, ht⟩).1)
    (hl : ∀ i : Fin (nodes a), ¬ IsLeaf (θ.1 ⟨t, ht⟩).1.split i → (θ.1 ⟨t, ht⟩).2 i = 0) :
    treeOf a (stateOf a θ) t = θ.1 ⟨t, ht⟩ := by
  classical
  have e1 := va_stateOf (θ := θ) ht
  have e2 := sp_stateOf (θ := θ) ht
  have e3 : (stateOf a θ).leaf_trees.getD t [] = List.ofFn (θ.1 ⟨t, ht⟩).2 := getD_ofFn _ _ ht
  refine Prod.ext (Rules.ext ?_ e2) ?_
  · apply List.ext_getElem
    · rw [length_treeOf, hP.var_length]
    · intro i h1 h2
      have := at0_treeOf (a := a) (s := stateOf a θ) (t := t) (by rw [e2]; exact hP.split.length) i
      unfold at0 at this
      rw [List.getD_eq_getElem _ _ h1, e1, e2] at this
      rw [this]
      split_ifs with hd
      · rw [List.getD_eq_getElem _ _ h2]
      · have := hP.var_unused i hd
        unfold at0 at this
        rw [List.getD_eq_getElem _ _ h2] at this
        exact this.symm
  · funext i
    show (if IsLeaf (spOf (stateOf a θ) t) i then ((stateOf a θ).leaf_trees.getD t []).getD i 0 else 0) = _
    rw [e2, e3]
    split_ifs with h
    · rw [getD_ofFn _ _ i.2]
    · exact (hl i h).symm

theorem consistent_stateOf (ha : ValidArgs a) (hP : ∀ t, PossibleTree a (θ.1 t).1)
    (hl : ∀ t (i : Fin (nodes a)), ¬ IsLeaf (θ.1 t).1.split i → (θ.1 t).2 i = 0) : Consistent a (stateOf a θ) := by
  have e1 := fun t (ht : t < a.num_trees) => va_stateOf (θ := θ) ht
  have e2 := fun t (ht : t < a.num_trees) => sp_stateOf (θ := θ) ht
  have ei : ∀ t (ht : t < a.num_trees), (stateOf a θ).leaf_indices.getD t [] =
      (List.range a.y.length).map fun j =>
        traverse_tree (point a.X j) (θ.1 ⟨t, ht⟩).1.var (θ.1 ⟨t, ht⟩).1.split :=
    fun t ht => getD_ofFn _ _ ht
  have hinit := stateInv_init ha
  have htree := fun t (ht : t < a.num_trees) => treeOf_stateOf ht (hP ⟨t, ht⟩) (hl ⟨t, ht⟩)
  refine
    { settings := rfl, ratios := ⟨hinit.cfg.ratios, hinit.ratios_length⟩
      leaf_length := List.length_ofFn, var_length := List.length_ofFn
      split_length := List.length_ofFn, indices_length := List.length_ofFn
      leaf_size := ?_, var_size := ?_, indices_size := ?_, var_range := ?_, possible := ?_
      indices := ?_, affluence := ?_, resid_length := by simp [stateOf], resid := ?_ }
  · intro t ht
    rw [show (stateOf a θ).leaf_trees.getD t [] = List.ofFn (θ.1 ⟨t, ht⟩).2 from getD_ofFn _ _ ht]
    simp
  · intro t ht
    rw [show (stateOf a θ).var_trees.getD t [] = _ from e1 t ht]; exact (hP _).var_length
  · intro t ht
    rw [ei t ht]; simp
  · intro t ht
    rw [show (stateOf a θ).var_trees.getD t [] = _ from e1 t ht]
    have h0 := (hP ⟨t, ht⟩).var_unused 0 (fun h => by have := h.1.pos; omega)
    refine ⟨h0, fun i => Or.inl ?_⟩
    by_cases hd : IsDecision (θ.1 ⟨t, ht⟩).1.split i
    · exact ((hP ⟨t, ht⟩).var_avail i hd).1
    · rw [(hP ⟨t, ht⟩).var_unused i hd]; exact ha.predictors_pos
  · intro t ht
    rw [htree t ht]; exact hP _
  · intro t ht j hj
    rw [show (stateOf a θ).var_trees.getD t [] = _ from e1 t ht,
      show (stateOf a θ).split_trees.getD t [] = _ from e2 t ht, ei t ht]
    unfold at0
    rw [List.getD_eq_getElem _ _ (by simpa using hj)]
    simp only [List.getElem_map, List.getElem_range]
    exact traverse_fallsInto ha.depth_lt (hP _).var_length (hP _).split.length
  · refine ⟨by simp [stateOf], fun x hx => ?_⟩
    simp only [stateOf, Option.map_eq_some_iff] at hx
    obtain ⟨m, hm, rfl⟩ := hx
    refine ⟨List.length_ofFn, fun t ht => ?_⟩
    rw [getD_ofFn _ _ ht]
    refine ⟨by simp, fun m' hm' i hi _ => ?_⟩
    rw [hm, Option.some.injEq] at hm'
    subst hm'
    rw [List.getD_eq_getElem _ _ (by simpa using hi),
      show (stateOf a θ).var_trees.getD t [] = _ from e1 t ht,
      show (stateOf a θ).split_trees.getD t [] = _ from e2 t ht]
    simp
  · intro j hj
    rw [Finset.sum_range]
    have : (stateOf a θ).resid.getD j 0 = a.y.getD j 0 - ∑ t, treeValue a.X j (θ.1 t) := by
      simp only [stateOf]
      rw [List.getD_eq_getElem _ _ (by simpa using hj)]
      simp only [List.getElem_map, List.getElem_range]
    rw [this]
    congr 1
    exact Finset.sum_congr rfl fun t _ => by rw [htree t t.2]

theorem params_stateOf (hθ : PossibleParams a θ) : paramsOf a (stateOf a θ) = θ :=
  Prod.ext (funext fun t => treeOf_stateOf t.2 (hθ.tree t) (hθ.leaf t)) rfl

end
end
end Bartz
