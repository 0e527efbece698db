import Verif.Spec.Extended
import Verif.Lemmas.Accept
/-! # Lifting computations with real numbers to numbers with infinities and NaN -/

set_option autoImplicit false

namespace Bartz
open Jax Spec XReal

/-! ### Arrays -/

/-- an array of real numbers -/
noncomputable abbrev lift (l : List ℝ) : List XReal := l.map num

/-- arrays of real numbers -/
noncomputable abbrev lift2 (l : List (List ℝ)) : List (List XReal) := l.map lift

theorem cumsumFrom_lift (l : List ℝ) : ∀ c, cumsumFrom (num c) (lift l) = lift (cumsumFrom c l) := by
  induction l with
  | nil => intro c; rfl
  | cons x l ih =>
    intro c
    simp only [lift, List.map_cons, cumsumFrom, add_num]
    rw [ih]

theorem cumsum_lift (l : List ℝ) : cumsum (lift l) = lift (cumsum l) := by
  cases l with
  | nil => rfl
  | cons x l => simp only [lift, List.map_cons, cumsum, cumsumFrom_lift]

theorem getLastD_lift (l : List ℝ) (d : ℝ) : (lift l).getLastD (num d) = num (l.getLastD d) := by
  cases l with
  | nil => rfl
  | cons x l =>
    rw [List.getLastD_eq_getLast?, List.getLastD_eq_getLast?, lift, List.getLast?_map]
    cases (x :: l).getLast? <;> rfl

theorem last_lift (l : List ℝ) : last (lift l) = num (last l) := getLastD_lift l _

theorem gather_lift (l : List ℝ) (i : Nat) : gather (lift l) i = num (gather l i) := by
  unfold gather
  rw [List.length_map, default_eq]
  exact List.getD_map (f := num) ..

theorem sum_lift (l : List ℝ) : Jax.sum (lift l) = num (Jax.sum l) := by
  unfold Jax.sum
  rw [zero_eq]
  generalize (0 : ℝ) = c
  induction l generalizing c with
  | nil => rfl
  | cons x l ih => simp only [lift, List.map_cons, List.foldl_cons, add_num]; exact ih _

theorem modify_lift (l : List ℝ) (i : Nat) (v : ℝ) :
    (lift l).modify i (· + num v) = lift (l.modify i (· + v)) := by
  induction l generalizing i with
  | nil => cases i <;> rfl
  | cons x l ih =>
    cases i with
    | zero => simp [lift]
    | succ i => exact congrArg (num x :: ·) (ih i)

theorem modify_lift2 (l : List (List ℝ)) (i b : Nat) (v : ℝ) :
    (lift2 l).modify i (fun row => row.modify b (· + num v)) =
      lift2 (l.modify i (fun row => row.modify b (· + v))) := by
  induction l generalizing i with
  | nil => cases i <;> rfl
  | cons x l ih =>
    cases i with
    | zero => simp only [lift2, List.map_cons, List.modify_zero_cons, modify_lift]
    | succ i => exact congrArg (lift x :: ·) (ih i)

theorem scatterAdd_lift (is : List Nat) : ∀ (a v : List ℝ),
    scatterAdd (lift a) is (lift v) = lift (scatterAdd a is v) := by
  induction is with
  | nil => intro a v; cases v <;> rfl
  | cons i is ih =>
    intro a v
    cases v with
    | nil => rfl
    | cons x v =>
      simp only [List.map_cons, scatterAdd]
      rw [modify_lift]
      exact ih _ _

theorem scatterAdd2_lift (is : List Nat) : ∀ (a : List (List ℝ)) (bs : List Nat) (v : List ℝ),
    scatterAdd2 (lift2 a) is bs (lift v) = lift2 (scatterAdd2 a is bs v) := by
  induction is with
  | nil => intro a bs v; rfl
  | cons i is ih =>
    intro a bs v
    cases bs with
    | nil => rfl
    | cons b bs =>
      cases v with
      | nil => rfl
      | cons x v =>
        simp only [List.map_cons, scatterAdd2]
        rw [modify_lift2]
        exact ih _ _ _

theorem sum_resid_lift (resid : List ℝ) (idx : List Nat) (size : Nat) (b : Option Nat) :
    sum_resid (lift resid) idx size b = lift (sum_resid resid idx size b) := by
  unfold sum_resid
  cases b with
  | none =>
    simp only [aggregate_scatter]
    have : List.replicate size (0 : XReal) = lift (List.replicate size 0) := by simp [lift]
    rw [this]
    exact scatterAdd_lift _ _ _
  | some b =>
    simp only [aggregate_batched_onetree]
    have : List.replicate size (List.replicate (num_batches idx.length b) (0 : XReal)) =
        lift2 (List.replicate size (List.replicate (num_batches idx.length b) 0)) := by simp [lift, lift2]
    rw [this, scatterAdd2_lift]
    simp only [lift2, lift, List.map_map]
    exact List.map_congr_left fun row _ => sum_lift row

theorem setDrop_lift (l : List ℝ) (i : Nat) (v : ℝ) : setDrop (lift l) i (num v) = lift (setDrop l i v) := by
  simp [setDrop, lift, List.map_set]

theorem zipWith_lift {α β : Type} (f : α → β → XReal) (g : α → β → ℝ) (a : List α) (b : List β)
    (h : ∀ x y, f x y = num (g x y)) : List.zipWith f a b = lift (List.zipWith g a b) := by
  rw [lift, List.map_zipWith]
  congr 1
  funext x y
  exact h x y

/-! ### Moves -/

section
variable {h : Nat} {split var : List Nat} {aff : Option (List Bool)} {ppg : List ℝ}

theorem categorical_lift {d : Draws XReal} {d' : Draws ℝ} (hd : ExtendsDraws d d') (w : List ℝ) :
    categorical d (lift w) = ((categorical d' w).1, num (categorical d' w).2) := by
  unfold categorical
  have e : FltFun.cumsum (lift w) = lift (FltFun.cumsum w) := cumsum_lift w
  simp only [e, last_lift, hd.uniformTo, Prod.mk.injEq, and_true]
  exact searchsortedRight_map _ _ _

theorem randint_masked_lift {d : Draws XReal} {d' : Draws ℝ} (hd : ExtendsDraws d d') (m : List Bool) :
    randint_masked d m = randint_masked d' m := by
  unfold randint_masked
  simp only [hd.randint]

theorem randint_exclude_lift {d : Draws XReal} {d' : Draws ℝ} (hd : ExtendsDraws d d') (n : Nat) (l : List Nat) :
    randint_exclude d n l = randint_exclude d' n l := by
  unfold randint_exclude
  simp only [hd.randint]

/-- weights of the leaves that can be grown -/
noncomputable abbrev leafW (split : List Nat) (aff : Option (List Bool)) (ppg : List ℝ) : List ℝ :=
  List.zipWith (fun g p => if g then p else 0) (growable_leaves split aff) ppg

theorem leafW_lift (split : List Nat) (aff : Option (List Bool)) (ppg : List ℝ) :
    List.zipWith (fun g p => if g then p else (0 : XReal)) (growable_leaves split aff) (lift ppg) =
      lift (leafW split aff ppg) := by
  unfold leafW lift
  rw [List.zipWith_map_right, List.map_zipWith]
  congr 1
  funext g p
  cases g <;> simp

theorem choose_leaf_lift {d : Draws XReal} {d' : Draws ℝ} (hd : ExtendsDraws d d') :
    (choose_leaf split aff (lift ppg) d).leaf_to_grow = (choose_leaf split aff ppg d').leaf_to_grow ∧
    (choose_leaf split aff (lift ppg) d).num_growable = (choose_leaf split aff ppg d').num_growable ∧
    (choose_leaf split aff (lift ppg) d).num_prunable = (choose_leaf split aff ppg d').num_prunable ∧
    ((categorical d' (leafW split aff ppg)).2 ≠ 0 →
      (choose_leaf split aff (lift ppg) d).prob_choose = num (choose_leaf split aff ppg d').prob_choose) := by
  unfold choose_leaf
  simp only [leafW_lift, categorical_lift hd, gather_lift]
  refine ⟨trivial, trivial, trivial, fun h0 => ?_⟩
  rw [div_num _ h0]

/-- conditions on the arguments of the functions that propose a move -/
structure MoveHyp (h : Nat) (split : List Nat) (aff : Option (List Bool)) (ppg : List ℝ) : Prop where
  valid : ValidSplit h split
  hh : 1 ≤ h
  h64 : h < 64
  aff : AffLen h aff
  len : ppg.length = 2 ^ h
  pos : ∀ x ∈ ppg, 0 < x
  le_one : ∀ x ∈ ppg, x ≤ 1

theorem MoveHyp.positive (H : MoveHyp h split aff ppg) : Positive ppg := fun x hx =>
  ⟨by simpa using (H.pos x hx).le, by simpa using H.pos x hx, by simpa using H.le_one x hx⟩

theorem MoveHyp.getD_pos (H : MoveHyp h split aff ppg) {i : Nat} (hi : i < 2 ^ h) : 0 < ppg.getD i 0 := by
  rw [List.getD_eq_getElem _ _ (by rw [H.len]; exact hi)]
  exact H.pos _ (List.getElem_mem _)

theorem leafW_spec (H : MoveHyp h split aff ppg) {i : Nat} (hg : Growable h split aff i) :
    (leafW split aff ppg).getD i 0 = ppg.getD i 0 ∧ 0 < (leafW split aff ppg).sum ∧
      (leafW split aff ppg).length = 2 ^ h ∧ ∀ x ∈ leafW split aff ppg, 0 ≤ x := by
  have hl := length_growable H.valid.length H.aff
  have hw : (leafW split aff ppg).length = 2 ^ h := by simp [leafW, hl, H.len]
  have hget : ∀ j, j < 2 ^ h → (leafW split aff ppg).getD j 0 =
      if (growable_leaves split aff).getD j false then ppg.getD j 0 else 0 := by
    intro j hj
    rw [List.getD_eq_getElem _ _ (by omega), List.getD_eq_getElem _ _ (by omega),
      List.getD_eq_getElem _ _ (by rw [H.len]; omega)]
    unfold leafW
    rw [List.getElem_zipWith]
  have hi : i < 2 ^ h := hg.2.1
  have e1 : (leafW split aff ppg).getD i 0 = ppg.getD i 0 := by
    rw [hget i hi, if_pos ((growable_iff H.valid H.hh H.h64).2 hg)]
  have hnn : ∀ x ∈ leafW split aff ppg, 0 ≤ x := by
    intro x hx
    obtain ⟨j, hj, rfl⟩ := List.getElem_of_mem hx
    rw [← List.getD_eq_getElem _ 0 hj, hget j (by omega)]
    split_ifs
    · exact (H.getD_pos (by omega)).le
    · exact le_rfl
  refine ⟨e1, ?_, hw, hnn⟩
  have h4 : (leafW split aff ppg).getD i 0 ≤ (leafW split aff ppg).sum := by
    rw [List.getD_eq_getElem _ _ (by omega)]
    exact List.single_le_sum hnn _ (List.getElem_mem _)
  have := H.getD_pos hi
  linarith

theorem numParents_grown_pos (H : MoveHyp h split aff ppg) {i : Nat} (hg : Growable h split aff i) :
    0 < countNonzero (is_leaves_parent (setDrop split i 1)) := by
  have hv' := validSplit_grow H.valid hg.1 hg.2.1 (s := 1) le_rfl
  have h2 := two_le_pow H.hh
  have hroot : at0 (setDrop split i 1) 1 ≠ 0 := by
    rw [at0_grow H.valid hg.2.1]
    split_ifs with e
    · norm_num
    · intro h0
      have : ∀ j, IsNode split j → j = 1 := by
        intro j hj
        induction hj with
        | root => rfl
        | left _ hne ih => subst ih; exact absurd h0 hne
        | right _ hne ih => subst ih; exact absurd h0 hne
      exact e (this i hg.1.1)
  have h07 := (C07_prunable (setDrop split i 1) h H.hh H.h64 hv').2
  rw [gather_at0 (by rw [hv'.length]; exact h2)] at h07
  exact Nat.pos_of_ne_zero (h07.1 (bne_iff_ne.2 hroot))

/-- conditions on the probabilities that may be used in the ratio -/
structure NonTerm (h : Nat) (p_nonterminal : List ℝ) : Prop where
  length : p_nonterminal.length = h + 1
  lt_one : ∀ x ∈ p_nonterminal, x < 1
  pos : ∀ i, i < 2 ^ h → 0 < gather p_nonterminal (gather (tree_depths (2 ^ (p_nonterminal.length - 1))) i)

theorem NonTerm.lt {p_nonterminal : List ℝ} (hp : NonTerm h p_nonterminal) (d : Nat) :
    gather p_nonterminal d < 1 := by
  unfold gather
  rw [List.getD_eq_getElem _ _ (by have := hp.length; omega)]
  exact hp.lt_one _ (List.getElem_mem _)

theorem compute_partial_ratio_lift {p_nonterminal : List ℝ} {q : ℝ} {n i : Nat} (hp : NonTerm h p_nonterminal)
    (hi : i < 2 ^ h) (hq : 0 < q) (hn : 0 < n) :
    compute_partial_ratio (num q) n (lift p_nonterminal) i = num (compute_partial_ratio q n p_nonterminal i) ∧
      0 < compute_partial_ratio q n p_nonterminal i := by
  have hp1 := hp.lt (gather (tree_depths (2 ^ (p_nonterminal.length - 1))) i)
  have hp2 := hp.lt (gather (tree_depths (2 ^ (p_nonterminal.length - 1))) i + 1)
  have hp0 := hp.pos i hi
  unfold compute_partial_ratio
  simp only [List.length_map, gather_lift]
  have hhalf : (half : XReal) = num half := by
    unfold half
    rw [XReal.cast_eq, one_eq, div_num _ (by norm_num)]
  have e : (if decide (i ≠ 1) = true then (half : XReal) else 1) =
      num (if decide (i ≠ 1) = true then half else 1) := by
    rw [hhalf, one_eq]; split_ifs <;> rfl
  rw [e]
  simp only [XReal.cast_eq, one_eq, mul_num, sub_num]
  have h1 : 0 < 1 - gather p_nonterminal (gather (tree_depths (2 ^ (p_nonterminal.length - 1))) i) := by
    linarith
  have h1' : 0 < 1 - gather p_nonterminal (gather (tree_depths (2 ^ (p_nonterminal.length - 1))) i + 1) := by
    linarith
  have h2 : 0 < (if decide (i ≠ 1) = true then (half : ℝ) else 1) * q * n := by
    have : (0 : ℝ) < n := by exact_mod_cast hn
    have h3 : (0 : ℝ) < if decide (i ≠ 1) = true then (half : ℝ) else 1 := by
      unfold half; split_ifs <;> norm_num
    positivity
  rw [div_num _ h1.ne', div_num _ h2.ne']
  refine ⟨rfl, ?_⟩
  positivity

variable {p_nonterminal : List ℝ} {K : Type} [KeyLike K] {rngX : Rng K XReal} {rng : Rng K ℝ}

theorem grow_move_lift (hr : ∀ k, ExtendsDraws (rngX k) (rng k)) (hl : LawfulRng rng)
    (H : MoveHyp h split aff ppg) (hp : NonTerm h p_nonterminal) (bits sbits : Nat) (ms : List Nat) (key : K) :
    let gX := grow_move rngX bits sbits var split aff ms (lift p_nonterminal) (lift ppg) key
    let g := grow_move rng bits sbits var split aff ms p_nonterminal ppg key
    gX.num_growable = g.num_growable ∧ gX.node = g.node ∧ gX.var = g.var ∧ gX.split = g.split ∧
    gX.var_tree = g.var_tree ∧ (g.num_growable ≠ 0 → gX.partial_ratio = num g.partial_ratio ∧ 0 < g.partial_ratio) := by
  obtain ⟨h1, h2, h3, h4⟩ := choose_leaf_lift (split := split) (aff := aff) (ppg := ppg)
    (hr (KeyLike.split key 3 0))
  have hv : ∀ i, choose_variable bits sbits var split ms i (rngX (KeyLike.split key 3 1)) =
      choose_variable bits sbits var split ms i (rng (KeyLike.split key 3 1)) := fun i =>
    randint_exclude_lift (hr _) _ _
  have hs : ∀ v i, choose_split sbits v split ms i (rngX (KeyLike.split key 3 2)) =
      choose_split sbits v split ms i (rng (KeyLike.split key 3 2)) := by
    intro v i
    unfold choose_split
    simp only [(hr _).randint]
  unfold grow_move
  simp only [h1, h2, h3, hv, hs, true_and]
  intro hne
  obtain ⟨-, c2, -⟩ := choose_leaf_spec H.valid H.hh H.h64 H.aff H.len H.positive
    (rng (KeyLike.split key 3 0)) (hl _)
  have hg := c2 hne
  obtain ⟨w1, w2, w3, w4⟩ := leafW_spec H hg
  have hne' : leafW split aff ppg ≠ [] := by
    intro h0
    rw [h0] at w3
    have := Nat.two_pow_pos h
    rw [List.length_nil] at w3
    omega
  have hnorm : (categorical (rng (KeyLike.split key 3 0)) (leafW split aff ppg)).2 =
      (leafW split aff ppg).sum := ((C26_categorical _ hne' w4).1 _).2
  rw [h4 (by rw [hnorm]; exact w2.ne')]
  refine compute_partial_ratio_lift hp hg.2.1 ?_ (numParents_grown_pos H hg)
  have e : (choose_leaf split aff ppg (rng (KeyLike.split key 3 0))).prob_choose =
      gather (leafW split aff ppg) (choose_leaf split aff ppg (rng (KeyLike.split key 3 0))).leaf_to_grow /
      (categorical (rng (KeyLike.split key 3 0)) (leafW split aff ppg)).2 := rfl
  rw [e, hnorm, gather_eq_getD (by rw [w3]; exact hg.2.1) 0, w1]
  exact div_pos (H.getD_pos hg.2.1) w2

theorem sumWhere_lift (a : List ℝ) (m : List Bool) : sumWhere (lift a) m = num (sumWhere a m) := by
  unfold sumWhere
  have : List.zipWith (fun p g => if g then p else (0 : XReal)) (lift a) m =
      lift (List.zipWith (fun p g => if g then p else 0) a m) := by
    unfold lift
    rw [List.zipWith_map_left, List.map_zipWith]
    congr 1
    funext p g
    cases g <;> simp
  rw [this, sum_lift]

theorem prune_move_lift (hr : ∀ k, ExtendsDraws (rngX k) (rng k)) (hl : LawfulRng rng)
    (H : MoveHyp h split aff ppg) (hp : NonTerm h p_nonterminal) (key : K) :
    let pX := prune_move rngX split aff (lift p_nonterminal) (lift ppg) key
    let p := prune_move rng split aff p_nonterminal ppg key
    pX.allowed = p.allowed ∧ pX.node = p.node ∧
    (p.allowed = true → pX.partial_ratio = num p.partial_ratio ∧ 0 < p.partial_ratio) := by
  unfold prune_move choose_leaf_parent
  simp only [randint_masked_lift (hr key), gather_lift, sumWhere_lift, true_and]
  intro hall
  have h2 := two_le_pow H.hh
  have hroot : at0 split 1 ≠ 0 := by
    rw [gather_at0 (by rw [H.valid.length]; exact h2)] at hall
    exact bne_iff_ne.1 hall
  have hpar := (choose_leaf_parent_spec (aff := aff) (ppg := ppg) H.valid H.hh H.h64 (rng key) (hl key)).1 hroot
  have h07 := (C07_prunable split h H.hh H.h64 H.valid).2
  rw [gather_at0 (by rw [H.valid.length]; exact h2)] at h07
  have hne : countNonzero (is_leaves_parent split) ≠ 0 := h07.1 (bne_iff_ne.2 hroot)
  unfold choose_leaf_parent at hpar
  simp only at hpar
  rw [if_pos hne] at hpar ⊢
  generalize randint_masked (rng key) (is_leaves_parent split) = i at hpar ⊢
  have hi : i < 2 ^ h := by
    by_contra hc
    have : at0 split i = 0 := by
      unfold at0; rw [List.getD_eq_default _ _ (by rw [H.valid.length]; omega)]
    exact hpar.1.2 this
  have hsum : 0 < sumWhere ppg (growable_leaves (setDrop split i 0) (aff.map fun a => setDrop a i true)) := by
    have hlen : AffLen h (aff.map fun a => setDrop a i true) := by
      intro a ha
      cases hx : aff with
      | none => rw [hx] at ha; cases ha
      | some x =>
        rw [hx] at ha
        cases ha
        unfold setDrop
        rw [List.length_set]
        exact H.aff x hx
    have H' : MoveHyp h (setDrop split i 0) (aff.map fun a => setDrop a i true) ppg :=
      ⟨validSplit_prune H.valid hpar, H.hh, H.h64, hlen, H.len, H.pos, H.le_one⟩
    have hgr : Growable h (setDrop split i 0) (aff.map fun a => setDrop a i true) i := by
      refine ⟨(isLeaf_prune H.valid hpar).2 (Or.inr rfl), hi, ?_⟩
      intro a ha
      cases hx : aff with
      | none => rw [hx] at ha; cases ha
      | some x =>
        rw [hx] at ha
        cases ha
        unfold setDrop
        rw [List.getD_eq_getElem _ _ (by rw [List.length_set, H.aff x hx]; exact hi), List.getElem_set_self]
    have := (leafW_spec H' hgr).2.1
    have e : sumWhere ppg (growable_leaves (setDrop split i 0) (aff.map fun a => setDrop a i true)) =
        (leafW (setDrop split i 0) (aff.map fun a => setDrop a i true) ppg).sum := by
      unfold sumWhere leafW
      rw [List.zipWith_comm, jaxSum_eq]
    rw [e]; exact this
  rw [div_num _ hsum.ne']
  refine compute_partial_ratio_lift hp hi (div_pos ?_ hsum) (Nat.pos_of_ne_zero hne)
  rw [gather_eq_getD (by rw [H.len]; exact hi) 0]
  exact H.getD_pos hi

end

end Bartz
