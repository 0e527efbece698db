import Verif.Spec.Relabel
import Verif.Lemmas.BartKernel
import Verif.Lemmas.ReorderGbart
/-! # Reordering of the predictors -/

set_option autoImplicit false

namespace Bartz
open Jax Spec MeasureTheory ProbabilityTheory
open scoped ENNReal

/-- Variable `v` in the new order is variable `s v` in the old one. -/
structure Renames (p : Nat) (s g : Nat → Nat) (X : List (List Nat)) (ms : List Nat) (X' : List (List Nat))
    (ms' : List Nat) : Prop where
  lenX : X.length = p
  lenX' : X'.length = p
  lenm : ms.length = p
  lenm' : ms'.length = p
  s_lt : ∀ v, v < p → s v < p
  g_lt : ∀ v, v < p → g v < p
  gs : ∀ v, v < p → g (s v) = v
  sg : ∀ v, v < p → s (g v) = v
  ms : ∀ v, v < p → at0 ms' v = at0 ms (s v)
  X : ∀ v, v < p → X'.getD v [] = X.getD (s v) []

section
variable {p : Nat} {s g : Nat → Nat} {X X' : List (List Nat)} {ms ms' : List Nat}

theorem Renames.symm (h : Renames p s g X ms X' ms') : Renames p g s X' ms' X ms where
  lenX := h.lenX'
  lenX' := h.lenX
  lenm := h.lenm'
  lenm' := h.lenm
  s_lt := h.g_lt
  g_lt := h.s_lt
  gs := h.sg
  sg := h.gs
  ms := fun v hv => by rw [h.ms _ (h.g_lt v hv), h.sg v hv]
  X := fun v hv => by rw [h.X _ (h.g_lt v hv), h.sg v hv]

theorem Renames.eq_iff (h : Renames p s g X ms X' ms') {u v : Nat} (hu : u < p) (hv : v < p) :
    g u = v ↔ u = s v := by
  constructor
  · rintro rfl
    rw [h.sg u hu]
  · rintro rfl
    rw [h.gs v hv]

theorem at0_relabel {T : Rules} (hl : T.var.length = T.split.length) {f : Nat → Nat} {i : Nat}
    (hi : IsDecision T.split i) : at0 (relabel f T).var i = f (at0 T.var i) := by
  classical
  have hlt : i < T.var.length := by
    rw [hl]
    by_contra hge
    exact hi.2 (List.getD_eq_default _ _ (by omega))
  unfold relabel at0
  rw [List.getD_eq_getElem _ _ (by simpa using hlt)]
  simp only [List.getElem_map, List.getElem_range]
  rw [if_pos hi]

theorem at0_relabel_unused {T : Rules} {f : Nat → Nat} {i : Nat}
    (hi : ¬ IsDecision T.split i) : at0 (relabel f T).var i = 0 := by
  classical
  unfold relabel at0
  rcases Nat.lt_or_ge i T.var.length with h | h
  · rw [List.getD_eq_getElem _ _ (by simpa using h)]
    simp only [List.getElem_map, List.getElem_range]
    rw [if_neg hi]
  · rw [List.getD_eq_default _ _ (by simpa using h)]

@[simp] theorem relabel_split (f : Nat → Nat) (T : Rules) : (relabel f T).split = T.split := rfl

@[simp] theorem relabel_length (f : Nat → Nat) (T : Rules) : (relabel f T).var.length = T.var.length := by
  simp [relabel]

/-- the variables of the decision rules are among the `p` predictors -/
structure RulesBelow (p : Nat) (T : Rules) : Prop where
  len : T.var.length = T.split.length
  lt : ∀ i, IsDecision T.split i → at0 T.var i < p

theorem RulesBelow.relabel (h : Renames p s g X ms X' ms') {T : Rules} (hT : RulesBelow p T) :
    RulesBelow p (relabel g T) :=
  ⟨by simpa using hT.len, fun i hi => by rw [at0_relabel hT.len hi]; exact h.g_lt _ (hT.lt i hi)⟩

theorem relabel_relabel (h : Renames p s g X ms X' ms') {T : Rules} (hT : RulesBelow p T)
    (h0 : ∀ i, ¬ IsDecision T.split i → at0 T.var i = 0) : relabel s (relabel g T) = T := by
  refine Rules.ext ?_ rfl
  have key : ∀ i, at0 (relabel s (relabel g T)).var i = at0 T.var i := by
    intro i
    by_cases hi : IsDecision T.split i
    · rw [at0_relabel (T := relabel g T) (by simpa using hT.len) hi, at0_relabel hT.len hi, h.sg _ (hT.lt i hi)]
    · rw [at0_relabel_unused (T := relabel g T) hi, h0 i hi]
  apply List.ext_getElem
  · simp
  · intro i h1 h2
    have := key i
    unfold at0 at this
    rwa [List.getD_eq_getElem _ _ h1, List.getD_eq_getElem _ _ h2] at this

theorem decision_of_left {split : List Nat} {k : Nat} (hn : IsNode split (2 * k)) (hk : 1 ≤ k) : IsDecision split k := by
  have := hn.parent (by omega)
  rwa [show 2 * k / 2 = k by omega] at this

theorem decision_of_right {split : List Nat} {k : Nat} (hn : IsNode split (2 * k + 1)) (hk : 1 ≤ k) :
    IsDecision split k := by
  have := hn.parent (by omega)
  rwa [show (2 * k + 1) / 2 = k by omega] at this

theorem valueReaches_pos {v x i : Nat} {var split : List Nat} (h : ValueReaches v x var split i) : 1 ≤ i := by
  induction h with
  | root => exact le_rfl
  | left _ _ ih => omega
  | right _ _ ih => omega

theorem valueReaches_relabel_aux (h : Renames p s g X ms X' ms') {T : Rules} (hT : RulesBelow p T) {i v x : Nat}
    (hv : v < p) (hr : ValueReaches (s v) x T.var T.split i) (hn : IsNode T.split i) :
    ValueReaches v x (relabel g T).var T.split i := by
  induction hr with
  | root => exact .root
  | @left k hk hlt ih =>
    have hd := decision_of_left hn (valueReaches_pos hk)
    refine .left (ih hd.1) fun e => hlt ?_
    rw [at0_relabel hT.len hd] at e
    exact (h.eq_iff (hT.lt k hd) hv).1 e
  | @right k hk hlt ih =>
    have hd := decision_of_right hn (valueReaches_pos hk)
    refine .right (ih hd.1) fun e => hlt ?_
    rw [at0_relabel hT.len hd] at e
    exact (h.eq_iff (hT.lt k hd) hv).1 e

theorem valueReaches_relabel (h : Renames p s g X ms X' ms') {T : Rules} (hT : RulesBelow p T) {i v x : Nat}
    (hv : v < p) (hn : IsNode T.split i) :
    ValueReaches v x (relabel g T).var T.split i ↔ ValueReaches (s v) x T.var T.split i := by
  refine ⟨fun hr => ?_, fun hr => valueReaches_relabel_aux h hT hv hr hn⟩
  have h1 := valueReaches_relabel_aux (v := s v) h.symm (hT.relabel h) (h.s_lt v hv) (x := x) (i := i)
    (by rw [h.gs v hv]; exact hr) hn
  refine (valueReaches_congr hn fun j hj => ?_).1 h1
  rw [at0_relabel (T := relabel g T) (by simpa using hT.len) hj, at0_relabel hT.len hj, h.sg _ (hT.lt j hj)]

theorem hasSplit_relabel (h : Renames p s g X ms X' ms') {T : Rules} (hT : RulesBelow p T) {i v : Nat}
    (hv : v < p) (hn : IsNode T.split i) :
    HasSplit ms' (relabel g T).var T.split i v ↔ HasSplit ms T.var T.split i (s v) := by
  simp only [HasSplit, valueReaches_relabel h hT hv hn, h.ms v hv]

theorem overflows_relabel (h : Renames p s g X ms X' ms') {T : Rules} (hT : RulesBelow p T) {i v b : Nat}
    (hv : v < p) (hn : IsNode T.split i) :
    Overflows b ms' (relabel g T).var T.split i v ↔ Overflows b ms T.var T.split i (s v) := by
  simp only [Overflows, valueReaches_relabel h hT hv hn, h.ms v hv]

theorem miscounted_relabel (h : Renames p s g X ms X' ms') {T : Rules} (hT : RulesBelow p T) {i v b : Nat}
    (hv : v < p) (hn : IsNode T.split i) :
    Miscounted b ms' (relabel g T).var T.split i v ↔ Miscounted b ms T.var T.split i (s v) := by
  unfold Miscounted
  rw [overflows_relabel h hT hv hn, h.ms v hv]

theorem availVars_relabel (h : Renames p s g X ms X' ms') {T : Rules} (hT : RulesBelow p T) {i v b : Nat}
    (hv : v < p) (hn : IsNode T.split i) :
    v ∈ availVars b ms' (relabel g T).var T.split i ↔ s v ∈ availVars b ms T.var T.split i := by
  simp only [availVars, Set.mem_ofPred_eq, hasSplit_relabel h hT hv hn, miscounted_relabel h hT hv hn, h.lenm, h.lenm', hv,
    h.s_lt v hv, true_and]

theorem availSplits_relabel (h : Renames p s g X ms X' ms') {T : Rules} (hT : RulesBelow p T) {i v : Nat}
    (hv : v < p) (hn : IsNode T.split i) :
    availSplits ms' (relabel g T).var T.split i v = availSplits ms T.var T.split i (s v) := by
  ext x
  simp only [availSplits, NonRedundant, Set.mem_ofPred_eq, valueReaches_relabel h hT hv hn, h.ms v hv]

theorem ncard_availVars_relabel (h : Renames p s g X ms X' ms') {T : Rules} (hT : RulesBelow p T) {i b : Nat}
    (hn : IsNode T.split i) :
    (availVars b ms' (relabel g T).var T.split i).ncard = (availVars b ms T.var T.split i).ncard := by
  refine (Set.ncard_congr (fun v _ => g v) ?_ ?_ ?_).symm
  · intro v hv
    have hvp : v < p := h.lenm ▸ hv.1
    rw [availVars_relabel h hT (h.g_lt v hvp) hn, h.sg v hvp]
    exact hv
  · intro u v hu hv e
    have hup : u < p := h.lenm ▸ hu.1
    have hvp : v < p := h.lenm ▸ hv.1
    rw [← h.sg u hup, ← h.sg v hvp, e]
  · intro v hv
    have hvp : v < p := h.lenm' ▸ hv.1
    exact ⟨s v, (availVars_relabel h hT hvp hn).1 hv, h.gs v hvp⟩

theorem treePrior_relabel (h : Renames p s g X ms X' ms') {T : Rules} (hT : RulesBelow p T) (q : List ℝ) (b : Nat) :
    treePrior q b ms' (relabel g T).var T.split = treePrior q b ms T.var T.split := by
  unfold treePrior rulesPrior
  congr 1
  refine Finset.prod_congr rfl fun i _ => ?_
  split_ifs with hd
  · unfold ruleProb
    have hlt := hT.lt i hd
    rw [ncard_availVars_relabel h hT hd.1, at0_relabel hT.len hd, availSplits_relabel h hT (h.g_lt _ hlt) hd.1,
      h.sg _ hlt]
  · rfl

theorem coord_point {X : List (List Nat)} {v : Nat} (hv : v < X.length) (j : Nat) :
    coord (point X j) v = (X.getD v []).getD j 0 := by
  unfold coord point
  rw [List.length_map, show min v (X.length - 1) = v by omega, List.getD_eq_getElem _ _ (by simpa using hv),
    List.getElem_map, List.getD_eq_getElem _ _ hv]

theorem Renames.coord (h : Renames p s g X ms X' ms') {v : Nat} (hv : v < p) (j : Nat) :
    Spec.coord (point X' j) v = Spec.coord (point X j) (s v) := by
  rw [coord_point (by rw [h.lenX']; exact hv), coord_point (by rw [h.lenX]; exact h.s_lt v hv), h.X v hv]

theorem reaches_relabel_aux (h : Renames p s g X ms X' ms') {T : Rules} (hT : RulesBelow p T) {i j : Nat}
    (hr : Reaches (point X j) T.var T.split i) : Reaches (point X' j) (relabel g T).var T.split i := by
  induction hr with
  | root => exact .root
  | @left k hk hne hlt ih =>
    have hd : IsDecision T.split k := ⟨hk.isNode, hne⟩
    refine .left ih hne ?_
    rw [at0_relabel hT.len hd, h.coord (h.g_lt _ (hT.lt k hd)), h.sg _ (hT.lt k hd)]
    exact hlt
  | @right k hk hne hlt ih =>
    have hd : IsDecision T.split k := ⟨hk.isNode, hne⟩
    refine .right ih hne ?_
    rw [at0_relabel hT.len hd, h.coord (h.g_lt _ (hT.lt k hd)), h.sg _ (hT.lt k hd)]
    exact hlt

theorem fallsInto_relabel (h : Renames p s g X ms X' ms') {T : Rules} (hT : RulesBelow p T) {i j : Nat} :
    FallsInto (point X' j) (relabel g T).var T.split i ↔ FallsInto (point X j) T.var T.split i := by
  refine ⟨fun hr => ⟨hr.1, ?_⟩, fun hr => ⟨hr.1, reaches_relabel_aux h hT hr.2⟩⟩
  have h1 := reaches_relabel_aux h.symm (hT.relabel h) hr.2
  refine reaches_var (fun k hk => ?_) h1
  rw [at0_relabel (T := relabel g T) (by simpa using hT.len) hk, at0_relabel hT.len hk, h.sg _ (hT.lt k hk)]

theorem treeValue_relabel (h : Renames p s g X ms X' ms') {T : Rules} (hT : RulesBelow p T) (j : Nat) {N : Nat}
    (z : Fin N → ℝ) : treeValue X' j (relabel g T, z) = treeValue X j (T, z) := by
  classical
  unfold treeValue
  refine Finset.sum_congr rfl fun i _ => ?_
  exact if_congr (fallsInto_relabel h hT) rfl rfl

end

/-! ### The distributions -/

/-- other predictors -/
abbrev withPredictors (a : InitArgs ℝ) (X : List (List Nat)) (ms : List Nat) : InitArgs ℝ :=
  { a with X := X, max_split := ms }

section
variable {p : Nat} {s g : Nat → Nat} {X' : List (List Nat)} {ms' : List Nat} {a : InitArgs ℝ}

theorem possible_below {T : Rules} (hT : PossibleTree a T) : RulesBelow a.max_split.length T :=
  ⟨hT.var_length.trans hT.split.length.symm, fun i hi => (hT.var_avail i hi).1⟩

theorem possible_relabel (h : Renames p s g a.X a.max_split X' ms') {T : Rules} (hT : PossibleTree a T) :
    PossibleTree (withPredictors a X' ms') (relabel g T) := by
  have hb : RulesBelow p T := h.lenm ▸ possible_below hT
  refine ⟨hT.split, ?_, fun i hi => at0_relabel_unused hi, fun i hi => ?_, fun i hi => ?_, fun m hm h1 i hi => ?_⟩
  · rw [relabel_length]
    exact hT.var_length
  · have hlt := hb.lt i hi
    rw [at0_relabel hb.len hi]
    refine (availVars_relabel h hb (h.g_lt _ hlt) hi.1).2 ?_
    rw [h.sg _ hlt]
    exact hT.var_avail i hi
  · have hlt := hb.lt i hi
    rw [at0_relabel hb.len hi]
    show _ ∈ availSplits ms' (Spec.relabel g T).var T.split i _
    rw [availSplits_relabel h hb (h.g_lt _ hlt) hi.1, h.sg _ hlt]
    exact hT.split_avail i hi
  · refine (hT.points m hm h1 i hi).trans (le_of_eq ?_)
    unfold pointsIn
    simp only [relabel_split, fallsInto_relabel h hb]

theorem renames_with (h : Renames p s g a.X a.max_split X' ms') :
    Renames p g s (withPredictors a X' ms').X (withPredictors a X' ms').max_split a.X a.max_split := h.symm

/-- the possible trees correspond -/
noncomputable def possibleEquiv (h : Renames p s g a.X a.max_split X' ms') :
    {T // PossibleTree a T} ≃ {T // PossibleTree (withPredictors a X' ms') T} where
  toFun T := ⟨relabel g T.1, possible_relabel h T.2⟩
  invFun T := ⟨relabel s T.1, possible_relabel (renames_with h) T.2⟩
  left_inv T := Subtype.ext (relabel_relabel h (h.lenm ▸ (possible_below T.2)) T.2.var_unused)
  right_inv T := Subtype.ext (relabel_relabel h.symm (h.lenm' ▸ (possible_below T.2)) T.2.var_unused)

theorem ruleW_relabel (h : Renames p s g a.X a.max_split X' ms') {T : Rules} (hT : PossibleTree a T) :
    ruleW (withPredictors a X' ms') (relabel g T) = ruleW a T := by
  unfold ruleW
  rw [if_pos hT, if_pos (possible_relabel h hT)]
  congr 1
  exact treePrior_relabel h (h.lenm ▸ possible_below hT) _ _

theorem tsum_ruleW (a : InitArgs ℝ) (f : Rules → ℝ≥0∞) :
    ∑' T, ruleW a T * f T = ∑' T : {T // PossibleTree a T}, ruleW a T * f T := by
  refine (tsum_subtype_eq_of_support_subset (s := {T | PossibleTree a T}) (f := fun T => ruleW a T * f T) ?_).symm
  intro T hT
  by_contra hn
  refine hT ?_
  show ruleW a T * f T = 0
  unfold ruleW
  rw [if_neg (show ¬ PossibleTree a T from hn), zero_mul]

/-- change the names of the variables in a tree -/
noncomputable def relabelTree {N : Nat} (f : Nat → Nat) (x : Tree N) : Tree N := (relabel f x.1, x.2)

theorem measurable_relabelTree {N : Nat} (f : Nat → Nat) : Measurable (relabelTree f : Tree N → Tree N) :=
  ((measurable_from_top (f := relabel f)).comp measurable_fst).prodMk measurable_snd

theorem treeDist_relabel (h : Renames p s g a.X a.max_split X' ms') :
    treeDist (withPredictors a X' ms') = (treeDist a).map (relabelTree g) := by
  refine Measure.ext_of_lintegral _ fun f hf => ?_
  rw [lintegral_map hf (measurable_relabelTree g), lintegral_treeDist hf,
    lintegral_treeDist (a := a) (f := fun x => f (relabelTree g x)) (hf.comp (measurable_relabelTree g)), tsum_ruleW, tsum_ruleW,
    ← (possibleEquiv h).tsum_eq]
  refine tsum_congr fun T => ?_
  show ruleW (withPredictors a X' ms') (relabel g T.1) * _ = _
  rw [ruleW_relabel h T.2]
  rfl

theorem measurable_relabelParams {nt N : Nat} (f : Nat → Nat) : Measurable (relabelParams f : Params nt N → Params nt N) :=
  Measurable.prodMk (f := fun θ : Params nt N => fun t => relabelTree f (θ.1 t))
    (measurable_pi_lambda _ fun t => (measurable_relabelTree f).comp ((measurable_pi_apply t).comp measurable_fst))
    measurable_snd

theorem priorDist_relabel (h : Renames p s g a.X a.max_split X' ms') :
    priorDist (withPredictors a X' ms') = (priorDist a).map (relabelParams g) := by
  unfold priorDist
  rw [treeDist_relabel h]
  have e := Measure.pi_map_pi (ι := Fin a.num_trees) (μ := fun _ => treeDist a) (f := fun _ => relabelTree g)
    (fun _ => (measurable_relabelTree g).aemeasurable)
  have hm : Measurable fun (x : Fin a.num_trees → Tree (nodes a)) i => relabelTree g (x i) :=
    measurable_pi_lambda _ fun t => (measurable_relabelTree g).comp (measurable_pi_apply t)
  have e2 := Measure.map_prod_map (Measure.pi fun _ : Fin a.num_trees => treeDist a) (sigmaDist a) hm measurable_id
  rw [e, Measure.map_id] at e2
  exact e2

theorem dataDensity_relabel (h : Renames p s g a.X a.max_split X' ms') {θ : Params a.num_trees (nodes a)}
    (hθ : ∀ t, PossibleTree a (θ.1 t).1) :
    dataDensity (withPredictors a X' ms') (relabelParams g θ) = dataDensity a θ := by
  unfold dataDensity
  refine Finset.prod_congr rfl fun j _ => ?_
  have e : ∀ t, treeValue X' j ((relabelParams g θ).1 t) = treeValue a.X j (θ.1 t) := fun t =>
    treeValue_relabel h (h.lenm ▸ possible_below (hθ t)) j _
  simp only [e]
  rfl

theorem priorDist_ae (a : InitArgs ℝ) : ∀ᵐ θ ∂priorDist a, ∀ t, PossibleTree a (θ.1 t).1 := by
  unfold priorDist
  have h2 : ∀ᵐ x ∂Measure.pi fun _ : Fin a.num_trees => treeDist a, ∀ t, PossibleTree a (x t).1 := by
    rw [ae_all_iff]
    intro t
    exact (Measure.quasiMeasurePreserving_eval (fun _ : Fin a.num_trees => treeDist a) t).ae
      ((treeDist_ae a).mono fun _ h => h.1)
  exact (Measure.quasiMeasurePreserving_fst (μ := Measure.pi fun _ : Fin a.num_trees => treeDist a)
    (ν := sigmaDist a)).ae h2

theorem withDensity_map_eq {α β : Type} [MeasurableSpace α] [MeasurableSpace β] (μ : Measure α) {h : α → β}
    (hh : Measurable h) {f : β → ℝ≥0∞} (hf : Measurable f) :
    (μ.map h).withDensity f = (μ.withDensity fun x => f (h x)).map h := by
  refine Measure.ext_of_lintegral _ fun q hq => ?_
  rw [lintegral_withDensity_eq_lintegral_mul _ hf hq, lintegral_map (hf.mul hq) hh, lintegral_map hq hh,
    lintegral_withDensity_eq_lintegral_mul μ (f := fun x => f (h x)) (hf.comp hh) (g := fun x => q (h x)) (hq.comp hh)]
  rfl

theorem jointDist_relabel (h : Renames p s g a.X a.max_split X' ms') :
    jointDist (withPredictors a X' ms') = (jointDist a).map (relabelParams g) := by
  unfold jointDist
  rw [priorDist_relabel h]
  refine (withDensity_map_eq _ (measurable_relabelParams g) (measurable_dataDensity (withPredictors a X' ms'))).trans ?_
  have e : (fun θ => dataDensity (withPredictors a X' ms') (relabelParams g θ)) =ᵐ[priorDist a] dataDensity a := by
    filter_upwards [priorDist_ae a] with θ hθ
    exact dataDensity_relabel h hθ
  exact congrArg (Measure.map (relabelParams g)) (withDensity_congr_ae e)

theorem posterior_relabel (h : Renames p s g a.X a.max_split X' ms') :
    posterior (withPredictors a X' ms') = (posterior a).map (relabelParams g) := by
  unfold posterior
  rw [jointDist_relabel h, Measure.map_apply (measurable_relabelParams g) MeasurableSet.univ, Set.preimage_univ,
    Measure.map_smul]

end

/-! ### Permutations -/

section
variable {σ : List Nat}

theorem renames_reorder {p : Nat} (hσ : σ.Perm (List.range p)) {X : List (List Nat)} {ms : List Nat}
    (hX : X.length = p) (hms : ms.length = p) :
    Renames p (fun v => σ.getD v 0) σ.idxOf X ms (reorder σ X) (reorder σ ms) := by
  have hl : σ.length = p := by simpa using hσ.length_eq
  have hnd : σ.Nodup := hσ.nodup_iff.2 List.nodup_range
  have hmem : ∀ v, v < p → v ∈ σ := fun v hv => hσ.mem_iff.2 (List.mem_range.2 hv)
  refine ⟨hX, by simpa using hl, hms, by simpa using hl, fun v hv => ?_, fun v hv => ?_, fun v hv => ?_, fun v hv => ?_,
    fun v hv => ?_, fun v hv => ?_⟩
  · rw [List.getD_eq_getElem _ _ (by omega)]
    exact mem_of_perm hσ (List.getElem_mem _)
  · rw [← hl]
    exact List.idxOf_lt_length_of_mem (hmem v hv)
  · simp only [List.getD_eq_getElem _ _ (show v < σ.length by omega)]
    exact hnd.idxOf_getElem v (by omega)
  · have := List.idxOf_lt_length_of_mem (hmem v hv)
    simp only [List.getD_eq_getElem _ _ this]
    exact List.getElem_idxOf this
  · exact getD_reorder 0 0 hσ hms hv
  · exact getD_reorder [] [] hσ hX hv

end
end Bartz
