import Verif.Lemmas.Rules
import Verif.Props.Sampling
import Verif.Spec.TreePrior
/-!
# Properties C27, C28: proposals of decision rules
-/

set_option autoImplicit false

namespace Bartz
open Jax Spec

/-! ### C27 -/

/-- the interval computed along the path contains the non-redundant splits -/
theorem nonRedundant_iff {var split max_split : List Nat} {i v s : Nat} (h1 : 1 ≤ i) :
    NonRedundant max_split var split i v s ↔
      (interval var split v (1 + at0 max_split v) i).1 < s ∧
        s < (interval var split v (1 + at0 max_split v) i).2 := by
  have key := fun a => valueReaches_iff_interval (var := var) (split := split) (v := v)
    (R := 1 + at0 max_split v) (a := a) h1
  generalize interval var split v (1 + at0 max_split v) i = c at key
  unfold NonRedundant
  constructor
  · rintro ⟨⟨a, ha, har, has⟩, ⟨b, hb, hbr, hbs⟩⟩
    have h2 := (key a).1 ⟨har, by omega⟩
    have h3 := (key b).1 ⟨hbr, by omega⟩
    exact ⟨by omega, by omega⟩
  · rintro ⟨h2, h3⟩
    have ha := (key c.1).2 ⟨le_refl _, by omega⟩
    have hb := (key (c.2 - 1)).2 ⟨by omega, by omega⟩
    exact ⟨⟨c.1, by omega, ha.1, by omega⟩, ⟨c.2 - 1, by omega, hb.1, by omega⟩⟩

/-- C27, full statement: the range returned by `split_range` contains exactly the non-redundant splits. The
tree arrays are arbitrary, apart from the fact that their values fit their types (`bits` is the width of the
type of the splits). It is **false**, see `C27_overflow`. -/
def C27_statement : Prop :=
  ∀ (bits h : Nat) (var split max_split : List Nat), 8 ≤ bits → 1 ≤ h → var.length = 2 ^ h →
    split.length = 2 ^ h → (∀ j, at0 split j < 2 ^ bits) → (∀ v, at0 max_split v < 2 ^ bits) →
    ∀ i v s, 1 ≤ i → i < 2 ^ h →
    (((split_range bits var split max_split i v).1 ≤ s ∧ s < (split_range bits var split max_split i v).2) ↔
      NonRedundant max_split var split i v s)

/-- With 255 cutpoints, like in the default settings, represented with 8 bits, at the right child of a node
that splits at the last cutpoint there are no splits left, but the left end of the range overflows to 0, so
`split_range` returns [0, 256). -/
theorem C27_overflow : ¬ C27_statement := by
  intro hst
  have h := (hst 8 2 [0, 0, 0, 0] [0, 255, 0, 0] [255] (by norm_num) (by norm_num) rfl rfl
    (by intro j; rcases j with _ | _ | _ | _ | j <;> simp [at0])
    (by intro v; rcases v with _ | v <;> simp [at0]) 3 0 100 (by norm_num) (by norm_num)).1 (by decide)
  rw [nonRedundant_iff (by norm_num), interval_step (by norm_num)] at h
  simp [at0, interval_le_one] at h

theorem interval_fst_fits {var split : List Nat} {v R b : Nat} (hs : ∀ j, at0 split j + 1 < 2 ^ b) (i : Nat) :
    (interval var split v R i).1 + 1 < 2 ^ b := by
  induction i using Nat.strong_induction_on with
  | _ i ih =>
    rcases Nat.lt_or_ge i 2 with h2 | h2
    · rw [interval_le_one (by omega)]
      have := hs 0
      simp only; omega
    · have := ih (i / 2) (by omega)
      have := hs (i / 2)
      rw [interval_step h2]
      split_ifs <;> (try simp only) <;> omega

/-- C27, what holds (instead of `C27_statement`): the range returned by `split_range` contains exactly the
non-redundant splits, if no split is equal to the largest value of its type. The tree arrays are otherwise
arbitrary. -/
theorem C27_split_range_partial (bits h : Nat) (hh : 1 ≤ h) (var split max_split : List Nat)
    (hvar : var.length = 2 ^ h) (hsplit : split.length = 2 ^ h) (hs : ∀ j, at0 split j + 1 < 2 ^ bits)
    (i v s : Nat) (h1 : 1 ≤ i) (hi : i < 2 ^ h) :
    ((split_range bits var split max_split i v).1 ≤ s ∧ s < (split_range bits var split max_split i v).2) ↔
      NonRedundant max_split var split i v s := by
  rw [split_range_eq hh hvar hsplit max_split hi, nonRedundant_iff h1,
    astype_of_lt (interval_fst_fits hs i)]
  rfl

-- a tree of depth 3: the root splits variable 0 at 3; at node 2 the values 0, 1, 2 are left
example : split_range 8 [0, 0, 0, 0] [0, 3, 0, 0] [5, 5] 2 0 = (1, 3) ∧
    split_range 8 [0, 0, 0, 0] [0, 3, 0, 0] [5, 5] 3 0 = (4, 6) ∧
    split_range 8 [0, 0, 0, 0] [0, 3, 0, 0] [5, 5] 3 1 = (1, 6) := by decide

/-! ### C28 -/

/-- C28, full statement: the variable chosen for a new decision node at a leaf is uniform among
those with a non-empty split range. It is **false**, see `C28_not_uniform` and `C28_overflow`. -/
def C28_statement (var_bits split_bits : Nat) : Prop :=
  ∀ (h : Nat) (var split max_split : List Nat) (i : Nat), 1 ≤ h → h < 64 →
    (∀ v, at0 max_split v < 2 ^ split_bits) → (∀ j, at0 var j < max_split.length) →
    (∀ j, IsDecision split j → NonRedundant max_split var split j (at0 var j) (at0 split j)) →
    var.length = 2 ^ h → ValidSplit h split → IsLeaf split i → i < 2 ^ h →
    (∃ v, v < max_split.length ∧ HasSplit max_split var split i v) →
    Set.BijOn (fun u => choose_variable var_bits split_bits var split max_split i (constRandint (F := Nat) u))
      {u | u < {v | v < max_split.length ∧ HasSplit max_split var split i v}.ncard}
      {v | v < max_split.length ∧ HasSplit max_split var split i v}

/-- A predictor without cutpoints (`max_split = 0`, e.g., a constant column) is proposed. -/
theorem C28_not_uniform : ¬ C28_statement 8 8 := by
  intro hst
  have hv : ValidSplit 1 [0, 0] := by
    refine ⟨rfl, rfl, ?_⟩
    intro i hi hne
    exfalso
    apply hne
    rcases i with _ | _ | i <;> simp [at0] at *
  have hset : {v | v < [0, 1].length ∧ HasSplit [0, 1] [0, 0] [0, 0] 1 v} = {1} := by
    ext v
    simp only [Set.mem_ofPred_eq, Set.mem_singleton_iff, List.length_cons, List.length_nil]
    constructor
    · rintro ⟨h1, a, b, hab, hb, _⟩
      by_contra hc
      have : v = 0 := by omega
      subst this
      simp [at0] at hb
      omega
    · rintro rfl
      exact ⟨by omega, 0, 1, by omega, by simp [at0], .root, .root⟩
  have := hst 1 [0, 0] [0, 0] [0, 1] 1 (by omega) (by omega)
    (by intro v; rcases v with _ | _ | v <;> simp [at0]) (by intro j; rcases j with _ | _ | j <;> simp [at0])
    (by intro j hj; exact absurd (by rcases j with _ | _ | j <;> simp [at0]) hj.2) rfl hv ⟨.root, rfl⟩ (by norm_num)
    ⟨1, by simp, 0, 1, by omega, by simp [at0], .root, .root⟩
  rw [hset, Set.ncard_singleton] at this
  have h0 := this.mapsTo (x := 0) (by simp)
  revert h0
  rw [Set.mem_singleton_iff]
  decide

/-- Whether a predictor without cutpoints is counted depends on the number of predictors. With 255 predictors, all the
numbers less than 255 are proposed at the root; with 256, the first predictor is excluded, because the filler used in place of the
missing ancestors is 256, which is 0 in 8 bits (2 is the maximum depth of the tree). -/
theorem C28_first :
    (choose_variable 8 8 [0, 0, 0, 0] [0, 0, 0, 0] (0 :: List.replicate 254 3) 1 (constRandint (F := Nat) 0) = 0) ∧
    (choose_variable 8 8 [0, 0, 0, 0] [0, 0, 0, 0] (0 :: List.replicate 255 3) 1 (constRandint (F := Nat) 0) = 1) ∧
    (choose_variable 8 8 [0, 0, 0, 0] [0, 0, 0, 0] (3 :: 0 :: List.replicate 254 3) 1 (constRandint (F := Nat) 1) = 1) := by
  decide +kernel

/-- All the predictors have cutpoints, but the first one has 255, represented with 8 bits. At the right child
of a node that splits it at the last cutpoint, it has no splits left, but it is still proposed, because the
number of splits left is computed as 256. -/
theorem C28_overflow : ∃ (h : Nat) (var split max_split : List Nat) (i : Nat), h = 2 ∧ var.length = 2 ^ h ∧
    ValidSplit h split ∧ IsLeaf split i ∧ i < 2 ^ h ∧
    (∀ v, v < max_split.length → 1 ≤ at0 max_split v) ∧ (∀ v, at0 max_split v < 2 ^ 8) ∧
    (∀ j, at0 var j < max_split.length) ∧
    (∀ j, IsDecision split j → NonRedundant max_split var split j (at0 var j) (at0 split j)) ∧
    (∃ v, v < max_split.length ∧ HasSplit max_split var split i v) ∧
    ¬ HasSplit max_split var split i 0 ∧
    choose_variable 8 8 var split max_split i (constRandint (F := Nat) 0) = 0 := by
  have hd : ∀ j, IsDecision [0, 255, 0, 0] j → j = 1 := by
    intro j hj
    have := hj.2
    rcases j with _ | _ | _ | _ | j <;> simp [at0] at this ⊢
  have hval : ValidSplit 2 [0, 255, 0, 0] := by
    refine ⟨rfl, rfl, ?_⟩
    intro i hi hne
    exfalso
    apply hne
    rcases i with _ | _ | _ | _ | i <;> simp [at0] at *
  refine ⟨2, [0, 0, 0, 0], [0, 255, 0, 0], [255, 3], 3, rfl, rfl, hval, ⟨.right .root (by simp [at0]), rfl⟩,
    by norm_num, ?_, ?_, ?_, ?_, ⟨1, by simp, 0, 1, by omega, by simp [at0], ?_, ?_⟩, ?_, by decide⟩
  · intro v hv; rcases v with _ | _ | v <;> simp [at0] at *
  · intro v; rcases v with _ | _ | v <;> simp [at0]
  · intro j; rcases j with _ | _ | _ | _ | j <;> simp [at0]
  · intro j hj
    rw [hd j hj, nonRedundant_iff (by norm_num), interval_le_one (by norm_num)]
    simp [at0]
  · exact .right .root (by simp [at0])
  · exact .right .root (by simp [at0])
  · rintro ⟨a, b, hab, hb, ha', hb'⟩
    have h1 := (valueReaches_iff_interval (R := 256) (by norm_num)).1 ⟨ha', by simp [at0] at hb; omega⟩
    have h2 := (valueReaches_iff_interval (R := 256) (by norm_num)).1 ⟨hb', by simp [at0] at hb; omega⟩
    rw [interval_step (by norm_num), interval_le_one (by norm_num)] at h1 h2
    simp [at0] at h1 h2
    omega

/-- the split range in terms of the interval -/
theorem hasSplit_iff {max_split var split : List Nat} {i v : Nat} (h1 : 1 ≤ i)
    (hne : (interval var split v (1 + at0 max_split v) i).1 <
      (interval var split v (1 + at0 max_split v) i).2) :
    HasSplit max_split var split i v ↔
      (interval var split v (1 + at0 max_split v) i).1 + 1 <
        (interval var split v (1 + at0 max_split v) i).2 := by
  have key := fun a => valueReaches_iff_interval (var := var) (split := split) (v := v)
    (R := 1 + at0 max_split v) (a := a) h1
  generalize interval var split v (1 + at0 max_split v) i = c at key hne
  constructor
  · rintro ⟨a, b, hab, hb, har, hbr⟩
    have h2 := (key a).1 ⟨har, by omega⟩
    have h3 := (key b).1 ⟨hbr, by omega⟩
    omega
  · intro hlt
    have ha := (key c.1).2 ⟨le_refl _, by omega⟩
    have hb := (key (c.1 + 1)).2 ⟨by omega, by omega⟩
    exact ⟨c.1, c.1 + 1, by omega, by omega, ha.1, hb.1⟩

/-- there is an overflow iff only the largest value of the type is left -/
theorem overflows_iff {h bits : Nat} {max_split var split : List Nat} {i v : Nat} (hr : RulesOK max_split var split)
    (hn : IsNode split i) (hms : 1 ≤ at0 max_split v) (hfit : at0 max_split v < 2 ^ bits) (hb : 8 ≤ bits) (hh : 1 ≤ h)
    (h64 : h < 64) (hi : i < 2 ^ h) :
    Overflows bits max_split var split i v ↔ Wraps bits max_split var split i v := by
  have key := fun a => valueReaches_iff_interval (var := var) (split := split) (v := v)
    (R := 1 + at0 max_split v) (a := a) hn.pos
  have hne := interval_nonempty hr hn hms
  constructor
  · rintro ⟨h1, h2⟩
    have hl := interval_fst_le hr hn hms
    have := h2 _ hl ((key _).2 ⟨le_refl _, hne⟩).1
    unfold Wraps
    omega
  · intro hw
    obtain ⟨h1, h2, _⟩ := hw.spec hr hn hfit hb hh h64 hi
    refine ⟨h1, fun x hx hv => ?_⟩
    have := ((key x).1 ⟨hv, by omega⟩).1
    omega

/-- without overflow, and if all the predictors have cutpoints -/
theorem availVars_standard {bits : Nat} {max_split var split : List Nat} {i : Nat}
    (h : ∀ v, v < max_split.length → 1 ≤ at0 max_split v ∧ at0 max_split v + 1 < 2 ^ bits) :
    availVars bits max_split var split i = {v | v < max_split.length ∧ HasSplit max_split var split i v} := by
  ext v
  simp only [availVars, Miscounted, Overflows, Set.mem_ofPred_eq]
  refine and_congr_right fun hv => ?_
  have := h v hv
  constructor
  · rintro (h1 | h1 | h1)
    · exact h1
    · omega
    · omega
  · exact Or.inl

theorem choose_variable_bij {F : Type} [Inhabited F] {h var_bits split_bits : Nat} (hh : 1 ≤ h) (h64 : h < 64)
    {var split max_split : List Nat} (hvar : var.length = 2 ^ h) (hval : ValidSplit h split)
    (hp : max_split.length < 2 ^ 64)
    (hcut : ∀ k, IsDecision split k → at0 var k < max_split.length → 1 ≤ at0 max_split (at0 var k))
    (hfill : astype var_bits max_split.length < max_split.length → 1 ≤ at0 max_split (astype var_bits max_split.length))
    (hok : VarOK max_split.length h var) (hr : RulesOK max_split var split)
    {i : Nat} (hleaf : IsLeaf split i) (hi : i < 2 ^ h) (hsb : 8 ≤ split_bits)
    (hfit : ∀ v, at0 max_split v < 2 ^ split_bits) :
    (∀ draw : Draws F, choose_variable var_bits split_bits var split max_split i draw =
      choose_variable var_bits split_bits var split max_split i (constRandint (F := F)
        (draw.randint 0 (availVars split_bits max_split var split i).ncard))) ∧
    Set.BijOn (fun u => choose_variable var_bits split_bits var split max_split i (constRandint (F := F) u))
      {u | u < (availVars split_bits max_split var split i).ncard}
      (availVars split_bits max_split var split i) := by
  have hset : availVars split_bits max_split var split i =
      {v | v < max_split.length ∧ v ∉ fully_used_variables var_bits split_bits var split max_split i} := by
    ext v
    simp only [availVars, Set.mem_ofPred_eq]
    refine and_congr_right fun hv => ?_
    rcases Nat.eq_zero_or_pos (at0 max_split v) with h0 | h1
    · refine ⟨fun _ hc => ?_, fun _ => Or.inr (Or.inr h0)⟩
      have hc := ((mem_fully_used hh hvar hval.length hi hv).1 hc).1
      obtain ⟨k, hk, hne, e⟩ := ancestor_of_mem h64 hvar hp hok hi (fun e => by
        have := hfill (by omega)
        rw [← e] at this
        omega) hc
      have := hcut _ (ancestor_decision hk hleaf.1 hne) (by omega)
      rw [e] at this
      omega
    have hmis : Miscounted split_bits max_split var split i v ↔ Overflows split_bits max_split var split i v :=
      ⟨fun h => h.resolve_right (by omega), Or.inl⟩
    rw [hmis, mem_fully_used hh hvar hval.length hi hv, overflows_iff hr hleaf.1 h1 (hfit v) hsb hh h64 hi]
    by_cases hw : Wraps split_bits max_split var split i v
    · obtain ⟨_, _, h3⟩ := hw.spec hr hleaf.1 (hfit v) hsb hh h64 hi
      refine ⟨fun _ hc => ?_, fun _ => Or.inr hw⟩
      have h4 := hc.2
      unfold Wraps at hw
      rw [hw, h3, astype, Nat.mod_self] at h4
      have : 0 < 2 ^ split_bits := by positivity
      omega
    rw [astype_fst hw hr hleaf.1 (hfit v) hsb hh h64 hi]
    have hne := interval_nonempty (v := v) hr hleaf.1 h1
    have hnot : v ∉ ancestor_variables var_bits var max_split i →
        interval var split v (1 + at0 max_split v) i = (0, 1 + at0 max_split v) := by
      intro hna
      apply interval_not_ancestor
      intro k hk hne' e
      apply hna
      rw [← e]
      exact mem_ancestor_variables h64 hvar (by omega) hok hi hk hne'
    have hiff := hasSplit_iff (max_split := max_split) hleaf.1.pos hne
    rw [hiff]
    constructor
    · rintro (hlt | hc) ⟨_, e⟩
      · omega
      · exact hw hc
    · intro hnn
      left
      by_cases hna : v ∈ ancestor_variables var_bits var max_split i
      · have : ¬ (interval var split v (1 + at0 max_split v) i).2 =
          (interval var split v (1 + at0 max_split v) i).1 + 1 := fun e => hnn ⟨hna, e⟩
        omega
      · rw [hnot hna]; simp only; omega
  have hcard : {v | v < max_split.length ∧
      v ∉ fully_used_variables var_bits split_bits var split max_split i}.ncard =
      ((Finset.range max_split.length).filter
        (· ∉ fully_used_variables var_bits split_bits var split max_split i)).card := by
    rw [← Set.ncard_coe_finset]
    congr 1
    ext v; simp
  have h25 := C25_randint_exclude (F := F) max_split.length
    (fully_used_variables var_bits split_bits var split max_split i)
  rw [hset, hcard]
  exact h25

/-- C28, what holds (instead of `C28_statement`): if all predictors have at least one cutpoint, the number of
cutpoints is less than the largest value of its type, and the decisions of the tree are themselves
non-redundant, the proposed variable is uniform among those with a non-empty split range; more precisely,
`choose_variable` asks for an integer less than their number and maps it one to one onto them. -/
theorem C28_choose_variable_partial {F : Type} [Inhabited F] (var_bits split_bits : Nat)
    (hsb : 8 ≤ split_bits) (h : Nat) (hh : 1 ≤ h) (h64 : h < 64)
    (var split max_split : List Nat) (hvar : var.length = 2 ^ h) (hval : ValidSplit h split)
    (hp : max_split.length < 2 ^ 64) (hms : ∀ v, v < max_split.length → 1 ≤ at0 max_split v)
    (hfit : ∀ v, at0 max_split v + 1 < 2 ^ split_bits) (hvp : ∀ i, at0 var i < max_split.length)
    (hrules : ∀ i, IsDecision split i → NonRedundant max_split var split i (at0 var i) (at0 split i))
    (i : Nat) (hleaf : IsLeaf split i) (hi : i < 2 ^ h) :
    (∀ draw : Draws F, choose_variable var_bits split_bits var split max_split i draw =
      choose_variable var_bits split_bits var split max_split i (constRandint (F := F)
        (draw.randint 0 {v | v < max_split.length ∧ HasSplit max_split var split i v}.ncard))) ∧
    Set.BijOn (fun u => choose_variable var_bits split_bits var split max_split i (constRandint (F := F) u))
      {u | u < {v | v < max_split.length ∧ HasSplit max_split var split i v}.ncard}
      {v | v < max_split.length ∧ HasSplit max_split var split i v} := by
  have hr : RulesOK max_split var split := by
    intro j hj
    have h1 := hrules j hj
    have hpos := hj.1.pos
    rw [nonRedundant_iff hpos] at h1
    refine ⟨by omega, ?_⟩
    rw [if_pos (hms _ (hvp j))]
    omega
  have hok : VarOK max_split.length h var := fun j => Or.inl (hvp j)
  rw [← availVars_standard (bits := split_bits) fun v hv => ⟨hms v hv, hfit v⟩]
  exact choose_variable_bij hh h64 hvar hval hp (fun k _ => hms _) (hms _) hok hr hleaf hi hsb
    (fun v => (Nat.lt_succ_self _).trans (hfit v))

-- all the predictors have cutpoints; variable 0 (one cutpoint) is used up by the root
example : ((List.range 2).map fun u => choose_variable 8 8 [0, 0, 0, 0] [0, 1, 0, 0] [1, 3, 2] 2
    (constRandint (F := Nat) u)) = [1, 2] := by decide

end Bartz
