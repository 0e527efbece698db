import Verif.Spec.GbartProper
import Verif.Spec.Bart
import Verif.Props.Ensemble
/-! # The settings made by `gbart` -/

set_option autoImplicit false

namespace Bartz
open Jax Spec

section
variable {K F P : Type} [Inhabited F] [Zero F] [One F] [Div F] [NatCast F] [FltFun F] [Field P] [LinearOrder P]
  [IsStrictOrderedRing P]

omit [Inhabited F] in
/-- the numbers of cutpoints in `gbart` -/
theorem determine_splits_max {lib : Lib F P} {a : GbartArgs K F} (h : ValidGbart lib a) {sp : Splits P}
    (hsp : determine_splits lib a.x_train.x a.x_train.n a.usequants a.numcut = some sp)
    (hacc : AccurateLinspace lib a) (hn : a.y_train.length < 2 ^ 64) (hc : a.numcut + 1 < 2 ^ 64)
    (hcut : 1 ≤ a.numcut) (hy : 0 < a.y_train.length) {v : Nat} (hv : v < a.x_train.x.length) :
    ((a.usequants = true → ∃ x ∈ a.x_train.x.getD v [], ∃ y ∈ a.x_train.x.getD v [],
      lib.exact x ≠ lib.exact y) → 1 ≤ sp.max_split.getD v 0) ∧ (sp.splits.getD v []).getD (sp.max_split.getD v 0) ⊤ = ⊤ := by
  unfold determine_splits at hsp
  cases hu : a.usequants with
  | true =>
    rw [hu, if_pos rfl] at hsp
    simp only [Option.some.injEq] at hsp
    subst hsp
    have hlen : v < (exact_matrix lib a.x_train.x).length := by simpa [exact_matrix] using hv
    have hrow := h.row _ (List.getElem_mem hv)
    have hcol : (exact_matrix lib a.x_train.x)[v] =
        ((a.x_train.x.getD v []).map lib.exact).map fun v => ((v : P) : WithTop P) := by
      rw [List.getD_eq_getElem _ _ hv]
      simp [exact_matrix]
    have hcl : ((a.x_train.x.getD v []).map lib.exact).length = a.y_train.length := by
      rw [List.length_map, List.getD_eq_getElem _ _ hv, hrow]
    rw [h.length]
    simp only
    obtain ⟨U, hU⟩ := exists_isUnique (exact_matrix lib a.x_train.x)[v]
    have hUl := unique_le hU
    rw [hcol, List.length_map, hcl] at hUl
    obtain ⟨δ, hδ⟩ : ∃ δ : ℚ, a.numcut + 1 < U.length → 2 * δ < (U.length : ℚ) / ((a.numcut + 1 : Nat) : ℚ) - 1 ∧
        ∀ q : ℚ, -1 ≤ q → q ≤ U.length → |lib.fl q - q| ≤ δ := by
      by_cases hm : a.numcut + 1 < U.length
      · obtain ⟨δ, h1, h2⟩ := hacc U.length hm hUl
        exact ⟨δ, fun _ => ⟨h1, h2⟩⟩
      · exact ⟨0, fun hc => absurd hc hm⟩
    obtain ⟨cuts, h1, h2, h3, -, -, -⟩ := quantilized_form_cuts lawful_float (exact_matrix lib a.x_train.x)
      a.y_train.length (a.numcut + 1) hlen (by rw [hcol, List.length_map, hcl]) (by rw [hcol]; simp)
      hy hn (by omega) U hU hδ
    have e1 : (quantilized_splits_from_matrix lib.fl (float_dtype P) (exact_matrix lib a.x_train.x)
        a.y_train.length (a.numcut + 1)).2.getD v 0 = cuts.length := by
      rw [List.getD_eq_getElem?_getD, h2]; rfl
    have e2 : (quantilized_splits_from_matrix lib.fl (float_dtype P) (exact_matrix lib a.x_train.x)
        a.y_train.length (a.numcut + 1)).1.getD v [] =
        cuts ++ List.replicate (min (a.numcut + 1) a.y_train.length - 1 - cuts.length) (float_dtype P).huge := by
      rw [List.getD_eq_getElem?_getD, h1]; rfl
    rw [e1, e2]
    constructor
    · intro hvar
      obtain ⟨x, hx, y, hy', hxy⟩ := hvar trivial
      have mem : ∀ x ∈ a.x_train.x.getD v [], ((lib.exact x : P) : WithTop P) ∈ U := by
        intro x hx
        rw [hU.2, hcol, List.mem_map]
        exact ⟨_, List.mem_map_of_mem hx, rfl⟩
      have h2U : 2 ≤ U.length := by
        have m1 := mem x hx
        have m2 := mem y hy'
        match hUe : U with
        | [] => simp at m1
        | [z] =>
          simp only [List.mem_singleton] at m1 m2
          exact absurd (WithTop.coe_injective (m1.trans m2.symm)) hxy
        | _ :: _ :: _ => simp
      omega
    · rw [List.getD_eq_getElem?_getD, List.getElem?_append_right le_rfl, Nat.sub_self]
      rw [List.getElem?_replicate]
      split_ifs <;> rfl
  | false =>
    rw [hu, if_neg (by simp)] at hsp
    have hne : ∀ x ∈ a.x_train.x.map (fun row => row.map lib.exact), x ≠ [] := by
      intro x hx e
      obtain ⟨row, hr, rfl⟩ := List.mem_map.1 hx
      have h1 := h.row row hr
      rw [List.map_eq_nil_iff.1 e] at h1
      simp at h1
      omega
    have hrow : ∀ x ∈ a.x_train.x.map (fun row => row.map lib.exact), ∃ splits : List P,
        uniform_row x (a.numcut + 1) = some (splits, a.numcut + 1 - 1) ∧ splits.length = a.numcut + 1 - 1 := by
      intro x hx
      obtain ⟨low, hlow⟩ := Option.ne_none_iff_exists'.1 (mt List.min?_eq_none_iff.1 (hne x hx))
      obtain ⟨high, hhigh⟩ := Option.ne_none_iff_exists'.1 (mt List.max?_eq_none_iff.1 (hne x hx))
      have hlow' := List.min?_eq_some_iff.1 hlow
      have hhigh' := List.max?_eq_some_iff.1 hhigh
      obtain ⟨splits, h1, h2, -⟩ := C16_uniform x (a.numcut + 1) (by omega) hc low high hlow'.1 hhigh'.1
        fun v hv => ⟨hlow'.2 v hv, hhigh'.2 v hv⟩
      exact ⟨splits, h1, h2⟩
    choose! f hf using hrow
    have hmat := (C16_matrix (a.x_train.x.map fun row => row.map lib.exact) (a.numcut + 1)).1
      (fun x => (f x, a.numcut + 1 - 1)) fun x hx => (hf x hx).1
    rw [hmat] at hsp
    simp only [Option.bind_eq_bind, Option.bind_some, Option.some.injEq] at hsp
    subst hsp
    have hl := (hf (a.x_train.x[v].map lib.exact) (List.mem_map_of_mem (List.getElem_mem hv))).2
    simp only [List.getD_eq_getElem?_getD, List.getElem?_map, List.getElem?_eq_getElem hv, Option.map_some,
      Option.getD_some]
    refine ⟨fun _ => by omega, ?_⟩
    rw [List.getElem?_eq_none (by omega)]
    rfl

end

section
variable {K P : Type} [KeyLike K] [Field P] [LinearOrder P] [IsStrictOrderedRing P]

/-- the arguments passed by `gbart` to `init` are such that the posterior distribution is defined -/
theorem gbart_proper {lib : Lib ℝ P} {a : GbartArgs K ℝ} (h : ValidGbart lib a) (hp : ProperGbart lib a)
    {sp : Splits P}
    (hsp : determine_splits lib a.x_train.x a.x_train.n a.usequants a.numcut = some sp)
    (hacc : AccurateLinspace lib a) (hn : a.y_train.length < 2 ^ 64) (hc : a.numcut + 1 < 2 ^ 64)
    (hy : 0 < a.y_train.length) : ProperSettings (gbart_init_args lib a sp) := by
  have ha := gbart_args_valid h hsp
  have hms : (gbart_init_args lib a sp).max_split = sp.max_split := rfl
  have hlen : sp.max_split.length = a.x_train.x.length := by
    obtain ⟨sp', h1, -, h3, -⟩ := determine_splits_spec lib a.x_train.x a.x_train.n a.usequants
      a.numcut (by
        intro _ row hr e
        have := h.row row hr
        subst e
        simp at *
        omega)
    rw [hsp] at h1
    cases h1
    exact h3
  have hmax := fun v (hv : v < a.x_train.x.length) => determine_splits_max h hsp hacc hn hc hp.cuts hy hv
  have hscale : 0 < (gbart_settings lib a).scale * (gbart_settings lib a).scale :=
    mul_self_pos.2 hp.scale
  refine ⟨hp.trees, ?_, ?_, ?_, ?_, Or.inl ⟨?_, ?_⟩⟩
  · unfold FillerOK
    rw [hms, hlen]
    by_cases h8 : a.x_train.x.length = 2 ^ 8 ∨ a.x_train.x.length = 2 ^ 16 ∨ a.x_train.x.length = 2 ^ 32
    · refine Or.inr fun v hv => (hmax v hv).1 fun hu => ?_
      rw [List.getD_eq_getElem _ _ hv]
      exact hp.predictors hu h8 _ (List.getElem_mem hv)
    · exact Or.inl (by omega)
  · intro x hx
    simp only [gbart_init_args, setup_args, List.mem_map, List.mem_range] at hx
    obtain ⟨d, hd, rfl⟩ := hx
    exact hp.nonterminal d hd
  · show 0 < a.sigdf / (2 : Nat)
    have := hp.sigdf
    positivity
  · show 0 < (gbart_settings lib a).lamda / ((gbart_settings lib a).scale * (gbart_settings lib a).scale) *
      (a.sigdf / (2 : Nat))
    have := hp.sigdf
    have := hp.lamda
    positivity
  · intro v j hv hj
    rw [hms] at hv ⊢
    have hj' : j < a.x_train.n := by
      rw [h.length]
      simpa [gbart_init_args, setup_args, transform_input] using hj
    obtain ⟨-, hb⟩ := gbart_bins h hsp hacc hn hc a.x_train rfl (fun row hr => by rw [h.row row hr, h.length]) hj'
    have h1 := hb v (by omega) (sp.max_split.getD v 0 + 1) (by omega)
    rw [Nat.add_sub_cancel, (hmax v (by omega)).2] at h1
    have h2 : ¬ sp.max_split.getD v 0 + 1 ≤
        ((gbart_bin_predictors lib a.x_train.x sp.splits).map fun row => row.getD j 0).getD v 0 := by
      rw [h1]; simp
    have e : ((gbart_init_args lib a sp).X.getD v []).getD j 0 =
        ((gbart_bin_predictors lib a.x_train.x sp.splits).map fun row => row.getD j 0).getD v 0 := by
      show ((gbart_bin_predictors lib a.x_train.x sp.splits).getD v []).getD j 0 = _
      rw [List.getD_eq_getElem?_getD (l := List.map _ _), List.getElem?_map,
        List.getD_eq_getElem?_getD (l := gbart_bin_predictors lib a.x_train.x sp.splits)]
      cases (gbart_bin_predictors lib a.x_train.x sp.splits)[v]? <;> simp
    rw [e]
    unfold at0
    omega
  · exact hp.points

end
end Bartz
