import Verif.Lemmas.Sampling
import Verif.Spec.Float
/-! # `categorical` never returns an index with zero weight -/

set_option autoImplicit false

namespace Bartz
open Jax Spec

variable {F : Type} [Inhabited F] [Zero F] [One F] [FltFun F] [FloatLaws F]

theorem _root_.Spec.FloatLaws.tiny_le (x : F) (h : FltFun.leb FltFun.tiny x = true) : FltFun.leb 0 x = true :=
  FloatLaws.trans _ _ _ FloatLaws.zero_le_zero FloatLaws.tiny_nonneg h

/-- Given weights in [0, 1], not all null, the index returned by `categorical` is in range and has
non null weight. -/
theorem categorical_spec (draw : Draws F) (hd : LawfulDraws draw) (w : List F)
    (hw1 : ∀ x ∈ w, FltFun.leb 0 x = true ∧ FltFun.leb x 1 = true) (hpos : ∃ x ∈ w, FltFun.leb FltFun.tiny x = true ∧ FltFun.leb x 0 = false) :
    ∃ h : (categorical draw w).1 < w.length, w[(categorical draw w).1] ≠ 0 := by
  have hn := FloatLaws.length_cumsum w
  have hw : ∀ x ∈ w, FltFun.leb 0 x = true := fun x hx => (hw1 x hx).1
  have hlen : 0 < w.length := by
    obtain ⟨x, hx, _⟩ := hpos
    exact List.length_pos_of_mem hx
  have hlast : last (FltFun.cumsum w) = (FltFun.cumsum w)[w.length - 1]'(by omega) := by
    rw [last_eq _ (by omega)]; congr 1; omega
  obtain ⟨hl0, hlpos⟩ : FltFun.leb FltFun.tiny (last (FltFun.cumsum w)) = true ∧
      FltFun.leb (last (FltFun.cumsum w)) 0 = false := by
    have := FloatLaws.cumsum_pos w hw hpos
    rwa [List.getD_eq_getElem _ _ (by omega), ← hlast] at this
  have hlfin : FltFun.isFinite (last (FltFun.cumsum w)) = true := by
    have := FloatLaws.cumsum_finite w hw1
    rwa [List.getD_eq_getElem _ _ (by omega), ← hlast] at this
  obtain ⟨hu0, hu1⟩ := hd.uniformTo _ hl0 hlpos hlfin
  obtain ⟨_, hat, hbefore⟩ := searchsortedRight_spec
    (fun y => FltFun.leb y (draw.uniformTo (last (FltFun.cumsum w)))) (FltFun.cumsum w)
  have hidx := searchsortedRight_lt_of_last (fun y => FltFun.leb y (draw.uniformTo (last (FltFun.cumsum w))))
    (FltFun.cumsum w) (by omega) (by rw [← last_eq _ (by omega)]; exact hu1)
  have hidx' : (categorical draw w).1 < w.length := by rw [hn] at hidx; exact hidx
  have hat := hat hidx
  refine ⟨hidx', ?_⟩
  intro hw0
  have h1 := FloatLaws.cumsum_zero w hw _ hidx' (by rw [List.getD_eq_getElem _ _ hidx']; exact hw0)
  have e : (categorical draw w).1 = searchsortedRight
    (fun y => FltFun.leb y (draw.uniformTo (last (FltFun.cumsum w)))) (FltFun.cumsum w) := rfl
  rw [e] at h1
  generalize searchsortedRight (fun y => FltFun.leb y (draw.uniformTo (last (FltFun.cumsum w))))
    (FltFun.cumsum w) = idx at *
  rw [List.getD_eq_getElem _ _ hidx] at h1
  have hnn := FloatLaws.cumsum_nonneg w hw _ (List.getElem_mem hidx)
  split_ifs at h1 with hz
  · rw [FloatLaws.trans _ _ _ hnn h1 hu0] at hat
    exact absurd hat (by decide)
  · obtain ⟨h3, h4⟩ := hbefore (by omega)
    rw [List.getD_eq_getElem _ _ h3] at h1
    rw [FloatLaws.trans _ _ _ hnn h1 h4] at hat
    exact absurd hat (by decide)

end Bartz
