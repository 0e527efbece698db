import Verif.Lemmas.Opposite32
import Verif.Lemmas.OppositeGbart
import Verif.Lemmas.PowerScale
/-! # The settings of `gbart` with opposite data in single precision -/

set_option autoImplicit false
set_option linter.unusedSectionVars false

namespace Bartz
open Jax Spec

namespace Opposite
open Jax.Binary32

theorem signedBits_opp {s s' : Bool} {b : Fin (infBits + 1)} (h : s' = !s ∨ b = 0) : signedBits s' b = -signedBits s b := by
  unfold signedBits
  rcases h with h | h
  · subst h
    cases s <;> simp
  · subst h
    cases s <;> cases s' <;> simp

theorem symm {x y : Binary32} (h : Bits x y) : Bits y x := by
  cases x with
  | nan => cases y with
    | nan => exact trivial
    | num => exact h.elim
  | num s b => cases y with
    | nan => exact h.elim
    | num t c =>
      obtain ⟨rfl, h⟩ := h
      refine ⟨rfl, ?_⟩
      rcases h with h | h
      · exact Or.inl (by rw [h, Bool.not_not])
      · exact Or.inr h

/-- numbers with the same order have the same opposite -/
theorem of_signedBits {s t u : Bool} {b c d : Fin (infBits + 1)} (h : Bits (num s b) (num u d)) (e : signedBits s b = signedBits t c) :
    Bits (num t c) (num u d) := by
  obtain ⟨rfl, h⟩ := h
  unfold signedBits at e
  have hbc : d = c := by
    apply Fin.ext
    cases s <;> cases t <;> simp at e <;> omega
  subst hbc
  refine ⟨rfl, ?_⟩
  by_cases h0 : d = 0
  · exact Or.inr h0
  · have hd : d.val ≠ 0 := fun h => h0 (Fin.ext h)
    rcases h with h | h
    · left
      cases s <;> cases t <;> simp at e ⊢ <;> first | exact h | omega
    · exact absurd h h0

/-- the maximum of two numbers, and the minimum of their opposites -/
theorem max_step {x x' y y' : Binary32} (hx : Bits x x') (hy : Bits y y') (nx : x ≠ nan) (ny : y ≠ nan) :
    Bits (if Binary32.le x y then y else x) (if Binary32.le x' y' then x' else y') := by
  cases x with
  | nan => exact absurd rfl nx
  | num s b => cases x' with
    | nan => exact hx.elim
    | num s' b' => cases y with
      | nan => exact absurd rfl ny
      | num t c => cases y' with
        | nan => exact hy.elim
        | num t' c' =>
          have e1 : signedBits s' b' = -signedBits s b := by obtain ⟨rfl, h⟩ := hx; exact signedBits_opp h
          have e2 : signedBits t' c' = -signedBits t c := by obtain ⟨rfl, h⟩ := hy; exact signedBits_opp h
          simp only [Binary32.le, e1, e2, decide_eq_true_eq]
          rcases lt_trichotomy (signedBits s b) (signedBits t c) with h | h | h
          · have h1 : ¬ -signedBits s b ≤ -signedBits t c := by omega
            rw [if_pos h.le, if_neg h1]
            exact hy
          · have h1 : -signedBits s b ≤ -signedBits t c := by omega
            rw [if_pos h.le, if_pos h1]
            exact of_signedBits hx h
          · have h0 : ¬ signedBits s b ≤ signedBits t c := by omega
            have h1 : -signedBits s b ≤ -signedBits t c := by omega
            rw [if_neg h0, if_pos h1]
            exact hx

variable [Jax.Binary32.Platform]

theorem fold_max {l l' : List Binary32} (h : List.Forall₂ Bits l l') (hl : nan ∉ l) {x x' : Binary32} (hx : Bits x x') (nx : x ≠ nan) :
    Bits (l.foldl (fun a b => if FltFun.leb a b then b else a) x) (l'.foldl (fun a b => if FltFun.leb a b then a else b) x') := by
  induction h generalizing x x' with
  | nil => exact hx
  | @cons y y' l l' hy _ ih =>
    have ny : y ≠ nan := fun h => hl (h ▸ List.mem_cons_self)
    rw [List.foldl_cons, List.foldl_cons]
    refine ih (fun h => hl (List.mem_cons_of_mem _ h)) (max_step hx hy nx ny) ?_
    split
    · exact ny
    · exact nx

theorem not_nan {l l' : List Binary32} (h : List.Forall₂ Bits l l') (hl : nan ∉ l) : nan ∉ l' := by
  induction h with
  | nil => exact hl
  | @cons y y' l l' hy _ ih =>
    intro hm
    rcases List.mem_cons.1 hm with h | h
    · subst h
      cases y with
      | nan => exact hl List.mem_cons_self
      | num => exact hy
    · exact ih (fun h => hl (List.mem_cons_of_mem _ h)) h

theorem maxF_minF {l l' : List Binary32} (h : List.Forall₂ Bits l l') (hl : nan ∉ l) : Bits (maxF l) (minF l') := by
  cases h with
  | nil => exact ⟨rfl, Or.inr rfl⟩
  | @cons y y' l l' hy h =>
    exact fold_max h (fun h => hl (List.mem_cons_of_mem _ h)) hy fun h => hl (h ▸ List.mem_cons_self)

theorem forall_symm {l l' : List Binary32} (h : List.Forall₂ Bits l l') : List.Forall₂ Bits l' l := by
  induction h with
  | nil => exact .nil
  | cons hy _ ih => exact .cons (symm hy) ih

theorem minF_maxF {l l' : List Binary32} (h : List.Forall₂ Bits l l') (hl : nan ∉ l) : Bits (minF l) (maxF l') :=
  symm (maxF_minF (forall_symm h) (not_nan h hl))

/-- the order, for numbers -/
def Le (x y : Binary32) : Prop := Binary32.le x y = true

theorem Le.trans {x y z : Binary32} (h : Le x y) (h' : Le y z) : Le x z := by
  cases x <;> cases y <;> cases z <;> simp_all [Le, Binary32.le]
  omega

theorem Le.refl {x : Binary32} (h : x ≠ nan) : Le x x := by
  cases x <;> simp_all [Le, Binary32.le]

theorem Le.total {x y : Binary32} (h : x ≠ nan) (h' : y ≠ nan) (hn : ¬ Binary32.le x y = true) : Le y x := by
  cases x <;> cases y <;> simp_all [Le, Binary32.le]
  omega

theorem le_foldl {l : List Binary32} (hl : nan ∉ l) {x : Binary32} (nx : x ≠ nan) :
    ∀ y ∈ x :: l, Le y (l.foldl (fun a b => if FltFun.leb a b then b else a) x) := by
  induction l generalizing x with
  | nil =>
    intro y hy
    rw [List.mem_singleton.1 hy]
    exact Le.refl nx
  | cons z l ih =>
    have nz : z ≠ nan := fun h => hl (h ▸ List.mem_cons_self)
    have hl' : nan ∉ l := fun h => hl (List.mem_cons_of_mem _ h)
    rw [List.foldl_cons]
    have nm : (if FltFun.leb x z then z else x) ≠ nan := by split <;> assumption
    have := ih hl' nm
    have h0 := this _ List.mem_cons_self
    intro y hy
    rcases List.mem_cons.1 hy with h | h
    · subst h
      refine Le.trans ?_ h0
      change Le y (if Binary32.le y z then z else y)
      split
      · assumption
      · exact Le.refl nx
    · rcases List.mem_cons.1 h with h | h
      · subst h
        refine Le.trans ?_ h0
        change Le y (if Binary32.le x y then y else x)
        split
        · exact Le.refl nz
        · exact Le.total nx nz (by assumption)
      · exact this y (List.mem_cons_of_mem _ h)

theorem foldl_le {l : List Binary32} (hl : nan ∉ l) {x : Binary32} (nx : x ≠ nan) :
    ∀ y ∈ x :: l, Le (l.foldl (fun a b => if FltFun.leb a b then a else b) x) y := by
  induction l generalizing x with
  | nil =>
    intro y hy
    rw [List.mem_singleton.1 hy]
    exact Le.refl nx
  | cons z l ih =>
    have nz : z ≠ nan := fun h => hl (h ▸ List.mem_cons_self)
    have hl' : nan ∉ l := fun h => hl (List.mem_cons_of_mem _ h)
    rw [List.foldl_cons]
    have nm : (if FltFun.leb x z then x else z) ≠ nan := by split <;> assumption
    have := ih hl' nm
    have h0 := this _ List.mem_cons_self
    intro y hy
    rcases List.mem_cons.1 hy with h | h
    · subst h
      refine Le.trans h0 ?_
      change Le (if Binary32.le y z then y else z) y
      split
      · exact Le.refl nx
      · exact Le.total nx nz (by assumption)
    · rcases List.mem_cons.1 h with h | h
      · subst h
        refine Le.trans h0 ?_
        change Le (if Binary32.le x y then x else y) y
        split
        · assumption
        · exact Le.refl nz
      · exact this y (List.mem_cons_of_mem _ h)

/-- `-0` or `0` -/
def IsZero : Binary32 → Prop
  | nan => False
  | num _ b => b = 0

theorem range_nonzero {l : List Binary32} (hl : nan ∉ l) {v : Binary32} (hv : v ∈ l) (h : ¬ IsZero v) : ¬ (IsZero (maxF l) ∧ IsZero (minF l)) := by
  rintro ⟨h1, h2⟩
  cases l with
  | nil => exact absurd hv (by simp)
  | cons x l =>
    have nx : x ≠ nan := fun h => hl (h ▸ List.mem_cons_self)
    have hl' : nan ∉ l := fun h => hl (List.mem_cons_of_mem _ h)
    have a1 : Le v (maxF (x :: l)) := le_foldl hl' nx v hv
    have a2 : Le (minF (x :: l)) v := foldl_le hl' nx v hv
    revert a1 a2 h1 h2
    generalize maxF (x :: l) = M
    generalize minF (x :: l) = m
    intro h1 h2 a1 a2
    cases M with
    | nan => exact h1
    | num s b => cases m with
      | nan => exact h2
      | num t c => cases v with
        | nan => exact hl hv
        | num u d =>
          cases h1
          cases h2
          simp only [Le, Binary32.le, decide_eq_true_eq] at a1 a2
          refine h (Fin.ext ?_)
          unfold signedBits at a1 a2
          cases s <;> cases t <;> cases u <;> simp at a1 a2 <;> simpa using by omega

/-- the difference of the opposites in the opposite order -/
theorem range_eq {M m M' m' : Binary32} (h1 : Bits M m') (h2 : Bits m M') (h : ¬ (IsZero M ∧ IsZero m)) : M' - m' = M - m := by
  change Binary32.add M' (-m') = Binary32.add M (-m)
  cases M with
  | nan => cases m' with
    | num => exact h1.elim
    | nan =>
      rw [neg_nan]
      cases M' <;> rfl
  | num s b => cases m' with
    | nan => exact h1.elim
    | num s2 b2 => cases m with
      | nan => cases M' with
        | num => exact h2.elim
        | nan => rfl
      | num t c => cases M' with
        | nan => exact h2.elim
        | num t2 c2 =>
          obtain ⟨rfl, h1⟩ := h1
          obtain ⟨rfl, h2⟩ := h2
          have hinf : ∀ {b : Fin (infBits + 1)} {s s' : Bool}, b.val ≠ 0 → (s' = !s ∨ b = 0) → s' = !s := by
            intro b s s' hb h
            rcases h with h | h
            · exact h
            · subst h
              exact absurd rfl hb
          have hz : infBits ≠ 0 := by decide
          rw [neg_num, neg_num]
          unfold Binary32.add
          dsimp only
          have v1 : value (!s2) b2 = value s b2 := by
            have e1 := value_opp h1
            have e2 : value (!s2) b2 = -value s2 b2 := value_opp (Or.inl rfl)
            omega
          have v2 : value t2 c2 = value (!t) c2 := by
            have e1 := value_opp h2
            have e2 : value (!t) c2 = -value t c2 := value_opp (Or.inl rfl)
            omega
          by_cases hc : c2.val = infBits
          · have e2 := hinf (by omega) h2
            rw [if_pos hc]
            by_cases hb : b2.val = infBits
            · have e1 := hinf (by omega) h1
              have hbc : b2 = c2 := Fin.ext (by omega)
              rw [if_pos hb, if_pos hb, if_pos hc]
              subst e1 e2 hbc
              cases s <;> cases t <;> rfl
            · rw [if_neg hb, if_neg hb, if_pos hc, e2]
          · rw [if_neg hc]
            by_cases hb : b2.val = infBits
            · have e1 := hinf (by omega) h1
              rw [if_pos hb, if_pos hb, if_neg hc, e1, Bool.not_not]
            · rw [if_neg hb, if_neg hb, if_neg hc, v1, v2, add_comm (value (!t) c2)]
              by_cases h0 : value s b2 + value (!t) c2 = 0
              · rw [if_pos h0, if_pos h0]
                have hm : mag b2.val = mag c2.val := by
                  unfold value at h0
                  cases s <;> cases t <;> simp at h0 <;> omega
                have hbc : b2 = c2 := Fin.ext (mag_strictMono.injective hm)
                have hb0 : b2.val ≠ 0 := by
                  intro hb0
                  have : b2 = 0 := Fin.ext hb0
                  exact h ⟨this, hbc ▸ this⟩
                have e1 := hinf hb0 h1
                have e2 := hinf (hbc ▸ hb0) h2
                rw [e1, e2, Bool.not_not, Bool.and_comm]
              · rw [if_neg h0, if_neg h0]

theorem bits_of {l l' : List Binary32} (h : List.Forall₂ Spec.Opposite l l') : List.Forall₂ Bits l l' :=
  h.imp fun _ _ h => (iff_bits _ _).1 h

theorem isZero {v : Binary32} (h : IsZero v) : v = 0 ∨ v = -0 := by
  cases v with
  | nan => exact h.elim
  | num s b =>
    cases h
    cases s
    · exact Or.inl rfl
    · exact Or.inr rfl

theorem scale_eq {y y' : List Binary32} (h : List.Forall₂ Spec.Opposite y y') (hn : nan ∉ y) (h0 : y.length < 2 ∨ ∃ v ∈ y, v ≠ 0 ∧ v ≠ -0)
    (k : Binary32) : process_scale_settings y' k = process_scale_settings y k := by
  unfold process_scale_settings
  rw [← h.length_eq]
  split
  · rfl
  · next hlen =>
    obtain ⟨v, hv, hv0⟩ := h0.resolve_left hlen
    have hb := bits_of h
    have hz : ¬ IsZero v := fun hz => (isZero hz).elim hv0.1 hv0.2
    rw [range_eq (maxF_minF hb hn) (minF_maxF hb hn) (range_nonzero hn hv hz)]

theorem squares_eq {y y' : List Binary32} (h : List.Forall₂ Spec.Opposite y y') {m m' : Binary32} (hm : Spec.Opposite m m') :
    y'.map (fun v => (v - m') * (v - m')) = y.map fun v => (v - m) * (v - m) := by
  induction h with
  | nil => exact List.map_nil
  | cons hv _ ih =>
    rw [List.map_cons, List.map_cons, ih, opposite_rel.sq _ _ (opposite_rel.sub _ _ _ _ hv hm)]

theorem var_eq {y y' : List Binary32} (h : List.Forall₂ Spec.Opposite y y') : Jax.var y' = Jax.var y := by
  have hm := mean_rel opposite_rel h
  have key : ∀ m m', Spec.Opposite m m' → y'.map (fun v => (v - m') * (v - m')) = y.map fun v => (v - m) * (v - m) := by
    intro m m' hm
    exact squares_eq h hm
  unfold Jax.var
  dsimp only
  rw [key _ _ hm]


variable {P : Type} [Field P] [LinearOrder P] {lib : Lib Binary32 P}

theorem sigest2_eq (hl : EvenLstsq lib.lstsq) (x : List (List Binary32)) {y y' : List Binary32} (h : List.Forall₂ Spec.Opposite y y')
    (sg : Option Binary32) {o o' : Binary32} (ho : Spec.Opposite o o') : process_sigest2 lib x y' sg o' = process_sigest2 lib x y sg o := by
  cases sg with
  | some s => rfl
  | none =>
    have h1 : Jax.var (y'.map fun v => v - o') = Jax.var (y.map fun v => v - o) :=
      var_eq (forall2_map (fun _ _ hv => opposite_rel.sub _ _ _ _ hv ho) h)
    have h2 : lib.lstsq (center_predictors x y.length) (y'.map fun v => v - mean y') =
        lib.lstsq (center_predictors x y.length) (y.map fun v => v - mean y) :=
      hl _ _ _ (forall2_map (fun _ _ hv => opposite_rel.sub _ _ _ _ hv (mean_rel opposite_rel h)) h)
    unfold process_sigest2
    dsimp only
    rw [← h.length_eq, h1]
    split
    · rfl
    · split
      · rfl
      · exact congrArg (fun r : Binary32 × Nat => r.1 / ((y.length - r.2 : Nat) : Binary32)) h2

theorem offset_rel {y y' : List Binary32} (h : List.Forall₂ Spec.Opposite y y') {o o' : Option Binary32} (ho : Option.Rel Spec.Opposite o o') :
    Spec.Opposite (process_offset_settings y o) (process_offset_settings y' o') := by
  cases ho with
  | some ho => exact ho
  | none =>
    unfold process_offset_settings
    dsimp only
    rw [← h.length_eq]
    split
    · exact opposite_rel.zero
    · exact mean_rel opposite_rel h

theorem settings_rel {K : Type} (hl : EvenLstsq lib.lstsq) {a a' : GbartArgs K Binary32} (ha : OppositeArgs Spec.Opposite a a')
    (hn : nan ∉ a.y_train) (h0 : a.y_train.length < 2 ∨ ∃ v ∈ a.y_train, v ≠ 0 ∧ v ≠ -0) :
    OppositeSettings Spec.Opposite (gbart_settings lib a) (gbart_settings lib a') := by
  have ho := offset_rel ha.y_train ha.offset
  refine ⟨ho, ?_⟩
  have f1 : a'.x_train = a.x_train := by rw [ha.same]
  have f2 : a'.k = a.k := by rw [ha.same]
  have f3 : a'.sigest = a.sigest := by rw [ha.same]
  have f4 : a'.sigdf = a.sigdf := by rw [ha.same]
  have f5 : a'.sigquant = a.sigquant := by rw [ha.same]
  have f6 : a'.lamda = a.lamda := by rw [ha.same]
  have hs := scale_eq ha.y_train hn h0 a.k
  have hsg := sigest2_eq hl a.x_train.x ha.y_train a.sigest ho
  have hnv : process_noise_variance_settings lib a.x_train.x a'.y_train a.sigest a.sigdf a.sigquant a.lamda
      (process_offset_settings a'.y_train a'.offset) =
      process_noise_variance_settings lib a.x_train.x a.y_train a.sigest a.sigdf a.sigquant a.lamda
      (process_offset_settings a.y_train a.offset) := by
    unfold process_noise_variance_settings
    cases a.lamda with
    | some l => rfl
    | none =>
      dsimp only
      rw [hsg]
  unfold gbart_settings
  simp only [f1, f2, f3, f4, f5, f6, hs, hnv]

end Opposite
end Bartz
