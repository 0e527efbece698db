import Verif.Lemmas.OppositeSettings
import Verif.Props.PowerScale
/-!
# C105: change of sign of the response in single precision

With the opposite response, the computation in single precision gives the opposite predictions, bit by bit apart from the sign of the zeros,
and the same of everything else: the rounding errors are symmetric.
-/

set_option autoImplicit false

namespace Bartz
open Jax Spec Jax.Binary32

section
variable [Jax.Binary32.Platform] {K P : Type} [KeyLike K] [Field P] [LinearOrder P] {lib : Lib Binary32 P} {rng : Rng K Binary32}

/-- A step of the MCMC with the opposite data and normal variates: the leaves and the residuals are opposite, everything else is the same,
in particular the moves, the decisions, and the error variance. No condition on the state: there may be infinities and nans. -/
theorem C105_step {s s' : State Binary32} (h : OppositeState Opposite s s') (key : K) :
    OppositeState Opposite (step rng s key) (step (reflectRng rng) s' key) :=
  step_rel opposite_rel h

/-- The MCMC from the beginning to the end. -/
theorem C105_run {s s' : State Binary32} (h : OppositeState Opposite s s') (n_burn n_save n_skip : Nat) (key : K) :
    OppositeState Opposite (run_mcmc rng s n_burn n_save n_skip key).bart (run_mcmc (reflectRng rng) s' n_burn n_save n_skip key).bart ∧
    OppositeTrace Opposite (run_mcmc rng s n_burn n_save n_skip key).burnin_trace
      (run_mcmc (reflectRng rng) s' n_burn n_save n_skip key).burnin_trace ∧
    OppositeTrace Opposite (run_mcmc rng s n_burn n_save n_skip key).main_trace
      (run_mcmc (reflectRng rng) s' n_burn n_save n_skip key).main_trace :=
  run_rel opposite_rel h n_burn n_save n_skip

/-- `gbart` with the opposite response, and the opposite normal variates. If there are at least two datapoints, the responses have to be not
all zero. `gbart` fails in one case if and only if it fails in the other one. -/
theorem C105_gbart (hl : EvenLstsq lib.lstsq) {a a' : GbartArgs K Binary32} (ha : OppositeArgs Opposite a a')
    (hn : nan ∉ a.y_train) (h0 : a.y_train.length < 2 ∨ ∃ v ∈ a.y_train, v ≠ 0 ∧ v ≠ -0) :
    Option.Rel (OppositeFit Opposite lib) (gbart lib rng a) (gbart lib (reflectRng rng) a') :=
  gbart_rel opposite_rel ha (Opposite.settings_rel hl ha hn h0)

/-- The special case in which the sign is changed with `-y_train`. -/
theorem C105_negate (hl : EvenLstsq lib.lstsq) {a : GbartArgs K Binary32}
    (hn : nan ∉ a.y_train) (h0 : a.y_train.length < 2 ∨ ∃ v ∈ a.y_train, v ≠ 0 ∧ v ≠ -0) :
    Option.Rel (OppositeFit Opposite lib) (gbart lib rng a) (gbart lib (reflectRng rng) (reflectArgs a)) := by
  refine C105_gbart hl ⟨?_, ?_, rfl⟩ hn h0
  · refine List.forall₂_map_right_iff.2 ?_
    exact List.forall₂_same.2 fun v _ => Or.inl rfl
  · change Option.Rel Opposite a.offset (a.offset.map (-·))
    cases a.offset with
    | none => exact .none
    | some o => exact .some (Or.inl rfl)

end

/-- Zero responses of different sign: the scale is a zero with the sign determined by the order of the responses, so the condition on the
responses is necessary. -/
theorem C105_zeros [Jax.Binary32.Platform] :
    process_scale_settings [(0 : Binary32), -0] ((2 : Nat) : Binary32) = (-0 : Binary32) ∧ process_scale_settings [(-0 : Binary32), 0] ((2 : Nat) : Binary32) = (0 : Binary32) ∧
    (0 : Binary32) ≠ -0 := by
  refine ⟨?_, ?_, by decide +kernel⟩
  · show (if 2 < 2 then 1 else (((if Binary32.le 0 (-0) then -0 else 0) - if Binary32.le 0 (-0) then 0 else -0) /
      (((2 : Nat) : Binary32) * ((2 : Nat) : Binary32)) : Binary32)) = -0
    decide +kernel
  · show (if 2 < 2 then 1 else (((if Binary32.le (-0) 0 then 0 else -0) - if Binary32.le (-0) 0 then -0 else 0) /
      (((2 : Nat) : Binary32) * ((2 : Nat) : Binary32)) : Binary32)) = 0
    decide +kernel

/-- Opposite numbers have opposite value. -/
theorem C105_value {x y : Binary32} (h : Opposite x y) {v : ℝ} (hv : HasValue x v) : HasValue y (-v) := by
  have hb := (Opposite.iff_bits _ _).1 h
  obtain ⟨s, b, rfl, hlt, rfl⟩ := hv
  cases y with
  | nan => exact hb.elim
  | num t c =>
    obtain ⟨rfl, h⟩ := hb
    refine ⟨t, c, rfl, hlt, ?_⟩
    unfold Spec.toReal
    rw [Opposite.value_opp h, Int.cast_neg, neg_div]

namespace ExU
local instance : KeyLike Unit := ⟨fun _ _ _ => ()⟩
attribute [local instance] platform

theorem even : EvenLstsq lib.lstsq := by
  intro A b b' h
  exact congrArg (fun l => (Jax.sum l, 1)) (opposite_rel.squares h)

example : Option.Rel (OppositeFit Opposite lib) (gbart lib rng (args 1)) (gbart lib (reflectRng rng) (reflectArgs (args 1))) :=
  C105_negate even (by decide +kernel) (Or.inr ⟨((1 : Nat) : Binary32), by decide +kernel, by decide +kernel, by decide +kernel⟩)

-- the computation
example : (gbart lib (reflectRng rng) (reflectArgs (args 1))).map (fun g => g.mcmc_state.split_trees) = some [[0, 2]] := by decide +kernel

end ExU

end Bartz
