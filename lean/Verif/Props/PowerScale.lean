import Verif.Lemmas.PowerGbart
/-!
# Property C102: change of unit by a power of two, in single precision

C47 states that with exact arithmetic a change of unit of the response is passed on to the results. In single precision this is not true
in general because of the rounding, but it is true, without any error, for the powers of two.
-/

set_option autoImplicit false

namespace Bartz
open Jax Spec

section
variable {K P : Type} [KeyLike K] [Field P] [LinearOrder P] [Binary32.Platform] {j : Nat} {lib : Lib Binary32 P} {rng : Rng K Binary32}
  {a a' : GbartArgs K Binary32} {g g' : Gbart Binary32 P}

/-- The conditions under which nothing overflows or underflows in `gbart`, in terms of its arguments and attributes: `a` are the
arguments, `g` is the result, and `g'` is the result with the response in a unit `2 ** j` times smaller. -/
structure UnitRange (j : Nat) (lib : Lib Binary32 P) (a a' : GbartArgs K Binary32) (g g' : Gbart Binary32 P) : Prop where
  /-- with less than two datapoints the settings are constants, see `C47_not` -/
  two_le : 2 ≤ a.y_train.length
  length_le : a.y_train.length ≤ 2 ^ 24
  y_train : ∀ y ∈ a.y_train, ∀ v, HasValue y v → v = 0 ∨ 1 / 2 ^ 79 ≤ |v|
  k : ∃ κ, HasValue a.k κ ∧ |κ| ≤ 2 ^ 22
  offset : ∃ v', HasValue g'.offset v'
  centered : ∀ y ∈ a'.y_train, ∃ v', HasValue (y - g'.offset) v'
  scale : ∃ v', HasValue g'.scale v' ∧ |v'| ≤ 2 ^ 63 ∧ (v' = 0 ∨ 2 ^ j / 2 ^ 63 ≤ |v'|)
  lamda : (∃ v', HasValue g'.lamda v') ∧ (a.lamda = none → ∃ v, HasValue g.lamda v ∧ 1 / 2 ^ 126 < |v|)
  sigest : ∀ s, g.sigest = some s → ∃ v, HasValue s v ∧ 1 / 2 ^ 62 ≤ |v|
  /-- the estimate with the linear regression, if used, is subject to the change of unit -/
  regression : a.lamda = none → a.sigest = none → a.x_train.x.length < a.y_train.length →
    ∀ x b b', x = center_predictors a.x_train.x a.y_train.length → b = a.y_train.map (fun v => v - Jax.mean a.y_train) →
      b' = a'.y_train.map (fun v => v - Jax.mean a'.y_train) → List.Forall₂ (TimesPowUnless j) b b' →
      (lib.lstsq x b').2 = (lib.lstsq x b).2 ∧ TimesPowUnless (2 * j) (lib.lstsq x b).1 (lib.lstsq x b').1
  /-- the sum of the centered responses and their deviations from the mean, if their variance is used, do not underflow when they are divided
  and squared -/
  variance : a.lamda = none → a.sigest = none → a.y_train.length ≤ a.x_train.x.length →
    (∀ v, HasValue (Jax.sum (a.y_train.map fun y => y - g.offset)) v → v = 0 ∨ 1 / 2 ^ 102 ≤ |v|) ∧
    ∀ y ∈ a.y_train, ∀ v, HasValue (y - g.offset - Jax.mean (a.y_train.map fun y => y - g.offset)) v → v = 0 ∨ 1 / 2 ^ 63 ≤ |v|

open Jax.Binary32 in
omit [KeyLike K] [Field P] [LinearOrder P] in
theorem lamda_scale (h : TimesPowArgs j a a') {o o' : Binary32} (ho : TimesPow j o o') (heq : o = g.offset) (hr : UnitRange j lib a a' g g')
    (e1 : (process_noise_variance_settings lib a.x_train.x a.y_train a.sigest a.sigdf a.sigquant a.lamda o) = (g.lamda, g.sigest))
    (e2 : (process_noise_variance_settings lib a.x_train.x a'.y_train a'.sigest a.sigdf a.sigquant a'.lamda o') = (g'.lamda, g'.sigest)) :
    TimesPow (2 * j) g.lamda g'.lamda ∧ Option.Rel (TimesPow j) g.sigest g'.sigest := by
  obtain ⟨⟨v', hv'⟩, hlow⟩ := hr.lamda
  have hl := h.lamda
  have hreg := hr.regression
  have hvar := hr.variance
  rw [← heq] at hvar
  unfold process_noise_variance_settings at e1 e2
  generalize a.lamda = l at hl e1 hlow hreg hvar
  generalize a'.lamda = l' at hl e2
  cases hl with
  | some hl =>
    dsimp only at e1 e2
    injection e1 with e1 e3
    injection e2 with e2 e4
    rw [← e1, ← e2, ← e3, ← e4]
    exact ⟨hl, .none⟩
  | none =>
    dsimp only at e1 e2
    injection e1 with e1 e3
    injection e2 with e2 e4
    obtain ⟨v, hv, hv1⟩ := hlow rfl
    obtain ⟨w, hw, hw1⟩ := hr.sigest _ e3.symm
    rw [hasValue_iff] at hv hw hv'
    obtain ⟨w1, w2⟩ := hw
    have hbig := sqrt_large w1 (by rw [← w2] at hw1; exact hw1)
    have h1 : Scales (2 * j) _ _ := sigest2_scale (lib := lib) (x := a.x_train.x) (o := o) (o' := o') h.y_train hr.length_le hr.two_le
      hr.y_train h.sigest (fun _ => ho) (hvar rfl) (fun hs hp b b' => hreg rfl hs hp _ b b' rfl) hbig
    have h2 := h1.div (y := invgamma_ppf lib a.sigquant (a.sigdf / (2 : Nat)) / (2 : Nat) * a.sigdf) fun f1 f2 f3 =>
      div_noUnderflow f1 f2 f3 (by
        intro s b hb
        rw [e1] at hb
        refine large_bits (s := s) ?_
        rw [← hb, hv.2]
        exact hv1)
    rw [e1, e2] at h2
    have f : Finite (process_sigest2 lib a.x_train.x a'.y_train a'.sigest o') := finite_of_div (by rw [e2]; exact hv'.1)
    refine ⟨h2 hv'.1, ?_⟩
    rw [← e3, ← e4]
    exact .some (sqrt_scale (h1 f) w1)

open Jax.Binary32 in
omit [KeyLike K] [Field P] [LinearOrder P] in
/-- the settings, and the data given to the MCMC -/
theorem settings_scale (h : TimesPowArgs j a a') (hr : UnitRange j lib a a' g g')
    (e1 : gbart_settings lib a = ⟨g.offset, g.scale, g.lamda, g.sigest, g.lamda / (g.scale * g.scale)⟩)
    (e2 : gbart_settings lib a' = ⟨g'.offset, g'.scale, g'.lamda, g'.sigest, g'.lamda / (g'.scale * g'.scale)⟩) :
    TimesPow j g.offset g'.offset ∧ TimesPow j g.scale g'.scale ∧ TimesPow (2 * j) g.lamda g'.lamda ∧
      Option.Rel (TimesPow j) g.sigest g'.sigest ∧ g'.lamda / (g'.scale * g'.scale) = g.lamda / (g.scale * g.scale) := by
  have ho := h.other
  unfold gbart_settings at e1 e2
  dsimp only at e1 e2
  injection e1 with o1 s1 l1 g1 _
  injection e2 with o2 s2 l2 g2 _
  obtain ⟨κ, hk, hκ⟩ := hr.k
  obtain ⟨v1, hv1⟩ := hr.offset
  obtain ⟨v2, hv2, hv3, hv4⟩ := hr.scale
  rw [hasValue_iff] at hv1 hv2
  have hoff := offset_scale h.y_train hr.length_le hr.y_train h.offset
  have hkk : a'.k = a.k := by rw [ho]
  have hsc := scale_scale h.y_train hr.two_le hr.y_train hk hκ
  rw [hkk] at s2
  rw [o1, o2] at hoff
  rw [s1, s2] at hsc
  have hoff := hoff hv1.1
  have hsc := hsc hv2.1
  have hlam := lamda_scale h (o := process_offset_settings a.y_train a.offset) (o' := process_offset_settings a'.y_train a'.offset)
    (by rw [o1, o2]; exact hoff) o1 hr
    (Prod.ext l1 g1) (by
      have e1 : a'.x_train = a.x_train := by rw [ho]
      have e2 : a'.sigdf = a.sigdf := by rw [ho]
      have e3 : a'.sigquant = a.sigquant := by rw [ho]
      rw [e1, e2, e3] at l2 g2
      exact Prod.ext l2 g2)
  refine ⟨hoff, hsc, hlam.1, hlam.2, ?_⟩
  have hsq : Scales (j + j) (g.scale * g.scale) (g'.scale * g'.scale) := by
    refine Scales.mul (fun _ => hsc) (fun _ => hsc) fun f _ => ?_
    obtain ⟨s, b, b', z1, z2, _, _, z3⟩ := hsc
    have z4 : toReal g'.scale = 2 ^ j * toReal g.scale := by rw [z1, z2]; exact z3
    rw [← hv2.2, z4] at hv4
    rcases hv4 with hv4 | hv4
    · left
      have : toReal g.scale = 0 := (mul_eq_zero.1 hv4).resolve_left (by positivity)
      rw [this, zero_mul]
    · right
      have hp : (0 : ℝ) < 2 ^ j := by positivity
      rw [abs_mul, abs_of_pos hp, div_eq_mul_inv] at hv4
      have h1 := le_of_mul_le_mul_left hv4 hp
      rw [abs_mul]
      calc (1 : ℝ) / 2 ^ 126 = (2 ^ 63)⁻¹ * (2 ^ 63)⁻¹ := by norm_num
        _ ≤ _ := mul_le_mul h1 h1 (by positivity) (abs_nonneg _)
  have hf : Finite (g'.scale * g'.scale) := (mul_error hv2.1 hv2.1 (by
    rw [hv2.2, abs_mul]
    calc |v2| * |v2| ≤ 2 ^ 63 * 2 ^ 63 := mul_le_mul hv3 hv3 (abs_nonneg _) (by positivity)
      _ ≤ 2 ^ 127 := by norm_num)).1
  have h2 := hsq hf
  rw [← two_mul] at h2
  exact div_scale hlam.1 h2

open Jax.Binary32 in
omit [KeyLike K] [Field P] [LinearOrder P] in
theorem sigma_scale {tr : Trace Binary32} {sc sc' : Binary32} {l l' : List Binary32} (h : TimesPow j sc sc')
    (e : extract_sigma tr sc = some l) (e' : extract_sigma tr sc' = some l') :
    List.Forall₂ (fun x x' => (∃ v, HasValue x v ∧ 1 / 2 ^ 126 < |v|) → TimesPowUnless j x x') l l' := by
  unfold extract_sigma at e e'
  simp only [Option.bind_eq_bind, Option.bind_eq_some_iff] at e e'
  obtain ⟨s, h1, t, h2, e⟩ := e
  obtain ⟨s', h1', t', h2', e'⟩ := e'
  have : s' = s := Option.some.inj (h1'.symm.trans h1)
  subst this
  have : t' = t := Option.some.inj (h2'.symm.trans h2)
  subst this
  cases e
  cases e'
  rw [List.forall₂_map_left_iff, List.forall₂_map_right_iff, List.forall₂_same]
  rintro x - ⟨v, hv, hv'⟩
  rw [hasValue_iff] at hv
  have := Scales.mul (i := j) (j := 0) (fun _ => h) (y := FltFun.sqrt x) (fun hf => timesPow_refl hf) fun f1 f2 =>
    mul_noUnderflow f1 f2 (by
      intro s b hb
      refine large_bits (s := s) ?_
      rw [← hb, hv.2]
      exact hv')
  exact unless_iff.2 this

open Jax.Binary32 in
omit [KeyLike K] [Field P] [LinearOrder P] [Binary32.Platform] in
theorem output_scale {o o' sc sc' : Binary32} {zs : List (List Binary32)} (ho : TimesPow j o o') (hs : TimesPow j sc sc')
    (hsc : ∀ v, HasValue sc v → v = 0 ∨ 1 / 2 ^ 63 ≤ |v|)
    (hz : ∀ row ∈ zs, ∀ z ∈ row, ∀ v, HasValue z v → v = 0 ∨ 1 / 2 ^ 63 ≤ |v|) :
    List.Forall₂ (List.Forall₂ (TimesPowUnless j)) (transform_output zs o sc) (transform_output zs o' sc') := by
  unfold transform_output
  rw [List.forall₂_map_left_iff, List.forall₂_map_right_iff, List.forall₂_same]
  intro row hrow
  rw [List.forall₂_map_left_iff, List.forall₂_map_right_iff, List.forall₂_same]
  intro z hzr
  refine unless_iff.2 (Scales.add (fun _ => ho) ?_)
  refine Scales.mul (i := j) (j := 0) (fun _ => hs) (fun hf => timesPow_refl hf) fun f1 f2 => ?_
  rcases hsc _ (hasValue_iff.2 ⟨f1, rfl⟩) with h | h
  · left; rw [h, zero_mul]
  · rcases hz _ hrow _ hzr _ (hasValue_iff.2 ⟨f2, rfl⟩) with h' | h'
    · left; rw [h', mul_zero]
    · right
      rw [abs_mul]
      calc (1 : ℝ) / 2 ^ 126 = 1 / 2 ^ 63 * (1 / 2 ^ 63) := by norm_num
        _ ≤ _ := mul_le_mul h h' (by positivity) (abs_nonneg _)

open Jax.Binary32 in
omit [KeyLike K] [Field P] [LinearOrder P] [Binary32.Platform] in
theorem input_scale {o o' sc sc' : Binary32} {ys ys' : List Binary32} (ho : TimesPow j o o') (hs : TimesPow j sc sc')
    (h : List.Forall₂ (TimesPow j) ys ys') (hf : ∀ y ∈ ys', ∃ v', HasValue (y - o') v') :
    transform_input ys' o' sc' = transform_input ys o sc := by
  unfold transform_input
  induction h with
  | nil => rfl
  | cons h _ ih =>
    rw [List.map_cons, List.map_cons, ih fun y hy => hf y (List.mem_cons_of_mem _ hy)]
    obtain ⟨v, hv⟩ := hf _ List.mem_cons_self
    rw [div_scale (Scales.sub (fun _ => h) (fun _ => ho) (hasValue_iff.1 hv).1) hs]

omit [KeyLike K] [Field P] [LinearOrder P] in
theorem settings_of_fields (e1 : g.offset = (gbart_settings lib a).offset) (e2 : g.scale = (gbart_settings lib a).scale)
    (e3 : g.lamda = (gbart_settings lib a).lamda) (e4 : g.sigest = (gbart_settings lib a).sigest) :
    gbart_settings lib a = ⟨g.offset, g.scale, g.lamda, g.sigest, g.lamda / (g.scale * g.scale)⟩ := by
  rw [e1, e2, e3, e4]
  rfl

/-- C102. If the response is expressed in a unit `2 ** j` times smaller, all the results of `gbart` are expressed in that unit, exactly, in
single precision: the MCMC is the same, bit by bit, and the attributes are multiplied by `2 ** j`, or by its square for
`lamda`. The results in `sigma` and `first_sigma` have to be larger than the subnormal numbers. -/
theorem C102_power (h : TimesPowArgs j a a') (hg : gbart lib rng a = some g) (hg' : gbart lib rng a' = some g')
    (hr : UnitRange j lib a a' g g') :
    TimesPow j g.offset g'.offset ∧ TimesPow j g.scale g'.scale ∧ TimesPow (2 * j) g.lamda g'.lamda ∧
      Option.Rel (TimesPow j) g.sigest g'.sigest ∧ g'.splits = g.splits ∧ g'.main_trace = g.main_trace ∧ g'.mcmc_state = g.mcmc_state ∧
      List.Forall₂ (fun x x' => (∃ v, HasValue x v ∧ 1 / 2 ^ 126 < |v|) → TimesPowUnless j x x') g.sigma g'.sigma ∧
      List.Forall₂ (fun x x' => (∃ v, HasValue x v ∧ 1 / 2 ^ 126 < |v|) → TimesPowUnless j x x') g.first_sigma g'.first_sigma := by
  obtain ⟨sp, h1, h2, h3, h4, h5, h6, h7, h8, h9, h10, h11⟩ := gbart_fields hg
  obtain ⟨sp', h1', h2', h3', h4', h5', h6', h7', h8', h9', h10', h11'⟩ := gbart_fields hg'
  have ho := h.other
  have hx : a'.x_train = a.x_train := by rw [ho]
  have hsp : sp' = sp := by
    have e1 : a'.usequants = a.usequants := by rw [ho]
    have e2 : a'.numcut = a.numcut := by rw [ho]
    rw [hx, e1, e2, h1] at h1'
    exact (Option.some.inj h1').symm
  subst hsp
  have s1 := settings_of_fields h2 h3 h4 h5
  have s2 := settings_of_fields h2' h3' h4' h5'
  obtain ⟨k1, k2, k3, k4, k5⟩ := settings_scale h hr s1 s2
  have hinit : gbart_init_args lib a' sp' = gbart_init_args lib a sp' := by
    unfold gbart_init_args
    have e : transform_input a'.y_train g'.offset g'.scale = transform_input a.y_train g.offset g.scale := by
      exact input_scale k1 k2 h.y_train hr.centered
    rw [s1, s2]
    dsimp only
    rw [e, k5]
    have e1 : a'.sigdf = a.sigdf := by rw [ho]
    have e2 : a'.power = a.power := by rw [ho]
    have e3 : a'.base = a.base := by rw [ho]
    have e4 : a'.maxdepth = a.maxdepth := by rw [ho]
    have e5 : a'.ntree = a.ntree := by rw [ho]
    have e6 : a'.initkw = a.initkw := by rw [ho]
    rw [hx, e1, e2, e3, e4, e5, e6]
  have hrun : run_mcmc rng (init (gbart_init_args lib a' sp')) a'.nskip a'.ndpost a'.keepevery a'.key =
      run_mcmc rng (init (gbart_init_args lib a sp')) a.nskip a.ndpost a.keepevery a.key := by
    have e1 : a'.nskip = a.nskip := by rw [ho]
    have e2 : a'.ndpost = a.ndpost := by rw [ho]
    have e3 : a'.keepevery = a.keepevery := by rw [ho]
    have e4 : a'.key = a.key := by rw [ho]
    rw [hinit, e1, e2, e3, e4]
  rw [hrun] at h8' h9' h10' h11'
  rw [← h3] at h10 h11
  rw [← h3'] at h10' h11'
  exact ⟨k1, k2, k3, k4, h6'.trans h6.symm, h8'.trans h8.symm, h9'.trans h9.symm, sigma_scale k2 h10 h10', sigma_scale k2 h11 h11'⟩

/-- C102, the predictions: those in the new unit are `2 ** j` times the original ones, unless they overflow. The sums of the trees at the
test points, which are the predictions in the internal unit of the MCMC, have to be zero or at least `2 ** -63`. -/
theorem C102_predictions (h : TimesPowArgs j a a') (hg : gbart lib rng a = some g) (hg' : gbart lib rng a' = some g')
    (hr : UnitRange j lib a a' g g') :
    (∀ x sums yhat, evaluate_trace lib.isqrt (lib.nbytes x.n) x.n g.main_trace (gbart_bin_predictors lib x.x g.splits) = some sums →
      (∀ row ∈ sums, ∀ z ∈ row, ∀ v, HasValue z v → v = 0 ∨ 1 / 2 ^ 63 ≤ |v|) → g.predict lib x = some yhat →
      ∃ yhat', g'.predict lib x = some yhat' ∧ List.Forall₂ (List.Forall₂ (TimesPowUnless j)) yhat yhat') ∧
    (∀ sums yhat, evaluate_trace lib.isqrt (lib.nbytes g.mcmc_state.y.length) g.mcmc_state.y.length g.main_trace g.mcmc_state.X = some sums →
      (∀ row ∈ sums, ∀ z ∈ row, ∀ v, HasValue z v → v = 0 ∨ 1 / 2 ^ 63 ≤ |v|) → g.yhat_train lib = some yhat →
      ∃ yhat', g'.yhat_train lib = some yhat' ∧ List.Forall₂ (List.Forall₂ (TimesPowUnless j)) yhat yhat') := by
  obtain ⟨k1, k2, -, -, k5, k6, k7, -, -⟩ := C102_power h hg hg' hr
  obtain ⟨-, -, -, -, -, -, -, hf, -⟩ := gbart_fields hg
  obtain ⟨-, -, -, -, -, -, -, hf', -⟩ := gbart_fields hg'
  have hx : a'.x_train = a.x_train := by rw [h.other]
  have hfmt : g'.x_train_fmt = g.x_train_fmt := by rw [hf, hf', hx]
  have hsc : ∀ v, HasValue g.scale v → v = 0 ∨ 1 / 2 ^ 63 ≤ |v| := by
    intro v hv
    obtain ⟨v', hv', -, hlow⟩ := hr.scale
    obtain ⟨s, b, b', z1, z2, z3, z4, z5⟩ := k2
    rw [hasValue_iff] at hv hv'
    have e : v' = 2 ^ j * v := by rw [← hv.2, ← hv'.2, z1, z2]; exact z5
    have hp : (0 : ℝ) < 2 ^ j := by positivity
    rw [e] at hlow
    rcases hlow with h | h
    · exact .inl ((mul_eq_zero.1 h).resolve_left hp.ne')
    · right
      rw [abs_mul, abs_of_pos hp, div_eq_mul_inv] at h
      rw [one_div]
      exact le_of_mul_le_mul_left h hp
  refine ⟨fun x sums yhat he hz hp => ?_, fun sums yhat he hz hp => ?_⟩
  · unfold Gbart.predict at hp ⊢
    rw [k5, k6, hfmt]
    dsimp only at hp ⊢
    simp only [he, Option.bind_eq_bind, Option.bind_eq_some_iff] at hp ⊢
    obtain ⟨u, hu, w, hw, hp⟩ := hp
    cases hw
    cases hp
    exact ⟨_, ⟨u, hu, _, rfl, rfl⟩, output_scale k1 k2 hsc hz⟩
  · unfold Gbart.yhat_train at hp ⊢
    rw [k6, k7]
    dsimp only at hp ⊢
    rw [he] at hp ⊢
    cases hp
    exact ⟨_, rfl, output_scale k1 k2 hsc hz⟩

end

/-! ### Example -/

namespace ExU

local instance : KeyLike Unit := ⟨fun _ _ _ => ()⟩

/-- a platform; the logarithms do not matter here -/
@[instance_reducible] def platform : Binary32.Platform := ⟨fun x => x - 1, fun x => x, cumsum⟩

/-- the exact value of a finite number -/
def toRat : Binary32 → ℚ
  | .nan => 0
  | .num s b => Binary32.value s b / 2 ^ 149

def lib : Lib Binary32 ℚ where
  exact := toRat
  fl := id
  lstsq := fun _ b => (Jax.sum (b.map fun v => v * v), 1)
  gammainccinv := fun _ _ => 1
  pow := fun x _ => x
  isqrt := Nat.sqrt
  nbytes := fun n => 4 * n
  nan := .nan

def rng : Rng Unit Binary32 := fun _ =>
  { uniform2 := fun _ _ => 0
    uniformTo := Binary32.uniform 5
    randint := fun lo hi => if lo < hi then hi - 1 else lo
    normal := fun t i => ((t + i : Nat) : Binary32)
    gamma := fun _ => 1 }

/-- three datapoints, with responses 1, 2, 4 in the given unit -/
def args (unit : Nat) : GbartArgs Unit Binary32 where
  x_train := { x := [[((0 : Nat) : Binary32), ((1 : Nat) : Binary32), ((2 : Nat) : Binary32)]], n := 3, columns := none }
  y_train := [((unit : Nat) : Binary32), ((2 * unit : Nat) : Binary32), ((4 * unit : Nat) : Binary32)]
  x_test := none
  usequants := false
  sigest := none
  sigdf := ((3 : Nat) : Binary32)
  sigquant := ((1 : Nat) : Binary32) / ((2 : Nat) : Binary32)
  k := ((2 : Nat) : Binary32)
  power := ((2 : Nat) : Binary32)
  base := ((1 : Nat) : Binary32) / ((2 : Nat) : Binary32)
  maxdepth := 2
  lamda := none
  offset := none
  ntree := 1
  numcut := 2
  ndpost := 1
  nskip := 1
  keepevery := 1
  key := ()
  initkw := { min_points_per_leaf := some none, resid_batch_size := none, count_batch_size := none, save_ratios := false }

theorem runs : letI := platform; (gbart lib rng (args 1)).isSome = true := by decide +kernel
theorem runs8 : letI := platform; (gbart lib rng (args 8)).isSome = true := by decide +kernel

/-- the results -/
def fit (unit : Nat) : Option (Gbart Binary32 ℚ) := letI := platform; gbart lib rng (args unit)

-- the tree is not just a root
example : (fit 8).map (fun g => g.mcmc_state.split_trees) = some [[0, 2]] := by decide +kernel

/-- the number with the given bits -/
def ofBits (n : Nat) : Binary32 := .num false (Binary32.clip n)

theorem offset8 : letI := platform; (gbart_settings lib (args 8)).offset = ofBits 1100305749 := by decide +kernel
theorem scale8 : letI := platform; (gbart_settings lib (args 8)).scale = ofBits 1086324736 := by decide +kernel
theorem lamda8 : letI := platform; (gbart_settings lib (args 8)).lamda = ofBits 1120345203 := by decide +kernel
theorem lamda1 : letI := platform; (gbart_settings lib (args 1)).lamda = ofBits 1070013555 := by decide +kernel
theorem sigest1 : letI := platform; (gbart_settings lib (args 1)).sigest = some (ofBits 1069778419) := by decide +kernel
theorem centered8 : (args 8).y_train.map (fun y => y - ofBits 1100305749) =
    [-ofBits 1093315242, -ofBits 1076538024, ofBits 1096111446] := by decide +kernel
theorem chisq1 : (lib.lstsq [] ((args 1).y_train.map fun v => v - Jax.mean (args 1).y_train)).1 = ofBits 1083528534 := by decide +kernel
theorem chisq8 : (lib.lstsq [] ((args 8).y_train.map fun v => v - Jax.mean (args 8).y_train)).1 = ofBits 1133860182 := by decide +kernel

theorem value_ofBits {n : Nat} (h : n < infBits) : HasValue (ofBits n) (Binary32.mag n / 2 ^ 149) := by
  refine hasValue_iff.2 ⟨?_, ?_⟩
  · show (Binary32.clip n).val < infBits
    rw [Binary32.clip_of_le h.le]; exact h
  · unfold ofBits
    rw [Binary32.toReal_num, Binary32.clip_of_le h.le]
    simp

theorem times_ofBits {j n m : Nat} (h : n < infBits) (h' : m < infBits) (e : Binary32.mag m = 2 ^ j * Binary32.mag n) :
    TimesPow j (ofBits n) (ofBits m) := by
  refine Binary32.TimesPow.mk ?_ ?_ ?_
  · rw [Binary32.clip_of_le h.le]; exact h
  · rw [Binary32.clip_of_le h'.le]; exact h'
  · rw [Binary32.clip_of_le h.le, Binary32.clip_of_le h'.le]; exact e

theorem natCast_ofBits : ((1 : Nat) : Binary32) = ofBits 1065353216 ∧ ((2 : Nat) : Binary32) = ofBits 1073741824 ∧
    ((4 : Nat) : Binary32) = ofBits 1082130432 ∧ ((8 : Nat) : Binary32) = ofBits 1090519040 ∧
    ((16 : Nat) : Binary32) = ofBits 1098907648 ∧ ((32 : Nat) : Binary32) = ofBits 1107296256 := by decide +kernel

theorem unit8 : TimesPowArgs 3 (args 1) (args 8) where
  y_train := by
    show List.Forall₂ _ [((1 : Nat) : Binary32), ((2 : Nat) : Binary32), ((4 : Nat) : Binary32)]
      [((8 : Nat) : Binary32), ((16 : Nat) : Binary32), ((32 : Nat) : Binary32)]
    obtain ⟨e1, e2, e3, e4, e5, e6⟩ := natCast_ofBits
    rw [e1, e2, e3, e4, e5, e6]
    refine .cons ?_ (.cons ?_ (.cons ?_ .nil)) <;> exact times_ofBits (by decide) (by decide) (by decide +kernel)
  offset := .none
  sigest := .none
  lamda := .none
  other := rfl

theorem upper {n M : Nat} (h : Binary32.mag n ≤ M * 2 ^ 149) : |(Binary32.mag n : ℝ) / 2 ^ 149| ≤ (M : ℝ) := by
  rw [abs_of_nonneg (by positivity), div_le_iff₀ (by positivity)]
  have h : (Binary32.mag n : ℝ) ≤ ((M * 2 ^ 149 : Nat) : ℝ) := Nat.cast_le.2 h
  rwa [Nat.cast_mul, Nat.cast_pow, Nat.cast_ofNat] at h

theorem lower {n D : Nat} (hD : 0 < D) (h : 2 ^ 149 ≤ Binary32.mag n * D) : 1 / (D : ℝ) ≤ |(Binary32.mag n : ℝ) / 2 ^ 149| := by
  have hp : (0 : ℝ) < D := Nat.cast_pos.2 hD
  rw [abs_of_nonneg (by positivity), div_le_div_iff₀ hp (by positivity), one_mul]
  have h : ((2 ^ 149 : Nat) : ℝ) ≤ ((Binary32.mag n * D : Nat) : ℝ) := Nat.cast_le.2 h
  rwa [Nat.cast_mul, Nat.cast_pow, Nat.cast_ofNat] at h

theorem k_value : HasValue (args 1).k (Binary32.mag 1073741824 / 2 ^ 149) := by
  have e : (args 1).k = ofBits 1073741824 := natCast_ofBits.2.1
  rw [e]
  exact value_ofBits (by decide)

theorem responses : ∀ y ∈ (args 1).y_train, ∀ v, HasValue y v → v = 0 ∨ 1 / 2 ^ 79 ≤ |v| := by
  intro y hy v hv
  right
  have e : (args 1).y_train = [ofBits 1065353216, ofBits 1073741824, ofBits 1082130432] := by decide +kernel
  rw [e] at hy
  have key : ∀ n, n < infBits → 2 ^ 149 ≤ Binary32.mag n * 2 ^ 79 → HasValue (ofBits n) v → 1 / 2 ^ 79 ≤ |v| := by
    intro n hn hm hv
    rw [show v = Binary32.mag n / 2 ^ 149 by rw [← (hasValue_iff.1 hv).2, (hasValue_iff.1 (value_ofBits hn)).2]]
    refine le_trans (le_of_eq ?_) (lower (D := 2 ^ 79) (by positivity) hm)
    norm_num
  simp only [List.mem_cons, List.not_mem_nil, or_false] at hy
  rcases hy with rfl | rfl | rfl
  · exact key _ (by decide) (by decide +kernel) hv
  · exact key _ (by decide) (by decide +kernel) hv
  · exact key _ (by decide) (by decide +kernel) hv

theorem centered : ∀ y ∈ (args 8).y_train, ∃ v', HasValue (y - ofBits 1100305749) v' := by
  intro y hy
  have hy' : y - ofBits 1100305749 ∈ (args 8).y_train.map (fun y => y - ofBits 1100305749) := List.mem_map_of_mem hy
  rw [centered8] at hy'
  have hneg : ∀ n, n < infBits → HasValue (-ofBits n) (-(Binary32.mag n / 2 ^ 149)) := by
    intro n hn
    have h1 := hasValue_iff.1 (value_ofBits hn)
    have h2 := Binary32.neg_finite h1.1
    exact hasValue_iff.2 ⟨h2.1, by rw [h2.2, h1.2]⟩
  simp only [List.mem_cons, List.not_mem_nil, or_false] at hy'
  rcases hy' with e | e | e
  · rw [e]; exact ⟨_, hneg _ (by decide)⟩
  · rw [e]; exact ⟨_, hneg _ (by decide)⟩
  · rw [e]; exact ⟨_, value_ofBits (by decide)⟩

theorem regression (x : List (List Binary32)) : (lib.lstsq x ((args 8).y_train.map fun v => v - Jax.mean (args 8).y_train)).2 =
    (lib.lstsq x ((args 1).y_train.map fun v => v - Jax.mean (args 1).y_train)).2 ∧
    TimesPowUnless (2 * 3) (lib.lstsq x ((args 1).y_train.map fun v => v - Jax.mean (args 1).y_train)).1
      (lib.lstsq x ((args 8).y_train.map fun v => v - Jax.mean (args 8).y_train)).1 := by
  have e : ∀ b, lib.lstsq x b = lib.lstsq [] b := fun _ => rfl
  rw [e, e, chisq1, chisq8]
  exact ⟨rfl, fun _ _ => times_ofBits (by decide) (by decide) (by decide +kernel)⟩

theorem in_range : letI := platform; ∀ g g', gbart lib rng (args 1) = some g → gbart lib rng (args 8) = some g' →
    UnitRange 3 lib (args 1) (args 8) g g' := by
  let _ := platform
  intro g g' h h'
  obtain ⟨-, -, -, -, h4, h5, -⟩ := gbart_fields h
  obtain ⟨-, -, h2', h3', h4', h5', -⟩ := gbart_fields h'
  have l1 : g.lamda = ofBits 1070013555 := h4.trans lamda1
  have s1 : g.sigest = some (ofBits 1069778419) := h5.trans sigest1
  have o8 : g'.offset = ofBits 1100305749 := h2'.trans offset8
  have s8 : g'.scale = ofBits 1086324736 := h3'.trans scale8
  have l8 : g'.lamda = ofBits 1120345203 := h4'.trans lamda8
  clear h h' h4 h5 h2' h3' h4' h5'
  exact
    { two_le := by decide
      length_le := by decide
      y_train := responses
      k := ⟨_, k_value, (upper (n := 1073741824) (M := 2 ^ 22) (by decide +kernel)).trans (by norm_num)⟩
      offset := ⟨_, by rw [o8]; exact value_ofBits (by decide)⟩
      centered := by rw [o8]; exact centered
      scale := ⟨_, by rw [s8]; exact value_ofBits (by decide), (upper (M := 2 ^ 63) (by decide +kernel)).trans (by norm_num),
        .inr (le_trans (by norm_num) (lower (D := 2 ^ 60) (by positivity) (by decide +kernel)))⟩
      lamda := ⟨⟨_, by rw [l8]; exact value_ofBits (by decide)⟩, fun _ => ⟨_, by rw [l1]; exact value_ofBits (by decide),
        lt_of_lt_of_le (by norm_num) (lower (D := 2 ^ 60) (by positivity) (by decide +kernel))⟩⟩
      sigest := by
        intro s hs
        rw [s1] at hs
        cases hs
        exact ⟨_, value_ofBits (by decide), le_trans (by norm_num) (lower (D := 2 ^ 62) (by positivity) (by decide +kernel))⟩
      regression := by
        rintro - - - x b b' - rfl rfl -
        exact regression x
      variance := fun _ _ h => absurd h (by decide) }

example : letI := platform; ∃ g g', gbart lib rng (args 1) = some g ∧ gbart lib rng (args 8) = some g' ∧
    TimesPow 3 g.offset g'.offset ∧ TimesPow 3 g.scale g'.scale ∧ g'.mcmc_state = g.mcmc_state := by
  let _ := platform
  obtain ⟨g, hg⟩ := Option.isSome_iff_exists.1 runs
  obtain ⟨g', hg'⟩ := Option.isSome_iff_exists.1 runs8
  obtain ⟨h1, h2, -, -, -, -, h3, -⟩ := C102_power unit8 hg hg' (in_range g g' hg hg')
  exact ⟨g, g', hg, hg', h1, h2, h3⟩

/-- the same responses, with as many predictors as datapoints, such that the variance of the responses is used -/
def wide (unit : Nat) : GbartArgs Unit Binary32 :=
  { args unit with
    x_train :=
      { x := [[((0 : Nat) : Binary32), ((1 : Nat) : Binary32), ((2 : Nat) : Binary32)],
          [((0 : Nat) : Binary32), ((1 : Nat) : Binary32), ((0 : Nat) : Binary32)],
          [((1 : Nat) : Binary32), ((0 : Nat) : Binary32), ((0 : Nat) : Binary32)]]
        n := 3, columns := none } }

theorem wide_runs : letI := platform; (gbart lib rng (wide 1)).isSome = true := by decide +kernel
theorem wide_runs8 : letI := platform; (gbart lib rng (wide 8)).isSome = true := by decide +kernel
theorem wide_offset8 : letI := platform; (gbart_settings lib (wide 8)).offset = ofBits 1100305749 := by decide +kernel
theorem wide_scale8 : letI := platform; (gbart_settings lib (wide 8)).scale = ofBits 1086324736 := by decide +kernel
theorem wide_lamda8 : letI := platform; (gbart_settings lib (wide 8)).lamda = ofBits 1115995554 := by decide +kernel
theorem wide_offset1 : letI := platform; (gbart_settings lib (wide 1)).offset = ofBits 1075139925 := by decide +kernel
theorem wide_lamda1 : letI := platform; (gbart_settings lib (wide 1)).lamda = ofBits 1065663906 := by decide +kernel
theorem wide_sigest1 : letI := platform; (gbart_settings lib (wide 1)).sigest = some (ofBits 1067427041) := by decide +kernel
theorem wide_sum : Jax.sum ((args 1).y_train.map fun y => y - ofBits 1075139925) = ofBits 880803840 := by decide +kernel
theorem wide_deviations : (args 1).y_train.map (fun y => y - ofBits 1075139925 - Jax.mean ((args 1).y_train.map fun y => y - ofBits 1075139925)) =
    [-ofBits 1068149419, -ofBits 1051372203, ofBits 1070945621] := by decide +kernel

theorem deviations : ∀ y ∈ (args 1).y_train, ∀ v, HasValue (y - ofBits 1075139925 -
    Jax.mean ((args 1).y_train.map fun y => y - ofBits 1075139925)) v → v = 0 ∨ 1 / 2 ^ 63 ≤ |v| := by
  intro y hy v hv
  have hy' := List.mem_map_of_mem (f := fun y => y - ofBits 1075139925 - Jax.mean ((args 1).y_train.map fun y => y - ofBits 1075139925)) hy
  rw [wide_deviations] at hy'
  generalize y - ofBits 1075139925 - Jax.mean ((args 1).y_train.map fun y => y - ofBits 1075139925) = d at hv hy'
  right
  have key : ∀ n, n < infBits → 2 ^ 149 ≤ Binary32.mag n * 2 ^ 63 → HasValue (ofBits n) |v| → 1 / 2 ^ 63 ≤ |v| := by
    intro n hn hm hv
    rw [show |v| = |(Binary32.mag n : ℝ) / 2 ^ 149| by
      rw [← (hasValue_iff.1 hv).2, (hasValue_iff.1 (value_ofBits hn)).2, abs_of_nonneg (by positivity)]]
    exact le_trans (by norm_num) (lower (D := 2 ^ 63) (by positivity) hm)
  have hpos : ∀ n, n < infBits → d = ofBits n → HasValue (ofBits n) |v| := by
    rintro n hn rfl
    have h1 := hasValue_iff.1 (value_ofBits hn)
    have h2 := hasValue_iff.1 hv
    refine hasValue_iff.2 ⟨h2.1, ?_⟩
    rw [← h2.2, h1.2, abs_of_nonneg (by positivity)]
  have hneg : ∀ n, n < infBits → d = -ofBits n → HasValue (ofBits n) |v| := by
    rintro n hn rfl
    have h1 := hasValue_iff.1 (value_ofBits hn)
    have h2 := hasValue_iff.1 hv
    refine hasValue_iff.2 ⟨h1.1, ?_⟩
    rw [← h2.2, (Binary32.neg_finite h1.1).2, h1.2, abs_neg, abs_of_nonneg (by positivity)]
  simp only [List.mem_cons, List.not_mem_nil, or_false] at hy'
  rcases hy' with e | e | e
  · exact key _ (by decide) (by decide +kernel) (hneg _ (by decide) e)
  · exact key _ (by decide) (by decide +kernel) (hneg _ (by decide) e)
  · exact key _ (by decide) (by decide +kernel) (hpos _ (by decide) e)

theorem wide_unit8 : TimesPowArgs 3 (wide 1) (wide 8) where
  y_train := unit8.y_train
  offset := .none
  sigest := .none
  lamda := .none
  other := rfl

theorem wide_in_range : letI := platform; ∀ g g', gbart lib rng (wide 1) = some g → gbart lib rng (wide 8) = some g' →
    UnitRange 3 lib (wide 1) (wide 8) g g' := by
  let _ := platform
  intro g g' h h'
  obtain ⟨-, -, h2, -, h4, h5, -⟩ := gbart_fields h
  obtain ⟨-, -, h2', h3', h4', h5', -⟩ := gbart_fields h'
  have o1 : g.offset = ofBits 1075139925 := h2.trans wide_offset1
  have l1 : g.lamda = ofBits 1065663906 := h4.trans wide_lamda1
  have s1 : g.sigest = some (ofBits 1067427041) := h5.trans wide_sigest1
  have o8 : g'.offset = ofBits 1100305749 := h2'.trans wide_offset8
  have s8 : g'.scale = ofBits 1086324736 := h3'.trans wide_scale8
  have l8 : g'.lamda = ofBits 1115995554 := h4'.trans wide_lamda8
  clear h h' h2 h4 h5 h2' h3' h4' h5'
  exact
    { two_le := by decide
      length_le := by decide
      y_train := responses
      k := ⟨_, k_value, (upper (n := 1073741824) (M := 2 ^ 22) (by decide +kernel)).trans (by norm_num)⟩
      offset := ⟨_, by rw [o8]; exact value_ofBits (by decide)⟩
      centered := by rw [o8]; exact centered
      scale := ⟨_, by rw [s8]; exact value_ofBits (by decide), (upper (M := 2 ^ 63) (by decide +kernel)).trans (by norm_num),
        .inr (le_trans (by norm_num) (lower (D := 2 ^ 60) (by positivity) (by decide +kernel)))⟩
      lamda := ⟨⟨_, by rw [l8]; exact value_ofBits (by decide)⟩, fun _ => ⟨_, by rw [l1]; exact value_ofBits (by decide),
        lt_of_lt_of_le (by norm_num) (lower (D := 2 ^ 60) (by positivity) (by decide +kernel))⟩⟩
      sigest := by
        intro s hs
        rw [s1] at hs
        cases hs
        exact ⟨_, value_ofBits (by decide), le_trans (by norm_num) (lower (D := 2 ^ 62) (by positivity) (by decide +kernel))⟩
      regression := fun _ _ h => absurd h (by decide)
      variance := by
        intro _ _ _
        rw [o1]
        refine ⟨?_, deviations⟩
        intro v hv
        have e : Jax.sum ((wide 1).y_train.map fun y => y - ofBits 1075139925) = ofBits 880803840 := wide_sum
        rw [e] at hv
        right
        rw [show v = Binary32.mag 880803840 / 2 ^ 149 by
          rw [← (hasValue_iff.1 hv).2, (hasValue_iff.1 (value_ofBits (n := 880803840) (by decide))).2]]
        exact le_trans (by norm_num) (lower (D := 2 ^ 100) (by positivity) (by decide +kernel)) }

example : letI := platform; ∃ g g', gbart lib rng (wide 1) = some g ∧ gbart lib rng (wide 8) = some g' ∧
    TimesPow 6 g.lamda g'.lamda ∧ g'.mcmc_state = g.mcmc_state := by
  let _ := platform
  obtain ⟨g, hg⟩ := Option.isSome_iff_exists.1 wide_runs
  obtain ⟨g', hg'⟩ := Option.isSome_iff_exists.1 wide_runs8
  obtain ⟨-, -, h1, -, -, -, h3, -⟩ := C102_power wide_unit8 hg hg' (wide_in_range g g' hg hg')
  exact ⟨g, g', hg, hg', h1, h3⟩

theorem sums : letI := platform; (fit 1).map (fun g => evaluate_trace lib.isqrt (lib.nbytes g.mcmc_state.y.length) g.mcmc_state.y.length
    g.main_trace g.mcmc_state.X) = some (some [[ofBits 1070656922, ofBits 1070656922, ofBits 1078203983]]) := by decide +kernel

example : letI := platform; ∀ g g' yhat, gbart lib rng (args 1) = some g → gbart lib rng (args 8) = some g' → g.yhat_train lib = some yhat →
    ∃ yhat', g'.yhat_train lib = some yhat' ∧ List.Forall₂ (List.Forall₂ (TimesPowUnless 3)) yhat yhat' := by
  let _ := platform
  intro g g' yhat hg hg' hy
  have hs := sums
  change (gbart lib rng (args 1)).map _ = _ at hs
  rw [hg] at hs
  refine (C102_predictions unit8 hg hg' (in_range g g' hg hg')).2 _ yhat (Option.some.inj hs) ?_ hy
  intro row hrow z hz v hv
  rw [List.mem_singleton] at hrow
  subst hrow
  right
  have key : ∀ n, n < infBits → 2 ^ 149 ≤ Binary32.mag n * 2 ^ 63 → HasValue (ofBits n) v → 1 / 2 ^ 63 ≤ |v| := by
    intro n hn hm hv
    rw [show v = Binary32.mag n / 2 ^ 149 by rw [← (hasValue_iff.1 hv).2, (hasValue_iff.1 (value_ofBits hn)).2]]
    exact le_trans (by norm_num) (lower (D := 2 ^ 63) (by positivity) hm)
  simp only [List.mem_cons, List.not_mem_nil, or_false] at hz
  rcases hz with rfl | rfl | rfl
  · exact key _ (by decide) (by decide +kernel) hv
  · exact key _ (by decide) (by decide +kernel) hv
  · exact key _ (by decide) (by decide +kernel) hv

/-- The unit has to be a power of two: if it is three times smaller the data given to the MCMC are different. -/
theorem C102_three : (fit 3).isSome = true ∧ (fit 3).map (fun g => g.mcmc_state.y) ≠ (fit 1).map (fun g => g.mcmc_state.y) := by
  decide +kernel

end ExU

end Bartz
