import Verif.Spec.Extended
import Verif.Spec.Regression
import Verif.Spec.InvGamma
/-!
# `gbart` with real numbers, infinities and NaN
-/

set_option autoImplicit false

namespace Spec
open Jax Bartz

/-- predictors with finite values -/
noncomputable def XReal.predictors (x : Predictors ℝ) : Predictors XReal :=
  { x := x.x.map fun row => row.map .num, n := x.n, columns := x.columns }

/-- the same arguments in the larger type -/
noncomputable def XReal.args {K : Type} (a : GbartArgs K ℝ) : GbartArgs K XReal :=
  { x_train := XReal.predictors a.x_train
    y_train := a.y_train.map .num
    x_test := a.x_test.map XReal.predictors
    usequants := a.usequants
    sigest := a.sigest.map .num
    sigdf := .num a.sigdf
    sigquant := .num a.sigquant
    k := .num a.k
    power := .num a.power
    base := .num a.base
    maxdepth := a.maxdepth
    lamda := a.lamda.map .num
    offset := a.offset.map .num
    ntree := a.ntree
    numcut := a.numcut
    ndpost := a.ndpost
    nskip := a.nskip
    keepevery := a.keepevery
    key := a.key
    initkw := a.initkw }

/-- The external functions agree with those for real numbers, within their domain. -/
structure ExtendsLib {P : Type} (l : Lib XReal P) (l' : Lib ℝ P) : Prop where
  exact : ∀ x, l.exact (.num x) = l'.exact x
  fl : l.fl = l'.fl
  lstsq : ∀ A b, l.lstsq (A.map fun row => row.map .num) (b.map .num) = (.num (l'.lstsq A b).1, (l'.lstsq A b).2)
  gammainccinv : ∀ α y, 0 < α → 0 < y → y < 1 → l.gammainccinv (.num α) (.num y) = .num (l'.gammainccinv α y)
  pow : ∀ x y, 0 < x → l.pow (.num x) (.num y) = .num (l'.pow x y)

/-- The power of a positive number is positive, the solution of the least squares problem is right, the inverse of the
incomplete gamma function is positive. -/
structure LawfulLib {P : Type} (l : Lib ℝ P) : Prop where
  lstsq : LawfulLstsq l.lstsq
  gammainccinv : ∀ α y, 0 < α → 0 < y → y < 1 → 0 < l.gammainccinv α y
  pow : ∀ x y, 0 < x → 0 < l.pow x y

/-- The prior settings are in the allowed range, and the responses are not all equal, unless there is only one. -/
structure RegularGbart {K P : Type} (lib : Lib ℝ P) (a : GbartArgs K ℝ) : Prop where
  responses : 2 ≤ a.y_train.length → ∃ v ∈ a.y_train, ∃ w ∈ a.y_train, v ≠ w
  k : 0 < a.k
  nonterminal : ∀ d, d < a.maxdepth - 1 → a.base / lib.pow ((1 + d : Nat) : ℝ) a.power < 1
  sigdf : 0 < a.sigdf
  sigquant : 0 < a.sigquant ∧ a.sigquant < 1
  lamda : 0 < (gbart_settings lib a).lamda

end Spec
