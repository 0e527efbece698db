import Verif.Model.Gbart
import Verif.Spec.Real
import Mathlib.LinearAlgebra.Matrix.Rank
import Mathlib.Order.Bounds.Basic
import Mathlib.Algebra.BigOperators.Field
/-!
# Linear regression

Data are functions of the indices `i < n` of datapoints and `j < p` of predictors.
-/

set_option autoImplicit false

namespace Spec
open Finset

/-- residual sum of squares of a linear regression without intercept -/
noncomputable def residualSS (n p : Nat) (A : Nat → Nat → ℝ) (b : Nat → ℝ) (β : Nat → ℝ) : ℝ :=
  ∑ i ∈ range n, (b i - ∑ j ∈ range p, A i j * β j) ^ 2

/-- residual sum of squares of a linear regression with intercept -/
noncomputable def residualSSIntercept (n p : Nat) (A : Nat → Nat → ℝ) (b : Nat → ℝ) (β₀ : ℝ) (β : Nat → ℝ) :
    ℝ :=
  ∑ i ∈ range n, (b i - (β₀ + ∑ j ∈ range p, A i j * β j)) ^ 2

/-- sample mean -/
noncomputable def sampleMean (n : Nat) (b : Nat → ℝ) : ℝ := (∑ i ∈ range n, b i) / n

/-- sample variance -/
noncomputable def sampleVar (n : Nat) (b : Nat → ℝ) : ℝ := sampleMean n fun i => (b i - sampleMean n b) ^ 2

/-- entry of a matrix stored by rows -/
def entry (A : List (List ℝ)) (i j : Nat) : ℝ := (A.getD i []).getD j 0

/-- `lstsq` returns the minimum of the residual sum of squares, and the rank of the matrix -/
def LawfulLstsq (lstsq : List (List ℝ) → List ℝ → ℝ × Nat) : Prop :=
  ∀ (n p : Nat) (A : List (List ℝ)) (b : List ℝ), A.length = n → b.length = n →
    (∀ row ∈ A, row.length = p) →
    IsGLB (Set.range fun β => residualSS n p (entry A) (fun i => b.getD i 0) β) (lstsq A b).1 ∧
    (lstsq A b).2 = (Matrix.of fun (i : Fin n) (j : Fin p) => entry A i j).rank

/-- the arguments of `gbart` after a change of the unit and of the origin of the responses -/
noncomputable def affineArgs {K : Type} (c d : ℝ) (a : Bartz.GbartArgs K ℝ) : Bartz.GbartArgs K ℝ :=
  { a with
    y_train := a.y_train.map fun v => c * v + d
    offset := a.offset.map fun v => c * v + d
    lamda := a.lamda.map fun v => c ^ 2 * v
    sigest := a.sigest.map fun v => c * v }

end Spec
