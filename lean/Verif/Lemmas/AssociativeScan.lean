import Verif.Model.Jax
import Mathlib.Algebra.Group.Defs
import Mathlib.Tactic.SplitIfs
/-! # The parallel prefix sum gives the cumulative sums, if addition is associative -/

set_option autoImplicit false

namespace Jax
variable {α : Type _}

/-- the elements of odd index -/
def odds : List α → List α
  | _ :: y :: l => y :: odds l
  | _ => []

theorem pairSums_length [Add α] : ∀ l : List α, (pairSums l).length = l.length / 2
  | [] => by simp [pairSums]
  | [_] => by simp [pairSums]
  | _ :: _ :: l => by
    simp only [pairSums, List.length_cons, pairSums_length l]; omega

theorem cumsumFrom_pairSums [AddSemigroup α] : ∀ (acc : α) (l : List α),
    cumsumFrom acc (pairSums l) = odds (cumsumFrom acc l)
  | _, [] => rfl
  | _, [_] => rfl
  | acc, x :: y :: l => by
    simp only [pairSums, cumsumFrom, odds, ← add_assoc]
    rw [cumsumFrom_pairSums]

theorem cumsum_pairSums [AddSemigroup α] (l : List α) : cumsum (pairSums l) = odds (cumsum l) := by
  match l with
  | [] => rfl
  | [_] => rfl
  | x :: y :: l =>
    show (x + y) :: cumsumFrom (x + y) (pairSums l) = (x + y) :: odds (cumsumFrom (x + y) l)
    rw [cumsumFrom_pairSums]

theorem interleave_cumsumFrom [Add α] : ∀ (acc : α) (l : List α),
    interleave (List.zipWith (· + ·) (acc :: odds (cumsumFrom acc l)) (evens l)) (odds (cumsumFrom acc l)) =
      cumsumFrom acc l
  | _, [] => rfl
  | _, [_] => rfl
  | acc, x :: y :: l => by
    have := interleave_cumsumFrom (acc + x + y) l
    simp only [cumsumFrom, odds, evens, List.zipWith_cons_cons, interleave]
    rw [this]

/-- With an associative addition, the order of the additions in `lax.associative_scan` does not matter. -/
theorem associativeScan_eq [AddSemigroup α] (a : List α) : associativeScan a = cumsum a := by
  have key : ∀ fuel (a : List α), a.length ≤ fuel → associativeScanFuel fuel a = cumsum a := by
    intro fuel
    induction fuel with
    | zero =>
      intro a h
      rw [List.length_eq_zero_iff.1 (Nat.le_zero.1 h)]
      rfl
    | succ fuel ih =>
      intro a h
      match a with
      | [] => rfl
      | [_] => rfl
      | x :: y :: l =>
        have hlen : (pairSums (x :: y :: l)).length ≤ fuel := by
          rw [pairSums_length]
          simp only [List.length_cons] at h ⊢
          omega
        unfold associativeScanFuel
        rw [if_neg (by simp), ih _ hlen, cumsum_pairSums]
        show interleave ([x] ++ List.zipWith (· + ·) ((x + y) :: odds (cumsumFrom (x + y) l)) (evens l))
          ((x + y) :: odds (cumsumFrom (x + y) l)) = x :: (x + y) :: cumsumFrom (x + y) l
        rw [List.singleton_append]
        unfold interleave
        rw [interleave_cumsumFrom]
  exact key _ a (Nat.le_refl _)

/-- the result has always as many elements as the input -/
theorem interleave_length : ∀ xs ys : List α, xs.length = ys.length ∨ xs.length = ys.length + 1 →
    (interleave xs ys).length = xs.length + ys.length
  | x :: xs, y :: ys, h => by
    simp only [interleave, List.length_cons]
    rw [interleave_length xs ys (by simpa using h)]
    omega
  | xs, [], _ => by
    cases xs <;> simp [interleave]
  | [], _ :: _, h => by simp at h

theorem evens_length : ∀ l : List α, (evens l).length = (l.length + 1) / 2
  | [] => by simp [evens]
  | [_] => by simp [evens]
  | _ :: _ :: l => by simp only [evens, List.length_cons, evens_length l]; omega

theorem associativeScan_length [Add α] (a : List α) : (associativeScan a).length = a.length := by
  have key : ∀ fuel (a : List α), (associativeScanFuel fuel a).length = a.length := by
    intro fuel
    induction fuel with
    | zero => intro a; rfl
    | succ fuel ih =>
      intro a
      unfold associativeScanFuel
      split_ifs with h
      · rfl
      · have h1 := ih (pairSums a)
        rw [pairSums_length] at h1
        have h2 : ((evens a).take 1 ++ List.zipWith (· + ·) (associativeScanFuel fuel (pairSums a))
            ((evens a).drop 1)).length = (a.length + 1) / 2 := by
          rw [List.length_append, List.length_zipWith, h1, List.length_take, List.length_drop, evens_length]
          omega
        dsimp only
        rw [interleave_length _ _ (by rw [h1, h2]; omega), h1, h2]
        omega
  exact key _ a

end Jax
