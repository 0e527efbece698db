import Verif.Lemmas.Keys
import Verif.Lemmas.Mcmcloop
import Verif.Props.Mcmc
import Mathlib.Tactic.Ring
/-!
# Property C40: no random key is ever reused

The run is expressed as a program that asks for random numbers one at a time (`Spec.Prog`); the keys
with which it asks are, in any execution, the ends of a tree of splits.
-/

set_option autoImplicit false

namespace Bartz
open Jax Spec

section
variable {K F : Type} [KeyLike K] [Inhabited F] [Zero F] [One F] [Add F] [Sub F] [Mul F] [Div F]
  [Neg F] [NatCast F] [FltFun F]

/-- C40. `step` and the run are the programs `stepProg` and `chainProg`. -/
theorem C40_program (rng : Rng K F) (s : State F) (key : K) (n_burn n_save n_skip : Nat) :
    step rng s key = (stepProg s key).run rng ∧
    (run_mcmc rng s n_burn n_save n_skip key).bart =
      (chainProg s key (n_burn + n_save * n_skip)).run rng := by
  rw [run_stepProg, run_chainProg, run_mcmc_eq]
  exact ⟨rfl, rfl⟩

/-- C40. In any execution of a run with `T` iterations, whatever the values of the random numbers, the
list of the keys used, in order and with repetitions, is obtained from a list of pairwise diverging
sequences of splits. So no key is used twice, or both used and split, or split twice. -/
theorem C40_keys (s : State F) (key : K) (T : Nat) (l : List (K × Prog.Answer F)) (s' : State F)
    (h : Prog.Exec (chainProg s key T) l s') :
    ∃ paths : List Path, l.map Prod.fst = paths.map (derive key) ∧ paths.Pairwise Diverge :=
  ⟨_, keys_chain T s key [] h, pairwise_chain _ _ _⟩

/-- C40. The keys used do not depend on the values of the random numbers, or on anything but the number
of trees and iterations. There are `4 * ntree + 3` for each iteration. -/
theorem C40_number (s : State F) (key : K) (T : Nat) (l : List (K × Prog.Answer F)) (s' : State F)
    (h : Prog.Exec (chainProg s key T) l s') : l.length = T * (4 * s.leaf_trees.length + 3) := by
  have e : ∀ (n T : Nat) (p : Path), (chainPaths n p T).length = T * (4 * n + 3) := by
    intro n T
    induction T with
    | zero => intro p; simp [chainPaths]
    | succ T ih =>
      intro p
      rw [chainPaths, List.length_append, ih]
      simp only [stepPaths, movesPaths, treePaths, List.length_append, List.length_cons, List.length_nil,
        List.length_flatMap, List.map_const', List.sum_replicate, List.length_range, smul_eq_mul]
      ring
  have := congrArg List.length (keys_chain T s key [] h)
  rw [List.length_map, List.length_map, e] at this
  exact this

/-- C40. If the splitting function never gives the same key in two different ways, the keys are all
different. -/
theorem C40_nodup (s : State F) (key : K) (T : Nat) (l : List (K × Prog.Answer F)) (s' : State F)
    (hinj : Function.Injective (derive key)) (h : Prog.Exec (chainProg s key T) l s') :
    (l.map Prod.fst).Nodup := by
  obtain ⟨paths, e, hp⟩ := C40_keys s key T l s' h
  rw [e]
  exact List.Nodup.map hinj (hp.imp Diverge.ne)

end

section
variable {K F : Type} [Inhabited F]

/-- draws that give the specified random number -/
def drawsOf : Prog.Answer F → Draws F
  | .uniform2 x => constDraws default 0 x
  | .uniformTo _ x => constDraws x 0 fun _ _ => default
  | .randint _ _ x => constDraws default x fun _ _ => default
  | .normal x => constDraws default 0 x
  | .gamma _ x => constDraws x 0 fun _ _ => default

theorem agrees_drawsOf (a : Prog.Answer F) : Prog.Agrees (drawsOf a) a := by
  cases a <;> rfl

/-- with different keys, the random numbers can have any values -/
theorem exists_rng (l : List (K × Prog.Answer F)) (h : (l.map Prod.fst).Nodup) :
    ∃ rng : Rng K F, ∀ x ∈ l, Prog.Agrees (rng x.1) x.2 := by
  classical
  induction l with
  | nil => exact ⟨fun _ => constDraws default 0 fun _ _ => default, by simp⟩
  | cons y l ih =>
    rw [List.map_cons, List.nodup_cons] at h
    obtain ⟨rng, hr⟩ := ih h.2
    refine ⟨fun k => if k = y.1 then drawsOf y.2 else rng k, ?_⟩
    intro x hx
    rcases List.mem_cons.1 hx with rfl | hx
    · simp only [if_true]; exact agrees_drawsOf _
    · have : x.1 ≠ y.1 := fun e => h.1 (e ▸ List.mem_map_of_mem hx)
      simp only [if_neg this]
      exact hr x hx

end

section
variable {F : Type} [Inhabited F] [Zero F] [One F] [Add F] [Sub F] [Mul F] [Div F]
  [Neg F] [NatCast F] [FltFun F]

theorem derive_path (p q : Path) : derive p q = p ++ q := by
  induction q generalizing p with
  | nil => simp [derive]
  | cons x q ih =>
    have : derive p (x :: q) = derive (p ++ [x]) q := rfl
    rw [this, ih]
    simp

/-- C40. Any combination of values of the random numbers in a run is possible: for each execution with
arbitrary values, there is a random number generator that produces it. -/
theorem C40_any_values (s : State F) (key : Path) (T : Nat) (l : List (Path × Prog.Answer F))
    (s' : State F) (h : Prog.Exec (chainProg s key T) l s') :
    ∃ rng : Rng Path F, (∀ x ∈ l, Prog.Agrees (rng x.1) x.2) ∧ chain (step rng) s key T = s' := by
  have hnd := C40_nodup s key T l s' (fun a b e => by
    rw [derive_path, derive_path] at e
    exact List.append_cancel_left e) h
  obtain ⟨rng, hr⟩ := exists_rng l hnd
  exact ⟨rng, hr, by rw [← run_chainProg]; exact h.run_eq hr⟩

end

/-! ### Examples -/

namespace Ex

-- two iterations with two trees: 22 random draws
example : (chainPaths 2 [] 2).length = 22 := by decide
example : (chainPaths 2 [] 2).Nodup := by decide
example : chainPaths 1 [] 1 =
    [[(2, 1), (2, 1), (2, 1), (2, 0)],
     [(2, 1), (2, 1), (2, 1), (2, 1), (2, 0), (3, 0)],
     [(2, 1), (2, 1), (2, 1), (2, 1), (2, 0), (3, 1)],
     [(2, 1), (2, 1), (2, 1), (2, 1), (2, 0), (3, 2)],
     [(2, 1), (2, 1), (2, 1), (2, 1), (2, 1)],
     [(2, 1), (2, 1), (2, 0)],
     [(2, 1), (2, 0)]] := by decide

-- executions exist
example : ∃ l, Prog.Exec (chainProg (init args) () 2) l ((chainProg (init args) () 2).run rng) ∧
    l.length = 22 := by
  obtain ⟨l, h, _⟩ := Prog.exec_run rng (chainProg (init args) () 2)
  exact ⟨l, h, C40_number _ _ _ _ _ h⟩

end Ex
end Bartz
