import Verif.Lemmas.BartConn
/-! # The Markov chain is irreducible -/

set_option autoImplicit false

namespace Bartz
open Jax Spec MeasureTheory ProbabilityTheory
open scoped ENNReal

section
variable {a : InitArgs ℝ} {C C' C'' : Fin a.num_trees → Rules} {T T1 : Rules} {i : Nat}

def Reach (a : InitArgs ℝ) (C C' : Fin a.num_trees → Rules) : Prop := ∃ n, Weak a n C C'

theorem Reach.trans (h : Reach a C C') (h' : Reach a C' C'') : Reach a C C'' := by
  obtain ⟨n, h⟩ := h
  obtain ⟨m, h'⟩ := h'
  exact ⟨_, h.trans h'⟩

theorem Reach.refl (C : Fin a.num_trees → Rules) : Reach a C C := ⟨0, Weak.refl C⟩

theorem Walk.zero {T T' : Rules} (h : Walk a 0 T T') : T = T' := by cases h; rfl

theorem Walk.succ {n : Nat} {T T' : Rules} (h : Walk a (n + 1) T T') : ∃ U, Adj a T U ∧ Walk a n U T' := by
  cases h with
  | cons h1 h2 => exact ⟨_, h1, h2⟩

theorem reach_walk (hu : Usable a) (hα : 0 < a.sigma2_alpha) (hβ : 0 < a.sigma2_beta) (n : Nat) :
    ∀ C C' : Fin a.num_trees → Rules, (∀ t, Walk a n (C t) (C' t)) → Reach a C C' := by
  induction n with
  | zero =>
    intro C C' h
    have : C = C' := funext fun t => (h t).zero
    subst this
    exact Reach.refl C
  | succ n ih =>
    intro C C' h
    choose U h1 h2 using fun t => (h t).succ
    exact Reach.trans ⟨1, weak_adj hu hα hβ h1⟩ (ih U C' h2)

/-- between the root and one of its neighbours -/
noncomputable def pick (a : InitArgs ℝ) (T1 : Rules) (b : Bool) : Rules := if b then T1 else rootT a

theorem walk_pick (h1 : Adj a (rootT a) T1) (h2 : Adj a T1 (rootT a)) (n : Nat) :
    (∃ b, Walk a n (rootT a) (pick a T1 b)) ∧ ∃ b, Walk a n (pick a T1 b) (rootT a) := by
  induction n with
  | zero => exact ⟨⟨false, .nil h1.left⟩, ⟨false, .nil h1.left⟩⟩
  | succ n ih =>
    obtain ⟨⟨b, hb⟩, ⟨b', hb'⟩⟩ := ih
    constructor
    · refine ⟨!b, hb.append (.cons ?_ (.nil ?_))⟩ <;> cases b <;> simp only [pick] <;>
        first | exact h1 | exact h2 | exact h1.left | exact h2.left
    · refine ⟨!b', .cons ?_ hb'⟩
      cases b' <;> simp only [pick] <;> first | exact h1 | exact h2

section
variable (hu : Usable a) (hp : ∀ x ∈ a.p_nonterminal, x < 1) (hα : 0 < a.sigma2_alpha)
  (hβ : 0 < a.sigma2_beta) (hT1 : PossibleTree a T1) (hg1 : GrownT a (rootT a) T1 i)
include hu hp hα hβ hT1 hg1

theorem reach_pick (hC : ∀ t, PossibleTree a (C t)) :
    (∃ b : Fin a.num_trees → Bool, Reach a C fun t => pick a T1 (b t)) ∧
    ∃ b : Fin a.num_trees → Bool, Reach a (fun t => pick a T1 (b t)) C := by
  obtain ⟨h1, h2⟩ := adj_grow hu hp (root_possible a) hT1 hg1
  set N := Finset.univ.sup fun t => dec (C t) with hN
  have hle : ∀ t, dec (C t) ≤ N := fun t => Finset.le_sup (f := fun t => dec (C t)) (Finset.mem_univ t)
  constructor
  · choose b hb using fun t => (walk_pick h1 h2 (N - dec (C t))).1
    refine ⟨b, reach_walk hu hα hβ N _ _ fun t => ?_⟩
    have := (walk_root hu hp _ (C t) (hC t) rfl).1.append (hb t)
    rwa [Nat.add_sub_cancel' (hle t)] at this
  · choose b hb using fun t => (walk_pick h1 h2 (N - dec (C t))).2
    refine ⟨b, reach_walk hu hα hβ N _ _ fun t => ?_⟩
    have := (hb t).append (walk_root hu hp _ (C t) (hC t) rfl).2
    rwa [Nat.sub_add_cancel (hle t)] at this

theorem adj_pick (b : Bool) : Adj a (pick a T1 b) (pick a T1 !b) := by
  obtain ⟨h1, h2⟩ := adj_grow hu hp (root_possible a) hT1 hg1
  cases b <;> simp only [pick] <;> first | exact h1 | exact h2

theorem reach_flip_all (b : Fin a.num_trees → Bool) :
    Reach a (fun t => pick a T1 (b t)) fun t => pick a T1 !(b t) :=
  ⟨1, weak_adj hu hα hβ fun t => adj_pick hu hp hα hβ hT1 hg1 (b t)⟩

theorem weak_flip_all (b : Fin a.num_trees → Bool) :
    Weak a 1 (fun t => pick a T1 (b t)) fun t => pick a T1 !(b t) :=
  weak_adj hu hα hβ fun t => adj_pick hu hp hα hβ hT1 hg1 (b t)

/-- change one tree only -/
theorem weak_flip (hm' : ∃ m, 1 ≤ m ∧ a.min_points_per_leaf = some m)
    (b : Fin a.num_trees → Bool) {t : Fin a.num_trees} (ht : 0 < t.val) :
    Weak a 2 (fun u => pick a T1 (b u)) fun u => pick a T1 (Function.update b t (!(b t)) u) := by
  have hstay : ∀ b : Fin a.num_trees → Bool, b t = false → Weak a 1 (fun u => pick a T1 (b u))
      fun u => pick a T1 (Function.update (fun u => !(b u)) t false u) := by
    intro b hb
    refine weak_stay hu hα hβ hm' hT1 hg1 ht (by simp [hb, pick]) (by simp [pick]) fun s hs => ?_
    rw [Function.update_of_ne hs]
    exact adj_pick hu hp hα hβ hT1 hg1 (b s)
  cases hb : b t with
  | false =>
    refine (hstay b hb).trans (m := 1) ?_
    have := weak_flip_all hu hp hα hβ hT1 hg1 (Function.update (fun u => !(b u)) t false)
    convert this using 3 with u
    by_cases hut : u = t
    · subst hut; simp
    · simp [Function.update_of_ne hut]
  | true =>
    refine (weak_flip_all hu hp hα hβ hT1 hg1 b).trans (m := 1) ?_
    have := hstay (fun u => !(b u)) (by simp [hb])
    convert this using 3 with u
    by_cases hut : u = t
    · subst hut; simp
    · simp [Function.update_of_ne hut]

theorem reach_flip (hm : a.num_trees = 1 ∨ ∃ m, 1 ≤ m ∧ a.min_points_per_leaf = some m)
    (b : Fin a.num_trees → Bool) {t : Fin a.num_trees} (ht : 0 < t.val) :
    Reach a (fun u => pick a T1 (b u)) fun u => pick a T1 (Function.update b t (!(b t)) u) := by
  have hm' : ∃ m, 1 ≤ m ∧ a.min_points_per_leaf = some m := by
    rcases hm with h | h
    · have := t.2; omega
    · exact h
  exact ⟨2, weak_flip hu hp hα hβ hT1 hg1 hm' b ht⟩

theorem reach_set (hm : a.num_trees = 1 ∨ ∃ m, 1 ≤ m ∧ a.min_points_per_leaf = some m)
    (b b' : Fin a.num_trees → Bool) (S : Finset (Fin a.num_trees)) (hS : ∀ t ∈ S, 0 < t.val) :
    Reach a (fun u => pick a T1 (b u)) fun u => pick a T1 (if u ∈ S then b' u else b u) := by
  induction S using Finset.induction_on with
  | empty => simpa using Reach.refl _
  | insert t S htS ih =>
    refine (ih fun u hu => hS u (Finset.mem_insert_of_mem hu)).trans ?_
    by_cases hbt : b' t = b t
    · convert Reach.refl _ using 3 with u
      by_cases hut : u = t
      · subst hut; simp [htS, hbt]
      · simp [hut]
    · have := reach_flip hu hp hα hβ hT1 hg1 hm (fun u => if u ∈ S then b' u else b u)
        (hS t (Finset.mem_insert_self _ _))
      convert this using 3 with u
      by_cases hut : u = t
      · subst hut
        simp only [Finset.mem_insert_self, if_true, Function.update_self, htS, if_false]
        revert hbt
        cases b' u <;> cases b u <;> simp
      · simp [hut, Function.update_of_ne hut]

theorem reach_bool (hm : a.num_trees = 1 ∨ ∃ m, 1 ≤ m ∧ a.min_points_per_leaf = some m)
    (b b' : Fin a.num_trees → Bool) :
    Reach a (fun u => pick a T1 (b u)) fun u => pick a T1 (b' u) := by
  have key : ∀ b : Fin a.num_trees → Bool, b ⟨0, hu.trees⟩ = b' ⟨0, hu.trees⟩ →
      Reach a (fun u => pick a T1 (b u)) fun u => pick a T1 (b' u) := by
    intro b h0
    have := reach_set hu hp hα hβ hT1 hg1 hm b b' (Finset.univ.filter fun t => 0 < t.val) (by simp)
    convert this using 3 with u
    by_cases hu0 : 0 < u.val
    · simp [hu0]
    · have : u = ⟨0, hu.trees⟩ := Fin.ext (by simpa using hu0)
      simp [this, h0]
  by_cases h0 : b ⟨0, hu.trees⟩ = b' ⟨0, hu.trees⟩
  · exact key b h0
  · refine (reach_flip_all hu hp hα hβ hT1 hg1 b).trans (key (fun u => !(b u)) ?_)
    revert h0
    cases b ⟨0, hu.trees⟩ <;> cases b' ⟨0, hu.trees⟩ <;> simp

theorem reach_all (hm : a.num_trees = 1 ∨ ∃ m, 1 ≤ m ∧ a.min_points_per_leaf = some m)
    (hC : ∀ t, PossibleTree a (C t)) (hC' : ∀ t, PossibleTree a (C' t)) : Reach a C C' := by
  obtain ⟨b, hb⟩ := (reach_pick hu hp hα hβ hT1 hg1 hC).1
  obtain ⟨b', hb'⟩ := (reach_pick hu hp hα hβ hT1 hg1 hC').2
  exact hb.trans ((reach_bool hu hp hα hβ hT1 hg1 hm b b').trans hb')

theorem exists_adj (hT : PossibleTree a T) : ∃ U, Adj a U T := by
  by_cases h : T = rootT a
  · subst h
    exact ⟨T1, (adj_grow hu hp (root_possible a) hT1 hg1).2⟩
  · obtain ⟨k, hk⟩ := exists_parent hT h
    exact ⟨_, (adj_grow hu hp (pruned_possible hT hk) hT (pruned_grown hT hk)).1⟩

end

/-- if there are no other possible trees, the root does not change -/
theorem adj_root_only (h : ∀ T, PossibleTree a T → T = rootT a) : Adj a (rootT a) (rootT a) := by
  refine ⟨root_possible a, root_possible a, fun R v hv h0 => ?_⟩
  have hs := trans_sum (R := R) (v := v) a (rootT a)
  rw [tsum_eq_single (rootT a)] at hs
  · rw [h0] at hs; exact zero_ne_one hs
  · intro T' hT'
    by_contra hc
    refine hT' (h T' ?_)
    by_contra hP
    apply hc
    have e : newRules a R v (rootT a) ⁻¹' {T'} = ∅ := by
      ext w
      simp only [Set.mem_preimage, Set.mem_singleton_iff, Set.mem_empty_iff_false, iff_false]
      exact fun hw => hP ((newRules_eq_iff (root_possible a) hT').1 hw).1
    show unifDist (newRules a R v (rootT a) ⁻¹' {T'}) = 0
    rw [e, measure_empty]

/-- any configuration can be reached from any other one -/
theorem exists_conn (hu : Usable a) (hp : ∀ x ∈ a.p_nonterminal, x < 1) (hα : 0 < a.sigma2_alpha)
    (hβ : 0 < a.sigma2_beta) (hm : a.num_trees = 1 ∨ ∃ m, 1 ≤ m ∧ a.min_points_per_leaf = some m)
    (hC : ∀ t, PossibleTree a (C t)) (hC' : ∀ t, PossibleTree a (C' t)) : ∃ n, Conn a n C C' := by
  by_cases h : ∃ T, PossibleTree a T ∧ T ≠ rootT a
  · obtain ⟨T, hT, hne⟩ := h
    obtain ⟨T1, i, hT1, hg1⟩ := exists_neighbour hu hp hT hne
    choose U hU using fun t => exists_adj hu hp hα hβ hT1 hg1 (hC' t)
    obtain ⟨n, hn⟩ := reach_all hu hp hα hβ hT1 hg1 hm hC fun t => (hU t).left
    exact ⟨_, hn.conn (conn_adj hu hα hβ hU)⟩
  · push Not at h
    refine ⟨1, conn_adj hu hα hβ fun t => ?_⟩
    rw [h _ (hC t), h _ (hC' t)]
    exact adj_root_only h

/-- The Markov chain may reach any set with positive probability. -/
theorem irreducible (hu : Usable a) (hp : ∀ x ∈ a.p_nonterminal, x < 1) (hα : 0 < a.sigma2_alpha)
    (hβ : 0 < a.sigma2_beta) (hm : a.num_trees = 1 ∨ ∃ m, 1 ≤ m ∧ a.min_points_per_leaf = some m)
    {θ : Params a.num_trees (nodes a)} (hθ : PossibleParams a θ) {A : Set (Params a.num_trees (nodes a))}
    (hA : MeasurableSet A) (h : posterior a A ≠ 0) : ∃ n, (stepKernel a ^ n) θ A ≠ 0 := by
  have hg : Measurable (A.indicator (1 : Params a.num_trees (nodes a) → ℝ≥0∞)) := measurable_one.indicator hA
  rw [← lintegral_indicator_one hA] at h
  obtain ⟨C, hC, hch⟩ := exists_charge hg h
  obtain ⟨n, hn⟩ := exists_conn hu hp hα hβ hm (C := fun t => (θ.1 t).1) hθ.tree hC
  refine ⟨n, ?_⟩
  rw [← lintegral_indicator_one hA]
  exact hn θ hθ (fun _ => rfl) _ hg hch

end
end Bartz
