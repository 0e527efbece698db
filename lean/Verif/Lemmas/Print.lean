import Mathlib.Data.Nat.Bitwise
import Verif.Model.Debug
import Verif.Spec.Debug
import Verif.Lemmas.Tree
/-! # Lemmas on the printing of trees -/

set_option autoImplicit false

namespace Spec

theorem IsAncestor.refl (i : Nat) : IsAncestor i i := ⟨0, by simp⟩

theorem IsAncestor.le {a i : Nat} (h : IsAncestor a i) : a ≤ i := by
  obtain ⟨k, rfl⟩ := h; exact Nat.div_le_self _ _

theorem IsAncestor.left {a i : Nat} (h : IsAncestor (2 * a) i) : IsAncestor a i := by
  obtain ⟨k, hk⟩ := h
  exact ⟨k + 1, by rw [pow_succ, ← Nat.div_div_eq_div_mul, hk]; omega⟩

theorem IsAncestor.right {a i : Nat} (h : IsAncestor (2 * a + 1) i) : IsAncestor a i := by
  obtain ⟨k, hk⟩ := h
  exact ⟨k + 1, by rw [pow_succ, ← Nat.div_div_eq_div_mul, hk]; omega⟩

theorem Before.irrefl {i : Nat} (h : Before i i) : False := by
  rcases h with ⟨h, _⟩ | ⟨a, ha, ⟨k, hk⟩, ⟨l, hl⟩⟩
  · exact h rfl
  · rcases Nat.le_total k l with hkl | hkl
    · obtain ⟨m, rfl⟩ := Nat.exists_eq_add_of_le hkl
      rw [pow_add, ← Nat.div_div_eq_div_mul, hk] at hl
      have := Nat.div_le_self (2 * a) (2 ^ m)
      omega
    · obtain ⟨m, rfl⟩ := Nat.exists_eq_add_of_le hkl
      rw [pow_add, ← Nat.div_div_eq_div_mul, hl] at hk
      rcases m with _ | m
      · simp at hk
      · rw [pow_succ', ← Nat.div_div_eq_div_mul] at hk
        have := Nat.div_le_self ((2 * a + 1) / 2) (2 ^ m)
        omega

theorem stem_left {i : Nat} (hi : 1 ≤ i) : stem (2 * i) = stem i ++ "│  " := by
  rw [stem, dif_neg (by omega)]
  have h1 : 2 * i / 2 = i := by omega
  have h2 : 2 * i % 2 = 0 := by omega
  rw [h1, h2]; rfl

theorem stem_right {i : Nat} (hi : 1 ≤ i) : stem (2 * i + 1) = stem i ++ "   " := by
  rw [stem, dif_neg (by omega)]
  have h1 : (2 * i + 1) / 2 = i := by omega
  have h2 : (2 * i + 1) % 2 = 1 := by omega
  rw [h1, h2]; rfl

theorem branch_left {i : Nat} (hi : 1 ≤ i) : branch (2 * i) = stem i ++ "├──" := by
  rw [branch, if_neg (by omega)]
  have h1 : 2 * i / 2 = i := by omega
  have h2 : 2 * i % 2 = 0 := by omega
  rw [h1, h2]; rfl

theorem branch_right {i : Nat} (hi : 1 ≤ i) : branch (2 * i + 1) = stem i ++ "└──" := by
  rw [branch, if_neg (by omega)]
  have h1 : (2 * i + 1) / 2 = i := by omega
  have h2 : (2 * i + 1) % 2 = 1 := by omega
  rw [h1, h2]; rfl

end Spec

namespace Bartz
open Jax Spec

/-- the nodes visited, in order -/
def visited (split : List Nat) (print_all : Bool) (size : Nat) : (fuel index : Nat) → List Nat
  | 0, _ => []
  | fuel + 1, index =>
    if index ≥ size then []
    else if at0 split index = 0 ∧ print_all = false then [index]
    else index :: (visited split print_all size fuel (2 * index) ++
      visited split print_all size fuel (2 * index + 1))

/-- whether an ancestor of a node is a leaf -/
def isUnused (split : List Nat) (i : Nat) : Bool :=
  if h : i ≤ 1 then false else isUnused split (i / 2) || at0 split (i / 2) == 0
termination_by i
decreasing_by omega

theorem isUnused_left {split : List Nat} {i : Nat} (hi : 1 ≤ i) :
    isUnused split (2 * i) = (isUnused split i || at0 split i == 0) := by
  rw [isUnused, dif_neg (by omega)]
  have h1 : 2 * i / 2 = i := by omega
  rw [h1]

theorem isUnused_right {split : List Nat} {i : Nat} (hi : 1 ≤ i) :
    isUnused split (2 * i + 1) = (isUnused split i || at0 split i == 0) := by
  rw [isUnused, dif_neg (by omega)]
  have h1 : (2 * i + 1) / 2 = i := by omega
  rw [h1]

theorem isUnused_iff {split : List Nat} {i : Nat} (hi : 1 ≤ i) :
    isUnused split i = false ↔ IsNode split i := by
  induction i using Nat.strong_induction_on with
  | _ i ih =>
    rcases Nat.lt_or_ge i 2 with h2 | h2
    · have : i = 1 := by omega
      subst this
      rw [isUnused, dif_pos (by omega)]
      exact ⟨fun _ => .root, fun _ => rfl⟩
    · rw [isUnused, dif_neg (by omega), Bool.or_eq_false_iff, ih (i / 2) (by omega) (by omega)]
      constructor
      · rintro ⟨h1, h3⟩
        exact .of_parent h1 (by simpa using h3)
      · intro hn
        have := hn.parent h2
        exact ⟨this.1, by simpa using this.2⟩

variable {F : Type} [Inhabited F]

/-- the text of a line -/
def nodeText (leaf : List F) (var split : List Nat) (print_all : Bool) (i : Nat) : NodeText F :=
  if print_all then
    .category (if isUnused split i then "unused" else if at0 split i = 0 then "leaf" else "decision")
      (at0 var i) (at0 split i) (leaf.getD i default)
  else if at0 split i = 0 then .value (leaf.getD i default)
  else .rule (at0 var i) (at0 split i)

/-- the link of a line -/
def nodeLink (size : Nat) (split : List Nat) (print_all : Bool) (i : Nat) : String :=
  if at0 split i ≠ 0 ∨ (print_all = true ∧ 2 * i < size) then "┐"
  else if print_all = false ∧ size ≤ 2 * i then "╢"
  else " "

/-- a whole line -/
def nodeLine (leaf : List F) (var split : List Nat) (print_all : Bool) (i : Nat) : Line F :=
  { index := i, indent := branch i, link := nodeLink leaf.length split print_all i
    text := nodeText leaf var split print_all i }

/-- what is printed by the recursive function -/
theorem print_traverse_eq (leaf : List F) (var split : List Nat) (print_all : Bool) :
    ∀ (fuel i : Nat) (indent first next : String), 1 ≤ i → leaf.length < fuel + i →
      indent ++ first = branch i → indent ++ next = stem i →
      (print_all = false → isUnused split i = false) →
      print_traverse leaf var split print_all fuel i indent first next (isUnused split i) =
        some ((visited split print_all leaf.length fuel i).map
          (nodeLine leaf var split print_all)) ∨
      (fuel = 0) := by
  intro fuel
  induction fuel with
  | zero => intro i indent first next _ _ _ _ _; exact .inr rfl
  | succ fuel ih =>
    intro i indent first next hi hf hb hs hu
    left
    by_cases hlen : leaf.length ≤ i
    · rw [print_traverse, visited, if_pos hlen, if_pos hlen]; rfl
    · rw [print_traverse, visited, if_neg (by omega), if_neg (by omega)]
      have hfuel : fuel ≠ 0 := by omega
      have hl := ih (2 * i) (indent ++ next) "├──" "│  " (by omega) (by omega)
        (by rw [hs, branch_left hi]) (by rw [hs, stem_left hi])
      have hr := ih (2 * i + 1) (indent ++ next) "└──" "   " (by omega) (by omega)
        (by rw [hs, branch_right hi]) (by rw [hs, stem_right hi])
      rw [isUnused_left hi] at hl
      rw [isUnused_right hi] at hr
      simp only [hfuel, or_false] at hl hr
      have hgf : ∀ a : List Nat, getFill a i 0 = at0 a i := fun a => rfl
      have hga : gather leaf i = leaf.getD i default := gather_eq_getD (by omega) _
      simp only [hgf, hga]
      cases print_all with
      | true =>
        simp only [Bool.true_eq_false, and_false, if_false, if_true, Bool.not_true, Bool.and_false,
          Bool.false_eq_true, Bool.true_and]
        rw [hl (by simp), hr (by simp)]
        simp only [Option.some.injEq, List.map_cons, List.map_append, List.cons.injEq, and_true]
        simp only [nodeLine, nodeLink, nodeText, hb, if_true, Line.mk.injEq, true_and]
        constructor
        · by_cases h0 : at0 split i = 0 <;> by_cases h1 : 2 * i < leaf.length <;> simp [h0, h1]
        · by_cases h0 : at0 split i = 0 <;> simp [h0]
      | false =>
        have hu' := hu rfl
        by_cases h0 : at0 split i = 0
        · simp only [hu', h0]
          simp [nodeLine, nodeLink, nodeText, hb, h0]
        · have hu2 : (isUnused split i || at0 split i == 0) = false := by simp [hu', h0]
          rw [hu2] at hl hr
          rw [hu']
          have hb0 : (at0 split i == 0) = false := by simpa using h0
          simp only [hb0, Bool.or_self, Bool.false_and, Bool.false_eq_true, if_false,
            h0, false_and]
          rw [hl (fun _ => rfl), hr (fun _ => rfl)]
          simp only [Option.some.injEq, List.map_cons, List.map_append, List.cons.injEq, and_true]
          simp [nodeLine, nodeLink, nodeText, hb, h0]

/-- what is printed -/
theorem print_tree_eq (leaf : List F) (var split : List Nat) (print_all : Bool) :
    print_tree leaf var split print_all =
      some ((visited split print_all leaf.length (leaf.length + 1) 1).map
        (nodeLine leaf var split print_all)) := by
  have hu : isUnused split 1 = false := by rw [isUnused, dif_pos (by omega)]
  have := print_traverse_eq leaf var split print_all (leaf.length + 1) 1 "" "" "" (by omega)
    (by omega) (by rw [branch, if_pos (by omega)]; rfl) (by rw [stem, dif_pos (by omega)]; rfl)
    (fun _ => hu)
  rw [hu] at this
  exact this.resolve_right (by omega)

/-- the visited nodes descend from the start -/
theorem visited_anc {split : List Nat} {pa : Bool} {size : Nat} :
    ∀ {fuel i j : Nat}, j ∈ visited split pa size fuel i → IsAncestor i j ∧ j < size := by
  intro fuel
  induction fuel with
  | zero => intro i j hj; simp [visited] at hj
  | succ fuel ih =>
    intro i j hj
    rw [visited] at hj
    split_ifs at hj with h1 h2
    · simp at hj
    · simp at hj; subst hj; exact ⟨.refl _, by omega⟩
    · rw [List.mem_cons, List.mem_append] at hj
      rcases hj with rfl | hj | hj
      · exact ⟨.refl _, by omega⟩
      · exact ⟨(ih hj).1.left, (ih hj).2⟩
      · exact ⟨(ih hj).1.right, (ih hj).2⟩

/-- the visited nodes are in preorder -/
theorem visited_pairwise {split : List Nat} {pa : Bool} {size : Nat} :
    ∀ {fuel i : Nat}, 1 ≤ i → (visited split pa size fuel i).Pairwise Before := by
  intro fuel
  induction fuel with
  | zero => intro i _; simp [visited]
  | succ fuel ih =>
    intro i hi
    rw [visited]
    split_ifs with h1 h2
    · simp
    · simp
    · rw [List.pairwise_cons, List.pairwise_append]
      refine ⟨?_, ih (by omega), ih (by omega), ?_⟩
      · intro j hj
        rw [List.mem_append] at hj
        rcases hj with hj | hj
        · have := (visited_anc hj).1
          exact .inl ⟨by have := this.le; omega, this.left⟩
        · have := (visited_anc hj).1
          exact .inl ⟨by have := this.le; omega, this.right⟩
      · intro a ha b hb
        exact .inr ⟨i, hi, (visited_anc ha).1, (visited_anc hb).1⟩

/-- the start is visited -/
theorem visited_self {split : List Nat} {pa : Bool} {size fuel i : Nat} (hf : size < fuel + i)
    (hi : i < size) : i ∈ visited split pa size fuel i := by
  cases fuel with
  | zero => omega
  | succ fuel => rw [visited, if_neg (by omega)]; split_ifs <;> simp

/-- the children of a visited node are visited -/
theorem visited_child {split : List Nat} {pa : Bool} {size : Nat} :
    ∀ {fuel i j c : Nat}, 1 ≤ i → size < fuel + i → j ∈ visited split pa size fuel i →
      (at0 split j ≠ 0 ∨ pa = true) → (c = 2 * j ∨ c = 2 * j + 1) → c < size →
      c ∈ visited split pa size fuel i := by
  intro fuel
  induction fuel with
  | zero => intro i j c _ _ hj; simp [visited] at hj
  | succ fuel ih =>
    intro i j c hi hf hj hs hc hlt
    rw [visited] at hj ⊢
    split_ifs at hj ⊢ with h1 h2
    · simp at hj
    · simp at hj; subst hj
      rcases hs with hs | hs
      · exact absurd h2.1 hs
      · rw [h2.2] at hs; simp at hs
    · rw [List.mem_cons, List.mem_append] at hj ⊢
      right
      rcases hj with rfl | hj | hj
      · rcases hc with rfl | rfl
        · exact .inl (visited_self (by omega) hlt)
        · exact .inr (visited_self (by omega) hlt)
      · exact .inl (ih (by omega) (by omega) hj hs hc hlt)
      · exact .inr (ih (by omega) (by omega) hj hs hc hlt)

/-- a visited node is the start, or the child of a visited node that is not a leaf -/
theorem visited_node {split : List Nat} {size : Nat} :
    ∀ {fuel i j : Nat}, IsNode split i → j ∈ visited split false size fuel i → IsNode split j := by
  intro fuel
  induction fuel with
  | zero => intro i j _ hj; simp [visited] at hj
  | succ fuel ih =>
    intro i j hn hj
    rw [visited] at hj
    split_ifs at hj with h1 h2
    · simp at hj
    · simp at hj; subst hj; exact hn
    · have hs : at0 split i ≠ 0 := by simpa using h2
      rw [List.mem_cons, List.mem_append] at hj
      rcases hj with rfl | hj | hj
      · exact hn
      · exact ih (.left hn hs) hj
      · exact ih (.right hn hs) hj

/-- the nodes visited without `print_all` are the nodes of the tree -/
theorem mem_visited_false {split : List Nat} {size : Nat} (hsize : size = 2 * split.length)
    (h0 : 0 < split.length) (j : Nat) :
    j ∈ visited split false size (size + 1) 1 ↔ IsNode split j := by
  constructor
  · exact visited_node .root
  · intro hn
    induction hn with
    | root => exact visited_self (by omega) (by omega)
    | @left k hk hs ih =>
      have := lt_of_at0_ne hs
      exact visited_child (by omega) (by omega) ih (.inl hs) (.inl rfl) (by omega)
    | @right k hk hs ih =>
      have := lt_of_at0_ne hs
      exact visited_child (by omega) (by omega) ih (.inl hs) (.inr rfl) (by omega)

/-- all the nodes are visited with `print_all` -/
theorem mem_visited_true {split : List Nat} {size : Nat} (j : Nat) :
    j ∈ visited split true size (size + 1) 1 ↔ 1 ≤ j ∧ j < size := by
  constructor
  · intro hj
    exact ⟨by
      obtain ⟨⟨k, hk⟩, _⟩ := visited_anc hj
      by_contra hc
      have : j = 0 := by omega
      subst this
      simp at hk, (visited_anc hj).2⟩
  · rintro ⟨h1, h2⟩
    induction j using Nat.strong_induction_on with
    | _ j ih =>
      rcases Nat.lt_or_ge j 2 with hj | hj
      · have : j = 1 := by omega
        subst this
        exact visited_self (by omega) h2
      · exact visited_child (by omega) (by omega) (ih (j / 2) (by omega) (by omega) (by omega))
          (.inr rfl) (by omega) h2

end Bartz
