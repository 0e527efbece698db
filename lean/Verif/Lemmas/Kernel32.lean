import Verif.Lemmas.AcceptTrans
import Verif.Lemmas.Accept
import Verif.Props.Choice32
import Verif.Lemmas.BartStay
/-! # Rounding errors of the ratio of prior and transition probabilities, with the sums of the weights -/

set_option autoImplicit false

namespace Bartz
open Jax Spec

theorem near_approx {D : Nat} {x : Binary32} {v : ℝ} (h : Binary32.Near D x v) (hD : D ≤ 2 ^ 20) (hv : v ≤ 2 ^ 125) : Approx D x v := by
  have h1 : (1 + 1 / 2 ^ 24 : ℝ) ^ D ≤ 2 := by
    have e1 : (1 + 1 / 2 ^ 24 : ℝ) ^ D ≤ Real.exp (1 / 2 ^ 24) ^ D := by
      refine pow_le_pow_left₀ (by norm_num) ?_ _
      have := Real.add_one_le_exp (1 / 2 ^ 24 : ℝ)
      linarith
    rw [← Real.exp_nat_mul] at e1
    have e2 : (D : ℝ) * (1 / 2 ^ 24) ≤ 1 / 2 := by
      have : (D : ℝ) ≤ 2 ^ 20 := by exact_mod_cast hD
      linarith
    have e3 := Real.exp_le_exp.2 e2
    have e4 : Real.exp (1 / 2) ≤ 2 := by
      have h2 : Real.exp (1 / 2) * Real.exp (1 / 2) = Real.exp 1 := by rw [← Real.exp_add]; norm_num
      have h3 := Real.exp_one_lt_d9
      have h4 := Real.exp_pos (1 / 2)
      nlinarith
    linarith
  have h0 := h.1
  obtain ⟨f, l, u⟩ := h.2 (by
    calc v * (1 + 1 / 2 ^ 24) ^ D ≤ 2 ^ 125 * 2 := mul_le_mul hv h1 (by positivity) (by positivity)
      _ ≤ 2 ^ 127 := by norm_num)
  refine ⟨_, hasValue_iff.2 ⟨f, rfl⟩, ⟨h0, ?_, l, ?_⟩⟩
  · refine le_trans ?_ l
    have : (0 : ℝ) < (1 - 1 / 2 ^ 24) ^ D := pow_pos (by norm_num) _
    positivity
  · have hp : (0 : ℝ) < (1 - 1 / 2 ^ 24) ^ D := pow_pos (by norm_num) _
    refine (mul_le_mul_of_nonneg_right u hp.le).trans ?_
    rw [mul_assoc, ← mul_pow]
    refine mul_le_of_le_one_right h0 (pow_le_one₀ (by norm_num) (by norm_num))

theorem near_foldl {xs : List Binary32} {vs : List ℝ} (h : List.Forall₂ (Binary32.Near 0) xs vs) :
    ∀ {D : Nat} {x : Binary32} {v : ℝ}, Binary32.Near D x v → Binary32.Near (D + xs.length) (xs.foldl (· + ·) x) (vs.foldl (· + ·) v) := by
  induction h with
  | nil => exact fun h => h
  | cons h _ ih =>
    intro D x v hx
    have := ih (hx.add (h.mono (Nat.zero_le D)))
    rw [List.foldl_cons, List.foldl_cons, List.length_cons, Nat.add_comm _ 1, ← Nat.add_assoc]
    exact this

theorem foldl_add_eq (l : List ℝ) (v : ℝ) : l.foldl (· + ·) v = v + l.sum := by
  induction l generalizing v with
  | nil => simp
  | cons x l ih => rw [List.foldl_cons, ih, List.sum_cons]; ring

section
variable [P : Binary32.Platform] {a : InitArgs Binary32} {s : State Binary32} {p : List ℝ}

/-- the values of the weights of the leaves -/
theorem weights_value (ha : ValidArgs a) (hi : StateInv a s) {gl : List Bool} (hlg : gl.length = 2 ^ a.p_nonterminal.length)
    (h0 : gl.getD 0 false = false) (hp : ∀ d (h : d < a.p_nonterminal.length), HasValue a.p_nonterminal[d] (p.getD d 0)) :
    let w := List.zipWith (fun g p => if g then p else (0 : Binary32)) gl s.p_propose_grow
    w.length = 2 ^ a.p_nonterminal.length ∧
    ∀ i (hi : i < w.length), HasValue w[i] (if gl.getD i false = true then p.getD (Nat.log2 i) 0 else 0) := by
  intro w
  have hpl : s.p_propose_grow.length = 2 ^ a.p_nonterminal.length := by rw [hi.cfg.p_propose_grow]; exact (ppg_ok ha).1
  have hwl : w.length = 2 ^ a.p_nonterminal.length := by rw [List.length_zipWith, hlg, hpl, Nat.min_self]
  refine ⟨hwl, fun i hi' => ?_⟩
  have hlt : i < 2 ^ a.p_nonterminal.length := by omega
  simp only [w, List.getElem_zipWith]
  rw [← List.getD_eq_getElem (l := gl) (d := false) (by omega)]
  cases hgi : gl.getD i false with
  | false => simpa using hasValue_zero
  | true =>
    have h1 : 1 ≤ i := by
      rcases Nat.eq_zero_or_pos i with e | e
      · subst e; rw [h0] at hgi; cases hgi
      · exact e
    simp only [if_true]
    have hd := (Nat.log2_lt (by omega)).2 hlt
    have e : s.p_propose_grow[i]'(by omega) = a.p_nonterminal[Nat.log2 i]'hd := by
      have hpp : s.p_propose_grow = (tree_depths (2 ^ a.p_nonterminal.length)).map fun d =>
          gather (a.p_nonterminal ++ [0]) d := by
        rw [hi.cfg.p_propose_grow]; simp [init]
      simp only [hpp, List.getElem_map]
      have hd' : (tree_depths (2 ^ a.p_nonterminal.length))[i]'(by rw [length_tree_depths]; exact hlt) = Nat.log2 i := by
        rw [← List.getD_eq_getElem (d := 0), tree_depths_getD (by omega)]
      rw [hd', gather_of_lt (by simp; omega), List.getElem_append_left hd]
    rw [e]
    exact hp _ _


omit P in
theorem approx_scan {w : List Binary32} {ω : Nat → ℝ} (hω : ∀ i (h : i < w.length), HasValue w[i] (ω i) ∧ 0 ≤ ω i) (hn : 0 < w.length)
    (hl : 2 * Nat.log2 w.length ≤ 2 ^ 20) (hW : ∑ j ∈ Finset.range w.length, ω j ≤ 2 ^ 125) :
    Approx (2 * Nat.log2 w.length) (last (associativeScan w)) (∑ j ∈ Finset.range w.length, ω j) := by
  have h1 := Binary32.near_associativeScan (forall₂_near hω)
  have hlen := h1.length_eq
  rw [length_cumsum, List.length_map, List.length_range] at hlen
  have e : last (cumsum ((List.range w.length).map ω)) = ∑ j ∈ Finset.range w.length, ω j := by
    rw [last_cumsum_real _ (List.ne_nil_of_length_pos (by rw [List.length_map, List.length_range]; exact hn)), list_sum_range]
  rw [← e] at hW ⊢
  refine near_approx ?_ hl hW
  have hlen' : (cumsum ((List.range w.length).map ω)).length = w.length := by rw [length_cumsum, List.length_map, List.length_range]
  rw [last_eq _ (by omega), last_eq _ (by omega)]
  have h2 := h1.get (i := w.length - 1) (by omega) (by omega)
  simp only [hlen, hlen']
  exact h2

omit P in
theorem approx_sum {w : List Binary32} {ω : Nat → ℝ} (hω : ∀ i (h : i < w.length), HasValue w[i] (ω i) ∧ 0 ≤ ω i)
    (hl : w.length ≤ 2 ^ 20) (hW : ∑ j ∈ Finset.range w.length, ω j ≤ 2 ^ 125) :
    Approx w.length (Jax.sum w) (∑ j ∈ Finset.range w.length, ω j) := by
  refine near_approx ?_ hl hW
  have h1 := near_foldl (forall₂_near hω) (near_zero hasValue_zero le_rfl)
  rw [foldl_add_eq, zero_add, zero_add, list_sum_range] at h1
  exact h1

/-- the exact ratio of the prior and transition probabilities -/
noncomputable def trans32 (p : List ℝ) (S : ℝ) (m n i : Nat) : ℝ :=
  shapeRatio p i / ((if i ≠ 1 then 1 / 2 else 1) * (p.getD (Nat.log2 i) 0 / S) * m) * (if n ≠ 0 then 1 / 2 else 1)

theorem trans_error {δ : ℝ} (hP : LogError P δ) (hδ : 0 ≤ δ) (hi : StateInv a s) (hpl : p.length = a.p_nonterminal.length)
    (hp : ∀ d (h : d < a.p_nonterminal.length), HasValue a.p_nonterminal[d] (p.getD d 0))
    (hp0 : ∀ d, d < a.p_nonterminal.length → 1 / 2 ^ 13 ≤ p.getD d 0 ∧ p.getD d 0 ≤ 1 - 1 / 2 ^ 24)
    {mv : Move Binary32} {c : Binary32} {S : ℝ} {m e n : Nat} (hmv : mv.partial_ratio = compute_partial_ratio c m s.p_nonterminal mv.node)
    (hnode : mv.node < 2 ^ a.p_nonterminal.length) (hpos : 1 ≤ mv.node)
    (hπ : Approx e c (p.getD (Nat.log2 mv.node) 0 / S)) (he : e ≤ 2 ^ 20)
    (h1 : p.getD (Nat.log2 mv.node) 0 ≤ S) (h2 : S ≤ 2 ^ 16) (h3 : 1 ≤ m) (h4 : m ≤ 2 ^ 20) (counts : MoveCounts) (mp : Option Nat)
    (hg : compute_p_prune mv counts.left counts.right mp = if n ≠ 0 then half else 1) :
    (∃ x, HasValue (complete_ratio mv counts mp) x ∧ |x - Real.log (trans32 p S m n mv.node)| ≤ (e + 10) / 2 ^ 23 + 72 * δ) ∧
      |Real.log (trans32 p S m n mv.node)| ≤ 70 ∧ 0 < trans32 p S m n mv.node := by
  have hpp : s.p_nonterminal = a.p_nonterminal ++ [0] := by rw [hi.cfg.p_nonterminal]; rfl
  have hlog : Nat.log2 mv.node < a.p_nonterminal.length := (Nat.log2_lt (by omega)).2 hnode
  have hd : gather (tree_depths (2 ^ (s.p_nonterminal.length - 1))) mv.node = Nat.log2 mv.node := by
    have e : 2 ^ (s.p_nonterminal.length - 1) = 2 ^ a.p_nonterminal.length := by rw [hpp]; simp
    rw [e, gather_eq_getD (by rw [length_tree_depths]; exact hnode) 0, tree_depths_getD hnode]
  have hv : ∀ d, d ≤ a.p_nonterminal.length → HasValue (gather s.p_nonterminal d) (p.getD d 0) ∧ 0 ≤ p.getD d 0 ∧
      p.getD d 0 ≤ 1 - 1 / 2 ^ 24 := by
    intro d hd
    rcases Nat.lt_or_ge d a.p_nonterminal.length with h | h
    · rw [hpp, gather_of_lt (by simp; omega), List.getElem_append_left h]
      exact ⟨hp d h, le_trans (by positivity) (hp0 d h).1, (hp0 d h).2⟩
    · have : d = a.p_nonterminal.length := by omega
      subst this
      rw [hpp, gather_of_lt (by simp), List.getElem_append_right le_rfl, List.getD_eq_default _ _ (by omega)]
      exact ⟨by simpa using hasValue_zero, le_rfl, by norm_num⟩
  obtain ⟨v1, v2, v3⟩ := hv _ hlog.le
  obtain ⟨w1, w2, w3⟩ := hv _ (Nat.succ_le_of_lt hlog)
  have hq := (hp0 _ hlog).1
  have hq0 : 0 < p.getD (Nat.log2 mv.node) 0 := lt_of_lt_of_le (by positivity) hq
  have hS : 0 < S := lt_of_lt_of_le hq0 h1
  have hπ1 : 1 / 2 ^ 30 ≤ p.getD (Nat.log2 mv.node) 0 / S := by
    rw [le_div_iff₀ hS]
    calc 1 / 2 ^ 30 * S ≤ 1 / 2 ^ 30 * 2 ^ 16 := mul_le_mul_of_nonneg_left h2 (by positivity)
      _ ≤ 1 / 2 ^ 13 := by norm_num
      _ ≤ _ := hq
  have hπ2 : p.getD (Nat.log2 mv.node) 0 / S ≤ 1 := (div_le_one hS).2 h1
  obtain ⟨a1, a2, a3⟩ := partial_ratio_approx v1 w1 ((by norm_num : (1 : ℝ) / 2 ^ 30 ≤ 1 / 2 ^ 13).trans hq) v3 w2 w3 hπ he hπ1 hπ2 h3 h4
    (decide (mv.node ≠ 1))
  rw [compute_partial_ratio_eq, hd] at hmv
  rw [← hmv] at a1
  have hgv : HasValue (compute_p_prune mv counts.left counts.right mp) (if n ≠ 0 then 1 / 2 else 1) := by
    rw [hg]
    split_ifs
    · exact half_value
    · exact hasValue_one
  have hg' : (if n ≠ 0 then (1 : ℝ) / 2 else 1) = 1 / 2 ∨ (if n ≠ 0 then (1 : ℝ) / 2 else 1) = 1 := by
    split_ifs <;> simp
  have e1 : (1 - p.getD (Nat.log2 mv.node + 1) 0) * (1 - p.getD (Nat.log2 mv.node + 1) 0) * p.getD (Nat.log2 mv.node) 0 /
      (1 - p.getD (Nat.log2 mv.node) 0) = shapeRatio p mv.node := by
    unfold shapeRatio
    congr 1
    ring
  have e2 : (if decide (mv.node ≠ 1) = true then (1 : ℝ) / 2 else 1) = if mv.node ≠ 1 then 1 / 2 else 1 := by
    by_cases h : mv.node = 1 <;> simp [h]
  rw [e1, e2] at a1 a2 a3
  obtain ⟨x, x1, x2⟩ := log_ratio_error hP hδ a1 he a2 a3 hgv hg'
  have hA : 0 < shapeRatio p mv.node / ((if mv.node ≠ 1 then 1 / 2 else 1) * (p.getD (Nat.log2 mv.node) 0 / S) * m) :=
    lt_of_lt_of_le (by positivity) a2
  have t1 : 1 / 2 ^ 99 ≤ trans32 p S m n mv.node := by
    unfold trans32
    rcases hg' with h | h <;> rw [h]
    · linarith
    · linarith
  have t2 : trans32 p S m n mv.node ≤ 2 ^ 55 := by
    unfold trans32
    rcases hg' with h | h <;> rw [h]
    · linarith
    · linarith
  have t0 : 0 < trans32 p S m n mv.node := lt_of_lt_of_le (by positivity) t1
  have hl : |Real.log (trans32 p S m n mv.node)| ≤ 70 := by
    have l1 := Real.log_le_log (by positivity) t1
    have l2 := Real.log_le_log t0 t2
    have l3 := Real.log_two_lt_d9
    rw [one_div, Real.log_inv, Real.log_pow] at l1
    rw [Real.log_pow] at l2
    push_cast at l1 l2
    rw [abs_le]
    constructor <;> linarith
  refine ⟨⟨x, x1, x2.trans ?_⟩, hl, t0⟩
  have : δ * (2 + |Real.log (trans32 p S m n mv.node)|) ≤ δ * 72 := mul_le_mul_of_nonneg_left (by linarith) hδ
  change _ + δ * (2 + |Real.log (trans32 p S m n mv.node)|) ≤ _
  linarith


/-- the sum of the weights of the growable leaves -/
noncomputable def weightSum (p : List ℝ) (h : Nat) (gl : List Bool) : ℝ :=
  ∑ j ∈ (Finset.range (2 ^ h)).filter (fun i => gl.getD i false = true), p.getD (Nat.log2 j) 0

omit P in
theorem weightSum_bounds {h : Nat} {gl : List Bool} (hp0 : ∀ d, 0 ≤ p.getD d 0) (hp1 : ∀ d, p.getD d 0 ≤ 1) (hh : h ≤ 16) :
    weightSum p h gl ≤ 2 ^ 16 ∧ ∀ i, i < 2 ^ h → gl.getD i false = true → p.getD (Nat.log2 i) 0 ≤ weightSum p h gl := by
  constructor
  · refine (Finset.sum_le_sum fun j _ => hp1 (Nat.log2 j)).trans ?_
    rw [Finset.sum_const, nsmul_eq_mul, mul_one]
    have h2 := Finset.card_filter_le (Finset.range (2 ^ h)) fun i => gl.getD i false = true
    rw [Finset.card_range] at h2
    have h3 : 2 ^ h ≤ 2 ^ 16 := Nat.pow_le_pow_right (by norm_num) hh
    exact_mod_cast h2.trans h3
  · intro i hi hgi
    exact Finset.single_le_sum (f := fun j => p.getD (Nat.log2 j) 0) (fun j _ => hp0 _) (Finset.mem_filter.2 ⟨Finset.mem_range.2 hi, hgi⟩)

omit P in
theorem weightSum_eq (p : List ℝ) (h : Nat) (gl : List Bool) : weightSum p h gl =
    ∑ j ∈ Finset.range (2 ^ h), if gl.getD j false = true then p.getD (Nat.log2 j) 0 else 0 := by
  unfold weightSum
  rw [Finset.sum_filter]

/-- the values on which the ratio depends -/
structure Probs (a : InitArgs Binary32) (p : List ℝ) : Prop where
  length : p.length = a.p_nonterminal.length
  value : ∀ d (h : d < a.p_nonterminal.length), HasValue a.p_nonterminal[d] (p.getD d 0)
  range : ∀ d, d < a.p_nonterminal.length → 1 / 2 ^ 13 ≤ p.getD d 0 ∧ p.getD d 0 ≤ 1 - 1 / 2 ^ 24
  depth : a.p_nonterminal.length ≤ 16

omit P in
theorem Probs.bounds (hp : Probs a p) (d : Nat) : 0 ≤ p.getD d 0 ∧ p.getD d 0 ≤ 1 := by
  rcases Nat.lt_or_ge d a.p_nonterminal.length with h | h
  · have := hp.range d h
    have h0 : (0 : ℝ) ≤ 1 / 2 ^ 13 := by positivity
    have h1 : (0 : ℝ) ≤ 1 / 2 ^ 24 := by positivity
    constructor <;> linarith
  · rw [List.getD_eq_default _ _ (by rw [hp.length]; exact h)]
    norm_num

/-- the probability of choosing a leaf when growing -/
theorem choose_approx (hc : ∀ w, Binary32.Platform.cumsum w = associativeScan w) (hp : Probs a p) (ha : ValidArgs a) (hi : StateInv a s)
    {gl : List Bool} (hlg : gl.length = 2 ^ a.p_nonterminal.length) (h0 : gl.getD 0 false = false) {i : Nat}
    (hlt : i < 2 ^ a.p_nonterminal.length) (hgi : gl.getD i false = true) :
    let w := List.zipWith (fun g p => if g then p else (0 : Binary32)) gl s.p_propose_grow
    Approx (2 ^ a.p_nonterminal.length + 1) (gather w i / last (FltFun.cumsum w))
      (p.getD (Nat.log2 i) 0 / weightSum p a.p_nonterminal.length gl) ∧
    Approx (2 ^ a.p_nonterminal.length + 1) (gather s.p_propose_grow i / sumWhere s.p_propose_grow gl)
      (p.getD (Nat.log2 i) 0 / weightSum p a.p_nonterminal.length gl) := by
  intro w
  obtain ⟨hwl, hw⟩ := weights_value ha hi hlg h0 hp.value
  change w.length = 2 ^ a.p_nonterminal.length at hwl
  have hω : ∀ j (h : j < w.length), HasValue w[j] (if gl.getD j false = true then p.getD (Nat.log2 j) 0 else 0) ∧
      0 ≤ (if gl.getD j false = true then p.getD (Nat.log2 j) 0 else 0) := by
    intro j hj
    refine ⟨hw j hj, ?_⟩
    split_ifs
    · exact (hp.bounds _).1
    · exact le_rfl
  have hhp := ha.depth_pos
  have hhd := hp.depth
  have hpow : 2 ^ a.p_nonterminal.length ≤ 2 ^ 16 := Nat.pow_le_pow_right (by norm_num) hhd
  have hpos : 0 < 2 ^ a.p_nonterminal.length := Nat.two_pow_pos _
  have hlog : Nat.log2 w.length = a.p_nonterminal.length := by rw [hwl]; exact Nat.log2_two_pow
  obtain ⟨b1, b2⟩ := weightSum_bounds (p := p) (gl := gl) (fun d => (hp.bounds d).1) (fun d => (hp.bounds d).2) hhd
  have b3 := b2 i hlt hgi
  have hsum : ∑ j ∈ Finset.range w.length, (if gl.getD j false = true then p.getD (Nat.log2 j) 0 else 0) =
      weightSum p a.p_nonterminal.length gl := by rw [weightSum_eq, hwl]
  have s1 := approx_scan hω (by omega) (by rw [hlog]; omega) (by rw [hsum]; exact b1.trans (by norm_num))
  have s2 := approx_sum hω (by omega) (by rw [hsum]; exact b1.trans (by norm_num))
  rw [hsum, hlog, ← hc] at s1
  rw [hsum, hwl] at s2
  have hd : Nat.log2 i < a.p_nonterminal.length := (Nat.log2_lt (by
    intro e; rw [e, h0] at hgi; cases hgi)).2 hlt
  have hq := (hp.range _ hd).1
  have hq0 : 0 < p.getD (Nat.log2 i) 0 := lt_of_lt_of_le (by positivity) hq
  have hS : 0 < weightSum p a.p_nonterminal.length gl := lt_of_lt_of_le hq0 b3
  have hπ1 : 1 / 2 ^ 125 ≤ p.getD (Nat.log2 i) 0 / weightSum p a.p_nonterminal.length gl := by
    rw [le_div_iff₀ hS]
    calc 1 / 2 ^ 125 * weightSum p a.p_nonterminal.length gl ≤ 1 / 2 ^ 125 * 2 ^ 16 := mul_le_mul_of_nonneg_left b1 (by positivity)
      _ ≤ 1 / 2 ^ 13 := by norm_num
      _ ≤ _ := hq
  have hπ2 : p.getD (Nat.log2 i) 0 / weightSum p a.p_nonterminal.length gl ≤ 2 ^ 126 := ((div_le_one hS).2 b3).trans (by norm_num)
  have hwi : HasValue (gather w i) (p.getD (Nat.log2 i) 0) := by
    have := hw i (by rw [hwl]; exact hlt)
    rw [if_pos hgi] at this
    rw [gather_of_lt (by rw [hwl]; exact hlt)]
    exact this
  have h2h : 2 * a.p_nonterminal.length ≤ 2 ^ a.p_nonterminal.length := by
    have h1 := Nat.lt_two_pow_self (n := a.p_nonterminal.length - 1)
    have h2 : 2 ^ a.p_nonterminal.length = 2 * 2 ^ (a.p_nonterminal.length - 1) := by
      rw [← pow_succ']
      congr 1
      omega
    omega
  constructor
  · exact ((approx_exact hwi hq0.le).div s1 (by omega) hS hπ2 hπ1).mono (by omega)
  · have e1 : gather s.p_propose_grow i = gather w i := by
      have hpl : s.p_propose_grow.length = 2 ^ a.p_nonterminal.length := by rw [hi.cfg.p_propose_grow]; exact (ppg_ok ha).1
      rw [gather_of_lt (by rw [hpl]; exact hlt), gather_of_lt (by rw [hwl]; exact hlt), List.getElem_zipWith,
        ← List.getD_eq_getElem (l := gl) (d := false) (by rw [hlg]; exact hlt), hgi]
      rfl
    have e2 : sumWhere s.p_propose_grow gl = Jax.sum w := by
      unfold sumWhere
      rw [List.zipWith_comm]
    rw [e1, e2]
    exact ((approx_exact hwi hq0.le).div s2 (by omega) hS hπ2 hπ1).mono (by omega)

end


section
variable {K : Type} [KeyLike K] [P : Binary32.Platform] {a : InitArgs Binary32} {s1 s2 : State Binary32} {t i : Nat} {p : List ℝ}

/-- the number of datapoints at the sides of the node that is grown -/
theorem grow_counts (ha : ValidArgs a) (hi : StateInv a s1) {rng : Rng K Binary32} {key : K} (ht : t < a.num_trees)
    (hok : MoveOK (cfgOf a) (s1.var_trees.getD t []) (s1.split_trees.getD t []) (s1.affluence_trees.map fun x => x.getD t [])
      (moveOf rng s1 (KeyLike.split key 2 1) t)) {mv : Move Binary32}
    (hmv : mv = moveOf rng s1 (KeyLike.split key 2 1) t) (hg : mv.grow = true) (hsplit : 1 ≤ mv.grow_split) :
    (workOf rng s1 key t).counts.left = pointsIn a.X a.y.length (setDrop (s1.var_trees.getD t []) mv.node mv.grow_var)
      (setDrop (s1.split_trees.getD t []) mv.node mv.grow_split) (2 * mv.node) ∧
    (workOf rng s1 key t).counts.right = pointsIn a.X a.y.length (setDrop (s1.var_trees.getD t []) mv.node mv.grow_var)
      (setDrop (s1.split_trees.getD t []) mv.node mv.grow_split) (2 * mv.node + 1) := by
  have hgl := hok.grow_leaf (by rw [← hmv]; exact hg)
  have hvt := hok.grow_tree (by rw [← hmv]; exact hg)
  have hnode : mv.node < 2 ^ a.p_nonterminal.length := by rw [hmv]; exact hgl.2.1
  have hpos : (moveOf rng s1 (KeyLike.split key 2 1) t).grow = true → 1 ≤ (moveOf rng s1 (KeyLike.split key 2 1) t).grow_split := by
    rw [← hmv]
    exact fun _ => hsplit
  obtain ⟨-, ll⟩ := leafData_stats ha hi rng key ht hok hpos (fun _ => 0) (2 * mv.node)
  obtain ⟨-, lr⟩ := leafData_stats ha hi rng key ht hok hpos (fun _ => 0) (2 * mv.node + 1)
  have hcw := counts_work_of rng key hok (by rw [← hmv]; exact hnode)
  rw [length_leafData] at ll lr
  rw [← hmv, count_eq_card, count_eq_card, length_gidx ha hi rng key ht, ← ll, ← lr, hvt, ← hmv, hi.cfg.X] at hcw
  unfold bigSplit at hcw
  rw [if_pos hg] at hcw
  exact ⟨hcw.1, hcw.2.1⟩

section
variable (ha : ValidArgs a) (h1 : StateInv a s1) (h2 : StateInv a s2) (ht : t < a.num_trees)
  (hg : Grown a.p_nonterminal.length (s1.var_trees.getD t []) (s1.split_trees.getD t []) (s2.var_trees.getD t []) (s2.split_trees.getD t []) i)
include ha h1 h2 ht hg

/-- the exact ratio for the two trees -/
noncomputable def ratio32 (a : InitArgs Binary32) (p : List ℝ) (s1 s2 : State Binary32) (t i : Nat) : ℝ :=
  trans32 p (weightSum p a.p_nonterminal.length (growable_leaves (s1.split_trees.getD t []) (s1.affluence_trees.map fun x => x.getD t [])))
    (countNonzero (is_leaves_parent (s2.split_trees.getD t [])))
    (countNonzero (growable_leaves (s2.split_trees.getD t []) (s2.affluence_trees.map fun x => x.getD t []))) i

omit ha in
theorem grown_trees : setDrop (s1.split_trees.getD t []) i (at0 (s2.split_trees.getD t []) i) = s2.split_trees.getD t [] ∧
    ∀ j, IsDecision (s2.split_trees.getD t []) j →
      at0 (setDrop (s1.var_trees.getD t []) i (at0 (s2.var_trees.getD t []) i)) j = at0 (s2.var_trees.getD t []) j := by
  have hT1 := h1.tree t ht
  have hT2 := h2.tree t ht
  refine ⟨(hg.split2 hT1.valid hT2.valid).symm, fun j hj => ?_⟩
  rw [at0_setDrop, hT1.var_len]
  rcases (hg.isDecision hT1.valid hT2.valid j).1 hj with hd | e
  · rw [if_neg (fun h' => ?_)]
    · exact (hg.same_var j hd).symm
    · apply hd.2; rw [← h'.1]; exact hg.leaf.2
  · rw [if_pos ⟨e.symm, by rw [e]; exact hg.not_bottom⟩, e]

theorem grown_points (k : Nat) : pointsIn a.X a.y.length (setDrop (s1.var_trees.getD t []) i (at0 (s2.var_trees.getD t []) i))
    (setDrop (s1.split_trees.getD t []) i (at0 (s2.split_trees.getD t []) i)) k = (s2.leaf_indices.getD t []).count k := by
  obtain ⟨e1, e2⟩ := grown_trees h1 h2 ht hg
  rw [e1, (h2.tree t ht).count_eq (cfgOf_ok ha) k]
  unfold pointsIn
  congr 1
  ext j
  simp only [Set.mem_ofPred_eq]
  exact and_congr_right fun _ => fallsInto_congr e2

theorem prunable_bounds : 1 ≤ countNonzero (is_leaves_parent (s2.split_trees.getD t [])) ∧
    countNonzero (is_leaves_parent (s2.split_trees.getD t [])) ≤ 2 ^ a.p_nonterminal.length := by
  have hT := h2.tree t ht
  have h07 := (C07_prunable (s2.split_trees.getD t []) _ ha.depth_pos ha.depth_lt hT.valid).2
  rw [gather_at0 (by rw [hT.valid.length]; exact two_le_pow ha.depth_pos)] at h07
  have hr := root2 (cfgOf_ok ha) (h1.tree t ht) hT hg
  refine ⟨Nat.pos_of_ne_zero (h07.1 (bne_iff_ne.2 hr)), ?_⟩
  refine List.count_le_length.trans (le_of_eq ?_)
  rw [length_is_leaves_parent]
  exact hT.valid.length

theorem node_growable : (growable_leaves (s1.split_trees.getD t []) (s1.affluence_trees.map fun x => x.getD t [])).getD i false = true :=
  (growable_iff (h1.tree t ht).valid ha.depth_pos ha.depth_lt).2 (growable_node (cfgOf_ok ha) (h1.tree t ht) (h2.tree t ht) hg)

omit h2 hg in
theorem growable_zero : (growable_leaves (s1.split_trees.getD t []) (s1.affluence_trees.map fun x => x.getD t [])).getD 0 false = false := by
  by_contra h0
  have := ((growable_iff (h1.tree t ht).valid ha.depth_pos ha.depth_lt).1 (Bool.eq_true_of_not_eq_false h0)).1.1.pos
  omega

/-- the log ratio of the prior and transition probabilities saved when growing -/
theorem grow_trans32 {δ : ℝ} (hP : LogError P δ) (hδ : 0 ≤ δ) (hc : ∀ w, Binary32.Platform.cumsum w = associativeScan w) (hp : Probs a p)
    {rng : Rng K Binary32} {key : K} (hok : MoveOK (cfgOf a) (s1.var_trees.getD t []) (s1.split_trees.getD t [])
      (s1.affluence_trees.map fun x => x.getD t []) (moveOf rng s1 (KeyLike.split key 2 1) t)) {mv : Move Binary32}
    (hmv : mv = moveOf rng s1 (KeyLike.split key 2 1) t) (hgr : mv.grow = true) (hnode : mv.node = i)
    (hvar : mv.grow_var = at0 (s2.var_trees.getD t []) i) (hcut : mv.grow_split = at0 (s2.split_trees.getD t []) i) :
    (∃ x, HasValue (accOf rng s1 key t).2.log_trans_prior x ∧ |x - Real.log (ratio32 a p s1 s2 t i)| ≤
      (2 ^ a.p_nonterminal.length + 11) / 2 ^ 23 + 72 * δ) ∧ |Real.log (ratio32 a p s1 s2 t i)| ≤ 70 ∧ 0 < ratio32 a p s1 s2 t i := by
  have hT1 := h1.tree t ht
  have hT2 := h2.tree t ht
  have hcc := cfgOf_ok ha
  obtain ⟨m1, m2⟩ := prunable_bounds ha h1 h2 ht hg
  have hgi := node_growable ha h1 h2 ht hg
  have hlg := length_growable hT1.valid.length hT1.aff_len
  have hsplit : 1 ≤ mv.grow_split := by
    rw [hcut]
    exact Nat.pos_of_ne_zero ((hg.isDecision hT1.valid hT2.valid i).2 (Or.inr rfl)).2
  obtain ⟨cl, cr⟩ := grow_counts ha h1 ht hok hmv hgr hsplit
  rw [hnode, hvar, hcut, grown_points ha h1 h2 ht hg] at cl cr
  have hpow : 2 ^ a.p_nonterminal.length ≤ 2 ^ 16 := Nat.pow_le_pow_right (by norm_num) hp.depth
  obtain ⟨b1, b2⟩ := weightSum_bounds (p := p) (h := a.p_nonterminal.length)
    (gl := growable_leaves (s1.split_trees.getD t []) (s1.affluence_trees.map fun x => x.getD t []))
    (fun d => (hp.bounds d).1) (fun d => (hp.bounds d).2) hp.depth
  have hne : countNonzero (growable_leaves (s1.split_trees.getD t []) (s1.affluence_trees.map fun x => x.getD t [])) ≠ 0 := by
    refine Nat.pos_iff_ne_zero.1 ((countNonzero_pos_iff _).2 ⟨i, ?_, hgi⟩)
    rw [hlg]
    exact hg.not_bottom
  obtain ⟨π1, -⟩ := choose_approx hc hp ha h1 hlg (growable_zero ha h1 ht) hg.not_bottom hgi
  have e1 : mv.partial_ratio = compute_partial_ratio
      (gather (List.zipWith (fun g p => if g then p else (0 : Binary32)) (growable_leaves (s1.split_trees.getD t [])
        (s1.affluence_trees.map fun x => x.getD t [])) s1.p_propose_grow) i / last (FltFun.cumsum (List.zipWith
        (fun g p => if g then p else (0 : Binary32)) (growable_leaves (s1.split_trees.getD t [])
        (s1.affluence_trees.map fun x => x.getD t [])) s1.p_propose_grow)))
      (countNonzero (is_leaves_parent (s2.split_trees.getD t []))) s1.p_nonterminal mv.node := by
    have hgr' : (moveOf rng s1 (KeyLike.split key 2 1) t).grow = true := hmv ▸ hgr
    have hnode' : (moveOf rng s1 (KeyLike.split key 2 1) t).node = i := hmv ▸ hnode
    have hr : mv.partial_ratio = compute_partial_ratio
      (gather (List.zipWith (fun g p => if g then p else (0 : Binary32)) (growable_leaves (s1.split_trees.getD t [])
        (s1.affluence_trees.map fun x => x.getD t [])) s1.p_propose_grow) mv.node / last (FltFun.cumsum (List.zipWith
        (fun g p => if g then p else (0 : Binary32)) (growable_leaves (s1.split_trees.getD t [])
        (s1.affluence_trees.map fun x => x.getD t [])) s1.p_propose_grow)))
      (countNonzero (is_leaves_parent (setDrop (s1.split_trees.getD t []) mv.node 1))) s1.p_nonterminal mv.node := by
      rw [hmv]
      unfold moveOf combine_moves at hgr' ⊢
      dsimp only at hgr' ⊢
      rw [if_pos hgr', if_pos hgr']
      rfl
    rw [hr, hnode, prunable_grown hcc hT1 hT2 hg]
  have hgrow : compute_p_prune mv (workOf rng s1 key t).counts.left (workOf rng s1 key t).counts.right s1.min_points_per_leaf =
      if countNonzero (growable_leaves (s2.split_trees.getD t []) (s2.affluence_trees.map fun x => x.getD t [])) ≠ 0 then half else 1 := by
    have hga := grow_again hcc hT1 hT2 hg _ _ cl cr
    have hnum : mv.num_growable = countNonzero (growable_leaves (s1.split_trees.getD t []) (s1.affluence_trees.map fun x => x.getD t [])) := by
      rw [hmv]; exact hok.num_growable
    have hlen : mv.var_tree.length = 2 ^ (cfgOf a).h := by rw [hmv]; exact hok.len
    have key : ∀ (b : Bool) (N : Nat), (b = true ↔ N ≠ 0) → (if b = true then (half : Binary32) else 1) = if N ≠ 0 then half else 1 := by
      intro b N hbN
      by_cases hx : N = 0
      · rw [if_neg (fun h' => (hbN.1 h') hx), if_neg (by simp [hx])]
      · rw [if_pos (hbN.2 hx), if_pos hx]
    rw [← key _ _ hga]
    unfold compute_p_prune
    dsimp only
    rw [hnum, hlen, hnode, h1.cfg.min_points_per_leaf, if_pos hgr]
    rfl
  have hw : (accOf rng s1 key t).2.log_trans_prior = complete_ratio mv (workOf rng s1 key t).counts s1.min_points_per_leaf := by
    rw [hmv]; rfl
  rw [hw]
  obtain ⟨⟨x, x1, x2⟩, x3, x4⟩ := trans_error hP hδ h1 hp.length hp.value hp.range e1 (by rw [hnode]; exact hg.not_bottom)
    (by rw [hnode]; exact hg.leaf.1.pos) (by rw [hnode]; exact π1) (by omega) (by rw [hnode]; exact b2 i hg.not_bottom hgi) b1 m1
    (m2.trans (hpow.trans (by norm_num))) (workOf rng s1 key t).counts s1.min_points_per_leaf hgrow
  rw [hnode] at x2 x3 x4
  refine ⟨⟨x, x1, x2.trans (le_of_eq ?_)⟩, x3, x4⟩
  push_cast
  ring

/-- the log ratio of the prior and transition probabilities saved when pruning -/
theorem prune_trans32 {δ : ℝ} (hP : LogError P δ) (hδ : 0 ≤ δ) (hc : ∀ w, Binary32.Platform.cumsum w = associativeScan w) (hp : Probs a p)
    {rng : Rng K Binary32} {key : K} {mv : Move Binary32}
    (hmv : mv = moveOf rng s2 (KeyLike.split key 2 1) t) (hgr : mv.grow = false) (hnode : mv.node = i) :
    (∃ x, HasValue (accOf rng s2 key t).2.log_trans_prior x ∧ |x - Real.log (ratio32 a p s1 s2 t i)| ≤
      (2 ^ a.p_nonterminal.length + 11) / 2 ^ 23 + 72 * δ) ∧ |Real.log (ratio32 a p s1 s2 t i)| ≤ 70 ∧ 0 < ratio32 a p s1 s2 t i := by
  have hT1 := h1.tree t ht
  have hT2 := h2.tree t ht
  have hcc := cfgOf_ok ha
  obtain ⟨m1, m2⟩ := prunable_bounds ha h1 h2 ht hg
  have hgi := node_growable ha h1 h2 ht hg
  have hlg := length_growable hT1.valid.length hT1.aff_len
  have hpow : 2 ^ a.p_nonterminal.length ≤ 2 ^ 16 := Nat.pow_le_pow_right (by norm_num) hp.depth
  obtain ⟨b1, b2⟩ := weightSum_bounds (p := p) (h := a.p_nonterminal.length)
    (gl := growable_leaves (s1.split_trees.getD t []) (s1.affluence_trees.map fun x => x.getD t []))
    (fun d => (hp.bounds d).1) (fun d => (hp.bounds d).2) hp.depth
  obtain ⟨-, π1⟩ := choose_approx hc hp ha h2 hlg (growable_zero ha h1 ht) hg.not_bottom hgi
  have e1 : mv.partial_ratio = compute_partial_ratio (gather s2.p_propose_grow i / sumWhere s2.p_propose_grow
      (growable_leaves (s1.split_trees.getD t []) (s1.affluence_trees.map fun x => x.getD t [])))
      (countNonzero (is_leaves_parent (s2.split_trees.getD t []))) s2.p_nonterminal mv.node := by
    have hgr' : ¬ (moveOf rng s2 (KeyLike.split key 2 1) t).grow = true := by rw [← hmv, hgr]; simp
    have hr : mv.partial_ratio = compute_partial_ratio
      (gather s2.p_propose_grow mv.node / sumWhere s2.p_propose_grow
        (growable_leaves (setDrop (s2.split_trees.getD t []) mv.node 0)
          ((s2.affluence_trees.map fun x => x.getD t []).map fun x => setDrop x mv.node true)))
      (countNonzero (is_leaves_parent (s2.split_trees.getD t []))) s2.p_nonterminal mv.node := by
      rw [hmv]
      unfold moveOf combine_moves at hgr' ⊢
      dsimp only at hgr' ⊢
      rw [if_neg hgr', if_neg hgr']
      rfl
    rw [hr, hnode, growable_pruned hcc hT1 hT2 hg]
  have hgrow : compute_p_prune mv (workOf rng s2 key t).counts.left (workOf rng s2 key t).counts.right s2.min_points_per_leaf =
      if countNonzero (growable_leaves (s2.split_trees.getD t []) (s2.affluence_trees.map fun x => x.getD t [])) ≠ 0 then half else 1 := by
    have hnum : mv.num_growable = countNonzero (growable_leaves (s2.split_trees.getD t []) (s2.affluence_trees.map fun x => x.getD t [])) := by
      rw [hmv]
      rfl
    unfold compute_p_prune
    dsimp only
    rw [hnum, if_neg (by simp [hgr])]
  have hw : (accOf rng s2 key t).2.log_trans_prior = complete_ratio mv (workOf rng s2 key t).counts s2.min_points_per_leaf := by
    rw [hmv]; rfl
  rw [hw]
  obtain ⟨⟨x, x1, x2⟩, x3, x4⟩ := trans_error hP hδ h2 hp.length hp.value hp.range e1 (by rw [hnode]; exact hg.not_bottom)
    (by rw [hnode]; exact hg.leaf.1.pos) (by rw [hnode]; exact π1) (by omega) (by rw [hnode]; exact b2 i hg.not_bottom hgi) b1 m1
    (m2.trans (hpow.trans (by norm_num))) (workOf rng s2 key t).counts s2.min_points_per_leaf hgrow
  rw [hnode] at x2 x3 x4
  refine ⟨⟨x, x1, x2.trans (le_of_eq ?_)⟩, x3, x4⟩
  push_cast
  ring

end
end

end Bartz
