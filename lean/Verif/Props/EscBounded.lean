import Verif.Lemmas.EscBounded

set_option linter.unusedSectionVars false

/-! # C78: the bounded Bessel decision where it is exact -/

namespace Ctb

open Classical Filter Topology MeasureTheory ENNReal

variable {T a b K B p q u : ℝ}

/-- With an upper bound the decision is made by the conditional probability, for bridges from a positive value and for short ones, as long as value 3
of the series for the bound is below 1.  Missing: long bridges from 0; where value 3 is not below 1 the decision can be wrong (`C78_violated`). -/
theorem C78_decision_partial (hT : 0 < T) (ha : 0 ≤ a) (hb : 0 < b) (haK : a < K) (hbK : b < K) (hB : K ≤ B) (hs : 0 < a ∨ T < 3 * K ^ 2)
    (hp : Tendsto (besSeries T a b K) atTop (𝓝 p)) (hq : Tendsto (besSeries T a b B) atTop (𝓝 q)) (h3 : besSeries T a b B 3 < 1) (h0 : 0 ≤ u) (h1 : u ≤ 1)
    (r : Res Bool) :
    (u < 1 - (1 - p) / (1 - q) → ((besEsc T a b K (some B) (some u)).Out r ↔ r = .ok true)) ∧
      (1 - (1 - p) / (1 - q) < u → ((besEsc T a b K (some B) (some u)).Out r ↔ r = .ok false)) := by
  obtain ⟨-, -, i0, hA, hu⟩ := bes_bounded_search hT ha hb haK hbK hB hs hp hq h3
  simp only [besEsc]
  rw [hu u h0 h1]
  refine ⟨fun h => ?_, fun h => ?_⟩
  · rw [escSearch_true hA h]; rfl
  · rw [escSearch_false hA h]; rfl

/-- With its own seed, under the same proviso. -/
theorem C78_prob_partial (hT : 0 < T) (ha : 0 ≤ a) (hb : 0 < b) (haK : a < K) (hbK : b < K) (hB : K ≤ B) (hs : 0 < a ∨ T < 3 * K ^ 2)
    (hp : Tendsto (besSeries T a b K) atTop (𝓝 p)) (hq : Tendsto (besSeries T a b B) atTop (𝓝 q)) (h3 : besSeries T a b B 3 < 1) :
    (besEsc T a b K (some B) none).prob (fun r => r = .ok true) = ENNReal.ofReal (1 - (1 - p) / (1 - q)) ∧
      (besEsc T a b K (some B) none).prob (fun r => r = .ok false) = 1 - ENNReal.ofReal (1 - (1 - p) / (1 - q)) := by
  obtain ⟨hp1, hq1, i0, hA, hu⟩ := bes_bounded_search hT ha hb haK hbK hB hs hp hq h3
  have l1 : 1 - (1 - p) / (1 - q) ≤ 1 := by
    have := div_nonneg (sub_nonneg.2 hp1.le) (sub_nonneg.2 hq1.le)
    linarith
  generalize 1 - (1 - p) / (1 - q) = c at hA l1 ⊢
  have l0 : 0 ≤ max 0 c := le_max_left _ _
  have l1' : max 0 c ≤ 1 := max_le zero_le_one l1
  have t : ∀ u : ℝ, 0 ≤ u → u < max 0 c → u < c := fun u h0 h => (lt_max_iff.1 h).resolve_left (not_lt.2 h0)
  have f : ∀ u : ℝ, max 0 c < u → c < u := fun u h => (le_max_right _ _).trans_lt h
  have e : ENNReal.ofReal c = ENNReal.ofReal (max 0 c) := by
    rcases le_total 0 c with h | h
    · rw [max_eq_right h]
    · rw [max_eq_left h, ENNReal.ofReal_of_nonpos h, ENNReal.ofReal_zero]
  rw [e]
  unfold Prog.prob
  simp only [besEsc, Prog.draw, Prog.real_bind, Prog.ret_bind, Prog.lexp_real]
  constructor
  · rw [unif_decide (A := 1) (B := 0) l0 l1' (fun u h0 h1 h => ?_) (fun u h0 h1 h => ?_)]
    · simp
    · rw [hu u h0 h1.le, escSearch_true hA (t u h0 h)]; simp [searchResult]
    · rw [hu u h0 h1.le, escSearch_false hA (f u h)]; simp [searchResult]
  · rw [unif_decide (A := 0) (B := 1) l0 l1' (fun u h0 h1 h => ?_) (fun u h0 h1 h => ?_)]
    · simp [ENNReal.ofReal_sub _ l0]
    · rw [hu u h0 h1.le, escSearch_true hA (t u h0 h)]; simp [searchResult]
    · rw [hu u h0 h1.le, escSearch_false hA (f u h)]; simp [searchResult]

theorem bound_three : besSeries 1 0 1 3 3 < 1 := by
  have e : besSeries 1 0 1 3 = partialSum (besTerm 1 1 3) := by funext i; unfold besSeries; simp
  have h12 := besSize_first (T := 1) (b := 1) (K := 3) (by norm_num) (by norm_num) (by norm_num) (by norm_num)
  have hpos := besSize_pos (T := 1) (b := 1) (K := 3) (by norm_num) (by norm_num) (by norm_num)
  have h23 : besSize 1 1 3 3 < besSize 1 1 3 2 := by
    refine besSize_anti (T := 1) (by norm_num) (by norm_num) (by norm_num) (m := 2) ?_ le_rfl
    norm_num [besY]
  have h1 : besSize 1 1 3 1 < 1 := by
    rw [besSize_eq (by norm_num)]
    have y1 : besY 1 3 1 = 5 := by norm_num [besY]
    rw [y1]
    unfold besH
    rw [div_one, mul_left_comm, ← Real.exp_add, show (1 : ℝ) ^ 2 / (2 * 1) + -5 ^ 2 / (2 * 1) = -12 by norm_num, Real.exp_neg, ← div_eq_mul_inv,
      div_lt_one (Real.exp_pos _)]
    linarith [Real.add_one_le_exp (12 : ℝ)]
  rw [e]
  simp only [partialSum, besTerm_sign]
  norm_num
  linarith [hpos 1, hpos 2, hpos 3]

/-- A bridge from 0 to 1 of duration 1, level 2, bound 3. -/
example : ∃ c : ℝ, (besEsc 1 0 1 2 (some 3) none).prob (fun r => r = .ok true) = ENNReal.ofReal c ∧
    (besEsc 1 0 1 2 (some 3) none).prob (fun r => r = .ok false) = 1 - ENNReal.ofReal c := by
  obtain ⟨p, -, hp, -⟩ := bes_search (T := 1) (a := 0) (b := 1) (K := 2) (by norm_num) le_rfl (by norm_num) (by norm_num) (by norm_num)
  obtain ⟨q, -, hq, -⟩ := bes_search (T := 1) (a := 0) (b := 1) (K := 3) (by norm_num) le_rfl (by norm_num) (by norm_num) (by norm_num)
  exact ⟨_, C78_prob_partial (by norm_num) le_rfl (by norm_num) (by norm_num) (by norm_num) (by norm_num) (Or.inr (by norm_num)) hp hq bound_three⟩

end Ctb
