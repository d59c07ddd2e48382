import Verif.Lemmas.Alternating
import Mathlib.Analysis.SpecialFunctions.Exp
import Mathlib.Analysis.SpecificLimits.Normed

set_option linter.unusedSectionVars false

/-! # Lemmas on the escape series -/

namespace Ctb

open Classical Filter Topology Finset

/-! ## Brownian bridge -/

/-- Absolute value of term `i`. -/
noncomputable def brownSize (T a b K : ℝ) (i : ℕ) : ℝ :=
  if i % 2 = 1 then escUp T K ((i + 1) / 2) a b + escUp T K ((i + 1) / 2) (-a) (-b)
  else escDown T K (i / 2) a b + escDown T K (i / 2) (-a) (-b)

variable {T a b K : ℝ}

theorem brownTerm_sign (i : ℕ) : brownTerm T a b K i = (-1) ^ (i + 1) * brownSize T a b K i := by
  unfold brownTerm brownSize
  by_cases h : i % 2 = 1
  · rw [if_pos h, if_pos h, Even.neg_one_pow (by rw [Nat.even_iff]; omega), one_mul]
  · rw [if_neg h, if_neg h, Odd.neg_one_pow (by rw [Nat.odd_iff]; omega), neg_one_mul]

theorem escDown_lt_up (hT : 0 < T) (hK : 0 < K) (ha : -K < a) (hb : b < K) {j : ℕ} (hj : 1 ≤ j) : escDown T K j a b < escUp T K j a b := by
  unfold escDown escUp
  rw [Real.exp_lt_exp, div_lt_div_iff_of_pos_right hT]
  have h1 : (1 : ℝ) ≤ j := by exact_mod_cast hj
  have key : 0 < (K + a) * (4 * j * K - K - b) := mul_pos (by linarith) (by nlinarith)
  nlinarith

theorem escUp_lt_down (hT : 0 < T) (hK : 0 < K) (ha : a < K) (hb : b < K) (j : ℕ) : escUp T K (j + 1) a b < escDown T K j a b := by
  unfold escDown escUp
  rw [Real.exp_lt_exp, div_lt_div_iff_of_pos_right hT]
  have h1 : (0 : ℝ) ≤ j := by positivity
  have key : 0 < (K - a) * (4 * j * K + K - b) := mul_pos (by linarith) (by nlinarith)
  push_cast
  nlinarith

theorem brownSize_lt (hT : 0 < T) (ha : |a| < K) (hb : |b| < K) {i : ℕ} (hi : 1 ≤ i) : brownSize T a b K (i + 1) < brownSize T a b K i := by
  obtain ⟨a1, a2⟩ := abs_lt.1 ha
  obtain ⟨b1, b2⟩ := abs_lt.1 hb
  unfold brownSize
  by_cases h : i % 2 = 1
  · rw [if_pos h, if_neg (by omega)]
    exact add_lt_add (escDown_lt_up hT (by linarith) a1 b2 (by omega)) (escDown_lt_up hT (by linarith) (by linarith) (by linarith) (by omega))
  · rw [if_neg h, if_pos (by omega), show (i + 1 + 1) / 2 = i / 2 + 1 by omega]
    exact add_lt_add (escUp_lt_down hT (by linarith) a2 b2 _) (escUp_lt_down hT (by linarith) (by linarith) (by linarith) _)

theorem brownSize_pos (i : ℕ) : 0 < brownSize T a b K i := by
  unfold brownSize escUp escDown
  split_ifs <;> positivity

theorem escDown_tendsto (hT : 0 < T) (h : b - a < 2 * K) (hK : 0 < K) : Tendsto (fun j : ℕ => escDown T K j a b) atTop (𝓝 0) := by
  have hd : 0 < 4 * K ^ 2 + 2 * K * (a - b) := by nlinarith
  have hr : Real.exp (-(2 * (4 * K ^ 2 + 2 * K * (a - b)) / T)) < 1 := by
    rw [Real.exp_lt_one_iff]
    have := div_pos (mul_pos two_pos hd) hT
    linarith
  refine squeeze_zero (fun j => (Real.exp_pos _).le) (fun j => ?_) (tendsto_pow_atTop_nhds_zero_of_lt_one (Real.exp_pos _).le hr)
  rw [← Real.exp_nat_mul]
  unfold escDown
  rw [Real.exp_le_exp, mul_neg, ← mul_div_assoc, ← neg_div, div_le_div_iff_of_pos_right hT]
  rcases Nat.eq_zero_or_pos j with rfl | hj
  · simp
  · have h1 : (1 : ℝ) ≤ j := by exact_mod_cast hj
    have h2 : 0 ≤ (j : ℝ) * ((j - 1) * K ^ 2) := by
      have : 0 ≤ (j : ℝ) - 1 := by linarith
      positivity
    nlinarith

theorem brownSize_tendsto (hT : 0 < T) (ha : |a| < K) (hb : |b| < K) : Tendsto (brownSize T a b K) atTop (𝓝 0) := by
  obtain ⟨a1, a2⟩ := abs_lt.1 ha
  obtain ⟨b1, b2⟩ := abs_lt.1 hb
  refine tendsto_of_even (m := 1) (fun i hi => (brownSize_lt hT ha hb hi).le) (fun i => (brownSize_pos i).le) ?_
  have := (escDown_tendsto (a := a) (b := b) (K := K) hT (by linarith) (by linarith)).add
    (escDown_tendsto (a := -a) (b := -b) hT (by linarith) (K := K) (by linarith))
  rw [add_zero] at this
  refine this.congr fun j => ?_
  unfold brownSize
  rw [if_neg (by omega), Nat.mul_div_cancel_left _ two_pos]

theorem brownSeries_alt (hT : 0 < T) (ha : |a| < K) (hb : |b| < K) : ∃ p, AltAround (brownSeries T a b K) p 0 :=
  altAround_of_terms (m := 1) le_rfl (fun i _ => brownTerm_sign i) (fun i hi => (brownSize_lt hT ha hb hi).le) (brownSize_tendsto hT ha hb)

/-! ## Bounded series -/

/-- The quotient of two bracketing sequences brackets, as soon as the odd values of the denominator's series are below 1. -/
theorem boundedSeries_alt {r s : ℕ → ℝ} {p q : ℝ} {n : ℕ} (hr : AltAround r p n) (hs : AltAround s q n)
    (h1 : ∀ i, n < i → i % 2 = 1 → s i < 1) (hp : p ≤ 1) : AltAround (boundedSeries r s) (1 - (1 - p) / (1 - q)) n := by
  have hq : q < 1 := lt_of_le_of_lt ((hs.2 (2 * n + 1) (by omega)).2 (by omega)) (h1 (2 * n + 1) (by omega) (by omega))
  constructor
  · have h2 : Tendsto (fun i => s (i + 1)) atTop (𝓝 q) := (tendsto_add_atTop_iff_nat 1).2 hs.1
    exact ((hr.1.const_sub 1).div (h2.const_sub 1) (by linarith)).const_sub 1
  · intro i hi
    unfold boundedSeries
    constructor
    · intro he
      have g1 := (hr.2 i hi).1 he
      have g2 := (hs.2 (i + 1) (by omega)).2 (by omega)
      have g3 := h1 (i + 1) (by omega) (by omega)
      have : (1 - p) / (1 - q) ≤ (1 - r i) / (1 - s (i + 1)) := div_le_div₀ (by linarith) (by linarith) (by linarith) (by linarith)
      linarith
    · intro ho
      have g1 := (hr.2 i hi).2 ho
      have g2 := (hs.2 (i + 1) (by omega)).1 (by omega)
      have : (1 - r i) / (1 - s (i + 1)) ≤ (1 - p) / (1 - q) := by
        rw [div_le_div_iff₀ (by linarith) (by linarith)]
        nlinarith [mul_nonneg (sub_nonneg.2 hp) (sub_nonneg.2 g2), mul_nonneg (sub_nonneg.2 g1) (sub_nonneg.2 hq.le)]
      linarith

end Ctb
