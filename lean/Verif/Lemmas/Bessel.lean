import Verif.Lemmas.Escape
import Mathlib.NumberTheory.LSeries.HurwitzZetaOdd
import Mathlib.Analysis.Calculus.Deriv.MeanValue
import Mathlib.Analysis.SpecialFunctions.ExpDeriv

set_option linter.unusedSectionVars false

/-! # Lemmas on the escape series of the Bessel bridge from 0 -/

namespace Ctb

open Classical Filter Topology Finset

variable {T b K : ℝ}

/-- `y exp(-y^2 / 2T)`. -/
noncomputable def besH (T y : ℝ) : ℝ := y * Real.exp (-y ^ 2 / (2 * T))

theorem besH_hasDeriv (hT : 0 < T) (y : ℝ) : HasDerivAt (besH T) ((1 - y ^ 2 / T) * Real.exp (-y ^ 2 / (2 * T))) y := by
  have h1 : HasDerivAt (fun y : ℝ => -y ^ 2 / (2 * T)) (-(2 * y) / (2 * T)) y := by
    have := ((hasDerivAt_pow 2 y).neg.div_const (2 * T))
    simpa using this
  have h2 := (hasDerivAt_id y).mul h1.exp
  refine h2.congr_deriv ?_
  simp only [id]
  field_simp
  ring

theorem besH_anti (hT : 0 < T) : StrictAntiOn (besH T) (Set.Ici (√T)) := by
  apply strictAntiOn_of_deriv_neg (convex_Ici _)
  · exact fun y _ => (besH_hasDeriv hT y).continuousAt.continuousWithinAt
  · intro y hy
    rw [interior_Ici] at hy
    rw [(besH_hasDeriv hT y).deriv]
    have h1 : T < y ^ 2 := by
      have := Real.sqrt_nonneg T
      have h2 : √T < y := hy
      nlinarith [Real.sq_sqrt hT.le]
    apply mul_neg_of_neg_of_pos _ (Real.exp_pos _)
    rw [sub_neg, one_lt_div hT]
    exact h1

theorem besH_mono (hT : 0 < T) : StrictMonoOn (besH T) (Set.Icc 0 (√T)) := by
  apply strictMonoOn_of_deriv_pos (convex_Icc _ _)
  · exact fun y _ => (besH_hasDeriv hT y).continuousAt.continuousWithinAt
  · intro y hy
    rw [interior_Icc] at hy
    rw [(besH_hasDeriv hT y).deriv]
    have h1 : y ^ 2 < T := by
      have := Real.sqrt_nonneg T
      nlinarith [Real.sq_sqrt hT.le, hy.1, hy.2]
    apply mul_pos _ (Real.exp_pos _)
    rw [sub_pos, div_lt_one hT]
    exact h1

/-- Points at which the terms evaluate `besH`. -/
noncomputable def besY (b K : ℝ) (i : ℕ) : ℝ := if i % 2 = 1 then 2 * K * ((i + 1) / 2 : ℕ) - b else 2 * K * (i / 2 : ℕ) + b

/-- Absolute value of term `i`. -/
noncomputable def besSize (T b K : ℝ) (i : ℕ) : ℝ :=
  if i % 2 = 1 then besInc T K ((i + 1) / 2) (-b) / b else besInc T K (i / 2) b / b

theorem besTerm_sign (i : ℕ) : besTerm T b K i = (-1) ^ (i + 1) * besSize T b K i := by
  unfold besTerm besSize
  by_cases h : i % 2 = 1
  · rw [if_pos h, if_pos h, Even.neg_one_pow (by rw [Nat.even_iff]; omega), one_mul]
  · rw [if_neg h, if_neg h, Odd.neg_one_pow (by rw [Nat.odd_iff]; omega), neg_one_mul]

theorem besInc_eq (hT : 0 < T) (j : ℕ) (c : ℝ) : besInc T K j c = Real.exp (c ^ 2 / (2 * T)) * besH T (2 * K * j + c) := by
  unfold besInc besH
  rw [mul_left_comm, ← Real.exp_add]
  congr 2
  field_simp
  ring

theorem besSize_eq (hT : 0 < T) (i : ℕ) : besSize T b K i = Real.exp (b ^ 2 / (2 * T)) / b * besH T (besY b K i) := by
  unfold besSize besY
  split_ifs
  · rw [besInc_eq hT, neg_sq, sub_eq_add_neg]; ring
  · rw [besInc_eq hT]; ring

theorem besY_lt (hb : 0 < b) (hK : b < K) (i : ℕ) : besY b K i < besY b K (i + 1) := by
  unfold besY
  by_cases h : i % 2 = 1
  · rw [if_pos h, if_neg (by omega)]; linarith
  · rw [if_neg h, if_pos (by omega), show (i + 1 + 1) / 2 = i / 2 + 1 by omega]
    push_cast; linarith

theorem besY_mono (hb : 0 < b) (hK : b < K) : StrictMono (besY b K) := strictMono_nat_of_lt_succ (besY_lt hb hK)

theorem besY_pos (hb : 0 < b) (hK : b < K) (i : ℕ) : 0 < besY b K i := by
  have h0 : besY b K 0 = b := by simp [besY]
  have := (besY_mono hb hK).monotone (Nat.zero_le i)
  linarith

theorem besSize_pos (hT : 0 < T) (hb : 0 < b) (hK : b < K) (i : ℕ) : 0 < besSize T b K i := by
  rw [besSize_eq hT]
  exact mul_pos (div_pos (Real.exp_pos _) hb) (mul_pos (besY_pos hb hK i) (Real.exp_pos _))

theorem besSize_lt_iff (hT : 0 < T) (hb : 0 < b) (i j : ℕ) :
    besSize T b K i < besSize T b K j ↔ besH T (besY b K i) < besH T (besY b K j) := by
  rw [besSize_eq hT, besSize_eq hT]
  exact mul_lt_mul_iff_right₀ (div_pos (Real.exp_pos _) hb)

/-- Past the mode the sizes decrease. -/
theorem besSize_anti (hT : 0 < T) (hb : 0 < b) (hK : b < K) {m : ℕ} (hm : √T ≤ besY b K m) {i : ℕ} (hi : m ≤ i) :
    besSize T b K (i + 1) < besSize T b K i := by
  rw [besSize_lt_iff hT hb]
  have h1 := hm.trans ((besY_mono hb hK).monotone hi)
  exact besH_anti hT h1 (h1.trans (besY_lt hb hK i).le) (besY_lt hb hK i)

theorem besSize_tendsto (hT : 0 < T) (hb : 0 < b) (hK : b < K) : Tendsto (besSize T b K) atTop (𝓝 0) := by
  have hex : ∃ m, √T ≤ besY b K m := by
    obtain ⟨n, hn⟩ := exists_nat_ge (√T / (2 * K))
    refine ⟨2 * n, ?_⟩
    unfold besY
    rw [if_neg (by omega), Nat.mul_div_cancel_left _ two_pos]
    rw [div_le_iff₀ (by linarith)] at hn
    linarith
  obtain ⟨m, hm⟩ := hex
  refine tendsto_of_even (m := m) (fun i hi => (besSize_anti hT hb hK hm hi).le) (fun i => (besSize_pos hT hb hK i).le) ?_
  have hr : Real.exp (-(2 * K * b / T)) < 1 := by
    rw [Real.exp_lt_one_iff]
    have : 0 < 2 * K * b / T := by have := hb.trans hK; positivity
    linarith
  have t1 := tendsto_self_mul_const_pow_of_lt_one (Real.exp_pos _).le hr
  have t2 := tendsto_pow_atTop_nhds_zero_of_lt_one (Real.exp_pos _).le hr
  have t3 := ((t1.const_mul (2 * K)).add (t2.const_mul b)).div_const b
  simp only [mul_zero, add_zero, zero_div] at t3
  refine squeeze_zero (fun j => (besSize_pos hT hb hK _).le) (fun j => ?_) t3
  unfold besSize besInc
  rw [if_neg (by omega), Nat.mul_div_cancel_left _ two_pos, div_le_div_iff_of_pos_right hb]
  have hKp : 0 < K := hb.trans hK
  have e : Real.exp (-2 * K * j * (K * j + b) / T) ≤ Real.exp (-(2 * K * b / T)) ^ j := by
    rw [← Real.exp_nat_mul, Real.exp_le_exp, mul_neg, ← mul_div_assoc, ← neg_div, div_le_div_iff_of_pos_right hT]
    nlinarith [mul_nonneg (mul_nonneg hKp.le hKp.le) (mul_self_nonneg (j : ℝ))]
  have := mul_le_mul_of_nonneg_left e (by positivity : (0 : ℝ) ≤ 2 * K * j + b)
  linarith

/-- The first two sizes, for a short duration. -/
theorem besSize_first (hT : 0 < T) (hb : 0 < b) (hK : b < K) (hs : T < 3 * K ^ 2) : besSize T b K 2 < besSize T b K 1 := by
  have hKp : 0 < K := hb.trans hK
  rw [besSize_lt_iff hT hb]
  have y1 : besY b K 1 = 2 * K - b := by simp [besY]
  have y2 : besY b K 2 = 2 * K + b := by simp [besY]
  rw [y1, y2]
  unfold besH
  have e : Real.exp (-(2 * K - b) ^ 2 / (2 * T)) = Real.exp (-(2 * K + b) ^ 2 / (2 * T)) * Real.exp (4 * K * b / T) := by
    rw [← Real.exp_add]; congr 1; field_simp; ring
  rw [e, ← mul_assoc, mul_right_comm]
  apply mul_lt_mul_of_pos_right _ (Real.exp_pos _)
  set z := b / (2 * K) with hz
  have z0 : 0 < z := by positivity
  have z1 : z < 1 / 2 := by rw [hz, div_lt_iff₀ (by positivity)]; linarith
  have bz : b = 2 * K * z := by rw [hz]; field_simp
  have w : 8 * z / 3 ≤ 4 * K * b / T := by
    rw [div_le_div_iff₀ (by norm_num) hT, bz]
    nlinarith
  have q := Real.quadratic_le_exp_of_nonneg (by positivity : 0 ≤ 8 * z / 3)
  have q2 := Real.exp_le_exp.2 w
  have k : (1 + z) < (1 - z) * (1 + 8 * z / 3 + (8 * z / 3) ^ 2 / 2) := by
    nlinarith [mul_pos z0 z0, mul_pos (mul_pos z0 z0) (by linarith : 0 < 1 / 2 - z), mul_pos z0 (by linarith : 0 < 1 / 2 - z)]
  have k2 : (1 + z) < (1 - z) * Real.exp (4 * K * b / T) :=
    k.trans_le (mul_le_mul_of_nonneg_left (q.trans q2) (by linarith))
  rw [bz] at k2 ⊢
  nlinarith

theorem besSeries_alt_short (hT : 0 < T) (hb : 0 < b) (hK : b < K) (hs : T < 3 * K ^ 2) :
    ∃ p, AltAround (partialSum (besTerm T b K)) p 0 := by
  refine altAround_of_terms (m := 1) le_rfl (fun i _ => besTerm_sign i) (fun i hi => ?_) (besSize_tendsto hT hb hK)
  rcases hi.eq_or_lt with rfl | hi
  · exact (besSize_first hT hb hK hs).le
  · refine (besSize_anti hT hb hK (m := 2) ?_ hi).le
    have hKp : 0 < K := hb.trans hK
    rw [Real.sqrt_le_left (besY_pos hb hK 2).le]
    simp only [besY]
    norm_num
    nlinarith

/-- In general the series brackets from the mode on. -/
theorem besSeries_alt_from (hT : 0 < T) (hb : 0 < b) (hK : b < K) {m : ℕ} (hm : 1 ≤ m) (hy : √T ≤ besY b K m) :
    ∃ p, AltAround (partialSum (besTerm T b K)) p (m - 1) :=
  altAround_of_terms hm (fun i _ => besTerm_sign i) (fun _ hi => (besSize_anti hT hb hK hy hi).le) (besSize_tendsto hT hb hK)

end Ctb
