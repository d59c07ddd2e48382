import Verif.Lemmas.GridLimit
import Mathlib.Analysis.PSeries
import Mathlib.Analysis.Normed.Group.FunctionSeries

/-! # Paths from their infimum observed on fine grids -/

set_option linter.unusedSectionVars false

namespace Ctb

open MeasureTheory Set Filter Topology
open scoped ENNReal

/-! ## Uniform bounds of the escape probability over a short time -/

theorem inv_sq_sum (N : ℕ) : ∑ j ∈ Finset.range N, 1 / ((j : ℝ) + 1) ^ 2 ≤ 2 := by
  have h : ∀ N : ℕ, ∑ j ∈ Finset.range (N + 1), 1 / ((j : ℝ) + 1) ^ 2 ≤ 2 - 1 / ((N : ℝ) + 1) := by
    intro N
    induction N with
    | zero => norm_num
    | succ N ih =>
      rw [Finset.sum_range_succ]
      push_cast
      have h1 : 1 / ((N : ℝ) + 1 + 1) ^ 2 ≤ 1 / ((N : ℝ) + 1) - 1 / ((N : ℝ) + 1 + 1) := by
        rw [div_sub_div _ _ (by positivity) (by positivity), div_le_div_iff₀ (by positivity) (by positivity)]
        have : (0 : ℝ) ≤ N := N.cast_nonneg
        nlinarith
      linarith
  have h1 : ∑ j ∈ Finset.range N, 1 / ((j : ℝ) + 1) ^ 2 ≤ ∑ j ∈ Finset.range (N + 1), 1 / ((j : ℝ) + 1) ^ 2 := by
    rw [Finset.sum_range_succ]
    have : 0 ≤ 1 / ((N : ℝ) + 1) ^ 2 := by positivity
    linarith
  have h2 : 0 ≤ 1 / ((N : ℝ) + 1) := by positivity
  linarith [h N]

theorem exp_pow_bound {x : ℝ} (hx : 0 < x) (n : ℕ) : Real.exp (-x) ≤ n.factorial / x ^ n := by
  rw [Real.exp_neg, inv_eq_one_div, div_le_div_iff₀ (Real.exp_pos x) (by positivity), one_mul]
  have := Real.pow_div_factorial_le_exp x hx.le n
  rwa [div_le_iff₀ (by positivity), mul_comm] at this

/-- Constant of the bound. -/
noncomputable def edgeConst (K ε : ℝ) : ℝ := 2 * (1 / ε ^ 4 + 24 * K ^ 2 / ε ^ 6)

/-- The weight of reflection number `j + 1`. -/
theorem image_bound {K ε v d e : ℝ} (hε : 0 < ε) (hv : 0 < v) (j : ℕ) (hd : (j + 1) * ε ≤ d) (he : (j + 1) * ε ≤ e) :
    (2 + 32 * (j + 1) ^ 2 * K ^ 2 / v) * Real.exp (-2 * d * e / v) ≤ v ^ 2 * (1 / ε ^ 4 + 24 * K ^ 2 / ε ^ 6) * (1 / ((j : ℝ) + 1) ^ 2) := by
  set i : ℝ := (j : ℝ) + 1 with hi
  have hi1 : 1 ≤ i := by rw [hi]; linarith [(j.cast_nonneg : (0 : ℝ) ≤ j)]
  have hi0 : 0 < i := by linarith
  have h1 : (i * ε) * (i * ε) ≤ d * e := mul_le_mul hd he (by positivity) ((by positivity : (0 : ℝ) ≤ i * ε).trans hd)
  have h2 : Real.exp (-2 * d * e / v) ≤ Real.exp (-(2 * (i * ε) ^ 2 / v)) := by
    rw [Real.exp_le_exp, neg_mul, neg_mul, neg_div, neg_le_neg_iff, div_le_div_iff_of_pos_right hv]
    nlinarith
  have hx : 0 < 2 * (i * ε) ^ 2 / v := by positivity
  have b2 := exp_pow_bound hx 2
  have b3 := exp_pow_bound hx 3
  have e2 : ((2 : ℕ).factorial : ℝ) / (2 * (i * ε) ^ 2 / v) ^ 2 = v ^ 2 / (2 * ε ^ 4) * (1 / i ^ 4) := by
    norm_num [Nat.factorial]; field_simp
  have e3 : ((3 : ℕ).factorial : ℝ) / (2 * (i * ε) ^ 2 / v) ^ 3 = 3 * v ^ 3 / (4 * ε ^ 6) * (1 / i ^ 6) := by
    norm_num [Nat.factorial]; field_simp; norm_num
  rw [e2] at b2
  rw [e3] at b3
  have hE := Real.exp_pos (-(2 * (i * ε) ^ 2 / v))
  have i4 : 1 / i ^ 4 ≤ 1 / i ^ 2 := one_div_le_one_div_of_le (by positivity) (pow_le_pow_right₀ hi1 (by norm_num))
  calc (2 + 32 * i ^ 2 * K ^ 2 / v) * Real.exp (-2 * d * e / v) ≤ (2 + 32 * i ^ 2 * K ^ 2 / v) * Real.exp (-(2 * (i * ε) ^ 2 / v)) :=
        mul_le_mul_of_nonneg_left h2 (by positivity)
    _ = 2 * Real.exp (-(2 * (i * ε) ^ 2 / v)) + 32 * i ^ 2 * K ^ 2 / v * Real.exp (-(2 * (i * ε) ^ 2 / v)) := by ring
    _ ≤ 2 * (v ^ 2 / (2 * ε ^ 4) * (1 / i ^ 4)) + 32 * i ^ 2 * K ^ 2 / v * (3 * v ^ 3 / (4 * ε ^ 6) * (1 / i ^ 6)) :=
        add_le_add (mul_le_mul_of_nonneg_left b2 (by norm_num)) (mul_le_mul_of_nonneg_left b3 (by positivity))
    _ = v ^ 2 * (1 / ε ^ 4 + 24 * K ^ 2 / ε ^ 6) * (1 / i ^ 4) := by field_simp; ring
    _ ≤ _ := mul_le_mul_of_nonneg_left i4 (by positivity)

theorem one_sub_exp_le (t : ℝ) : 1 - Real.exp (-t) ≤ t := by linarith [Real.add_one_le_exp (-t)]

theorem le_of_even {s : ℕ → ℝ} {p c : ℝ} (hp : Tendsto s atTop (𝓝 p)) (h : ∀ N, s (2 * N) ≤ c) : p ≤ c :=
  le_of_tendsto (hp.comp (tendsto_id.const_mul_atTop' (r := 2) (by norm_num))) (Eventually.of_forall h)

theorem besTerm_even (v y K : ℝ) (N : ℕ) :
    partialSum (besTerm v y K) (2 * N) = ∑ j ∈ Finset.range N, (besInc v K (j + 1) (-y) / y - besInc v K (j + 1) y / y) := by
  induction N with
  | zero => rfl
  | succ N ih =>
    rw [Finset.sum_range_succ, ← ih, show 2 * (N + 1) = 2 * N + 1 + 1 by ring, partialSum, partialSum, besTerm, besTerm, if_pos (by omega), if_neg (by omega),
      show (2 * N + 1 + 1) / 2 = N + 1 by omega]
    ring

/-- From the infimum. -/
theorem bes_zero_bound {v y K ε p : ℝ} (hv : 0 < v) (hε : 0 < ε) (hy : 0 < y) (hyK : y + ε ≤ K) (hp : Tendsto (besSeries v 0 y K) atTop (𝓝 p)) :
    p ≤ edgeConst K ε * v ^ 2 := by
  refine le_of_even hp fun N => ?_
  have e : besSeries v 0 y K (2 * N) = partialSum (besTerm v y K) (2 * N) := by unfold besSeries; simp
  rw [e, besTerm_even]
  have hK : 0 < K := by linarith
  calc _ ≤ ∑ j ∈ Finset.range N, v ^ 2 * (1 / ε ^ 4 + 24 * K ^ 2 / ε ^ 6) * (1 / ((j : ℝ) + 1) ^ 2) := Finset.sum_le_sum fun j _ => ?_
    _ = v ^ 2 * (1 / ε ^ 4 + 24 * K ^ 2 / ε ^ 6) * ∑ j ∈ Finset.range N, 1 / ((j : ℝ) + 1) ^ 2 := by rw [Finset.mul_sum]
    _ ≤ v ^ 2 * (1 / ε ^ 4 + 24 * K ^ 2 / ε ^ 6) * 2 := mul_le_mul_of_nonneg_left (inv_sq_sum N) (by positivity)
    _ = _ := by unfold edgeConst; ring
  have hj : (0 : ℝ) ≤ j := j.cast_nonneg
  refine le_trans ?_ (image_bound (K := K) hε hv j (d := (j + 1) * K) (e := (j + 1) * K - y) ?_ ?_)
  · unfold besInc
    push_cast
    set i : ℝ := (j : ℝ) + 1 with hi
    have hi0 : 0 < i := by linarith
    have e1 : Real.exp (-2 * K * i * (K * i + -y) / v) = Real.exp (-2 * (i * K) * (i * K - y) / v) := by congr 1; ring
    have e2 : Real.exp (-2 * K * i * (K * i + y) / v) = Real.exp (-2 * (i * K) * (i * K - y) / v) * Real.exp (-(4 * i * K * y / v)) := by
      rw [← Real.exp_add]; congr 1; field_simp; ring
    rw [e1, e2]
    set E := Real.exp (-2 * (i * K) * (i * K - y) / v) with hE
    have hE0 : 0 < E := Real.exp_pos _
    have h1 := one_sub_exp_le (4 * i * K * y / v)
    have h0 := Real.exp_pos (-(4 * i * K * y / v))
    set t := Real.exp (-(4 * i * K * y / v))
    have h2 : (2 * K * i + -y) * E / y - (2 * K * i + y) * (E * t) / y ≤ 2 * K * i * (1 - t) * E / y := by
      rw [← sub_div, div_le_div_iff_of_pos_right hy]
      nlinarith [mul_pos hy hE0, mul_pos (mul_pos hy hE0) h0]
    refine h2.trans ?_
    have h3 : 2 * K * i * (1 - t) * E / y ≤ 2 * K * i * (4 * i * K * y / v) * E / y := by
      rw [div_le_div_iff_of_pos_right hy]
      exact mul_le_mul_of_nonneg_right (mul_le_mul_of_nonneg_left h1 (by positivity)) hE0.le
    refine h3.trans ?_
    have h4 : 2 * K * i * (4 * i * K * y / v) * E / y = 8 * i ^ 2 * K ^ 2 / v * E := by field_simp; ring
    rw [h4]
    refine mul_le_mul_of_nonneg_right ?_ hE0.le
    have : 0 ≤ i ^ 2 * K ^ 2 / v := by positivity
    have e5 : 8 * i ^ 2 * K ^ 2 / v = 8 * (i ^ 2 * K ^ 2 / v) := by ring
    have e6 : 32 * i ^ 2 * K ^ 2 / v = 32 * (i ^ 2 * K ^ 2 / v) := by ring
    rw [e5, e6]
    linarith
  · exact mul_le_mul_of_nonneg_left (by linarith) (by positivity)
  · nlinarith

theorem sinh_bound {t : ℝ} (ht : 0 ≤ t) : 0 ≤ Real.exp t - Real.exp (-t) ∧ Real.exp t - Real.exp (-t) ≤ 2 * t * Real.exp t := by
  have h := one_sub_exp_le (2 * t)
  have e : Real.exp (-t) = Real.exp t * Real.exp (-(2 * t)) := by rw [← Real.exp_add]; congr 1; ring
  constructor
  · linarith [Real.exp_le_exp.2 (show -t ≤ t by linarith)]
  · rw [e]
    nlinarith [Real.exp_pos t]

theorem pair_small {E q A B A' B' L : ℝ} (hE : 0 < E) (hq : 0 < q) (h : q ≤ 1 / 2) (hA : 0 < A) (hB : 0 < B) (hA' : 0 < A') (hB' : 0 < B') (hL : 0 ≤ L) (hBB : B' ≤ B) :
    E * q * A * B + E * q * A' * B' - (E * A' * B + E * A * B') ≤ (1 - q) * ((2 + L) * (E * q * A * B)) := by
  have h1 : E * q * A' * B' ≤ E * A' * B := by
    calc E * q * A' * B' ≤ E * 1 * A' * B := by gcongr; linarith
      _ = E * A' * B := by ring
  have h2 : 0 ≤ E * A * B' := by positivity
  have hW : 0 < E * q * A * B := by positivity
  have h3 : E * q * A * B ≤ (1 - q) * (2 * (E * q * A * B)) := by nlinarith
  have h4 : 0 ≤ (1 - q) * (L * (E * q * A * B)) := mul_nonneg (by linarith) (by positivity)
  have e : (1 - q) * ((2 + L) * (E * q * A * B)) = (1 - q) * (2 * (E * q * A * B)) + (1 - q) * (L * (E * q * A * B)) := by ring
  rw [e]
  linarith

theorem pair_large {E q A B A' B' L M : ℝ} (hE : 0 < E) (h : 1 / 2 ≤ q) (hq : q < 1) (hA : 0 < A) (hB : 0 < B) (hA' : 0 < A') (hB' : 0 < B') (hM : 0 ≤ M)
    (h2 : (A - A') * (B - B') ≤ M * (A * B)) (hL : 2 * M ≤ L * (1 - q)) :
    E * q * A * B + E * q * A' * B' - (E * A' * B + E * A * B') ≤ (1 - q) * ((2 + L) * (E * q * A * B)) := by
  have h1 : 0 ≤ (1 - q) * (E * (A * B) + E * (A' * B')) := mul_nonneg (by linarith) (by positivity)
  have e1 : E * q * A * B + E * q * A' * B' - (E * A' * B + E * A * B') = E * ((A - A') * (B - B')) - (1 - q) * (E * (A * B) + E * (A' * B')) := by ring
  have h3 : E * ((A - A') * (B - B')) ≤ E * (M * (A * B)) := mul_le_mul_of_nonneg_left h2 hE.le
  have hW : 0 < E * (A * B) := by positivity
  have h4 : E * (M * (A * B)) ≤ 2 * M * (q * (E * (A * B))) := by
    have : 0 ≤ M * (E * (A * B)) * (2 * q - 1) := mul_nonneg (by positivity) (by linarith)
    linarith
  have h5 : 2 * M * (q * (E * (A * B))) ≤ L * (1 - q) * (q * (E * (A * B))) := mul_le_mul_of_nonneg_right hL (by positivity)
  have h6 : 0 ≤ (1 - q) * (2 * (q * (E * (A * B)))) := mul_nonneg (by linarith) (by positivity)
  have e2 : (1 - q) * ((2 + L) * (E * q * A * B)) = (1 - q) * (2 * (q * (E * (A * B)))) + L * (1 - q) * (q * (E * (A * B))) := by ring
  rw [e1, e2]
  linarith

/-- One pair of reflections of each kind. -/
theorem pair_bound {v x y K : ℝ} (i : ℝ) (hi : 0 < i) (hv : 0 < v) (hK : 0 < K) (hx : 0 < x) (hy : 0 < y) :
    Real.exp (-2 * (i * K - x) * (i * K - y) / v) + Real.exp (-2 * (i * K + x) * (i * K + y) / v) -
        (Real.exp (-2 * i * K * (i * K + (x - y)) / v) + Real.exp (-2 * i * K * (i * K - (x - y)) / v)) ≤
      (1 - Real.exp (-2 * x * y / v)) * ((2 + 32 * i ^ 2 * K ^ 2 / v) * Real.exp (-2 * (i * K - x) * (i * K - y) / v)) := by
  have hc0 : 0 < 2 * i * K / v := by positivity
  have hq1 : Real.exp (-2 * x * y / v) < 1 := by
    rw [Real.exp_lt_one_iff, show -2 * x * y / v = -(2 * x * y / v) by ring]
    have : 0 < 2 * x * y / v := by positivity
    linarith
  have ew : Real.exp (-2 * (i * K - x) * (i * K - y) / v) = Real.exp (-2 * (i * K) ^ 2 / v) * Real.exp (-2 * x * y / v) * Real.exp (2 * i * K / v * x) *
      Real.exp (2 * i * K / v * y) := by
    rw [← Real.exp_add, ← Real.exp_add, ← Real.exp_add]; congr 1; field_simp; ring
  have ez : Real.exp (-2 * (i * K + x) * (i * K + y) / v) = Real.exp (-2 * (i * K) ^ 2 / v) * Real.exp (-2 * x * y / v) * Real.exp (-(2 * i * K / v * x)) *
      Real.exp (-(2 * i * K / v * y)) := by
    rw [← Real.exp_add, ← Real.exp_add, ← Real.exp_add]; congr 1; field_simp; ring
  have er1 : Real.exp (-2 * i * K * (i * K + (x - y)) / v) = Real.exp (-2 * (i * K) ^ 2 / v) * Real.exp (-(2 * i * K / v * x)) * Real.exp (2 * i * K / v * y) := by
    rw [← Real.exp_add, ← Real.exp_add]; congr 1; field_simp; ring
  have er2 : Real.exp (-2 * i * K * (i * K - (x - y)) / v) = Real.exp (-2 * (i * K) ^ 2 / v) * Real.exp (2 * i * K / v * x) * Real.exp (-(2 * i * K / v * y)) := by
    rw [← Real.exp_add, ← Real.exp_add]; congr 1; field_simp; ring
  rw [ew, ez, er1, er2]
  have hcx : 0 < 2 * i * K / v * x := by positivity
  have hcy : 0 < 2 * i * K / v * y := by positivity
  obtain ⟨sx0, sx⟩ := sinh_bound hcx.le
  obtain ⟨sy0, sy⟩ := sinh_bound hcy.le
  rcases le_total (Real.exp (-2 * x * y / v)) (1 / 2) with h | h
  · exact pair_small (Real.exp_pos _) (Real.exp_pos _) h (Real.exp_pos _) (Real.exp_pos _) (Real.exp_pos _) (Real.exp_pos _) (by positivity) (by linarith)
  · refine pair_large (M := 4 * (2 * i * K / v) ^ 2 * (x * y)) (Real.exp_pos _) h hq1 (Real.exp_pos _) (Real.exp_pos _) (Real.exp_pos _) (Real.exp_pos _)
      (by positivity) ?_ ?_
    · refine (mul_le_mul sx sy sy0 (by positivity)).trans (le_of_eq ?_)
      ring
    · have h3 : x * y ≤ v * (1 - Real.exp (-2 * x * y / v)) := by
        have h5 : 1 - Real.exp (2 * x * y / v) ≤ -(2 * x * y / v) := by
          have := one_sub_exp_le (-(2 * x * y / v)); rwa [neg_neg] at this
        have h6 : Real.exp (-2 * x * y / v) * Real.exp (2 * x * y / v) = 1 := by
          rw [← Real.exp_add, show -2 * x * y / v + 2 * x * y / v = 0 by ring, Real.exp_zero]
        have hq0 := Real.exp_pos (-2 * x * y / v)
        generalize Real.exp (-2 * x * y / v) = q at *
        have h7 : 2 * x * y / v * q ≤ 1 - q := by nlinarith
        have hpos : 0 < x * y / v := by positivity
        have h8 : x * y / v ≤ 2 * x * y / v * q := by
          have e : 2 * x * y / v = 2 * (x * y / v) := by ring
          rw [e]; nlinarith
        have h9 : x * y / v ≤ 1 - q := h8.trans h7
        rw [div_le_iff₀ hv] at h9
        linarith
      have e : 32 * i ^ 2 * K ^ 2 / v * (1 - Real.exp (-2 * x * y / v)) = 8 * (2 * i * K / v) ^ 2 * (v * (1 - Real.exp (-2 * x * y / v))) := by
        field_simp; ring
      rw [e]
      have : 0 ≤ 8 * (2 * i * K / v) ^ 2 := by positivity
      have := mul_le_mul_of_nonneg_left h3 this
      linarith

theorem brownSeries_pairs (v x y K : ℝ) (N : ℕ) : brownSeries v (x - K / 2) (y - K / 2) (K / 2) (2 * N) =
    Real.exp (-2 * x * y / v) - Real.exp (-2 * (N * K + x) * (N * K + y) / v) +
      ∑ j ∈ Finset.range N, (Real.exp (-2 * (((j : ℝ) + 1) * K - x) * (((j : ℝ) + 1) * K - y) / v) +
        Real.exp (-2 * (((j : ℝ) + 1) * K + x) * (((j : ℝ) + 1) * K + y) / v) -
        (Real.exp (-2 * ((j : ℝ) + 1) * K * (((j : ℝ) + 1) * K + (x - y)) / v) + Real.exp (-2 * ((j : ℝ) + 1) * K * (((j : ℝ) + 1) * K - (x - y)) / v))) := by
  induction N with
  | zero => simp [brownSeries, partialSum]
  | succ N ih =>
    have hs : brownSeries v (x - K / 2) (y - K / 2) (K / 2) (2 * (N + 1)) = brownSeries v (x - K / 2) (y - K / 2) (K / 2) (2 * N) +
        (escUp v (K / 2) (N + 1) (x - K / 2) (y - K / 2) + escUp v (K / 2) (N + 1) (-(x - K / 2)) (-(y - K / 2))) -
        (escDown v (K / 2) (N + 1) (x - K / 2) (y - K / 2) + escDown v (K / 2) (N + 1) (-(x - K / 2)) (-(y - K / 2))) := by
      unfold brownSeries
      rw [show 2 * (N + 1) = 2 * N + 1 + 1 by ring, partialSum, partialSum, brownTerm, brownTerm, if_pos (by omega), if_neg (by omega),
        show (2 * N + 1 + 1) / 2 = N + 1 by omega]
      ring
    rw [hs, ih, Finset.sum_range_succ]
    unfold escUp escDown
    push_cast
    have e1 : -2 * (K / 2 * (2 * ((N : ℝ) + 1) - 1) - (x - K / 2)) * (K / 2 * (2 * ((N : ℝ) + 1) - 1) - (y - K / 2)) / v =
        -2 * (((N : ℝ) + 1) * K - x) * (((N : ℝ) + 1) * K - y) / v := by ring
    have e2 : -2 * (K / 2 * (2 * ((N : ℝ) + 1) - 1) - -(x - K / 2)) * (K / 2 * (2 * ((N : ℝ) + 1) - 1) - -(y - K / 2)) / v =
        -2 * ((N : ℝ) * K + x) * ((N : ℝ) * K + y) / v := by ring
    have e3 : -2 * ((N : ℝ) + 1) * (4 * (K / 2) ^ 2 * ((N : ℝ) + 1) + 2 * (K / 2) * (x - K / 2 - (y - K / 2))) / v =
        -2 * ((N : ℝ) + 1) * K * (((N : ℝ) + 1) * K + (x - y)) / v := by ring
    have e4 : -2 * ((N : ℝ) + 1) * (4 * (K / 2) ^ 2 * ((N : ℝ) + 1) + 2 * (K / 2) * (-(x - K / 2) - -(y - K / 2))) / v =
        -2 * ((N : ℝ) + 1) * K * (((N : ℝ) + 1) * K - (x - y)) / v := by ring
    rw [e1, e2, e3, e4]
    ring

/-- Between two points above the infimum. -/
theorem bes_bound {v x y K ε p : ℝ} (hv : 0 < v) (hε : 0 < ε) (hx : 0 < x) (hy : 0 < y) (hxK : x + ε ≤ K) (hyK : y + ε ≤ K)
    (hp : Tendsto (besSeries v x y K) atTop (𝓝 p)) : p ≤ edgeConst K ε * v ^ 2 := by
  refine le_of_even hp fun N => ?_
  have hK : 0 < K := by linarith
  have hq1 : Real.exp (-2 * x * y / v) < 1 := by
    rw [Real.exp_lt_one_iff, show -2 * x * y / v = -(2 * x * y / v) by ring]
    have : 0 < 2 * x * y / v := by positivity
    linarith
  have hq : 0 < 1 - Real.exp (-2 * x * y / v) := by linarith
  unfold besSeries
  rw [if_pos hx.ne', brownSeries_pairs]
  have hz := Real.exp_pos (-2 * (N * K + x) * (N * K + y) / v)
  have hsum : ∑ j ∈ Finset.range N, (Real.exp (-2 * (((j : ℝ) + 1) * K - x) * (((j : ℝ) + 1) * K - y) / v) +
        Real.exp (-2 * (((j : ℝ) + 1) * K + x) * (((j : ℝ) + 1) * K + y) / v) -
        (Real.exp (-2 * ((j : ℝ) + 1) * K * (((j : ℝ) + 1) * K + (x - y)) / v) + Real.exp (-2 * ((j : ℝ) + 1) * K * (((j : ℝ) + 1) * K - (x - y)) / v))) ≤
      (1 - Real.exp (-2 * x * y / v)) * (edgeConst K ε * v ^ 2) := by
    calc _ ≤ ∑ j ∈ Finset.range N, (1 - Real.exp (-2 * x * y / v)) * (v ^ 2 * (1 / ε ^ 4 + 24 * K ^ 2 / ε ^ 6) * (1 / ((j : ℝ) + 1) ^ 2)) :=
          Finset.sum_le_sum fun j _ => ?_
      _ = (1 - Real.exp (-2 * x * y / v)) * (v ^ 2 * (1 / ε ^ 4 + 24 * K ^ 2 / ε ^ 6) * ∑ j ∈ Finset.range N, 1 / ((j : ℝ) + 1) ^ 2) := by
          rw [Finset.mul_sum, Finset.mul_sum]
      _ ≤ (1 - Real.exp (-2 * x * y / v)) * (v ^ 2 * (1 / ε ^ 4 + 24 * K ^ 2 / ε ^ 6) * 2) :=
          mul_le_mul_of_nonneg_left (mul_le_mul_of_nonneg_left (inv_sq_sum N) (by positivity)) hq.le
      _ = _ := by unfold edgeConst; ring
    have hj : (0 : ℝ) ≤ j := j.cast_nonneg
    refine (pair_bound ((j : ℝ) + 1) (by linarith) hv hK hx hy).trans (mul_le_mul_of_nonneg_left (image_bound hε hv j ?_ ?_) hq.le) <;> nlinarith
  generalize (∑ j ∈ Finset.range N, (Real.exp (-2 * (((j : ℝ) + 1) * K - x) * (((j : ℝ) + 1) * K - y) / v) +
        Real.exp (-2 * (((j : ℝ) + 1) * K + x) * (((j : ℝ) + 1) * K + y) / v) -
        (Real.exp (-2 * ((j : ℝ) + 1) * K * (((j : ℝ) + 1) * K + (x - y)) / v) + Real.exp (-2 * ((j : ℝ) + 1) * K * (((j : ℝ) + 1) * K - (x - y)) / v)))) = S at hsum ⊢
  rw [sub_le_iff_le_add, ← sub_le_iff_le_add', le_div_iff₀ hq]
  linarith

/-! ## Kernels -/

theorem edgeConst_nonneg {K ε : ℝ} (hε : 0 < ε) : 0 ≤ edgeConst K ε := by unfold edgeConst; positivity

theorem edge_upper {ε m U v y : ℝ} (hε : 0 < ε) (hv : 0 < v) (hy : m < y ∧ y < U) :
    (1 - ENNReal.ofReal (edgeConst (U + ε - m) ε * v ^ 2)) * entrDens m v y ≤ stripEntr (U + ε) m v y := by
  obtain ⟨p, p0, p1, hp⟩ := C43_series (T := v) (a := 0) (b := y - m) (K := U + ε - m) hv le_rfl (by linarith) (by linarith) (by linarith)
  rw [stripEntr_esc hv hy.1 (by linarith) hp, mul_comm]
  refine mul_le_mul' le_rfl ?_
  rw [← ENNReal.ofReal_one, ← ENNReal.ofReal_sub _ (mul_nonneg (edgeConst_nonneg hε) (by positivity))]
  exact ENNReal.ofReal_le_ofReal (by linarith [bes_zero_bound hv hε (by linarith : 0 < y - m) (by linarith) hp])

theorem kill_upper {ε m U v x y : ℝ} (hε : 0 < ε) (hv : 0 < v) (hx : m < x ∧ x < U) (hy : m < y ∧ y < U) :
    (1 - ENNReal.ofReal (edgeConst (U + ε - m) ε * v ^ 2)) * killDens m v x y ≤ stripDens (U + ε) m v x y := by
  obtain ⟨p, p0, p1, hp⟩ := C43_series (T := v) (a := x - m) (b := y - m) (K := U + ε - m) hv (by linarith) (by linarith) (by linarith) (by linarith)
  rw [stripDens_esc hv hx.1 (by linarith) hy.1 (by linarith) hp, mul_comm]
  refine mul_le_mul' le_rfl ?_
  rw [← ENNReal.ofReal_one, ← ENNReal.ofReal_sub _ (mul_nonneg (edgeConst_nonneg hε) (by positivity))]
  exact ENNReal.ofReal_le_ofReal (by linarith [bes_bound hv hε (by linarith : 0 < x - m) (by linarith : 0 < y - m) (by linarith) (by linarith) hp])

theorem entr_le {m U v y : ℝ} (hv : 0 < v) (hy : m < y ∧ y < U) : stripEntr U m v y ≤ entrDens m v y := by
  rw [← edgeRate_mul]
  calc _ ≤ entrDens m v y * 1 := mul_le_mul' le_rfl (edgeRate_le hv hy.1 hy.2).1
    _ = _ := mul_one _

/-- A kernel above `m` sees only values above `m`. -/
theorem kerInt_above {k : ℝ → ℝ → ℝ → ℝ≥0∞} {m U b : ℝ} (hk : ∀ v x y, ¬ m < y → k v x y = 0) : ∀ (vs : List ℝ) (x : ℝ),
    kerInt k b vs x (allIn fun y => y < U) = kerInt k b vs x (allIn fun y => m < y ∧ y < U)
  | [], _ => rfl
  | [v], x => by simp [kerInt, allIn]
  | v :: w :: vs, x => by
    simp only [kerInt]
    refine lintegral_congr fun y => ?_
    by_cases hy : m < y
    · by_cases hyU : y < U
      · simp only [allIn_cons_of (D := fun y => y < U) hyU, allIn_cons_of (D := fun y => m < y ∧ y < U) ⟨hy, hyU⟩]
        rw [kerInt_above hk (w :: vs) y]
      · simp only [allIn_cons_not (D := fun y => y < U) hyU, allIn_cons_not (D := fun y => m < y ∧ y < U) fun h => hyU h.2]
    · rw [hk v x y hy, zero_mul, zero_mul]

theorem kill_above {m U b : ℝ} (vs : List ℝ) (x : ℝ) :
    (kerInt (killDens m) b vs x fun l => allIn (fun y => y < U) l) = kerInt (killDens m) b vs x (allIn fun y => m < y ∧ y < U) :=
  kerInt_above (fun v x y hy => if_neg fun h : m < x ∧ m < y => hy h.2) vs x

theorem edge_grid_upper {ε m U b : ℝ} {vs : List ℝ} (hε : 0 < ε) (hb : m < b ∧ b < U) (hp : ∀ v ∈ vs, 0 < v) :
    (1 - ENNReal.ofReal (vs.map fun v => edgeConst (U + ε - m) ε * v ^ 2).sum) * startInt (entrDens m) (killDens m) b vs (allIn fun y => y < U) ≤
      startInt (stripEntr (U + ε) m) (stripDens (U + ε) m) b vs (fun _ => 1) := by
  have hC := edgeConst_nonneg (K := U + ε - m) hε
  rw [← ofReal_sum_dur _ (fun v => by positivity)]
  refine (mul_le_mul' (prod_one_sub _ vs) le_rfl).trans ?_
  have hc : ∀ v : ℝ, (1 - ENNReal.ofReal (edgeConst (U + ε - m) ε * v ^ 2)) ≠ ∞ := fun v => (tsub_le_self.trans_lt ENNReal.one_lt_top).ne
  match vs, hp with
  | [], _ => simp [startInt]
  | [v], hp => simpa [startInt, allIn] using edge_upper hε (hp v (by simp)) hb
  | v :: w :: vs, hp =>
    have hfin : ∀ us : List ℝ, (us.map fun v => 1 - ENNReal.ofReal (edgeConst (U + ε - m) ε * v ^ 2)).prod ≠ ∞ := fun us => by
      induction us with
      | nil => simp
      | cons u us ih => rw [List.map_cons, List.prod_cons]; exact ENNReal.mul_ne_top (hc u) ih
    simp only [startInt]
    rw [← lintegral_const_mul' _ _ (hfin _)]
    refine lintegral_mono fun y => ?_
    rw [List.map_cons, List.prod_cons]
    by_cases hy : m < y
    · by_cases hyU : y < U
      · simp only [allIn_cons_of (D := fun y => y < U) hyU]
        rw [mul_mul_mul_comm]
        refine mul_le_mul' (edge_upper hε (hp v (by simp)) ⟨hy, hyU⟩) ?_
        rw [kill_above]
        exact kerInt_upper (D := fun y => m < y ∧ y < U) (fun v hv x y hx hy => kill_upper hε hv hx hy) hc hb (w :: vs) y ⟨hy, hyU⟩
          fun u hu => hp u (List.mem_cons_of_mem _ hu)
      · simp only [allIn_cons_not (D := fun y => y < U) hyU, kerInt_zero, mul_zero, zero_le]
    · rw [entrDens, if_neg hy, zero_mul, mul_zero]
      exact zero_le

theorem edge_grid_lower {m U b : ℝ} {vs : List ℝ} (hb : m < b ∧ b < U) (hp : ∀ v ∈ vs, 0 < v) :
    startInt (stripEntr U m) (stripDens U m) b vs (fun _ => 1) ≤ startInt (entrDens m) (killDens m) b vs (allIn fun y => y < U) := by
  match vs, hp with
  | [], _ => simp [startInt]
  | [v], hp => simpa [startInt, allIn] using entr_le (hp v (by simp)) hb
  | v :: w :: vs, hp =>
    simp only [startInt]
    refine lintegral_mono fun y => ?_
    by_cases hy : m < y ∧ y < U
    · simp only [allIn_cons_of (D := fun y => y < U) hy.2]
      refine mul_le_mul' (entr_le (hp v (by simp)) hy) ?_
      rw [kill_above]
      exact kerInt_lower (D := fun y => m < y ∧ y < U) (fun v hv x y hx hy => strip_le_kill hv hx hy) (fun v x y hy => if_neg fun h => hy h.2.2) hb (w :: vs) y hy
          fun u hu => hp u (List.mem_cons_of_mem _ hu)
    · rw [stripEntr, if_neg hy, zero_mul]
      exact zero_le

theorem pass_tail {v d : ℝ} (hv : 0 < v) (hd : d ≠ 0) : |passDens d v| ≤ 8 * v ^ 2 / Real.sqrt (2 * Real.pi * v ^ 3) / |d| ^ 3 := by
  unfold passDens
  have hs : 0 < Real.sqrt (2 * Real.pi * v ^ 3) := by positivity
  have hd' : 0 < |d| := abs_pos.2 hd
  have hx : 0 < d ^ 2 / (2 * v) := by positivity
  have h := exp_pow_bound hx 2
  rw [abs_mul, abs_div, abs_of_pos hs, abs_of_pos (Real.exp_pos _), neg_div]
  calc |d| / Real.sqrt (2 * Real.pi * v ^ 3) * Real.exp (-(d ^ 2 / (2 * v))) ≤ |d| / Real.sqrt (2 * Real.pi * v ^ 3) * ((2 : ℕ).factorial / (d ^ 2 / (2 * v)) ^ 2) :=
        mul_le_mul_of_nonneg_left h (by positivity)
    _ = _ := by
        rw [← sq_abs d]
        generalize |d| = e at hd'
        norm_num [Nat.factorial]
        field_simp
        norm_num

theorem edge_wider {T b m U : ℝ} (hT : 0 < T) (hb : m < b) (hU : b < U) {c : ℝ≥0∞} (hc : stripEntr U m T b < c) :
    ∃ ε, 0 < ε ∧ stripEntr (U + ε) m T b < c := by
  have hL : 0 < U - m := by linarith
  have hcont : ContinuousOn (fun ε : ℝ => ∑' k : ℤ, passDens (b - m + 2 * k * (U + ε - m)) T) (Ici 0) := by
    refine continuousOn_tsum (u := fun k : ℤ => |passDens (b - m) T| * (if k = 0 then 1 else 0) +
      8 * T ^ 2 / Real.sqrt (2 * Real.pi * T ^ 3) / (U - m) ^ 3 * (1 / (k : ℝ) ^ 2)) (fun k => ?_) ?_ fun k ε hε => ?_
    · unfold passDens
      fun_prop
    · refine Summable.add ?_ ?_
      · exact Summable.mul_left _ ((hasSum_ite_eq (0 : ℤ) (1 : ℝ)).summable)
      · exact Summable.mul_left _ (Real.summable_one_div_int_pow.2 (by norm_num))
    · have hε : 0 ≤ ε := hε
      rw [Real.norm_eq_abs]
      by_cases hk : k = 0
      · subst hk
        simp
      · rw [if_neg hk, mul_zero, zero_add]
        have hk1 : (1 : ℝ) ≤ |(k : ℝ)| := by
          have : (1 : ℤ) ≤ |k| := Int.one_le_abs hk
          exact_mod_cast this
        have hd : |(k : ℝ)| * (U - m) ≤ |b - m + 2 * k * (U + ε - m)| := by
          have h1 : |2 * (k : ℝ) * (U + ε - m)| ≤ |b - m + 2 * k * (U + ε - m)| + |b - m| := by
            have := abs_sub_abs_le_abs_sub (2 * (k : ℝ) * (U + ε - m)) (-(b - m))
            rw [abs_neg, sub_neg_eq_add, add_comm (2 * (k : ℝ) * (U + ε - m))] at this
            linarith
          rw [abs_mul, abs_mul, abs_of_pos (by norm_num : (0 : ℝ) < 2), abs_of_pos (by linarith : 0 < U + ε - m), abs_of_pos (by linarith : 0 < b - m)] at h1
          nlinarith
        have hd0 : 0 < |(k : ℝ)| * (U - m) := by positivity
        have hne : b - m + 2 * k * (U + ε - m) ≠ 0 := fun h => by rw [h, abs_zero] at hd; linarith
        refine (pass_tail hT hne).trans ?_
        calc 8 * T ^ 2 / Real.sqrt (2 * Real.pi * T ^ 3) / |b - m + 2 * k * (U + ε - m)| ^ 3 ≤ 8 * T ^ 2 / Real.sqrt (2 * Real.pi * T ^ 3) / (|(k : ℝ)| * (U - m)) ^ 3 := by
              gcongr
          _ = 8 * T ^ 2 / Real.sqrt (2 * Real.pi * T ^ 3) / (U - m) ^ 3 * (1 / |(k : ℝ)| ^ 3) := by
              rw [mul_pow]; field_simp
          _ ≤ _ := by
              refine mul_le_mul_of_nonneg_left ?_ (by positivity)
              rw [← sq_abs (k : ℝ)]
              exact one_div_le_one_div_of_le (by positivity) (pow_le_pow_right₀ hk1 (by norm_num))
  have h0 := hcont 0 (mem_Ici.2 le_rfl)
  have h1 : Tendsto (fun ε : ℝ => ENNReal.ofReal (∑' k : ℤ, passDens (b - m + 2 * k * (U + ε - m)) T)) (𝓝[>] 0)
      (𝓝 (ENNReal.ofReal (∑' k : ℤ, passDens (b - m + 2 * k * (U - m)) T))) := by
    refine ENNReal.tendsto_ofReal ?_
    have := h0.tendsto.mono_left (nhdsWithin_mono 0 Ioi_subset_Ici_self)
    simpa only [add_zero] using this
  rw [stripEntr, if_pos ⟨hb, hU⟩] at hc
  obtain ⟨ε, h3, h4⟩ := ((h1.eventually (gt_mem_nhds hc)).and self_mem_nhdsWithin).exists
  have h4 : 0 < ε := h4
  exact ⟨ε, h4, by rw [stripEntr, if_pos ⟨hb, by linarith⟩]; exact h3⟩

/-- Paths from their infimum on fine grids that stay below `U` there. -/
theorem edge_grid {T b m U : ℝ} (hb : m < b) (hU : b < U) {g : ℕ → List ℝ} (hg : FineGrids T g) :
    Tendsto (fun n => startInt (entrDens m) (killDens m) b (g n) (allIn fun y => y < U)) atTop (𝓝 (stripEntr U m T b)) := by
  have hne : ∀ n, g n ≠ [] := fun n h => by have := hg.two n; simp [h] at this
  have hT : 0 < T := by rw [← hg.total 0]; exact List.sum_pos _ (hg.pos 0) (hne 0)
  refine squeeze_eps (κ' := fun ε => stripEntr (U + ε) m T b) (fun n => ?_) (fun ε hε n => ?_) (fun ε hε => fine_const hg (edgeConst (U + ε - m) ε)) fun c hc =>
    edge_wider hT hb hU hc
  · rw [← hg.total n, ← strip_mass hb hU (hne n) (hg.pos n)]
    exact edge_grid_lower ⟨hb, hU⟩ (hg.pos n)
  · rw [← hg.total n, ← strip_mass hb (by linarith) (hne n) (hg.pos n)]
    exact edge_grid_upper hε ⟨hb, hU⟩ (hg.pos n)

end Ctb
