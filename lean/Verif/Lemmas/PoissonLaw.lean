import Verif.Lemmas.Coin
import Mathlib.MeasureTheory.Integral.IntervalIntegral.Basic
import Mathlib.MeasureTheory.Measure.Lebesgue.Basic

/-! # Expectations of products over Poisson points -/

set_option linter.unusedSectionVars false

namespace Ctb

open Classical MeasureTheory ProbabilityTheory
open scoped ENNReal

/-- `uniform(0, T)` has the density `1 / T` on `[0, T)`. -/
theorem law_uniform_zero {T : ℝ} (hT : 0 < T) : (RDist.uniform 0 T).law = ENNReal.ofReal (1 / T) • volume.restrict (Set.Ico 0 T) := by
  have e : (fun u : ℝ => (0 : ℝ) + (T - 0) * u) = (T * ·) := by ext u; ring
  have hpre : Set.Ico (0 : ℝ) 1 = (T * ·) ⁻¹' Set.Ico 0 T := by
    ext u
    simp only [Set.mem_Ico, Set.mem_preimage]
    constructor
    · rintro ⟨h0, h1⟩; exact ⟨by positivity, by nlinarith⟩
    · rintro ⟨h0, h1⟩; exact ⟨by by_contra h; push Not at h; nlinarith, by by_contra h; push Not at h; nlinarith⟩
  simp only [RDist.law]
  rw [e, hpre, ← Measure.restrict_map (by fun_prop) measurableSet_Ico, Real.map_volume_mul_left hT.ne', Measure.restrict_smul,
    abs_of_pos (by positivity), one_div]

theorem lintegral_uniform_ofReal {T : ℝ} (hT : 0 < T) {g : ℝ → ℝ} (h0 : ∀ t, 0 ≤ t → t < T → 0 ≤ g t)
    (hi : IntervalIntegrable g volume 0 T) :
    ∫⁻ t, ENNReal.ofReal (g t) ∂(RDist.uniform 0 T).law = ENNReal.ofReal ((∫ t in (0 : ℝ)..T, g t) / T) := by
  have hi' : Integrable g (volume.restrict (Set.Ico 0 T)) := by
    have := (intervalIntegrable_iff_integrableOn_Ico_of_le hT.le).1 hi
    exact this
  have hn : 0 ≤ᵐ[volume.restrict (Set.Ico 0 T)] g := by
    rw [Filter.EventuallyLE, ae_restrict_iff' measurableSet_Ico]
    exact Filter.Eventually.of_forall fun t ht => h0 t ht.1 ht.2
  rw [law_uniform_zero hT, lintegral_smul_measure, ← ofReal_integral_eq_lintegral_ofReal hi' hn, smul_eq_mul, ← ENNReal.ofReal_mul (by positivity)]
  congr 1
  rw [intervalIntegral.integral_of_le hT.le, integral_Ioc_eq_integral_Ioo, ← integral_Ico_eq_integral_Ioo]
  ring

/-- A value at the rows, zero for an exception. -/
noncomputable def atRows (f : List (List ℝ) → ℝ≥0∞) : Res (List (List ℝ)) → ℝ≥0∞
  | .ok rows => f rows
  | .error _ => 0

/-- Product over independent uniform points. -/
theorem lexp_rows {T : ℝ} {G : ℝ → ℝ≥0∞} (hG : ∀ t, G t ≠ ∞) (hI : ∫⁻ t, G t ∂(RDist.uniform 0 T).law ≠ ∞) (n : ℕ) :
    (Prog.replicate n (drawRow [T])).lexp (atRows fun rows => (rows.map fun r => G (firstCoord r)).prod) = (∫⁻ t, G t ∂(RDist.uniform 0 T).law) ^ n := by
  induction n with
  | zero => simp [Prog.replicate, atRows]
  | succ n ih =>
    rw [Prog.replicate, drawRow_single, Prog.real_bind, Prog.lexp_real]
    simp only [Prog.ret_bind, Prog.lexp_bind]
    rw [← drawRow_single]
    have : ∀ t, (Prog.replicate n (drawRow [T])).lexp (Prog.cont (fun l => Prog.ret ([t] :: l))
        (atRows fun rows => (rows.map fun r => G (firstCoord r)).prod) Prog.lexp) = G t * (∫⁻ t, G t ∂(RDist.uniform 0 T).law) ^ n := by
      intro t
      rw [← ih, ← Prog.lexp_const_mul _ _ (hG t)]
      refine Prog.lexp_congr fun r _ => ?_
      rcases r with e | rows
      · simp [atRows]
      · simp [atRows, firstCoord]
    simp only [this]
    rw [lintegral_mul_const' _ _ (ENNReal.pow_ne_top hI), pow_succ']

theorem lintegral_poisson_pow {lam q : ℝ} (hl : 0 ≤ lam) (hq : 0 ≤ q) :
    ∫⁻ n, (ENNReal.ofReal q) ^ n ∂(NDist.poisson lam).law = ENNReal.ofReal (Real.exp (lam * (q - 1))) := by
  simp only [NDist.law]
  rw [poissonMeasure, lintegral_sum_measure]
  simp only [lintegral_smul_measure, lintegral_dirac, smul_eq_mul, Real.coe_toNNReal _ hl]
  have hs := (NormedSpace.expSeries_div_hasSum_exp (lam * q)).mul_left (Real.exp (-lam))
  rw [← Real.exp_eq_exp_ℝ] at hs
  have e : ∀ n : ℕ, ENNReal.ofReal (Real.exp (-lam) * lam ^ n / n.factorial) * ENNReal.ofReal q ^ n =
      ENNReal.ofReal (Real.exp (-lam) * ((lam * q) ^ n / n.factorial)) := by
    intro n
    rw [← ENNReal.ofReal_pow hq, ← ENNReal.ofReal_mul (by positivity)]
    congr 1
    rw [mul_pow]
    ring
  simp only [e]
  rw [← ENNReal.ofReal_tsum_of_nonneg (fun n => by positivity) hs.summable, hs.tsum_eq, ← Real.exp_add]
  congr 2
  ring

/-- Expectation of a symmetric product over the points of `sample_ppp`. -/
theorem lexp_samplePpp {h T : ℝ} (hh : 0 < h) (hT : 0 < T) {g : ℝ → ℝ} (h0 : ∀ t, 0 ≤ t → t < T → 0 ≤ g t)
    (hi : IntervalIntegrable g volume 0 T) :
    (samplePpp h [T]).lexp (atRows fun rows => (rows.map fun r => ENNReal.ofReal (g (firstCoord r))).prod) =
      ENNReal.ofReal (Real.exp (h * ((∫ t in (0 : ℝ)..T, g t) - T))) := by
  unfold samplePpp
  simp only [Prog.assert]
  rw [if_pos hh, Prog.ret_bind, if_neg (by simp), if_pos (by simpa using hT), Prog.ret_bind, Prog.lexp_nat]
  have hint := lintegral_uniform_ofReal hT h0 hi
  have hnn : 0 ≤ ∫ t in (0 : ℝ)..T, g t := by
    rw [intervalIntegral.integral_of_le hT.le, integral_Ioc_eq_integral_Ioo]
    exact setIntegral_nonneg measurableSet_Ioo fun t ht => h0 t ht.1.le ht.2
  have : ∀ n : ℕ, ((Prog.replicate n (drawRow [T])).bind fun rows => Prog.ret (rows.insertionSort fun a b => firstCoord a ≤ firstCoord b)).lexp
      (atRows fun rows => (rows.map fun r => ENNReal.ofReal (g (firstCoord r))).prod) =
      (ENNReal.ofReal ((∫ t in (0 : ℝ)..T, g t) / T)) ^ n := by
    intro n
    rw [← hint, ← lexp_rows (fun t => ENNReal.ofReal_ne_top) (by rw [hint]; exact ENNReal.ofReal_ne_top), Prog.lexp_bind]
    refine Prog.lexp_congr fun r _ => ?_
    rcases r with e | rows
    · simp [atRows]
    · simp only [Prog.cont_ok, Prog.lexp_ret, atRows]
      exact ((sort_rows rows).1.map _).prod_eq
  simp only [this]
  rw [lintegral_poisson_pow (by simp; positivity) (by positivity)]
  congr 2
  simp only [List.prod_cons, List.prod_nil, mul_one]
  field_simp

end Ctb
