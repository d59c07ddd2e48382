import Verif.Model.Priors
import Verif.Spec.SwitchParams
import Verif.Lemmas.SwitchParams
import Mathlib.MeasureTheory.Function.JacobianOneDim
import Mathlib.Probability.Distributions.Gaussian.Real
import Mathlib.Probability.Distributions.Exponential
import Mathlib.MeasureTheory.Constructions.Pi
import Mathlib.Analysis.SpecialFunctions.Pow.Deriv

set_option linter.unusedSectionVars false

/-! # C101: what the log priors say about the parameters -/

namespace Ctb

open MeasureTheory ProbabilityTheory Set
open scoped ENNReal NNReal

/-- The density with this logarithm; no mass where the prior is not a number. -/
noncomputable def priorDens (r : Res (Option ℝ)) : ℝ≥0∞ :=
  match r with
  | .ok (some v) => ENNReal.ofReal (Real.exp v)
  | _ => 0

/-! ### changes of variables -/

theorem lognormal_exp {c : ℝ} (hc : 0 < c) (F : ℝ → ℝ≥0∞) :
    ∫⁻ b in Ioi 0, ENNReal.ofReal (Real.exp (-(Real.log b + Real.log b ^ 2 / (2 * c ^ 2)))) * F b =
      ENNReal.ofReal (Real.sqrt (2 * Real.pi) * c) * ∫⁻ u, F (Real.exp u) ∂gaussianReal 0 (c ^ 2).toNNReal := by
  have himg : Real.exp '' univ = Ioi 0 := by rw [image_univ, Real.range_exp]
  have hv : (c ^ 2).toNNReal ≠ 0 := by
    simpa using hc.ne'
  rw [← himg, lintegral_image_eq_lintegral_abs_deriv_mul MeasurableSet.univ (fun x _ => (Real.hasDerivAt_exp x).hasDerivWithinAt)
    Real.exp_injective.injOn, setLIntegral_univ, gaussianReal_of_var_ne_zero _ hv,
    lintegral_withDensity_eq_lintegral_mul_non_measurable _ (measurable_gaussianPDF _ _) (by simp [gaussianPDF]),
    ← lintegral_const_mul' _ _ ENNReal.ofReal_ne_top]
  refine lintegral_congr fun u => ?_
  simp only [Pi.mul_apply, gaussianPDF, gaussianPDFReal, Real.coe_toNNReal _ (sq_nonneg c), ← mul_assoc]
  congr 1
  rw [← ENNReal.ofReal_mul (abs_nonneg _), ← ENNReal.ofReal_mul (by positivity), abs_of_pos (Real.exp_pos u), Real.log_exp, ← Real.exp_add,
    Real.sqrt_mul (show (0 : ℝ) ≤ 2 * Real.pi by positivity) (c ^ 2), Real.sqrt_sq hc.le]
  congr 1
  have : Real.sqrt (2 * Real.pi) * c ≠ 0 := by positivity
  rw [← mul_assoc, mul_inv_cancel₀ this, one_mul]
  congr 1
  ring

theorem exponential_exp (F : ℝ → ℝ≥0∞) : ∫⁻ b in Ioi 0, ENNReal.ofReal (Real.exp (-b)) * F b = ∫⁻ u, F u ∂expMeasure 1 := by
  have hm : Measurable (exponentialPDF 1) := (measurable_exponentialPDFReal 1).ennreal_ofReal
  have : expMeasure 1 = volume.withDensity (exponentialPDF 1) := rfl
  rw [this, lintegral_withDensity_eq_lintegral_mul_non_measurable _ hm (by simp [exponentialPDF]), ← lintegral_indicator measurableSet_Ioi]
  have h0 : ∀ᵐ x : ℝ, x ≠ 0 := by simp [ae_iff]
  refine lintegral_congr_ae ?_
  filter_upwards [h0] with x hx
  rcases lt_or_gt_of_ne hx with h | h
  · rw [indicator_of_notMem (by simp [h.le])]
    simp [exponentialPDF_of_neg h]
  · rw [indicator_of_mem (by simpa using h)]
    simp [exponentialPDF_of_nonneg h.le]

/-- `1/x²` of an exponential variable: density in proportion to `exp(-1/x²) x⁻³`. -/
theorem invsq_exp (F : ℝ → ℝ≥0∞) :
    ∫⁻ s in Ioi 0, ENNReal.ofReal (Real.exp (-(1 / s ^ 2 + 3 * Real.log s))) * F s =
      ENNReal.ofReal (1 / 2) * ∫⁻ u, F (u ^ (-(1 / 2) : ℝ)) ∂expMeasure 1 := by
  have himg : (fun u : ℝ => u ^ (-(1 / 2) : ℝ)) '' Ioi 0 = Ioi 0 := by
    ext s
    constructor
    · rintro ⟨u, hu, rfl⟩
      exact Real.rpow_pos_of_pos hu _
    · intro hs
      refine ⟨s ^ (-2 : ℝ), Real.rpow_pos_of_pos hs _, ?_⟩
      simp only
      rw [← Real.rpow_mul (le_of_lt hs)]
      norm_num
  have hinj : InjOn (fun u : ℝ => u ^ (-(1 / 2) : ℝ)) (Ioi 0) := by
    intro u hu v hv h
    have := congrArg (fun x : ℝ => x ^ (-2 : ℝ)) h
    simp only [← Real.rpow_mul (le_of_lt (show (0 : ℝ) < u from hu)), ← Real.rpow_mul (le_of_lt (show (0 : ℝ) < v from hv))] at this
    norm_num at this
    exact this
  have hder : ∀ u ∈ Ioi (0 : ℝ), HasDerivWithinAt (fun u : ℝ => u ^ (-(1 / 2) : ℝ)) (-(1 / 2) * u ^ (-(1 / 2) - 1 : ℝ)) (Ioi 0) u := by
    intro u hu
    exact (Real.hasDerivAt_rpow_const (Or.inl (ne_of_gt hu))).hasDerivWithinAt
  rw [← himg, lintegral_image_eq_lintegral_abs_deriv_mul measurableSet_Ioi hder hinj, ← exponential_exp, ← lintegral_const_mul' _ _ ENNReal.ofReal_ne_top]
  refine setLIntegral_congr_fun measurableSet_Ioi fun u hu => ?_
  have hu : 0 < u := hu
  simp only [← mul_assoc]
  congr 1
  rw [← ENNReal.ofReal_mul (abs_nonneg _), ← ENNReal.ofReal_mul (by norm_num)]
  congr 1
  rw [abs_mul, abs_of_pos (Real.rpow_pos_of_pos hu _), Real.log_rpow hu]
  have e1 : 1 / (u ^ (-(1 / 2) : ℝ)) ^ 2 = u := by
    rw [← Real.rpow_natCast, ← Real.rpow_mul hu.le]
    norm_num [Real.rpow_neg_one]
  have e2 : u ^ (-(1 / 2) - 1 : ℝ) = Real.exp (-(3 / 2) * Real.log u) := by
    rw [Real.rpow_def_of_pos hu]
    congr 1
    ring
  rw [e1, e2, mul_assoc, ← Real.exp_add]
  norm_num
  ring

/-- Products over coordinates integrate one by one. -/
theorem lintegral_pi_prod {X : Type} [MeasurableSpace X] {n : ℕ} (μ : Measure X) [SigmaFinite μ] (f : Fin n → X → ℝ≥0∞) (hf : ∀ i, Measurable (f i)) :
    ∫⁻ x : Fin n → X, ∏ i, f i (x i) ∂Measure.pi (fun _ => μ) = ∏ i, ∫⁻ x, f i x ∂μ := by
  induction n with
  | zero => simp
  | succ n ih =>
    have hmp := (measurePreserving_piFinSuccAbove (fun _ : Fin (n + 1) => μ) 0).symm
    have hm : Measurable fun x : Fin (n + 1) → X => ∏ i, f i (x i) := Finset.measurable_prod _ fun i _ => (hf i).comp (measurable_pi_apply i)
    rw [← hmp.lintegral_comp hm, Fin.prod_univ_succ, ← ih (fun i => f i.succ) fun i => hf _]
    have e : ∀ q : X × (Fin n → X), ∏ i, f i ((MeasurableEquiv.piFinSuccAbove (fun _ => X) 0).symm q i) = f 0 q.1 * ∏ i : Fin n, f i.succ (q.2 i) := by
      intro q
      rw [Fin.prod_univ_succ]
      rfl
    simp only [e]
    have hm2 : Measurable fun x : Fin n → X => ∏ i : Fin n, f i.succ (x i) := Finset.measurable_prod _ fun i _ => (hf _).comp (measurable_pi_apply i)
    exact lintegral_prod_mul (hf 0).aemeasurable hm2.aemeasurable

/-! ### C101 -/

theorem priorDens_ou {sb sr b r : ℝ} (hb : b ≠ 0) (hr : r ≠ 0) :
    priorDens (itoOuLogPrior sb sr ![b, r]) = (Ioi 0).indicator (fun b => ENNReal.ofReal (Real.exp (-(Real.log b + Real.log b ^ 2 / (2 * sb ^ 2))))) b *
      (Ioi 0).indicator (fun r => ENNReal.ofReal (Real.exp (-(Real.log r + Real.log r ^ 2 / (2 * (sr / 2) ^ 2))))) r := by
  unfold itoOuLogPrior
  rcases lt_or_gt_of_ne hb with h1 | h1
  · rw [if_pos ⟨0, h1⟩, indicator_of_notMem (by simp [h1.le])]
    simp [priorDens]
  rcases lt_or_gt_of_ne hr with h2 | h2
  · rw [if_pos ⟨1, h2⟩, indicator_of_notMem (a := r) (by simp [h2.le])]
    simp [priorDens]
  rw [if_neg (by simp [Fin.exists_fin_two, h1.le, h2.le]), if_neg (by simp [Fin.exists_fin_two, h1.ne', h2.ne']), indicator_of_mem (by simpa using h1),
    indicator_of_mem (by simpa using h2)]
  simp only [priorDens, Matrix.cons_val_zero, Matrix.cons_val_one]
  rw [← ENNReal.ofReal_mul (Real.exp_pos _).le, ← Real.exp_add, Real.log_pow]
  congr 2
  push_cast
  ring

/-- Ornstein-Uhlenbeck model: under the prior `log β` and `log ρ` are independent normals with standard deviations `s_β`, `s_ρ / 2`. -/
theorem C101_ou {sb sr : ℝ} (hb : 0 < sb) (hr : 0 < sr) (F : ℝ → ℝ → ℝ≥0∞) :
    ∫⁻ b, ∫⁻ r, priorDens (itoOuLogPrior sb sr ![b, r]) * F b r = ENNReal.ofReal (Real.pi * sb * sr) *
      ∫⁻ u, ∫⁻ v, F (Real.exp u) (Real.exp v) ∂gaussianReal 0 ((sr / 2) ^ 2).toNNReal ∂gaussianReal 0 (sb ^ 2).toNNReal := by
  have h0 : ∀ᵐ x : ℝ, x ≠ 0 := by simp [ae_iff]
  have inner : ∀ b, b ≠ 0 → ∫⁻ r, priorDens (itoOuLogPrior sb sr ![b, r]) * F b r =
      (Ioi 0).indicator (fun b => ENNReal.ofReal (Real.exp (-(Real.log b + Real.log b ^ 2 / (2 * sb ^ 2)))) * (ENNReal.ofReal (Real.sqrt (2 * Real.pi) * (sr / 2)) *
        ∫⁻ v, F b (Real.exp v) ∂gaussianReal 0 ((sr / 2) ^ 2).toNNReal)) b := by
    intro b hb0
    have e : ∀ᵐ r : ℝ, priorDens (itoOuLogPrior sb sr ![b, r]) * F b r =
        (Ioi 0).indicator (fun b => ENNReal.ofReal (Real.exp (-(Real.log b + Real.log b ^ 2 / (2 * sb ^ 2))))) b *
        (Ioi 0).indicator (fun r => ENNReal.ofReal (Real.exp (-(Real.log r + Real.log r ^ 2 / (2 * (sr / 2) ^ 2)))) * F b r) r := by
      filter_upwards [h0] with r hr0
      rw [priorDens_ou hb0 hr0, mul_assoc]
      congr 1
      by_cases h : r ∈ Ioi (0 : ℝ) <;> simp [h]
    rw [lintegral_congr_ae e, lintegral_const_mul', lintegral_indicator measurableSet_Ioi, lognormal_exp (by positivity)]
    · by_cases h : b ∈ Ioi (0 : ℝ) <;> simp [h]
    · by_cases h : b ∈ Ioi (0 : ℝ) <;> simp [h]
  rw [lintegral_congr_ae (h0.mono inner), lintegral_indicator measurableSet_Ioi, lognormal_exp hb, lintegral_const_mul' _ _ ENNReal.ofReal_ne_top, ← mul_assoc,
    ← ENNReal.ofReal_mul (by positivity)]
  congr 2
  have := Real.mul_self_sqrt (show (0 : ℝ) ≤ 2 * Real.pi by positivity)
  linear_combination (sb * sr / 2) * this

/-- ... so that the prior has finite mass. -/
theorem C101_ou_mass {sb sr : ℝ} (hb : 0 < sb) (hr : 0 < sr) :
    ∫⁻ b, ∫⁻ r, priorDens (itoOuLogPrior sb sr ![b, r]) = ENNReal.ofReal (Real.pi * sb * sr) := by
  have := C101_ou hb hr fun _ _ => 1
  simpa using this

/-- The default scales. -/
example : ∫⁻ b, ∫⁻ r, priorDens (itoOuLogPrior 1 1 ![b, r]) = ENNReal.ofReal Real.pi := by
  have := C101_ou_mass (sb := 1) (sr := 1) one_pos one_pos
  simpa using this

theorem priorDens_cir {b m s : ℝ} (hb : b ≠ 0) (hm : m ≠ 0) (hs : s ≠ 0) :
    priorDens (itoCirLogPrior ![b, m, s]) = (Ioi 0).indicator (fun b => ENNReal.ofReal (Real.exp (-b))) b *
      ((Ioi 0).indicator (fun m => ENNReal.ofReal (Real.exp (-m))) m *
        (Ioi 0).indicator (fun s => ENNReal.ofReal (Real.exp (-(1 / s ^ 2 + 3 * Real.log s)))) s) := by
  unfold itoCirLogPrior
  rcases lt_or_gt_of_ne hb with h1 | h1
  · rw [if_pos ⟨0, h1⟩, indicator_of_notMem (by simp [h1.le])]
    simp [priorDens]
  rcases lt_or_gt_of_ne hm with h2 | h2
  · rw [if_pos ⟨1, h2⟩, indicator_of_notMem (a := m) (by simp [h2.le])]
    simp [priorDens]
  rcases lt_or_gt_of_ne hs with h3 | h3
  · rw [if_pos ⟨2, h3⟩, indicator_of_notMem (a := s) (by simp [h3.le])]
    simp [priorDens]
  rw [if_neg (by rintro ⟨j, hj⟩; fin_cases j <;> simp at hj <;> linarith), if_neg (by simpa using h3.ne'), indicator_of_mem (by simpa using h1),
    indicator_of_mem (by simpa using h2), indicator_of_mem (by simpa using h3)]
  simp only [priorDens, Matrix.cons_val]
  rw [← ENNReal.ofReal_mul (Real.exp_pos _).le, ← Real.exp_add, ← ENNReal.ofReal_mul (Real.exp_pos _).le, ← Real.exp_add]
  congr 2
  ring

/-- Cox-Ingersoll-Ross model: under the prior `β`, `μ` and `1/σ²` are independent exponential variables with rate 1. -/
theorem C101_cir (F : ℝ → ℝ → ℝ → ℝ≥0∞) :
    ∫⁻ b, ∫⁻ m, ∫⁻ s, priorDens (itoCirLogPrior ![b, m, s]) * F b m s = ENNReal.ofReal (1 / 2) *
      ∫⁻ b, ∫⁻ m, ∫⁻ u, F b m (u ^ (-(1 / 2) : ℝ)) ∂expMeasure 1 ∂expMeasure 1 ∂expMeasure 1 := by
  have h0 : ∀ᵐ x : ℝ, x ≠ 0 := by simp [ae_iff]
  have i1 : ∀ b, b ≠ 0 → ∀ m, m ≠ 0 → ∫⁻ s, priorDens (itoCirLogPrior ![b, m, s]) * F b m s =
      (Ioi 0).indicator (fun b => ENNReal.ofReal (Real.exp (-b))) b * (Ioi 0).indicator (fun m => ENNReal.ofReal (Real.exp (-m)) *
        (ENNReal.ofReal (1 / 2) * ∫⁻ u, F b m (u ^ (-(1 / 2) : ℝ)) ∂expMeasure 1)) m := by
    intro b hb m hm
    have e : ∀ᵐ s : ℝ, priorDens (itoCirLogPrior ![b, m, s]) * F b m s = (Ioi 0).indicator (fun b => ENNReal.ofReal (Real.exp (-b))) b *
        ((Ioi 0).indicator (fun m => ENNReal.ofReal (Real.exp (-m))) m *
        (Ioi 0).indicator (fun s => ENNReal.ofReal (Real.exp (-(1 / s ^ 2 + 3 * Real.log s))) * F b m s) s) := by
      filter_upwards [h0] with s hs
      rw [priorDens_cir hb hm hs, mul_assoc, mul_assoc]
      congr 2
      by_cases h : s ∈ Ioi (0 : ℝ) <;> simp [h]
    rw [lintegral_congr_ae e, lintegral_const_mul', lintegral_const_mul', lintegral_indicator measurableSet_Ioi, invsq_exp]
    · congr 1
      by_cases h : m ∈ Ioi (0 : ℝ) <;> simp [h]
    · by_cases h : m ∈ Ioi (0 : ℝ) <;> simp [h]
    · by_cases h : b ∈ Ioi (0 : ℝ) <;> simp [h]
  have i2 : ∀ b, b ≠ 0 → ∫⁻ m, ∫⁻ s, priorDens (itoCirLogPrior ![b, m, s]) * F b m s =
      (Ioi 0).indicator (fun b => ENNReal.ofReal (Real.exp (-b)) *
        (ENNReal.ofReal (1 / 2) * ∫⁻ m, ∫⁻ u, F b m (u ^ (-(1 / 2) : ℝ)) ∂expMeasure 1 ∂expMeasure 1)) b := by
    intro b hb
    rw [lintegral_congr_ae (h0.mono (i1 b hb)), lintegral_const_mul', lintegral_indicator measurableSet_Ioi, exponential_exp,
      lintegral_const_mul' _ _ ENNReal.ofReal_ne_top]
    · by_cases h : b ∈ Ioi (0 : ℝ) <;> simp [h]
    · by_cases h : b ∈ Ioi (0 : ℝ) <;> simp [h]
  rw [lintegral_congr_ae (h0.mono i2), lintegral_indicator measurableSet_Ioi, exponential_exp, lintegral_const_mul' _ _ ENNReal.ofReal_ne_top]

theorem C101_cir_mass : ∫⁻ b, ∫⁻ m, ∫⁻ s, priorDens (itoCirLogPrior ![b, m, s]) = ENNReal.ofReal (1 / 2) := by
  have h := C101_cir fun _ _ _ => 1
  haveI : IsProbabilityMeasure (expMeasure 1) := isProbabilityMeasure_expMeasure one_pos
  simpa using h

/-- The matrix of parameters with these rows. -/
def rowsThi {n : ℕ} (x : Fin n → ℝ × ℝ) : Thi 2 := fun i => if h : i < n then ![(x ⟨i, h⟩).1, (x ⟨i, h⟩).2] else ![1, 1]

theorem rowsThi_fin {n : ℕ} (x : Fin n → ℝ × ℝ) (i : Fin n) : rowsThi x i = ![(x i).1, (x i).2] := by simp [rowsThi]

theorem priorDens_rows {n : ℕ} {x : Fin n → ℝ × ℝ} (hx : ∀ i, (x i).1 ≠ 0 ∧ (x i).2 ≠ 0) :
    priorDens (evalLogPrior n (rowsThi x)) = ∏ i, priorDens (itoOuLogPrior 1 1 ![(x i).1, (x i).2]) := by
  by_cases hneg : ∃ i : Fin n, (x i).1 < 0 ∨ (x i).2 < 0
  · obtain ⟨i, hi⟩ := hneg
    have e1 : ∃ k < n, ∃ j, rowsThi x k j < 0 := by
      refine ⟨i, i.2, ?_⟩
      rw [rowsThi_fin, Fin.exists_fin_two]
      simpa using hi
    have e2 : ∃ j, (![(x i).1, (x i).2] : Fin 2 → ℝ) j < 0 := by
      rw [Fin.exists_fin_two]
      simpa using hi
    rw [Finset.prod_eq_zero (Finset.mem_univ i) (by rw [itoOuLogPrior, if_pos e2]; rfl), evalLogPrior, if_pos e1]
    rfl
  · push Not at hneg
    have hpos : ∀ i, 0 < (x i).1 ∧ 0 < (x i).2 := fun i => ⟨lt_of_le_of_ne (hneg i).1 (hx i).1.symm, lt_of_le_of_ne (hneg i).2 (hx i).2.symm⟩
    have hrows : PosRows n (rowsThi x) := by
      intro i hi j
      have := rowsThi_fin x ⟨i, hi⟩
      simp only at this
      rw [this]
      fin_cases j
      · exact (hpos _).1
      · exact (hpos _).2
    have e : ∀ i, priorDens (itoOuLogPrior 1 1 ![(x i).1, (x i).2]) = ENNReal.ofReal (Real.exp (-rowPrior (rowsThi x i))) := by
      intro i
      have h1 := hpos i
      rw [itoOuLogPrior, if_neg (by simp [Fin.exists_fin_two, h1.1.le, h1.2.le]), if_neg (by simp [Fin.exists_fin_two, h1.1.ne', h1.2.ne']), rowsThi_fin]
      simp [priorDens, rowPrior]
    rw [logPrior_pos hrows, Finset.prod_congr rfl fun i _ => e i, ← ENNReal.ofReal_prod_of_nonneg fun i _ => (Real.exp_pos _).le, ← Real.exp_sum,
      Finset.sum_neg_distrib, Fin.sum_univ_eq_sum_range fun i => rowPrior (rowsThi x i)]
    rfl

theorem priorDens_ou_measurable (sb sr : ℝ) : Measurable fun q : ℝ × ℝ => priorDens (itoOuLogPrior sb sr ![q.1, q.2]) := by
  have e : (fun q : ℝ × ℝ => priorDens (itoOuLogPrior sb sr ![q.1, q.2])) = fun q => if q.1 < 0 ∨ q.2 < 0 then 0 else if q.1 = 0 ∨ q.2 = 0 then 0 else
      ENNReal.ofReal (Real.exp (-(Real.log q.1 + Real.log q.2 + Real.log q.1 ^ 2 / (2 * sb ^ 2) + Real.log (q.2 ^ 2) ^ 2 / (2 * sr ^ 2)))) := by
    funext q
    simp only [itoOuLogPrior, Fin.exists_fin_two, Matrix.cons_val_zero, Matrix.cons_val_one]
    split_ifs <;> rfl
  rw [e]
  refine Measurable.ite ((measurableSet_lt measurable_fst measurable_const).union (measurableSet_lt measurable_snd measurable_const)) measurable_const ?_
  refine Measurable.ite ((measurableSet_eq_fun measurable_fst measurable_const).union (measurableSet_eq_fun measurable_snd measurable_const)) measurable_const ?_
  fun_prop

/-- Switching models: the regimes are independent under the prior, each as above. -/
theorem C101_switch {n : ℕ} (F : Fin n → ℝ → ℝ → ℝ≥0∞) (hF : ∀ i, Measurable fun q : ℝ × ℝ => F i q.1 q.2) :
    ∫⁻ x : Fin n → ℝ × ℝ, priorDens (evalLogPrior n (rowsThi x)) * ∏ i, F i (x i).1 (x i).2 ∂Measure.pi (fun _ => volume) =
      ∏ i, (ENNReal.ofReal Real.pi *
        ∫⁻ u, ∫⁻ v, F i (Real.exp u) (Real.exp v) ∂gaussianReal 0 ((1 / 2) ^ 2 : ℝ).toNNReal ∂gaussianReal 0 (1 ^ 2 : ℝ).toNNReal) := by
  have h0 : ∀ᵐ x : Fin n → ℝ × ℝ ∂Measure.pi (fun _ => volume), ∀ i, (x i).1 ≠ 0 ∧ (x i).2 ≠ 0 := by
    rw [ae_all_iff]
    intro i
    have h1 : ∀ᵐ q : ℝ × ℝ, q.1 ≠ 0 ∧ q.2 ≠ 0 := by
      have a1 : ∀ᵐ x : ℝ, x ≠ 0 := by simp [ae_iff]
      have b1 : ∀ᵐ q : ℝ × ℝ, q.1 ≠ 0 := Measure.quasiMeasurePreserving_fst.ae a1
      have b2 : ∀ᵐ q : ℝ × ℝ, q.2 ≠ 0 := Measure.quasiMeasurePreserving_snd.ae a1
      filter_upwards [b1, b2] with q h1 h2 using ⟨h1, h2⟩
    exact (Measure.quasiMeasurePreserving_eval (fun _ => (volume : Measure (ℝ × ℝ))) i).ae h1
  have e : (fun x : Fin n → ℝ × ℝ => priorDens (evalLogPrior n (rowsThi x)) * ∏ i, F i (x i).1 (x i).2) =ᵐ[Measure.pi (fun _ => volume)]
      fun x => ∏ i, (fun q : ℝ × ℝ => priorDens (itoOuLogPrior 1 1 ![q.1, q.2]) * F i q.1 q.2) (x i) := by
    filter_upwards [h0] with x hx
    rw [priorDens_rows hx, ← Finset.prod_mul_distrib]
  have hm : ∀ i, Measurable fun q : ℝ × ℝ => priorDens (itoOuLogPrior 1 1 ![q.1, q.2]) * F i q.1 q.2 := fun i => (priorDens_ou_measurable 1 1).mul (hF i)
  rw [lintegral_congr_ae e, lintegral_pi_prod _ _ hm]
  refine Finset.prod_congr rfl fun i _ => ?_
  have := C101_ou one_pos one_pos (F i)
  rw [mul_one, mul_one] at this
  rw [← this]
  exact lintegral_prod _ (hm i).aemeasurable

/-- The mass of the prior of `n` regimes. -/
example (n : ℕ) : ∫⁻ x : Fin n → ℝ × ℝ, priorDens (evalLogPrior n (rowsThi x)) ∂Measure.pi (fun _ => volume) = ENNReal.ofReal Real.pi ^ n := by
  have := C101_switch (n := n) (fun _ _ _ => 1) fun _ => measurable_const
  simpa using this

/-- Inside the parameter space the log priors are numbers, outside they are `-inf`. -/
theorem C101_support (sb sr : ℝ) (thi : Fin 2 → ℝ) (eta : Fin 3 → ℝ) :
    ((∀ j, 0 < thi j) → ∃ v, itoOuLogPrior sb sr thi = .ok (some v)) ∧ ((∃ j, thi j < 0) → itoOuLogPrior sb sr thi = .ok none) ∧
      ((∀ j, 0 < eta j) → ∃ v, itoCirLogPrior eta = .ok (some v)) ∧ ((∃ j, eta j < 0) → itoCirLogPrior eta = .ok none) := by
  refine ⟨fun h => ?_, fun h => if_pos h, fun h => ?_, fun h => if_pos h⟩
  · rw [itoOuLogPrior, if_neg (by push Not; exact fun j => (h j).le), if_neg (by push Not; exact fun j => (h j).ne')]
    exact ⟨_, rfl⟩
  · rw [itoCirLogPrior, if_neg (by push Not; exact fun j => (h j).le), if_neg (h 2).ne']
    exact ⟨_, rfl⟩

example : (∀ j, 0 < (![1, 2] : Fin 2 → ℝ) j) ∧ ∃ j, (![1, -2, 3] : Fin 3 → ℝ) j < 0 :=
  ⟨by intro j; fin_cases j <;> norm_num, 1, by norm_num⟩

/-- On the boundary they are not: zero is not negative, and the terms cancel to NaN. -/
theorem C101_boundary_violated (sb sr : ℝ) {thi : Fin 2 → ℝ} (h : ∀ j, 0 ≤ thi j) (hz : ∃ j, thi j = 0) {eta : Fin 3 → ℝ} (he : ∀ j, 0 ≤ eta j) (he2 : eta 2 = 0) :
    itoOuLogPrior sb sr thi = .error .nan ∧ itoCirLogPrior eta = .error .nan := by
  constructor
  · rw [itoOuLogPrior, if_neg (by push Not; exact h), if_pos hz]
  · rw [itoCirLogPrior, if_neg (by push Not; exact he), if_pos he2]

example : (∀ j, 0 ≤ (![0, 1] : Fin 2 → ℝ) j) ∧ (∃ j, (![0, 1] : Fin 2 → ℝ) j = 0) ∧ (∀ j, 0 ≤ (![1, 1, 0] : Fin 3 → ℝ) j) ∧ (![1, 1, 0] : Fin 3 → ℝ) 2 = 0 :=
  ⟨by intro j; fin_cases j <;> norm_num, ⟨0, rfl⟩, by intro j; fin_cases j <;> norm_num, rfl⟩

end Ctb
