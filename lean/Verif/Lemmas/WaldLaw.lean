import Verif.Basic.Law
import Verif.Spec.Value
import Verif.Model.Moments
import Verif.Lemmas.ArsIid
import Mathlib.MeasureTheory.Function.Jacobian

set_option linter.unusedSectionVars false

namespace Ctb

open MeasureTheory ProbabilityTheory Set
open scoped ENNReal NNReal

/-- Inverse Gaussian density. -/
noncomputable def waldDens (m l x : ℝ) : ℝ := Real.sqrt (l / (2 * Real.pi * x ^ 3)) * Real.exp (-(l * (x - m) ^ 2) / (2 * m ^ 2 * x))

theorem measurable_waldDens (m l : ℝ) : Measurable (waldDens m l) := by
  unfold waldDens
  fun_prop

theorem lintegral_wald (m l : ℝ) (f : ℝ → ℝ≥0∞) :
    ∫⁻ x, f x ∂(RDist.wald m l).law = ∫⁻ x in Ioi (0 : ℝ), ENNReal.ofReal (waldDens m l x) * f x := by
  have hm : Measurable fun x : ℝ => if 0 < x then ENNReal.ofReal (waldDens m l x) else 0 :=
    Measurable.ite measurableSet_Ioi (measurable_waldDens m l).ennreal_ofReal measurable_const
  rw [RDist.law]
  change ∫⁻ x, f x ∂(volume.withDensity fun x : ℝ => if 0 < x then ENNReal.ofReal (waldDens m l x) else 0) = _
  rw [lintegral_withDensity_eq_lintegral_mul_non_measurable _ hm (Filter.Eventually.of_forall fun x => by split_ifs <;> simp),
    ← lintegral_indicator measurableSet_Ioi]
  refine lintegral_congr fun x => ?_
  simp only [Pi.mul_apply, indicator, mem_Ioi]
  split_ifs <;> simp

/-- The chi-square variable of which `x` is a root. -/
noncomputable def waldSq (m l x : ℝ) : ℝ := l * (x - m) ^ 2 / (m ^ 2 * x)

theorem waldSq_deriv {m l x : ℝ} (hm : 0 < m) (hx : 0 < x) :
    HasDerivAt (waldSq m l) (l * (x ^ 2 - m ^ 2) / (m ^ 2 * x ^ 2)) x := by
  have h1 : HasDerivAt (fun x : ℝ => l * (x - m) ^ 2) (l * (2 * (x - m))) x := by
    have := (((hasDerivAt_id x).sub_const m).pow 2).const_mul l
    simpa using this
  have h2 : HasDerivAt (fun x : ℝ => m ^ 2 * x) (m ^ 2) x := by simpa using (hasDerivAt_id x).const_mul (m ^ 2)
  have h3 := h1.div h2 (show m ^ 2 * x ≠ 0 by positivity)
  have e : (l * (2 * (x - m)) * (m ^ 2 * x) - l * (x - m) ^ 2 * m ^ 2) / (m ^ 2 * x) ^ 2 = l * (x ^ 2 - m ^ 2) / (m ^ 2 * x ^ 2) := by
    field_simp
    ring
  rw [e] at h3
  exact h3

theorem waldSq_eq {m l x : ℝ} (hm : 0 < m) (hl : 0 < l) (hx : 0 < x) :
    4 * m * l * waldSq m l x + m ^ 2 * waldSq m l x ^ 2 = (l * (x ^ 2 - m ^ 2) / (m * x)) ^ 2 := by
  unfold waldSq
  field_simp
  ring

theorem waldCand_low {m l x : ℝ} (hm : 0 < m) (hl : 0 < l) (hx : 0 < x) (h : x ≤ m) : waldCand (waldSq m l x) m l = x := by
  rw [waldCand, waldSq_eq hm hl hx, Real.sqrt_sq_eq_abs, abs_of_nonpos]
  · unfold waldSq
    field_simp
    ring
  · apply div_nonpos_of_nonpos_of_nonneg _ (by positivity)
    have : x ^ 2 ≤ m ^ 2 := by nlinarith
    nlinarith

theorem waldCand_high {m l x : ℝ} (hm : 0 < m) (hl : 0 < l) (hx : 0 < x) (h : m ≤ x) : waldCand (waldSq m l x) m l = m ^ 2 / x := by
  rw [waldCand, waldSq_eq hm hl hx, Real.sqrt_sq_eq_abs, abs_of_nonneg]
  · unfold waldSq
    field_simp
    ring
  · apply div_nonneg _ (by positivity)
    have : m ^ 2 ≤ x ^ 2 := by nlinarith
    nlinarith

theorem waldCand_pos' {m l r : ℝ} (hm : 0 < m) (hl : 0 < l) (hr : 0 < r) : 0 < waldCand r m l ∧ waldCand r m l < m ∧ waldSq m l (waldCand r m l) = r := by
  set d := Real.sqrt (4 * m * l * r + m ^ 2 * r ^ 2) with hd
  have hd2 : d ^ 2 = 4 * m * l * r + m ^ 2 * r ^ 2 := Real.sq_sqrt (by positivity)
  have hd0 : 0 < d := Real.sqrt_pos.2 (by positivity)
  have hgt : m * r < d := by
    apply lt_of_pow_lt_pow_left₀ 2 hd0.le
    rw [hd2]
    have : 0 < m * l * r := by positivity
    nlinarith
  have hlt : d < m * r + 2 * l := by
    apply lt_of_pow_lt_pow_left₀ 2 (by positivity)
    rw [hd2]
    nlinarith [sq_pos_of_pos hl]
  have e : waldCand r m l = m * (2 * l + m * r - d) / (2 * l) := by
    rw [waldCand, ← hd]
    field_simp
    ring
  have p : 0 < 2 * l + m * r - d := by linarith
  refine ⟨by rw [e]; positivity, ?_, ?_⟩
  · rw [e, div_lt_iff₀ (by positivity)]
    nlinarith
  · have hx : 0 < waldCand r m l := by rw [e]; positivity
    rw [waldSq, div_eq_iff (by positivity), e]
    field_simp
    nlinarith [hd2]

theorem waldSq_image_low {m l : ℝ} (hm : 0 < m) (hl : 0 < l) : waldSq m l '' Ioo 0 m = Ioi (0 : ℝ) := by
  ext r
  constructor
  · rintro ⟨x, ⟨h0, h1⟩, rfl⟩
    have : 0 < (x - m) ^ 2 := by nlinarith
    rw [mem_Ioi, waldSq]
    exact div_pos (by positivity) (by positivity)
  · intro hr
    obtain ⟨h0, h1, h2⟩ := waldCand_pos' hm hl hr
    exact ⟨_, ⟨h0, h1⟩, h2⟩

theorem waldSq_inv {m l x : ℝ} (hm : 0 < m) (hx : 0 < x) : waldSq m l (m ^ 2 / x) = waldSq m l x := by
  unfold waldSq
  field_simp
  ring

theorem waldSq_image_high {m l : ℝ} (hm : 0 < m) (hl : 0 < l) : waldSq m l '' Ioi m = Ioi (0 : ℝ) := by
  ext r
  constructor
  · rintro ⟨x, h1, rfl⟩
    have h1 : m < x := h1
    have : 0 < (x - m) ^ 2 := by nlinarith
    exact div_pos (by positivity) (mul_pos (by positivity) (hm.trans h1))
  · intro hr
    obtain ⟨h0, h1, h2⟩ := waldCand_pos' hm hl hr
    refine ⟨m ^ 2 / waldCand r m l, ?_, by rw [waldSq_inv hm h0, h2]⟩
    rw [mem_Ioi, lt_div_iff₀ h0]
    nlinarith

theorem waldSq_inj_low {m l : ℝ} (hm : 0 < m) (hl : 0 < l) : InjOn (waldSq m l) (Ioo 0 m) := by
  intro x hx y hy h
  rw [← waldCand_low hm hl hx.1 hx.2.le, h, waldCand_low hm hl hy.1 hy.2.le]

theorem waldSq_inj_high {m l : ℝ} (hm : 0 < m) (hl : 0 < l) : InjOn (waldSq m l) (Ioi m) := by
  intro x hx y hy h
  have h0 : 0 < x := hm.trans hx
  have h1 : 0 < y := hm.trans hy
  have := waldCand_high hm hl h0 (le_of_lt hx)
  rw [h, waldCand_high hm hl h1 (le_of_lt hy)] at this
  have hm2 : (0 : ℝ) < m ^ 2 := by positivity
  field_simp at this
  exact this

/-- Chi-square density with one degree of freedom. -/
noncomputable def chiDens (r : ℝ) : ℝ := Real.exp (-r / 2) / Real.sqrt (2 * Real.pi * r)

theorem lintegral_chi (f : ℝ → ℝ≥0∞) :
    ∫⁻ r, f r ∂(RDist.gamma (1 / 2) 2).law = ∫⁻ r in Ioi (0 : ℝ), ENNReal.ofReal (chiDens r) * f r := by
  rw [RDist.law, gammaMeasure]
  change ∫⁻ x, f x ∂(volume.withDensity fun x => ENNReal.ofReal (gammaPDFReal (1 / 2) (1 / 2) x)) = _
  rw [lintegral_withDensity_eq_lintegral_mul_non_measurable _ (measurable_gammaPDFReal _ _).ennreal_ofReal
    (Filter.Eventually.of_forall fun x => by simp), ← lintegral_indicator measurableSet_Ioi]
  refine lintegral_congr_ae ?_
  have : ∀ᵐ x : ℝ, x ≠ 0 := by simp [ae_iff]
  filter_upwards [this] with x hx
  simp only [Pi.mul_apply, indicator, mem_Ioi]
  rcases lt_or_gt_of_ne hx with h | h
  · rw [if_neg (by linarith), gammaPDFReal, if_neg (by linarith)]
    simp
  · rw [if_pos h, gammaPDFReal, if_pos h.le]
    congr 2
    rw [Real.Gamma_one_half_eq, chiDens, show (1 / 2 : ℝ) - 1 = -(1 / 2) by norm_num, Real.rpow_neg h.le, ← Real.sqrt_eq_rpow, ← Real.sqrt_eq_rpow,
      mul_assoc 2, Real.sqrt_mul (by norm_num), Real.sqrt_mul (by positivity), Real.sqrt_div' _ (by norm_num)]
    have : -(1 / 2 * x) = -x / 2 := by ring
    rw [this]
    have := Real.sqrt_pos.2 h
    have := Real.sqrt_pos.2 Real.pi_pos
    field_simp
    simp

theorem chi_low {m l x : ℝ} (hm : 0 < m) (hl : 0 < l) (hx : 0 < x) (hne : x ≠ m) :
    |l * (x ^ 2 - m ^ 2) / (m ^ 2 * x ^ 2)| * chiDens (waldSq m l x) * (m / (m + x)) = waldDens m l x := by
  have hp := Real.pi_pos
  have hd : 0 < |x - m| := abs_pos.2 (sub_ne_zero.2 hne)
  have e1 : |l * (x ^ 2 - m ^ 2) / (m ^ 2 * x ^ 2)| = l * (|x - m| * (x + m)) / (m ^ 2 * x ^ 2) := by
    rw [abs_div, abs_mul, abs_of_pos hl, abs_of_pos (show 0 < m ^ 2 * x ^ 2 by positivity), show x ^ 2 - m ^ 2 = (x - m) * (x + m) by ring, abs_mul,
      abs_of_pos (show 0 < x + m by positivity)]
  have e2 : 2 * Real.pi * waldSq m l x = (|x - m| * x / m) ^ 2 * ((2 * Real.pi * x ^ 3 / l)⁻¹ * (2 * Real.pi) ^ 2) := by
    unfold waldSq
    rw [div_pow, mul_pow, sq_abs]
    field_simp
  have e3 : Real.sqrt (2 * Real.pi * waldSq m l x) = |x - m| * x / m * (Real.sqrt (l / (2 * Real.pi * x ^ 3)) * (2 * Real.pi)) := by
    rw [e2, Real.sqrt_mul (by positivity), Real.sqrt_sq (by positivity), Real.sqrt_mul (by positivity), Real.sqrt_sq (by positivity), inv_div]
  have e4 : -waldSq m l x / 2 = -(l * (x - m) ^ 2) / (2 * m ^ 2 * x) := by
    unfold waldSq
    field_simp
  have hs : 0 < Real.sqrt (l / (2 * Real.pi * x ^ 3)) := Real.sqrt_pos.2 (by positivity)
  have hs2 : Real.sqrt (l / (2 * Real.pi * x ^ 3)) ^ 2 = l / (2 * Real.pi * x ^ 3) := Real.sq_sqrt (by positivity)
  rw [chiDens, waldDens, e1, e3, e4]
  have : l = Real.sqrt (l / (2 * Real.pi * x ^ 3)) ^ 2 * (2 * Real.pi * x ^ 3) := by
    rw [hs2]; field_simp
  generalize Real.sqrt (l / (2 * Real.pi * x ^ 3)) = s at *
  generalize Real.exp _ = E
  rw [this]
  field_simp
  ring

theorem measurable_waldCand (m l : ℝ) : Measurable fun r => waldCand r m l := by
  unfold waldCand
  fun_prop

/-- Michael, Schucany and Haas: the root of a chi-square variable chosen by a coin is inverse Gaussian. -/
theorem seededWald_law {m l : ℝ} (hm : 0 < m) (hl : 0 < l) {f : ℝ → ℝ≥0∞} (hf : Measurable f) :
    ∫⁻ r, ∫⁻ u, f (seededWald u r m l) ∂(RDist.uniform 0 1).law ∂(RDist.gamma (1 / 2) 2).law = ∫⁻ x, f x ∂(RDist.wald m l).law := by
  rw [lintegral_chi, lintegral_wald]
  have e1 : ∀ r ∈ Ioi (0 : ℝ), ENNReal.ofReal (chiDens r) * ∫⁻ u, f (seededWald u r m l) ∂(RDist.uniform 0 1).law =
      ENNReal.ofReal (chiDens r * (m / (m + waldCand r m l))) * f (waldCand r m l) +
      ENNReal.ofReal (chiDens r * (1 - m / (m + waldCand r m l))) * f (m ^ 2 / waldCand r m l) := by
    intro r hr
    obtain ⟨h0, h1, -⟩ := waldCand_pos' hm hl hr
    have hc : 0 ≤ chiDens r := div_nonneg (Real.exp_pos _).le (Real.sqrt_nonneg _)
    have : (fun u => f (seededWald u r m l)) = fun u => if u < m / (m + waldCand r m l) then f (waldCand r m l) else f (m ^ 2 / waldCand r m l) := by
      funext u
      unfold seededWald
      split_ifs <;> rfl
    rw [this, lintegral_uniform_lt (by positivity) (by rw [div_le_one (by positivity)]; linarith), mul_add, ← mul_assoc, ← mul_assoc,
      ← ENNReal.ofReal_mul hc, ← ENNReal.ofReal_mul hc]
  rw [setLIntegral_congr_fun measurableSet_Ioi e1]
  have hmc := measurable_waldCand m l
  have hchi : Measurable chiDens := by unfold chiDens; fun_prop
  have hm1 : Measurable fun x => ENNReal.ofReal (chiDens x * (m / (m + waldCand x m l))) * f (waldCand x m l) :=
    ((hchi.mul (measurable_const.div (measurable_const.add hmc))).ennreal_ofReal).mul (hf.comp hmc)
  rw [lintegral_add_left hm1]
  have split : (Ioi (0 : ℝ)) = Ioo 0 m ∪ Ici m := by
    ext x
    simp only [mem_Ioi, mem_union, mem_Ioo, mem_Ici]
    constructor
    · intro h
      rcases lt_or_ge x m with h1 | h1
      · exact Or.inl ⟨h, h1⟩
      · exact Or.inr h1
    · rintro (h | h)
      · exact h.1
      · linarith
  conv_rhs => rw [split, lintegral_union measurableSet_Ici (by
    rw [Set.disjoint_left]; intro x h1 h2; exact absurd h1.2 (not_lt.2 h2))]
  congr 1
  · rw [← waldSq_image_low hm hl, lintegral_image_eq_lintegral_abs_deriv_mul measurableSet_Ioo
      (fun x hx => (waldSq_deriv hm hx.1).hasDerivWithinAt) (waldSq_inj_low hm hl)]
    refine setLIntegral_congr_fun measurableSet_Ioo fun x hx => ?_
    rw [waldCand_low hm hl hx.1 hx.2.le, ← mul_assoc, ← ENNReal.ofReal_mul (abs_nonneg _), ← mul_assoc, chi_low hm hl hx.1 hx.2.ne]
  · rw [← waldSq_image_high hm hl, lintegral_image_eq_lintegral_abs_deriv_mul measurableSet_Ioi
      (fun x hx => (waldSq_deriv hm (hm.trans hx)).hasDerivWithinAt) (waldSq_inj_high hm hl), setLIntegral_congr Ioi_ae_eq_Ici.symm]
    refine setLIntegral_congr_fun measurableSet_Ioi fun x hx => ?_
    have hx' : m < x := hx
    have h0 : 0 < x := hm.trans hx
    rw [waldCand_high hm hl h0 hx'.le, ← mul_assoc, ← ENNReal.ofReal_mul (abs_nonneg _), ← mul_assoc, ← chi_low hm hl h0 hx'.ne']
    congr 3
    · field_simp
      ring
    · field_simp

theorem wald_mass {m l : ℝ} (hm : 0 < m) (hl : 0 < l) (c : ℝ≥0∞) : ∫⁻ _x, c ∂(RDist.wald m l).law = c := by
  rw [← seededWald_law hm hl measurable_const]
  simp only [lintegral_uniform_const]
  rw [RDist.law]
  have : IsProbabilityMeasure (gammaMeasure (1 / 2) (1 / 2)) := isProbabilityMeasure_gammaMeasure (by norm_num) (by norm_num)
  rw [lintegral_const, measure_univ, mul_one]

end Ctb
