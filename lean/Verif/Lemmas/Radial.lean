import Verif.Lemmas.Kernel
import Mathlib.Analysis.SpecialFunctions.PolarCoord
import Mathlib.MeasureTheory.Measure.Haar.InnerProductSpace
import Mathlib.Analysis.InnerProductSpace.Projection.Reflection
import Mathlib.MeasureTheory.Integral.IntervalIntegral.FundThmCalculus

/-! # Radial functions of a Gaussian step in three dimensions -/

set_option linter.unusedSectionVars false

namespace Ctb

open MeasureTheory Set
open scoped ENNReal

/-- Euclidean norm of a point in space. -/
noncomputable def nrm3 (p : ℝ × ℝ × ℝ) : ℝ := Real.sqrt (p.1 ^ 2 + p.2.1 ^ 2 + p.2.2 ^ 2)

theorem measurable_nrm3 : Measurable nrm3 := by unfold nrm3; fun_prop

/-- Three normal densities. -/
noncomputable def step3 (v : ℝ) (p q : ℝ × ℝ × ℝ) : ℝ≥0∞ := normDens v (q.1 - p.1) * (normDens v (q.2.1 - p.2.1) * normDens v (q.2.2 - p.2.2))

theorem measurable_step3_left (v : ℝ) (w : ℝ × ℝ × ℝ) : Measurable fun q : ℝ × ℝ × ℝ => step3 v q w := by
  unfold step3 normDens normDensR; fun_prop

theorem measurable_step3 (v : ℝ) : Measurable fun q : (ℝ × ℝ × ℝ) × ℝ × ℝ × ℝ => step3 v q.1 q.2 := by
  unfold step3 normDens normDensR; fun_prop

theorem polar_plane {f : ℝ → ℝ≥0∞} (hf : Measurable f) :
    ∫⁻ p : ℝ × ℝ, f (p.1 ^ 2 + p.2 ^ 2) = ∫⁻ r in Ioi (0 : ℝ), ENNReal.ofReal (2 * Real.pi * r) * f (r ^ 2) := by
  rw [← lintegral_comp_polarCoord_symm]
  have e : ∀ p : ℝ × ℝ, ENNReal.ofReal p.1 • f ((polarCoord.symm p).1 ^ 2 + (polarCoord.symm p).2 ^ 2) = ENNReal.ofReal p.1 * f (p.1 ^ 2) := by
    intro p
    simp only [polarCoord_symm_apply, smul_eq_mul]
    congr 2
    have := Real.sin_sq_add_cos_sq p.2
    calc (p.1 * Real.cos p.2) ^ 2 + (p.1 * Real.sin p.2) ^ 2 = p.1 ^ 2 * (Real.sin p.2 ^ 2 + Real.cos p.2 ^ 2) := by ring
      _ = p.1 ^ 2 := by rw [this, mul_one]
  simp_rw [e]
  have hm : Measurable fun p : ℝ × ℝ => ENNReal.ofReal p.1 * f (p.1 ^ 2) := by fun_prop
  rw [polarCoord_target, show (volume : Measure (ℝ × ℝ)) = (volume : Measure ℝ).prod volume from rfl, ← Measure.prod_restrict,
    lintegral_prod _ hm.aemeasurable]
  refine setLIntegral_congr_fun measurableSet_Ioi fun r hr => ?_
  rw [mem_Ioi] at hr
  simp only [lintegral_const, Measure.restrict_apply MeasurableSet.univ, univ_inter, Real.volume_Ioo]
  rw [mul_comm (ENNReal.ofReal r), mul_assoc, mul_comm, ← ENNReal.ofReal_mul' (by linarith [Real.pi_pos])]
  congr 2
  ring

theorem image_sqrt_add (x : ℝ) : (fun r : ℝ => Real.sqrt (x ^ 2 + r ^ 2)) '' Ioi (0 : ℝ) = Ioi |x| := by
  ext u
  constructor
  · rintro ⟨r, hr, rfl⟩
    rw [mem_Ioi] at hr ⊢
    refine Real.lt_sqrt_of_sq_lt ?_
    rw [sq_abs]
    nlinarith [sq_pos_of_pos hr]
  · intro hu
    rw [mem_Ioi] at hu
    have h0 : 0 < u := (abs_nonneg x).trans_lt hu
    have h1 : x ^ 2 < u ^ 2 := by rw [← sq_abs x]; exact pow_lt_pow_left₀ hu (abs_nonneg x) two_ne_zero
    refine ⟨Real.sqrt (u ^ 2 - x ^ 2), Real.sqrt_pos.2 (by linarith), ?_⟩
    simp only
    rw [Real.sq_sqrt (by linarith), show x ^ 2 + (u ^ 2 - x ^ 2) = u ^ 2 by ring, Real.sqrt_sq h0.le]

theorem radius_subst (x : ℝ) {g : ℝ → ℝ≥0∞} :
    ∫⁻ u in Ioi |x|, ENNReal.ofReal u * g u = ∫⁻ r in Ioi (0 : ℝ), ENNReal.ofReal r * g (Real.sqrt (x ^ 2 + r ^ 2)) := by
  have hd : ∀ r ∈ Ioi (0 : ℝ), HasDerivWithinAt (fun r : ℝ => Real.sqrt (x ^ 2 + r ^ 2)) (r / Real.sqrt (x ^ 2 + r ^ 2)) (Ioi 0) r := by
    intro r hr
    rw [mem_Ioi] at hr
    have hp : x ^ 2 + r ^ 2 ≠ 0 := by positivity
    have h1 : HasDerivAt (fun r : ℝ => x ^ 2 + r ^ 2) (2 * r) r := by simpa using (hasDerivAt_pow 2 r).const_add (x ^ 2)
    have h2 := h1.sqrt hp
    have e : 2 * r / (2 * Real.sqrt (x ^ 2 + r ^ 2)) = r / Real.sqrt (x ^ 2 + r ^ 2) := by rw [mul_div_mul_left _ _ two_ne_zero]
    rw [e] at h2
    exact h2.hasDerivWithinAt
  have hi : InjOn (fun r : ℝ => Real.sqrt (x ^ 2 + r ^ 2)) (Ioi 0) := by
    intro r hr s hs h
    rw [mem_Ioi] at hr hs
    have h2 : x ^ 2 + r ^ 2 = x ^ 2 + s ^ 2 := (Real.sqrt_inj (by positivity) (by positivity)).1 h
    have h3 : r ^ 2 = s ^ 2 := by linarith
    exact (pow_left_inj₀ hr.le hs.le two_ne_zero).1 h3
  rw [← image_sqrt_add, lintegral_image_eq_lintegral_abs_deriv_mul measurableSet_Ioi hd hi]
  refine setLIntegral_congr_fun measurableSet_Ioi fun r hr => ?_
  rw [mem_Ioi] at hr
  have hs : 0 < Real.sqrt (x ^ 2 + r ^ 2) := Real.sqrt_pos.2 (by positivity)
  rw [abs_of_pos (by positivity), ← mul_assoc, ← ENNReal.ofReal_mul (by positivity)]
  congr 2
  field_simp

theorem exp_interval {c u : ℝ} (hc : 0 < c) (hu : 0 < u) :
    ∫⁻ x in Ioo (-u) u, ENNReal.ofReal (Real.exp (c * x)) = ENNReal.ofReal ((Real.exp (c * u) - Real.exp (-(c * u))) / c) := by
  have hd : ∀ x ∈ uIcc (-u) u, HasDerivAt (fun x => Real.exp (c * x) / c) (Real.exp (c * x)) x := by
    intro x _
    have h1 : HasDerivAt (fun x : ℝ => c * x) c x := by simpa using (hasDerivAt_id x).const_mul c
    have h2 := h1.exp.div_const c
    rwa [mul_div_assoc, div_self hc.ne', mul_one] at h2
  have hi : IntervalIntegrable (fun x => Real.exp (c * x)) volume (-u) u := (by fun_prop : Continuous fun x => Real.exp (c * x)).intervalIntegrable _ _
  have h := intervalIntegral.integral_eq_sub_of_hasDerivAt hd hi
  rw [intervalIntegral.integral_of_le (by linarith), integral_Ioc_eq_integral_Ioo] at h
  rw [← ofReal_integral_eq_lintegral_ofReal ((intervalIntegrable_iff_integrableOn_Ioo_of_le (by linarith)).1 hi)
    (ae_of_all _ fun x => (Real.exp_pos _).le), h]
  congr 1
  rw [mul_neg]
  ring

theorem plane_step {v ρ : ℝ} (hv : 0 < v) {R : ℝ → ℝ≥0∞} (hR : Measurable R) (x : ℝ) :
    ∫⁻ p : ℝ × ℝ, R (nrm3 (x, p)) * step3 v (x, p) (ρ, 0, 0) =
      ∫⁻ u in Ioi |x|, R u * ENNReal.ofReal (u / v * Real.exp (-(u ^ 2 + ρ ^ 2) / (2 * v)) / Real.sqrt (2 * Real.pi * v)) *
        ENNReal.ofReal (Real.exp (ρ / v * x)) := by
  have hpi := Real.pi_pos
  have hf : Measurable fun q : ℝ => R (Real.sqrt (x ^ 2 + q)) * (normDens v (ρ - x) * ENNReal.ofReal (Real.exp (-q / (2 * v)) / (2 * Real.pi * v))) := by
    fun_prop
  have e1 : ∀ p : ℝ × ℝ, R (nrm3 (x, p)) * step3 v (x, p) (ρ, 0, 0) =
      (fun q : ℝ => R (Real.sqrt (x ^ 2 + q)) * (normDens v (ρ - x) * ENNReal.ofReal (Real.exp (-q / (2 * v)) / (2 * Real.pi * v)))) (p.1 ^ 2 + p.2 ^ 2) := by
    intro p
    simp only [nrm3, step3]
    rw [add_assoc]
    congr 2
    rw [normDens, normDens, ← ENNReal.ofReal_mul (by unfold normDensR; positivity)]
    congr 1
    rw [normDensR, normDensR, div_mul_div_comm, Real.mul_self_sqrt (by positivity), ← Real.exp_add]
    congr 2
    ring
  rw [lintegral_congr e1, polar_plane hf]
  have e2 : ∀ u : ℝ, |x| < u → R u * ENNReal.ofReal (u / v * Real.exp (-(u ^ 2 + ρ ^ 2) / (2 * v)) / Real.sqrt (2 * Real.pi * v)) *
        ENNReal.ofReal (Real.exp (ρ / v * x)) =
      ENNReal.ofReal u * (R u * (normDens v (ρ - x) * ENNReal.ofReal (Real.exp (-(u ^ 2 - x ^ 2) / (2 * v)) / v))) := by
    intro u hu
    have h0 : 0 < u := (abs_nonneg x).trans_lt hu
    rw [normDens, ← ENNReal.ofReal_mul (by unfold normDensR; positivity), mul_assoc, ← ENNReal.ofReal_mul (by positivity), mul_left_comm,
      ← ENNReal.ofReal_mul h0.le]
    congr 2
    rw [normDensR]
    have : Real.exp (-(u ^ 2 + ρ ^ 2) / (2 * v)) * Real.exp (ρ / v * x) = Real.exp (-(ρ - x) ^ 2 / (2 * v)) * Real.exp (-(u ^ 2 - x ^ 2) / (2 * v)) := by
      rw [← Real.exp_add, ← Real.exp_add]
      congr 1
      field_simp
      ring
    calc u / v * Real.exp (-(u ^ 2 + ρ ^ 2) / (2 * v)) / Real.sqrt (2 * Real.pi * v) * Real.exp (ρ / v * x) =
          u / v / Real.sqrt (2 * Real.pi * v) * (Real.exp (-(u ^ 2 + ρ ^ 2) / (2 * v)) * Real.exp (ρ / v * x)) := by ring
      _ = _ := by rw [this]; ring
  rw [setLIntegral_congr_fun measurableSet_Ioi (fun u hu => e2 u hu), radius_subst]
  refine setLIntegral_congr_fun measurableSet_Ioi fun r hr => ?_
  rw [mem_Ioi] at hr
  rw [Real.sq_sqrt (by positivity), show x ^ 2 + r ^ 2 - x ^ 2 = r ^ 2 by ring, mul_left_comm, mul_left_comm (ENNReal.ofReal r)]
  congr 1
  rw [mul_left_comm, mul_left_comm (ENNReal.ofReal r)]
  congr 1
  rw [← ENNReal.ofReal_mul (by positivity), ← ENNReal.ofReal_mul (by positivity)]
  congr 1
  field_simp

/-- A Gaussian step on the axis. -/
theorem radial_axis {v ρ : ℝ} (hv : 0 < v) (hρ : 0 < ρ) {R : ℝ → ℝ≥0∞} (hR : Measurable R) :
    ∫⁻ z : ℝ × ℝ × ℝ, R (nrm3 z) * step3 v z (ρ, 0, 0) = ∫⁻ r, ENNReal.ofReal (r / ρ) * killDens 0 v r ρ * R r := by
  have hpi := Real.pi_pos
  have hm : Measurable fun z : ℝ × ℝ × ℝ => R (nrm3 z) * step3 v z (ρ, 0, 0) :=
    (hR.comp measurable_nrm3).mul (measurable_step3_left v _)
  rw [show (volume : Measure (ℝ × ℝ × ℝ)) = (volume : Measure ℝ).prod volume from rfl, lintegral_prod _ hm.aemeasurable]
  rw [lintegral_congr fun x => plane_step hv hR x]
  set C : ℝ → ℝ≥0∞ := fun u => R u * ENNReal.ofReal (u / v * Real.exp (-(u ^ 2 + ρ ^ 2) / (2 * v)) / Real.sqrt (2 * Real.pi * v)) with hC
  have hCm : Measurable C := by rw [hC]; fun_prop
  have e1 : ∀ x : ℝ, ∫⁻ u in Ioi |x|, C u * ENNReal.ofReal (Real.exp (ρ / v * x)) =
      ∫⁻ u, {q : ℝ × ℝ | |q.1| < q.2}.indicator (fun q => C q.2 * ENNReal.ofReal (Real.exp (ρ / v * q.1))) (x, u) := by
    intro x
    rw [← lintegral_indicator measurableSet_Ioi]
    rfl
  rw [lintegral_congr e1]
  have hS : MeasurableSet {q : ℝ × ℝ | |q.1| < q.2} := measurableSet_lt (by fun_prop) measurable_snd
  have hm2 : Measurable ({q : ℝ × ℝ | |q.1| < q.2}.indicator fun q => C q.2 * ENNReal.ofReal (Real.exp (ρ / v * q.1))) :=
    Measurable.indicator (by fun_prop) hS
  rw [lintegral_lintegral_swap (f := fun x u => {q : ℝ × ℝ | |q.1| < q.2}.indicator (fun q => C q.2 * ENNReal.ofReal (Real.exp (ρ / v * q.1))) (x, u))
    hm2.aemeasurable]
  refine lintegral_congr fun u => ?_
  by_cases hu : 0 < u
  · have e2 : ∫⁻ x, {q : ℝ × ℝ | |q.1| < q.2}.indicator (fun q => C q.2 * ENNReal.ofReal (Real.exp (ρ / v * q.1))) (x, u) =
        ∫⁻ x in Ioo (-u) u, C u * ENNReal.ofReal (Real.exp (ρ / v * x)) := by
      rw [← lintegral_indicator measurableSet_Ioo]
      refine lintegral_congr fun x => ?_
      by_cases hx : |x| < u
      · rw [indicator_of_mem (by exact hx), indicator_of_mem (by exact abs_lt.1 hx)]
      · rw [indicator_of_notMem (by exact hx), indicator_of_notMem (by exact fun h => hx (abs_lt.2 h))]
    rw [e2, lintegral_const_mul _ (by fun_prop), exp_interval (by positivity) hu, killDens, if_pos ⟨hu, hρ⟩, hC]
    simp only
    have hge : 0 ≤ Real.exp (ρ / v * u) - Real.exp (-(ρ / v * u)) := by
      rw [sub_nonneg, Real.exp_le_exp]
      have : 0 < ρ / v * u := by positivity
      linarith
    rw [mul_assoc, mul_comm, ← ENNReal.ofReal_mul (by positivity), ← ENNReal.ofReal_mul (by positivity)]
    congr 2
    have a1 : Real.exp (-(u ^ 2 + ρ ^ 2) / (2 * v)) * Real.exp (ρ / v * u) = Real.exp (-(ρ - u) ^ 2 / (2 * v)) := by
      rw [← Real.exp_add]; congr 1; field_simp; ring
    have a2 : Real.exp (-(u ^ 2 + ρ ^ 2) / (2 * v)) * Real.exp (-(ρ / v * u)) = Real.exp (-(u + ρ - 2 * 0) ^ 2 / (2 * v)) := by
      rw [← Real.exp_add]; congr 1; field_simp; ring
    rw [normDensR, normDensR, ← a1, ← a2]
    have hsq : Real.sqrt (2 * Real.pi * v) ≠ 0 := (Real.sqrt_pos.2 (by positivity)).ne'
    field_simp
  · have e2 : ∀ x, {q : ℝ × ℝ | |q.1| < q.2}.indicator (fun q => C q.2 * ENNReal.ofReal (Real.exp (ρ / v * q.1))) (x, u) = 0 := by
      intro x
      refine indicator_of_notMem ?_ _
      exact fun h : |x| < u => hu ((abs_nonneg x).trans_lt h)
    rw [killDens, if_neg (fun h => hu h.1)]
    simp [e2]

/-! ## rotations -/

/-- The space with its Euclidean structure. -/
abbrev E3 := EuclideanSpace ℝ (Fin 3)

/-- The coordinates as a triple. -/
noncomputable def toTriple (z : E3) : ℝ × ℝ × ℝ := (z 0, z 1, z 2)

theorem toTriple_mp : MeasurePreserving toTriple := by
  have h1 := EuclideanSpace.volume_preserving_symm_measurableEquiv_toLp (Fin 3)
  have h2 := volume_preserving_piFinSuccAbove (fun _ : Fin 3 => ℝ) 0
  have h3 := volume_preserving_finTwoArrow ℝ
  have h4 := (MeasurePreserving.id (volume : Measure ℝ)).prod h3
  exact (h4.comp (h2.comp h1))

theorem nrm3_toTriple (z : E3) : nrm3 (toTriple z) = ‖z‖ := by
  rw [EuclideanSpace.norm_eq, nrm3, Fin.sum_univ_three]
  simp [toTriple]

theorem step3_norm {v : ℝ} (hv : 0 < v) (z w : E3) :
    step3 v (toTriple z) (toTriple w) = ENNReal.ofReal (Real.exp (-‖z - w‖ ^ 2 / (2 * v)) / Real.sqrt (2 * Real.pi * v) ^ 3) := by
  have hpi := Real.pi_pos
  rw [step3, normDens, normDens, normDens, ← ENNReal.ofReal_mul (by unfold normDensR; positivity), ← ENNReal.ofReal_mul (by unfold normDensR; positivity)]
  congr 1
  rw [EuclideanSpace.norm_eq, Real.sq_sqrt (by positivity), Fin.sum_univ_three]
  simp only [normDensR, toTriple, PiLp.sub_apply, Real.norm_eq_abs, sq_abs]
  rw [div_mul_div_comm, div_mul_div_comm, ← Real.exp_add, ← Real.exp_add]
  congr 1
  · congr 1
    field_simp
    ring
  · ring

theorem toTriple_surj (p : ℝ × ℝ × ℝ) : ∃ z : E3, toTriple z = p := by
  refine ⟨WithLp.toLp 2 ![p.1, p.2.1, p.2.2], ?_⟩
  simp [toTriple]

/-- One Gaussian step from a point drawn with a rotationally symmetric weight. -/
theorem radial_step {v : ℝ} (hv : 0 < v) {w : ℝ × ℝ × ℝ} (hw : 0 < nrm3 w) {R : ℝ → ℝ≥0∞} (hR : Measurable R) :
    ∫⁻ z, R (nrm3 z) * step3 v z w = ∫⁻ r, ENNReal.ofReal (r / nrm3 w) * killDens 0 v r (nrm3 w) * R r := by
  rw [← radial_axis hv hw hR]
  obtain ⟨w', rfl⟩ := toTriple_surj w
  obtain ⟨a', ha'⟩ := toTriple_surj (nrm3 (toTriple w'), 0, 0)
  have hn : ‖a'‖ = ‖w'‖ := by
    rw [← nrm3_toTriple a', ha', ← nrm3_toTriple w']
    have : nrm3 (nrm3 (toTriple w'), 0, 0) = Real.sqrt (nrm3 (toTriple w') ^ 2) := by simp [nrm3]
    rw [this, Real.sqrt_sq hw.le]
  have hmm : ∀ w, Measurable fun z : ℝ × ℝ × ℝ => R (nrm3 z) * step3 v z w := fun w => (hR.comp measurable_nrm3).mul (measurable_step3_left v _)
  rw [← ha', ← toTriple_mp.lintegral_comp (hmm _), ← toTriple_mp.lintegral_comp (hmm _)]
  set Q := (ℝ ∙ (a' - w'))ᗮ.reflection with hQ
  have hQa : Q a' = w' := Submodule.reflection_sub hn
  have hmp : MeasurePreserving Q := Q.measurePreserving
  have hm : Measurable fun z : E3 => R (nrm3 (toTriple z)) * step3 v (toTriple z) (toTriple w') :=
    (hmm _).comp toTriple_mp.measurable
  rw [← hmp.lintegral_comp hm]
  refine lintegral_congr fun z => ?_
  rw [nrm3_toTriple, nrm3_toTriple, step3_norm hv, step3_norm hv, LinearIsometryEquiv.norm_map]
  congr 5
  rw [← hQa, ← map_sub, LinearIsometryEquiv.norm_map]

end Ctb
