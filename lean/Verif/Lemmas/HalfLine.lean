import Verif.Lemmas.MinSplit
import Verif.Lemmas.BesselLaw

/-! # A Brownian path above a level, split at its minimum -/

set_option linter.unusedSectionVars false

namespace Ctb

open MeasureTheory Set
open scoped ENNReal

theorem passDens_norm {v : ℝ} (hv : 0 < v) (u : ℝ) : passDens u v = u / v * normDensR v u := by
  have hpi := Real.pi_pos
  have hs : 0 < Real.sqrt (2 * Real.pi * v) := Real.sqrt_pos.2 (by positivity)
  have h2 : Real.sqrt (2 * Real.pi * v) ^ 2 = 2 * Real.pi * v := Real.sq_sqrt (by positivity)
  rw [← passDens_gauss hv, normDensR]
  have h3 : Real.sqrt (2 * Real.pi * v) ^ 3 = 2 * Real.pi * v * Real.sqrt (2 * Real.pi * v) := by rw [pow_succ, h2]
  rw [h3]
  field_simp

/-- The density of the minimum integrates to the density of staying above. -/
theorem passDens_primitive {v c m m1 : ℝ} (hv : 0 < v) (hm : m ≤ m1) (hc : 2 * m1 ≤ c) :
    ∫⁻ u in Ioo m m1, ENNReal.ofReal (2 * passDens (c - 2 * u) v) = ENNReal.ofReal (normDensR v (c - 2 * m1) - normDensR v (c - 2 * m)) := by
  have hd : ∀ u ∈ uIcc m m1, HasDerivAt (fun u => normDensR v (c - 2 * u)) (2 * passDens (c - 2 * u) v) u := by
    intro u _
    have h1 : HasDerivAt (fun u : ℝ => c - 2 * u) (-2) u := by simpa using ((hasDerivAt_id u).const_mul 2).const_sub c
    have h2 : HasDerivAt (fun u : ℝ => -(c - 2 * u) ^ 2 / (2 * v)) (-(2 * (c - 2 * u) * (-2)) / (2 * v)) u := by
      have := ((h1.pow 2).neg).div_const (2 * v)
      simpa using this
    have h3 := h2.exp.div_const (Real.sqrt (2 * Real.pi * v))
    have e : Real.exp (-(c - 2 * u) ^ 2 / (2 * v)) * (-(2 * (c - 2 * u) * (-2)) / (2 * v)) / Real.sqrt (2 * Real.pi * v) = 2 * passDens (c - 2 * u) v := by
      rw [passDens_norm hv, normDensR]
      field_simp
    rw [e] at h3
    exact h3
  have hcont : Continuous fun u : ℝ => 2 * passDens (c - 2 * u) v := by
    unfold passDens; fun_prop
  have hi : IntervalIntegrable (fun u : ℝ => 2 * passDens (c - 2 * u) v) volume m m1 := hcont.intervalIntegrable _ _
  have h := intervalIntegral.integral_eq_sub_of_hasDerivAt hd hi
  rw [intervalIntegral.integral_of_le hm, integral_Ioc_eq_integral_Ioo] at h
  rw [← ofReal_integral_eq_lintegral_ofReal ((intervalIntegrable_iff_integrableOn_Ioo_of_le hm).1 hi) ?_, h]
  refine (ae_restrict_iff' measurableSet_Ioo).2 (ae_of_all _ fun u hu => ?_)
  have := passDens_nonneg (a := c - 2 * u) (s := v) (by linarith [hu.2])
  simp only [Pi.zero_apply]
  linarith

theorem entr_conv {v : ℝ} (hv : 0 < v) (m x y : ℝ) :
    ∫⁻ s in Ioo 0 v, 2 * (entrDens m s x * entrDens m (v - s) y) =
      if m < min x y then ENNReal.ofReal (2 * passDens (x + y - 2 * m) v) else 0 := by
  by_cases h : m < x ∧ m < y
  · rw [if_pos (lt_min h.1 h.2)]
    have e : ∀ s ∈ Ioo 0 v, 2 * (entrDens m s x * entrDens m (v - s) y) = 2 * ENNReal.ofReal (passDens (x - m) s * passDens (y - m) (v - s)) := by
      intro s _
      rw [entrDens, entrDens, if_pos h.1, if_pos h.2, ENNReal.ofReal_mul (passDens_nonneg (by linarith [h.1]))]
    rw [setLIntegral_congr_fun measurableSet_Ioo e, lintegral_const_mul, passDens_conv hv (by linarith [h.1]) (by linarith [h.2]), ENNReal.ofReal_mul (by norm_num)]
    · congr 2
      · simp
      · ring_nf
    · exact ((measurable_passDens _).mul ((measurable_passDens _).comp (measurable_const.sub measurable_id))).ennreal_ofReal
  · rw [if_neg (by rwa [lt_min_iff])]
    have e : ∀ s, 2 * (entrDens m s x * entrDens m (v - s) y) = 0 := by
      intro s
      unfold entrDens
      rcases not_and_or.1 h with h | h <;> simp [h]
    rw [lintegral_congr e, lintegral_zero]

theorem layerKer_half : LayerKer entrDens killDens where
  measE := by
    unfold entrDens
    refine Measurable.ite ?_ ?_ measurable_const
    · exact measurableSet_lt measurable_fst (by fun_prop)
    · unfold passDens; fun_prop
  measK := measK_kill
  symm m v x y := by
    unfold killDens
    by_cases h : m < x ∧ m < y
    · rw [if_pos h, if_pos h.symm]
      unfold normDensR
      ring_nf
    · rw [if_neg h, if_neg fun h' => h h'.symm]
  split {v} hv m x y := by
    rw [lintegral_congr fun m' => entr_conv hv m' x y]
    by_cases h : m < min x y
    · have e : Ioi m = Ioo m (min x y) ∪ Ici (min x y) := (Ioo_union_Ici_eq_Ioi h).symm
      have hz : ∫⁻ m' in Ici (min x y), (if m' < min x y then ENNReal.ofReal (2 * passDens (x + y - 2 * m') v) else 0) = 0 := by
        rw [setLIntegral_congr_fun measurableSet_Ici (g := fun _ => 0) (fun m' hm' => if_neg (not_lt.2 hm')), lintegral_zero]
      rw [e, lintegral_union measurableSet_Ici (by
        rw [Set.disjoint_left]; intro u hu hu2; exact absurd hu.2 (not_lt.2 hu2)), hz, add_zero,
        setLIntegral_congr_fun measurableSet_Ioo (g := fun m' => ENNReal.ofReal (2 * passDens (x + y - 2 * m') v)) (fun m' hm' => if_pos hm'.2),
        passDens_primitive hv h.le (by rcases le_total x y with hxy | hxy <;> simp [hxy] <;> linarith), killDens, if_pos (lt_min_iff.1 h)]
      congr 2
      rcases le_total x y with hxy | hxy
      · rw [min_eq_left hxy]; ring_nf
      · rw [min_eq_right hxy]; unfold normDensR; ring_nf
    · rw [killDens, if_neg (by rwa [lt_min_iff] at h), setLIntegral_congr_fun measurableSet_Ioi (g := fun _ => 0) (fun m' hm' => if_neg ?_), lintegral_zero]
      exact fun h' => h (lt_trans hm' h')

end Ctb
