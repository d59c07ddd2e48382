import Verif.Lemmas.ArsIid
import Verif.Model.SampleSde
import Verif.Spec.Value
import Verif.Spec.EndLaw

set_option linter.unusedSectionVars false

/-! # One draw of the adaptive rejection sampler and what follows -/

namespace Ctb

open Set MeasureTheory Filter
open scoped ENNReal Topology

variable {f df : ℝ → ℝ} {H : Hull} {lb ub : EReal} {y : List EReal} {U v : ℝ → ℝ} {Z : ℝ}

theorem expf_aemeas (hf : StrictDiff f df (supp lb ub)) : AEMeasurable (fun t => ENNReal.ofReal (Real.exp (f t))) (volume.restrict (supp lb ub)) := by
  have hcont : ContinuousOn (fun t => ENNReal.ofReal (Real.exp (f t))) (supp lb ub) := by
    intro t ht
    exact (ENNReal.continuous_ofReal.continuousAt.comp (Real.continuous_exp.continuousAt.comp (hf.der t ht).continuousAt)).continuousWithinAt
  exact hcont.aemeasurable (supp_open lb ub).measurableSet

theorem expLaw_lintegral (hf : StrictDiff f df (supp lb ub)) {h : ℝ → ℝ≥0∞} (hh : Measurable h) :
    ∫⁻ t, h t ∂expLaw f (supp lb ub) = (∫⁻ t in supp lb ub, ENNReal.ofReal (Real.exp (f t)) * h t) / expMass f (supp lb ub) univ := by
  rw [expLaw, lintegral_smul_measure, lintegral_withDensity_eq_lintegral_mul₀ (expf_aemeas hf) hh.aemeasurable, smul_eq_mul, ENNReal.div_eq_inv_mul]
  rfl

/-- Expectation of a function of an accepted draw. -/
theorem Env.accept_fun (hf : StrictDiff f df (supp lb ub)) (hH : H.Good f df lb ub) (he : Env f df lb ub H y U v Z) {h : ℝ → ℝ≥0∞} (hh : Measurable h) :
    AEMeasurable (fun z => ENNReal.ofReal (Real.exp (f (v z) - U (v z))) * h (v z)) (volume.restrict (Ioo (0 : ℝ) 1)) ∧
    ∫⁻ z in Ioo (0 : ℝ) 1, ENNReal.ofReal (Real.exp (f (v z) - U (v z))) * h (v z) =
      (∫⁻ t, h t ∂expLaw f (supp lb ub)) * (expMass f (supp lb ub) univ / ENNReal.ofReal Z) := by
  classical
  obtain ⟨m1, m2, -⟩ := he.mass hf hH
  set S := supp lb ub with hS
  have hSm : MeasurableSet S := (supp_open lb ub).measurableSet
  have hfm : Measurable (S.piecewise f 0) := by
    refine ContinuousOn.measurable_piecewise (fun t ht => (hf.der t ht).continuousAt.continuousWithinAt) continuousOn_const hSm
  set g : ℝ → ℝ≥0∞ := fun t => ENNReal.ofReal (Real.exp (S.piecewise f 0 t - U t)) * h t with hg
  have hgm : Measurable g := by
    refine Measurable.mul ?_ hh
    exact (Real.measurable_exp.comp (hfm.sub he.cont.measurable)).ennreal_ofReal
  have hcongr : EqOn (fun z => ENNReal.ofReal (Real.exp (f (v z) - U (v z))) * h (v z)) (fun z => g (v z)) (Ioo 0 1) := by
    intro z hz
    simp only [hg]
    rw [piecewise_eq_of_mem _ _ _ (he.draw z hz).2]
  constructor
  · refine AEMeasurable.congr (f := fun z => g (v z)) ?_ ?_
    · exact hgm.comp_aemeasurable he.meas
    · rw [Filter.EventuallyEq, ae_restrict_iff' measurableSet_Ioo]
      exact Filter.Eventually.of_forall fun z hz => (hcongr hz).symm
  · rw [setLIntegral_congr_fun measurableSet_Ioo hcongr, he.lintegral hgm, Measure.restrict_congr_set (supp_ae lb ub), expLaw_lintegral hf hh, ← mul_div_assoc, ENNReal.div_mul_cancel m1 m2]
    rw [ENNReal.div_eq_inv_mul]
    have hZ : ENNReal.ofReal Z ≠ 0 := by simpa using he.pos
    rw [← lintegral_const_mul' _ _ (ENNReal.inv_ne_top.2 hZ)]
    refine setLIntegral_congr_fun hSm fun t ht => ?_
    have e1 : S.piecewise f 0 t = f t := piecewise_eq_of_mem _ _ _ ht
    simp only [hg, e1, ← mul_assoc]
    rw [← ENNReal.ofReal_mul (by have := he.pos; positivity), ← ENNReal.ofReal_inv_of_pos he.pos, ← ENNReal.ofReal_mul (by have := he.pos; positivity)]
    congr 2
    rw [Real.exp_sub]
    have := (Real.exp_pos (U t)).ne'
    have := he.pos.ne'
    field_simp

theorem expLaw_prob (hf : StrictDiff f df (supp lb ub)) (hH : H.Good f df lb ub) : IsProbabilityMeasure (expLaw f (supp lb ub)) := by
  obtain ⟨y, v, Z, he⟩ := hH.env hf
  obtain ⟨m1, m2, -⟩ := he.mass hf hH
  refine ⟨?_⟩
  have := expLaw_lintegral hf (h := fun _ => 1) measurable_const
  rw [lintegral_one] at this
  rw [this]
  have e : (∫⁻ t in supp lb ub, ENNReal.ofReal (Real.exp (f t)) * 1) = expMass f (supp lb ub) univ := by simp [expMass]
  rw [e, ENNReal.div_self m1 m2]

/-- Hulls whose envelope has at most the mass `Z0`. -/
def Tight (f df : ℝ → ℝ) (lb ub : EReal) (Z0 : ℝ) : Set Hull := {H | H.Good f df lb ub ∧ ∃ y U v Z, Env f df lb ub H y U v Z ∧ Z ≤ Z0}

theorem Hull.Good.tight (hf : StrictDiff f df (supp lb ub)) (hH : H.Good f df lb ub) : ∃ Z0, H ∈ Tight f df lb ub Z0 := by
  obtain ⟨y, v, Z, he⟩ := hH.env hf
  exact ⟨Z, hH, y, _, v, Z, he, le_rfl⟩

/-- Probability of a draw within `n` passes, from below. -/
noncomputable def passProb (f : ℝ → ℝ) (lb ub : EReal) (Z0 : ℝ) (n : ℕ) : ℝ≥0∞ := 1 - (1 - expMass f (supp lb ub) univ / ENNReal.ofReal Z0) ^ n

theorem arsNext_succ (f df : ℝ → ℝ) (lb ub : EReal) (n : ℕ) (H : Hull) : arsNext f df lb ub (n + 1) H =
    (arsStep f df lb ub 100 H).bind fun r => if r.2.1 then .ret (r.1, r.2.2) else arsNext f df lb ub n r.2.2 := by
  rw [arsNext, arsLoop, Prog.bind_assoc]
  congr 1
  funext r
  split_ifs
  · rw [arsLoop]; rfl
  · rfl

theorem arsNext_zero (f df : ℝ → ℝ) (lb ub : EReal) (H : Hull) : arsNext f df lb ub 0 H = .err .fuel := by
  rw [arsNext, arsLoop]; rfl

/-- The next value has the law with density `exp f`, whatever follows: from above and, for enough passes, from below. -/
theorem arsNext_bounds (hf : StrictDiff f df (supp lb ub)) {Z0 : ℝ} {h : ℝ → ℝ≥0∞} (hh : Measurable h) {lo : ℝ≥0∞} (hlo : lo ≠ ∞) {G : ℝ × Hull → ℝ≥0∞}
    (hG : ∀ x, ∀ H' ∈ Tight f df lb ub Z0, lo * h x ≤ G (x, H') ∧ G (x, H') ≤ h x) (n : ℕ) (hH : H ∈ Tight f df lb ub Z0) :
    lo * passProb f lb ub Z0 n * ∫⁻ t, h t ∂expLaw f (supp lb ub) ≤ (arsNext f df lb ub n H).lexp (onOk G) ∧
      (arsNext f df lb ub n H).lexp (onOk G) ≤ ∫⁻ t, h t ∂expLaw f (supp lb ub) := by
  induction n generalizing H with
  | zero =>
    have e : onOk G (.error PyErr.fuel) = 0 := rfl
    simp [arsNext_zero, passProb, e]
  | succ n ih =>
    obtain ⟨hg, y, U, v, Z, he, hZ⟩ := id hH
    set I := ∫⁻ t, h t ∂expLaw f (supp lb ub) with hI
    obtain ⟨a1, a2⟩ := he.accept_fun hf hg hh
    have hq := he.reject hf hg
    set p := expMass f (supp lb ub) univ / ENNReal.ofReal Z with hp
    set q := ∫⁻ z in Ioo (0 : ℝ) 1, ENNReal.ofReal (1 - Real.exp (f (v z) - U (v z))) with hqd
    set p0 := expMass f (supp lb ub) univ / ENNReal.ofReal Z0 with hp0
    have hpp : p0 ≤ p := ENNReal.div_le_div_left (ENNReal.ofReal_le_ofReal hZ) _
    have hp1 : p ≤ 1 := by rw [← hq]; exact le_self_add
    have hp01 := hpp.trans hp1
    have hgrow : ∀ᵐ z ∂(volume.restrict (Ioo (0 : ℝ) 1)), H.grow f df 100 (v z) ∈ Tight f df lb ub Z0 := by
      filter_upwards [he.grow_good hf hg 100] with z hz
      obtain ⟨y', v', Z', he'⟩ := hz.env hf
      exact ⟨hz, y', _, v', Z', he', (he.mono Hull.grow_sub he').trans hZ⟩
    have e : (arsNext f df lb ub (n + 1) H).lexp (onOk G) = ∫⁻ z in Ioo (0 : ℝ) 1, (ENNReal.ofReal (Real.exp (f (v z) - U (v z))) * G (v z, H) +
        ENNReal.ofReal (1 - Real.exp (f (v z) - U (v z))) * (arsNext f df lb ub n (H.grow f df 100 (v z))).lexp (onOk G)) := by
      rw [arsNext_succ, Prog.lexp_bind, he.step hf hg]
      rfl
    rw [e]
    have c0 : passProb f lb ub Z0 n ≤ 1 := tsub_le_self
    constructor
    · have step : passProb f lb ub Z0 (n + 1) ≤ p + q * passProb f lb ub Z0 n := by
        have hr : (1 - p0) ≠ ∞ := ne_top_of_le_ne_top ENNReal.one_ne_top tsub_le_self
        have hr1 : 1 - p0 ≤ 1 := tsub_le_self
        have e1 : passProb f lb ub Z0 (n + 1) = p0 + (1 - p0) * passProb f lb ub Z0 n := by
          simp only [passProb]
          have h1 : (1 - p0) ^ (n + 1) ≤ 1 - p0 := pow_le_of_le_one zero_le hr1 (by omega)
          have h2 : (1 - p0) ^ (n + 1) ≠ ∞ := ENNReal.pow_ne_top hr
          rw [← hp0, ENNReal.mul_sub (fun _ _ => hr), mul_one, ← pow_succ']
          refine ENNReal.sub_eq_of_eq_add h2 ?_
          rw [add_assoc, tsub_add_cancel_of_le h1, add_tsub_cancel_of_le hp01]
        have e2 : (1 - p0) = (p - p0) + q := by
          have h0 : p0 ≠ ∞ := ne_top_of_le_ne_top ENNReal.one_ne_top hp01
          refine ENNReal.sub_eq_of_eq_add h0 ?_
          rw [add_right_comm, tsub_add_cancel_of_le hpp, hq]
        rw [e1, e2, add_mul, ← add_assoc]
        gcongr
        calc p0 + (p - p0) * passProb f lb ub Z0 n ≤ p0 + (p - p0) * 1 := by gcongr
          _ = p := by rw [mul_one, add_tsub_cancel_of_le hpp]
      calc lo * passProb f lb ub Z0 (n + 1) * I ≤ lo * (p + q * passProb f lb ub Z0 n) * I := by gcongr
        _ = lo * (I * p) + q * (lo * passProb f lb ub Z0 n * I) := by ring
        _ ≤ ∫⁻ z in Ioo (0 : ℝ) 1, lo * (ENNReal.ofReal (Real.exp (f (v z) - U (v z))) * h (v z)) +
            ENNReal.ofReal (1 - Real.exp (f (v z) - U (v z))) * (lo * passProb f lb ub Z0 n * I) := by
          rw [lintegral_add_left' (a1.const_mul lo), lintegral_const_mul'' _ a1, a2]
          gcongr
          exact lintegral_mul_const_le _ _
        _ ≤ _ := by
          refine lintegral_mono_ae ?_
          filter_upwards [hgrow] with z hz
          refine add_le_add ?_ (mul_le_mul_right (ih hz).1 _)
          rw [mul_left_comm]
          exact mul_le_mul_right (hG _ H hH).1 _
    · calc _ ≤ ∫⁻ z in Ioo (0 : ℝ) 1, ENNReal.ofReal (Real.exp (f (v z) - U (v z))) * h (v z) + ENNReal.ofReal (1 - Real.exp (f (v z) - U (v z))) * I := by
            refine lintegral_mono_ae ?_
            filter_upwards [hgrow] with z hz
            gcongr
            · exact (hG _ H hH).2
            · exact (ih hz).2
        _ = I * p + q * I := by
            rw [lintegral_add_left' a1, a2, lintegral_mul_const'']
            obtain ⟨b1, -⟩ := he.accept_fun hf hg (h := fun _ => 1) measurable_const
            refine ((b1.const_sub 1)).congr ?_
            refine Filter.Eventually.of_forall fun z => ?_
            simp only [mul_one]
            rw [ENNReal.ofReal_sub _ (Real.exp_pos _).le, ENNReal.ofReal_one]
        _ = I := by rw [mul_comm q, ← mul_add, hq, mul_one]

theorem passProb_tendsto (hf : StrictDiff f df (supp lb ub)) {Z0 : ℝ} (hH : H ∈ Tight f df lb ub Z0) : Tendsto (passProb f lb ub Z0) atTop (𝓝 1) := by
  obtain ⟨hg, y, U, v, Z, he, hZ⟩ := hH
  obtain ⟨m1, m2, m3⟩ := he.mass hf hg
  have : (1 : ℝ≥0∞) - expMass f (supp lb ub) univ / ENNReal.ofReal Z0 < 1 :=
    ENNReal.sub_lt_self ENNReal.one_ne_top one_ne_zero (ENNReal.div_pos m1 ENNReal.ofReal_ne_top).ne'
  have h0 := ENNReal.tendsto_pow_atTop_nhds_zero_of_lt_one this
  have := ENNReal.Tendsto.sub (tendsto_const_nhds (x := (1 : ℝ≥0∞))) h0 (.inl ENNReal.one_ne_top)
  rwa [tsub_zero] at this

end Ctb
