import Verif.Lemmas.WaldLaw
import Verif.Lemmas.BridgeMin
import Verif.Spec.BridgeMin

set_option linter.unusedSectionVars false

/-! # Law of the minimum of a bridge and of its time -/

namespace Ctb

open MeasureTheory ProbabilityTheory Set Classical
open scoped ENNReal NNReal

theorem passDens_pos {a s : ℝ} (ha : 0 < a) (hs : 0 < s) : 0 < passDens a s := by
  have := Real.pi_pos
  unfold passDens
  have : 0 < Real.sqrt (2 * Real.pi * s ^ 3) := Real.sqrt_pos.2 (by positivity)
  have := Real.exp_pos (-a ^ 2 / (2 * s))
  positivity

theorem passDens_nonneg {a s : ℝ} (ha : 0 ≤ a) : 0 ≤ passDens a s := by
  unfold passDens
  have := Real.exp_pos (-a ^ 2 / (2 * s))
  positivity

theorem measurable_passDens (a : ℝ) : Measurable (passDens a) := by
  unfold passDens
  fun_prop

/-- The inverse Gaussian density of `w = (T - s) / s`, seen as a density of `s`. -/
theorem wald_first {T al be s : ℝ} (ha : 0 < al) (hb : 0 < be) (h0 : 0 < s) (h1 : s < T) :
    passDens (al + be) T * (al / (al + be) * (T / s ^ 2 * waldDens (be / al) (be ^ 2 / T) ((T - s) / s))) =
      s / T * (passDens al s * passDens be (T - s)) := by
  have hp := Real.pi_pos
  have hT : 0 < T := h0.trans h1
  have hd : 0 < T - s := sub_pos.2 h1
  have hA : 0 < Real.sqrt (2 * Real.pi * s ^ 3) := Real.sqrt_pos.2 (by positivity)
  have hB : 0 < Real.sqrt (2 * Real.pi * (T - s) ^ 3) := Real.sqrt_pos.2 (by positivity)
  have hC : 0 < Real.sqrt (2 * Real.pi * T ^ 3) := Real.sqrt_pos.2 (by positivity)
  have hA2 : Real.sqrt (2 * Real.pi * s ^ 3) ^ 2 = 2 * Real.pi * s ^ 3 := Real.sq_sqrt (by positivity)
  have hB2 : Real.sqrt (2 * Real.pi * (T - s) ^ 3) ^ 2 = 2 * Real.pi * (T - s) ^ 3 := Real.sq_sqrt (by positivity)
  have hC2 : Real.sqrt (2 * Real.pi * T ^ 3) ^ 2 = 2 * Real.pi * T ^ 3 := Real.sq_sqrt (by positivity)
  have e1 : Real.sqrt (be ^ 2 / T / (2 * Real.pi * ((T - s) / s) ^ 3)) =
      be * T * Real.sqrt (2 * Real.pi * s ^ 3) / (Real.sqrt (2 * Real.pi * (T - s) ^ 3) * Real.sqrt (2 * Real.pi * T ^ 3)) := by
    have : be ^ 2 / T / (2 * Real.pi * ((T - s) / s) ^ 3) = (be * T * Real.sqrt (2 * Real.pi * s ^ 3) /
        (Real.sqrt (2 * Real.pi * (T - s) ^ 3) * Real.sqrt (2 * Real.pi * T ^ 3))) ^ 2 := by
      rw [div_pow (be * T * _), mul_pow (be * T), mul_pow (Real.sqrt (2 * Real.pi * (T - s) ^ 3)), hA2, hB2, hC2]
      field_simp
    rw [this, Real.sqrt_sq (by positivity)]
  have e2 : Real.exp (-(al + be) ^ 2 / (2 * T)) * Real.exp (-(be ^ 2 / T * ((T - s) / s - be / al) ^ 2) / (2 * (be / al) ^ 2 * ((T - s) / s))) =
      Real.exp (-al ^ 2 / (2 * s)) * Real.exp (-be ^ 2 / (2 * (T - s))) := by
    rw [← Real.exp_add, ← Real.exp_add]
    congr 1
    field_simp
    ring
  unfold passDens waldDens
  rw [e1]
  calc _ = (Real.exp (-(al + be) ^ 2 / (2 * T)) * Real.exp (-(be ^ 2 / T * ((T - s) / s - be / al) ^ 2) / (2 * (be / al) ^ 2 * ((T - s) / s)))) *
        ((al + be) / Real.sqrt (2 * Real.pi * T ^ 3) * (al / (al + be) * (T / s ^ 2 *
          (be * T * Real.sqrt (2 * Real.pi * s ^ 3) / (Real.sqrt (2 * Real.pi * (T - s) ^ 3) * Real.sqrt (2 * Real.pi * T ^ 3)))))) := by ring
    _ = (Real.exp (-al ^ 2 / (2 * s)) * Real.exp (-be ^ 2 / (2 * (T - s)))) *
        (s / T * (al / Real.sqrt (2 * Real.pi * s ^ 3) * (be / Real.sqrt (2 * Real.pi * (T - s) ^ 3)))) := by
      rw [e2]
      congr 1
      have hne : (al + be) ≠ 0 := by positivity
      generalize Real.sqrt (2 * Real.pi * s ^ 3) = A at *
      generalize Real.sqrt (2 * Real.pi * (T - s) ^ 3) = B at *
      generalize Real.sqrt (2 * Real.pi * T ^ 3) = C at *
      have : (al + be) / C * (al / (al + be) * (T / s ^ 2 * (be * T * A / (B * C)))) = al * be * T ^ 2 * A / (s ^ 2 * B * C ^ 2) := by
        field_simp
      rw [this, hC2]
      rw [div_eq_iff (by positivity)]
      field_simp
      rw [hA2]
      ring
    _ = _ := by ring

theorem wald_second {T al be s : ℝ} (ha : 0 < al) (hb : 0 < be) (h0 : 0 < s) (h1 : s < T) :
    passDens (al + be) T * (be / (al + be) * (T / (T - s) ^ 2 * waldDens (al / be) (al ^ 2 / T) (s / (T - s)))) =
      (T - s) / T * (passDens al s * passDens be (T - s)) := by
  have := wald_first (T := T) (s := T - s) hb ha (sub_pos.2 h1) (by linarith)
  rw [sub_sub_cancel, add_comm be al] at this
  rw [this, mul_comm (passDens be _)]

theorem image_first {T : ℝ} (hT : 0 < T) : (fun s : ℝ => (T - s) / s) '' Ioo 0 T = Ioi (0 : ℝ) := by
  ext w
  constructor
  · rintro ⟨s, ⟨h0, h1⟩, rfl⟩
    exact div_pos (sub_pos.2 h1) h0
  · intro hw
    have hw : 0 < w := hw
    refine ⟨T / (1 + w), ⟨by positivity, by rw [div_lt_iff₀ (by positivity)]; nlinarith⟩, ?_⟩
    field_simp
    ring

theorem image_second {T : ℝ} (hT : 0 < T) : (fun s : ℝ => s / (T - s)) '' Ioo 0 T = Ioi (0 : ℝ) := by
  ext w
  constructor
  · rintro ⟨s, ⟨h0, h1⟩, rfl⟩
    exact div_pos h0 (sub_pos.2 h1)
  · intro hw
    have hw : 0 < w := hw
    have : T - T * w / (1 + w) ≠ 0 := by
      have : T - T * w / (1 + w) = T / (1 + w) := by field_simp; ring
      rw [this]; positivity
    refine ⟨T * w / (1 + w), ⟨by positivity, by rw [div_lt_iff₀ (by positivity)]; nlinarith⟩, ?_⟩
    rw [div_eq_iff this]
    field_simp
    ring

variable {T a b m : ℝ}

/-- Law of the time of the minimum given its value. -/
theorem minTime_law (hT : 0 < T) (ha : m < a) (hb : m < b) {f : ℝ → ℝ≥0∞} (hf : Measurable f) :
    ENNReal.ofReal (passDens (a - m + (b - m)) T) * (sampleMinTime T a b m).lexp (onOk f) =
      ∫⁻ s in Ioo 0 T, ENNReal.ofReal (passDens (a - m) s * passDens (b - m) (T - s)) * f s := by
  obtain ⟨al, hal⟩ : ∃ al, al = a - m := ⟨_, rfl⟩
  obtain ⟨be, hbe⟩ : ∃ be, be = b - m := ⟨_, rfl⟩
  have ha' : 0 < al := by rw [hal]; linarith
  have hb' : 0 < be := by rw [hbe]; linarith
  have hp3 : Real.sqrt ((b - m) ^ 2 / (2 * T) / ((m - a) ^ 2 / (2 * T))) = be / al := by
    rw [← Real.sqrt_sq (show 0 ≤ be / al by positivity)]
    congr 1
    rw [← hbe, show (m - a) ^ 2 = al ^ 2 by rw [hal]; ring]
    field_simp
  have hq1 : 2 * ((b - m) ^ 2 / (2 * T)) = be ^ 2 / T := by rw [← hbe]; field_simp
  have hq2 : 2 * ((m - a) ^ 2 / (2 * T)) = al ^ 2 / T := by rw [show (m - a) ^ 2 = al ^ 2 by rw [hal]; ring]; field_simp
  have e0 : (sampleMinTime T a b m).lexp (onOk f) =
      ENNReal.ofReal (al / (al + be)) * ∫⁻ w, f (T / (1 + w)) ∂(RDist.wald (be / al) (be ^ 2 / T)).law +
      ENNReal.ofReal (be / (al + be)) * ∫⁻ w, f (T / (1 + 1 / w)) ∂(RDist.wald (al / be) (al ^ 2 / T)).law := by
    unfold sampleMinTime
    simp only [hp3, hq1, hq2, Prog.draw, Prog.real_bind, Prog.ret_bind, Prog.lexp_real]
    have : ∀ u : ℝ, (if u < 1 / (1 + be / al) then Prog.real (.wald (be / al) (be ^ 2 / T)) fun x => .ret (T / (1 + x))
        else Prog.real (.wald (1 / (be / al)) (al ^ 2 / T)) fun x => .ret (T / (1 + 1 / x))).lexp (onOk f) =
        if u < 1 / (1 + be / al) then ∫⁻ w, f (T / (1 + w)) ∂(RDist.wald (be / al) (be ^ 2 / T)).law
        else ∫⁻ w, f (T / (1 + 1 / w)) ∂(RDist.wald (al / be) (al ^ 2 / T)).law := by
      intro u
      split_ifs
      · rfl
      · rw [one_div_div]; rfl
    simp only [this]
    rw [lintegral_uniform_lt (by positivity) (by rw [div_le_one (by positivity)]; have : 0 < be / al := by positivity
                                                 linarith)]
    congr 3
    · field_simp
    · field_simp; ring
  rw [e0, ← hal, ← hbe, lintegral_wald, lintegral_wald, ← image_first hT,
    lintegral_image_eq_lintegral_abs_deriv_mul (f' := fun s => -(T / s ^ 2)) measurableSet_Ioo]
  rotate_left
  · intro s hs
    have h0 : s ≠ 0 := hs.1.ne'
    have := (((hasDerivAt_id s).const_sub T).div (hasDerivAt_id s) h0)
    refine HasDerivAt.hasDerivWithinAt ?_
    have e : (-1 * id s - (T - id s) * 1) / id s ^ 2 = -(T / s ^ 2) := by
      simp only [id]
      field_simp
      ring
    rw [e] at this
    exact this
  · intro x hx y hy hxy
    have h0 : x ≠ 0 := hx.1.ne'
    have h1 : y ≠ 0 := hy.1.ne'
    dsimp only at hxy
    rw [div_eq_div_iff h0 h1] at hxy
    have : T * (y - x) = 0 := by linarith
    rcases mul_eq_zero.1 this with h | h
    · exact absurd h hT.ne'
    · linarith
  rw [image_first hT, ← image_second hT, lintegral_image_eq_lintegral_abs_deriv_mul (f' := fun s => T / (T - s) ^ 2) measurableSet_Ioo]
  rotate_left
  · intro s hs
    have h0 : T - s ≠ 0 := (sub_pos.2 hs.2).ne'
    have := ((hasDerivAt_id s).div ((hasDerivAt_id s).const_sub T) h0)
    refine HasDerivAt.hasDerivWithinAt ?_
    have e : (1 * (T - id s) - id s * -1) / (T - id s) ^ 2 = T / (T - s) ^ 2 := by
      simp only [id]
      congr 1
      ring
    rw [e] at this
    exact this
  · intro x hx y hy hxy
    have h0 : T - x ≠ 0 := (sub_pos.2 hx.2).ne'
    have h1 : T - y ≠ 0 := (sub_pos.2 hy.2).ne'
    dsimp only at hxy
    rw [div_eq_div_iff h0 h1] at hxy
    have : T * (y - x) = 0 := by linarith
    rcases mul_eq_zero.1 this with h | h
    · exact absurd h hT.ne'
    · linarith
  have hW : ∀ m l x, 0 ≤ waldDens m l x := fun m l x => mul_nonneg (Real.sqrt_nonneg _) (Real.exp_pos _).le
  have hH : 0 ≤ passDens (al + be) T := passDens_nonneg (by positivity)
  have t1 : ENNReal.ofReal (passDens (al + be) T) * (ENNReal.ofReal (al / (al + be)) * ∫⁻ s in Ioo 0 T, ENNReal.ofReal |-(T / s ^ 2)| *
      (ENNReal.ofReal (waldDens (be / al) (be ^ 2 / T) ((T - s) / s)) * f (T / (1 + (T - s) / s)))) =
      ∫⁻ s in Ioo 0 T, ENNReal.ofReal (s / T * (passDens al s * passDens be (T - s))) * f s := by
    rw [← mul_assoc, ← ENNReal.ofReal_mul hH, ← lintegral_const_mul' _ _ ENNReal.ofReal_ne_top]
    refine setLIntegral_congr_fun measurableSet_Ioo fun s hs => ?_
    have hs0 : 0 < s := hs.1
    rw [← wald_first ha' hb' hs.1 hs.2, abs_neg, abs_of_pos (show 0 < T / s ^ 2 by positivity), ← mul_assoc, ← mul_assoc, ← ENNReal.ofReal_mul (by positivity),
      ← ENNReal.ofReal_mul (by positivity)]
    congr 2
    · ring
    · field_simp
      simp [hT.ne']
  have t2 : ENNReal.ofReal (passDens (al + be) T) * (ENNReal.ofReal (be / (al + be)) * ∫⁻ s in Ioo 0 T, ENNReal.ofReal |T / (T - s) ^ 2| *
      (ENNReal.ofReal (waldDens (al / be) (al ^ 2 / T) (s / (T - s))) * f (T / (1 + 1 / (s / (T - s)))))) =
      ∫⁻ s in Ioo 0 T, ENNReal.ofReal ((T - s) / T * (passDens al s * passDens be (T - s))) * f s := by
    rw [← mul_assoc, ← ENNReal.ofReal_mul hH, ← lintegral_const_mul' _ _ ENNReal.ofReal_ne_top]
    refine setLIntegral_congr_fun measurableSet_Ioo fun s hs => ?_
    have hs0 : 0 < T - s := sub_pos.2 hs.2
    have hs1 : 0 < s := hs.1
    rw [← wald_second ha' hb' hs.1 hs.2, abs_of_pos (show 0 < T / (T - s) ^ 2 by positivity), ← mul_assoc, ← mul_assoc, ← ENNReal.ofReal_mul (by positivity),
      ← ENNReal.ofReal_mul (by positivity)]
    congr 2
    · ring
    · field_simp
      simp [hT.ne']
  rw [mul_add, t1, t2]
  have hm : Measurable fun s => ENNReal.ofReal (s / T * (passDens al s * passDens be (T - s))) * f s :=
    ((measurable_id.div_const T).mul ((measurable_passDens al).mul ((measurable_passDens be).comp (measurable_const.sub measurable_id)))).ennreal_ofReal.mul hf
  rw [← lintegral_add_left hm]
  refine setLIntegral_congr_fun measurableSet_Ioo fun s hs => ?_
  have hs0 : 0 < T - s := sub_pos.2 hs.2
  have hs1 : 0 < s := hs.1
  have := passDens_nonneg (s := s) ha'.le
  have := passDens_nonneg (s := T - s) hb'.le
  rw [← add_mul, ← ENNReal.ofReal_add (by positivity) (by positivity)]
  congr 2
  field_simp
  ring

theorem measurableSet_minRange (lb : Option ℝ) (u : ℝ) : MeasurableSet (minRange lb u) := by
  rcases lb with _ | l
  · have : minRange none u = Iio u := by ext m; simp [minRange]
    rw [this]; exact measurableSet_Iio
  · have : minRange (some l) u = Ioo l u := by ext m; simp [minRange]
    rw [this]; exact measurableSet_Ioo

/-- The derivative of the distribution function in terms of the first passage density. -/
theorem minPdf_eq (hT : 0 < T) : 2 * (a + b - 2 * m) / T * Real.exp (-2 * (a - m) * (b - m) / T) =
    2 * passDens (a - m + (b - m)) T / normDensR T (b - a) := by
  have hp := Real.pi_pos
  have hs : 0 < Real.sqrt (2 * Real.pi * T) := Real.sqrt_pos.2 (by positivity)
  have e1 : Real.sqrt (2 * Real.pi * T ^ 3) = T * Real.sqrt (2 * Real.pi * T) := by
    rw [show 2 * Real.pi * T ^ 3 = T ^ 2 * (2 * Real.pi * T) by ring, Real.sqrt_mul (by positivity), Real.sqrt_sq hT.le]
  have e2 : Real.exp (-(a - m + (b - m)) ^ 2 / (2 * T)) = Real.exp (-2 * (a - m) * (b - m) / T) * Real.exp (-(b - a) ^ 2 / (2 * T)) := by
    rw [← Real.exp_add]
    congr 1
    field_simp
    ring
  have := Real.exp_pos (-(b - a) ^ 2 / (2 * T))
  unfold passDens normDensR
  rw [e1, e2]
  field_simp
  ring

theorem normDensR_gt {v : ℝ} (hv : 0 < v) (x : ℝ) : 0 < normDensR v x :=
  div_pos (Real.exp_pos _) (Real.sqrt_pos.2 (by have := Real.pi_pos; positivity))

/-- Joint law of the time and the value of the minimum between the bounds. -/
theorem bridgeMin_law {lb ub : Option ℝ} (hT : 0 < T) (hb : MinBoundsOk a b lb (ub.getD (min a b))) {F : ℝ × ℝ → ℝ≥0∞} (hF : Measurable F) :
    ENNReal.ofReal (cdfMinBase T a b (some (ub.getD (min a b))) - cdfMinBase T a b lb) * (sampleBridgeMin T a b lb ub).lexp (onOk F) =
      ∫⁻ m in minRange lb (ub.getD (min a b)), ∫⁻ s in Ioo 0 T, ENNReal.ofReal (minDens T a b s m) * F (s, m) := by
  set U := ub.getD (min a b) with hUd
  have hU : U ≤ min a b := hb.2
  have d : cdfMinBase T a b lb < cdfMinBase T a b (some U) := cdfMinBase_lb_lt hT hb.1 hU
  set c := cdfMinBase T a b (some U) - cdfMinBase T a b lb with hc
  have hc0 : 0 < c := sub_pos.2 d
  set G : ℝ → ℝ := fun m => (Real.exp (-2 * (a - m) * (b - m) / T) - cdfMinBase T a b lb) / c with hG
  have hle : ∀ m ∈ minRange lb U, m ≤ min a b := fun m hm => hm.2.le.trans hU
  have hGm : ∀ m ∈ minRange lb U, G m = (cdfMinBase T a b (some m) - cdfMinBase T a b lb) / c := fun m hm => by
    rw [cdfMinBase_eq (hle m hm)]
  have hG01 : ∀ m ∈ minRange lb U, 0 < G m ∧ G m < 1 := fun m hm => by
    rw [hGm m hm]
    have h1 := cdfMinBase_lb_lt hT hm.1 (hle m hm)
    have h2 := cdfMinBase_lt hT hm.2 hU
    exact ⟨div_pos (sub_pos.2 h1) hc0, by rw [div_lt_one hc0, hc]; linarith⟩
  have hppf : ∀ m ∈ minRange lb U, ppfBridgeMin (G m) T a b lb ub = .ok (some m) := fun m hm => by
    obtain ⟨m', e, h1, -, -, -, h2⟩ := ppfBridgeMin_spec (hG01 m hm).1.le (hG01 m hm).2.le hT hb (fun h => absurd h (hG01 m hm).1.ne')
    rw [e]
    have : m' = m := by
      apply cdfMinBase_inj hT (h1.trans hU) (hle m hm)
      rw [h2, hGm m hm, ← hUd, ← hc]
      field_simp
      ring
    rw [this]
  have himg : G '' minRange lb U = Ioo (0 : ℝ) 1 := by
    ext v
    constructor
    · rintro ⟨m, hm, rfl⟩
      exact hG01 m hm
    · rintro ⟨h0, h1⟩
      obtain ⟨m', e, h2, -, h3, h4, h5⟩ := ppfBridgeMin_spec h0.le h1.le hT hb (fun h => absurd h h0.ne')
      have hm' : m' ∈ minRange lb U := ⟨h4 h0, h3 h1⟩
      refine ⟨m', hm', ?_⟩
      rw [hGm m' hm', h5, ← hUd, ← hc]
      field_simp
      ring
  have hderiv : ∀ m ∈ minRange lb U, HasDerivWithinAt G (2 * (a + b - 2 * m) / T * Real.exp (-2 * (a - m) * (b - m) / T) / c) (minRange lb U) m := by
    intro m _
    have h1 : HasDerivAt (fun m : ℝ => -2 * (a - m) * (b - m) / T) (2 * (a + b - 2 * m) / T) m := by
      have h := ((((hasDerivAt_id m).const_sub a).const_mul (-2)).mul ((hasDerivAt_id m).const_sub b)).div_const T
      have e : (-2 * -1 * (b - id m) + -2 * (a - id m) * -1) / T = 2 * (a + b - 2 * m) / T := by
        simp only [id]
        ring
      rw [e] at h
      exact h
    have h2 := (h1.exp.sub_const (cdfMinBase T a b lb)).div_const c
    rw [mul_comm (Real.exp _)] at h2
    exact h2.hasDerivWithinAt
  have hinj : InjOn G (minRange lb U) := by
    intro x hx y hy hxy
    have := hppf x hx
    rw [hxy, hppf y hy] at this
    simpa using this.symm
  have hlex : (sampleBridgeMin T a b lb ub).lexp (onOk F) = ∫⁻ m in minRange lb U,
      ENNReal.ofReal (2 * (a + b - 2 * m) / T * Real.exp (-2 * (a - m) * (b - m) / T) / c) * (sampleMinTime T a b m).lexp (onOk fun s => F (s, m)) := by
    unfold sampleBridgeMin
    rw [Prog.assert, if_pos hT, Prog.ret_bind, Prog.assert, if_pos hb, Prog.ret_bind, Prog.draw, Prog.real_bind, Prog.lexp_real, lintegral_uniform01, ← himg,
      lintegral_image_eq_lintegral_abs_deriv_mul (measurableSet_minRange _ _) hderiv hinj]
    refine setLIntegral_congr_fun (measurableSet_minRange _ _) fun m hm => ?_
    have hma : m < a := (hm.2.trans_le hU).trans_le (min_le_left _ _)
    have hmb : m < b := (hm.2.trans_le hU).trans_le (min_le_right _ _)
    have hpos : 0 < 2 * (a + b - 2 * m) / T * Real.exp (-2 * (a - m) * (b - m) / T) / c := by
      have := Real.exp_pos (-2 * (a - m) * (b - m) / T)
      have : 0 < a + b - 2 * m := by linarith
      positivity
    simp only [Prog.ret_bind, hppf m hm, Prog.lift]
    rw [abs_of_pos hpos, Prog.lexp_bind]
    congr 2
  rw [hlex, ← lintegral_const_mul' _ _ ENNReal.ofReal_ne_top]
  refine setLIntegral_congr_fun (measurableSet_minRange _ _) fun m hm => ?_
  have hma : m < a := (hm.2.trans_le hU).trans_le (min_le_left _ _)
  have hmb : m < b := (hm.2.trans_le hU).trans_le (min_le_right _ _)
  have hn := normDensR_gt hT (b - a)
  have e : c * (2 * (a + b - 2 * m) / T * Real.exp (-2 * (a - m) * (b - m) / T) / c) = 2 / normDensR T (b - a) * passDens (a - m + (b - m)) T := by
    rw [mul_div_cancel₀ _ hc0.ne', minPdf_eq hT]
    ring
  rw [← mul_assoc, ← ENNReal.ofReal_mul hc0.le, e, ENNReal.ofReal_mul (by positivity), mul_assoc,
    minTime_law (f := fun s => F (s, m)) hT hma hmb (by fun_prop), ← lintegral_const_mul' _ _ ENNReal.ofReal_ne_top]
  refine setLIntegral_congr_fun measurableSet_Ioo fun s hs => ?_
  rw [← mul_assoc, ← ENNReal.ofReal_mul (by positivity)]
  congr 2
  unfold minDens
  ring

/-- The time of the minimum is returned with probability one. -/
theorem minTime_mass (hT : 0 < T) (ha : m < a) (hb : m < b) (c : ℝ≥0∞) : (sampleMinTime T a b m).lexp (onOk fun _ => c) = c := by
  have q1 : 0 < (b - m) ^ 2 / (2 * T) := div_pos (by nlinarith) (by positivity)
  have q2 : 0 < (m - a) ^ 2 / (2 * T) := div_pos (by nlinarith) (by positivity)
  have q3 : 0 < Real.sqrt ((b - m) ^ 2 / (2 * T) / ((m - a) ^ 2 / (2 * T))) := Real.sqrt_pos.2 (div_pos q1 q2)
  unfold sampleMinTime
  simp only [Prog.draw, Prog.real_bind, Prog.ret_bind, Prog.lexp_real]
  rw [show (fun u => (if u < 1 / (1 + Real.sqrt ((b - m) ^ 2 / (2 * T) / ((m - a) ^ 2 / (2 * T)))) then
        Prog.real (.wald (Real.sqrt ((b - m) ^ 2 / (2 * T) / ((m - a) ^ 2 / (2 * T)))) (2 * ((b - m) ^ 2 / (2 * T)))) fun w => .ret (T / (1 + w))
      else Prog.real (.wald (1 / Real.sqrt ((b - m) ^ 2 / (2 * T) / ((m - a) ^ 2 / (2 * T)))) (2 * ((m - a) ^ 2 / (2 * T)))) fun w => .ret (T / (1 + 1 / w))).lexp
        (onOk fun _ => c)) = fun _ => c from ?_, lintegral_uniform_const]
  funext u
  split_ifs
  · exact wald_mass q3 (by positivity) c
  · exact wald_mass (by positivity) (by positivity) c

/-- First passage densities convolve: the way down by `al + be` passes the level `al`. -/
theorem passDens_conv {T al be : ℝ} (hT : 0 < T) (ha : 0 < al) (hb : 0 < be) :
    ∫⁻ s in Ioo 0 T, ENNReal.ofReal (passDens al s * passDens be (T - s)) = ENNReal.ofReal (passDens (al + be) T) := by
  have h := minTime_law (m := 0) hT ha hb (f := fun _ => 1) measurable_const
  rw [minTime_mass hT ha hb, mul_one] at h
  simpa using h.symm

/-- Mass of the minimum between the bounds. -/
theorem minDens_mass {lb : Option ℝ} {u : ℝ} (hT : 0 < T) (hb : MinBoundsOk a b lb u) :
    ∫⁻ m in minRange lb u, ∫⁻ s in Ioo 0 T, ENNReal.ofReal (minDens T a b s m) =
      ENNReal.ofReal (cdfMinBase T a b (some u) - cdfMinBase T a b lb) := by
  have h := bridgeMin_law (ub := some u) (F := fun _ => 1) hT (by simpa using hb) measurable_const
  have hl : (sampleBridgeMin T a b lb (some u)).lexp (onOk fun _ => 1) = 1 := by
    unfold sampleBridgeMin
    rw [Prog.assert, if_pos hT, Prog.ret_bind, Prog.assert, if_pos (by simpa using hb), Prog.ret_bind, Prog.draw, Prog.real_bind, Prog.lexp_real,
      lintegral_uniform01, setLIntegral_congr_fun (g := fun _ => 1) measurableSet_Ioo]
    · simp
    intro v hv
    obtain ⟨m', e, -, -, h3, h4, -⟩ := ppfBridgeMin_spec (ub := some u) hv.1.le hv.2.le hT hb (fun h => absurd h hv.1.ne')
    have hm : m' < min a b := (h3 hv.2).trans_le hb.2
    simp only [Prog.ret_bind, e, Prog.lift]
    rw [Prog.lexp_bind]
    exact minTime_mass hT (hm.trans_le (min_le_left _ _)) (hm.trans_le (min_le_right _ _)) 1
  rw [hl, mul_one] at h
  simpa using h.symm

end Ctb
