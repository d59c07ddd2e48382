import Verif.Lemmas.MinLaw

set_option linter.unusedSectionVars false

/-!
# C91 Law of the minimum of a bridge; C92 Law of the seeded minimum
-/

namespace Ctb

open MeasureTheory ProbabilityTheory Set Classical
open scoped ENNReal NNReal

variable {T a b : ℝ} {lb ub : Option ℝ}

/-- The probability that the minimum lies below `m`, and zero for no bound: the reflection principle. -/
noncomputable def minBelow (T a b : ℝ) : Option ℝ → ℝ
  | none => 0
  | some m => Real.exp (-2 * (a - m) * (b - m) / T)

theorem minBelow_eq (hb : MinBoundsOk a b lb (ub.getD (min a b))) :
    cdfMinBase T a b (some (ub.getD (min a b))) - cdfMinBase T a b lb = minBelow T a b (some (ub.getD (min a b))) - minBelow T a b lb := by
  rw [cdfMinBase_eq hb.2]
  rcases lb with _ | l
  · rfl
  · rw [cdfMinBase_eq ((hb.1 l rfl).le.trans hb.2)]
    rfl

/-- `sample_brownbr_min` draws the time and the value of the minimum of the bridge, given that the value lies between the bounds. -/
theorem C91_law (hT : 0 < T) (hb : (∀ l, lb = some l → l < ub.getD (min a b)) ∧ ub.getD (min a b) ≤ min a b) {F : ℝ × ℝ → ℝ≥0∞} (hF : Measurable F) :
    (∫⁻ m in minRange lb (ub.getD (min a b)), ∫⁻ s in Ioo 0 T, ENNReal.ofReal (minDens T a b s m)) * (sampleBridgeMin T a b lb ub).lexp (onOk F) =
      ∫⁻ m in minRange lb (ub.getD (min a b)), ∫⁻ s in Ioo 0 T, ENNReal.ofReal (minDens T a b s m) * F (s, m) := by
  rw [minDens_mass hT hb, bridgeMin_law hT hb hF]

/-- The mass between the bounds is the difference of the distribution function, which is positive. -/
theorem C91_mass (hT : 0 < T) (hb : (∀ l, lb = some l → l < ub.getD (min a b)) ∧ ub.getD (min a b) ≤ min a b) :
    ∫⁻ m in minRange lb (ub.getD (min a b)), ∫⁻ s in Ioo 0 T, ENNReal.ofReal (minDens T a b s m) =
      ENNReal.ofReal (minBelow T a b (some (ub.getD (min a b))) - minBelow T a b lb) ∧
    0 < minBelow T a b (some (ub.getD (min a b))) - minBelow T a b lb := by
  rw [← minBelow_eq hb]
  exact ⟨minDens_mass hT hb, sub_pos.2 (cdfMinBase_lb_lt hT hb.1 hb.2)⟩

/-- Without bounds the density integrates to one. -/
theorem C91_density (hT : 0 < T) : ∫⁻ m in Iio (min a b), ∫⁻ s in Ioo 0 T, ENNReal.ofReal (minDens T a b s m) = 1 := by
  have h := minDens_mass (a := a) (b := b) (lb := none) (u := min a b) hT ⟨by simp, le_rfl⟩
  have e : minRange none (min a b) = Iio (min a b) := by ext m; simp [minRange]
  rw [e, cdfMinBase_top] at h
  rw [h]
  simp [cdfMinBase]

/-- A minimum is returned with probability one. -/
theorem C91_proper (hT : 0 < T) (hb : (∀ l, lb = some l → l < ub.getD (min a b)) ∧ ub.getD (min a b) ≤ min a b) :
    (sampleBridgeMin T a b lb ub).prob (fun r => ∃ q, r = .ok q) = 1 := by
  have h := C91_law (F := fun _ => 1) hT hb measurable_const
  have hm := C91_mass hT hb
  simp only [mul_one] at h
  have e : (sampleBridgeMin T a b lb ub).prob (fun r => ∃ q, r = .ok q) = (sampleBridgeMin T a b lb ub).lexp (onOk fun _ => 1) := by
    unfold Prog.prob
    congr 1
    funext r
    cases r <;> simp [onOk]
  rw [e]
  rw [hm.1] at h
  have h0 : ENNReal.ofReal (minBelow T a b (some (ub.getD (min a b))) - minBelow T a b lb) ≠ 0 := by
    simpa using hm.2
  rwa [ENNReal.mul_eq_left h0 ENNReal.ofReal_ne_top] at h

/-- A bridge from 0 to 1 of duration 2 whose minimum lies between -3 and -1. -/
example : 0 < minBelow 2 0 1 (some (-1)) - minBelow 2 0 1 (some (-3)) ∧
    (sampleBridgeMin 2 0 1 (some (-3)) (some (-1))).prob (fun r => ∃ q, r = .ok q) = 1 := by
  have hb : MinBoundsOk (0 : ℝ) 1 (some (-3)) ((some (-1)).getD (min 0 1)) := ⟨by intro l hl; cases hl; norm_num, by norm_num⟩
  exact ⟨(C91_mass (T := 2) (ub := some (-1)) (by norm_num) hb).2, C91_proper (by norm_num) hb⟩

/-! ## C92 -/

/-- `gen_seeded_brownbr_min` fed with independent uniform and chi-square seeds. -/
noncomputable def seededMinProg (T a b : ℝ) : Prog (ℝ × ℝ) :=
  (Prog.draw (.uniform 0 1)).bind fun u0 =>
  (Prog.draw (.uniform 0 1)).bind fun u2 =>
  (Prog.draw (.gamma (1 / 2) 2)).bind fun r2 =>
  (Prog.draw (.uniform 0 1)).bind fun u1 => Prog.lift (seededBridgeMin u0 u1 u2 r2 T a b)

theorem chi_pos_ae {f g : ℝ → ℝ≥0∞} (h : ∀ r, 0 < r → f r = g r) :
    ∫⁻ r, f r ∂(RDist.gamma (1 / 2) 2).law = ∫⁻ r, g r ∂(RDist.gamma (1 / 2) 2).law := by
  rw [lintegral_chi, lintegral_chi]
  exact setLIntegral_congr_fun measurableSet_Ioi fun r hr => by rw [h r hr]

theorem uniform_pos_ae {f g : ℝ → ℝ≥0∞} (h : ∀ r, 0 < r → r < 1 → f r = g r) :
    ∫⁻ r, f r ∂(RDist.uniform 0 1).law = ∫⁻ r, g r ∂(RDist.uniform 0 1).law := by
  rw [lintegral_uniform01, lintegral_uniform01]
  exact setLIntegral_congr_fun measurableSet_Ioo fun r hr => h r hr.1 hr.2

/-- With uniform and chi-square seeds the construction has the law of `sample_brownbr_min`. -/
theorem C92_law (hT : 0 < T) {F : ℝ × ℝ → ℝ≥0∞} (hF : Measurable F) :
    (seededMinProg T a b).lexp (onOk F) = (sampleBridgeMin T a b none none).lexp (onOk F) := by
  have hb : MinBoundsOk a b none ((none : Option ℝ).getD (min a b)) := ⟨by simp, le_rfl⟩
  unfold seededMinProg sampleBridgeMin
  rw [Prog.assert, if_pos hT, Prog.ret_bind, Prog.assert, if_pos hb, Prog.ret_bind]
  simp only [Prog.draw, Prog.real_bind, Prog.ret_bind, Prog.lexp_real]
  refine uniform_pos_ae fun u0 h0 h1 => ?_
  obtain ⟨m, e, -, -, h3, -, -⟩ := ppfBridgeMin_spec (T := T) (a := a) (b := b) (lb := none) (ub := none) h0.le h1.le hT hb (fun h => absurd h h0.ne')
  have hm := lt_min_iff.1 (h3 h1)
  have q1 : 0 < (b - m) ^ 2 / (2 * T) := div_pos (by nlinarith [hm.2]) (by positivity)
  have q2 : 0 < (m - a) ^ 2 / (2 * T) := div_pos (by nlinarith [hm.1]) (by positivity)
  have q3 : 0 < Real.sqrt ((b - m) ^ 2 / (2 * T) / ((m - a) ^ 2 / (2 * T))) := Real.sqrt_pos.2 (div_pos q1 q2)
  simp only [e, Prog.lift, Prog.ret_bind]
  unfold sampleMinTime
  simp only [Prog.draw, Prog.real_bind, Prog.ret_bind, Prog.lexp_real]
  refine uniform_pos_ae fun u2 h20 h21 => ?_
  have key : ∀ r2, 0 < r2 → ∀ u1, 0 < u1 → u1 < 1 → (Prog.lift (seededBridgeMin u0 u1 u2 r2 T a b)).lexp (onOk F) =
      if u2 < 1 / (1 + Real.sqrt ((b - m) ^ 2 / (2 * T) / ((m - a) ^ 2 / (2 * T)))) then
        F (T / (1 + seededWald u1 r2 (Real.sqrt ((b - m) ^ 2 / (2 * T) / ((m - a) ^ 2 / (2 * T)))) (2 * ((b - m) ^ 2 / (2 * T)))), m)
      else F (T / (1 + 1 / seededWald u1 r2 (1 / Real.sqrt ((b - m) ^ 2 / (2 * T) / ((m - a) ^ 2 / (2 * T)))) (2 * ((m - a) ^ 2 / (2 * T)))), m) := by
    intro r2 hr u1 h10 h11
    have hu : ∀ u ∈ [u0, u1, u2], 0 < u ∧ u < 1 := by
      intro u hu
      simp only [List.mem_cons, List.not_mem_nil, or_false] at hu
      rcases hu with rfl | rfl | rfl
      · exact ⟨h0, h1⟩
      · exact ⟨h10, h11⟩
      · exact ⟨h20, h21⟩
    rw [seededBridgeMin, if_neg (not_not.2 hu), if_neg (not_not.2 hr), if_neg (not_not.2 hT), e]
    simp only [if_neg q2.ne']
    split_ifs <;> rfl
  refine (chi_pos_ae fun r2 hr => uniform_pos_ae (key r2 hr)).trans ?_
  split_ifs
  · exact seededWald_law (f := fun w => F (T / (1 + w), m)) q3 (by positivity) (hF.comp (by fun_prop))
  · exact seededWald_law (f := fun w => F (T / (1 + 1 / w), m)) (by positivity) (by positivity) (hF.comp (by fun_prop))

/-- The inverse Gaussian draw inside. -/
theorem C92_wald {mu lam : ℝ} (hm : 0 < mu) (hl : 0 < lam) {f : ℝ → ℝ≥0∞} (hf : Measurable f) :
    ((Prog.draw (.gamma (1 / 2) 2)).bind fun r2 => (Prog.draw (.uniform 0 1)).bind fun u1 => .ret (seededWald u1 r2 mu lam)).lexp (onOk f) =
      (Prog.draw (.wald mu lam)).lexp (onOk f) :=
  seededWald_law hm hl hf

example : (seededMinProg 2 0 (-1)).lexp (onOk fun q => ENNReal.ofReal q.1) = (sampleBridgeMin 2 0 (-1) none none).lexp (onOk fun q => ENNReal.ofReal q.1) :=
  C92_law (by norm_num) measurable_fst.ennreal_ofReal

end Ctb
