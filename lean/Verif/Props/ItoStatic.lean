import Verif.Model.ItoStatic
import Verif.Spec.ItoStatic
import Verif.Props.Ars
import Verif.Props.SdeModels
import Mathlib.MeasureTheory.Integral.IntervalIntegral.FundThmCalculus
import Mathlib.Probability.Distributions.Gaussian.Real

/-! # C96: end points are proposed from the drift weighted transition density, and the likelihood uses the same weights -/

set_option linter.unusedSectionVars false

namespace Ctb

open Set MeasureTheory ProbabilityTheory Filter
open scoped ENNReal NNReal Topology

/-! ## The weights of the likelihood -/


theorem biased_exp {p : ℕ} (M : ItoFns p) (thi : Fin p → ℝ) (P : ℝ → Prop)
    (hd : ∀ v, P v → HasDerivAt (M.reduce thi) (M.dvReduce thi v) v ∧ M.dvReduce thi v ≠ 0)
    (hi : ∀ v w, P v → P w → ∫ x in M.reduce thi v..M.reduce thi w, M.drift thi x =
      M.sxDrift thi (M.reduce thi w) - M.sxDrift thi (M.reduce thi v)) :
    ∀ (q : List (ℝ × ℝ)), (q.map Prod.fst).Pairwise (· < ·) → (∀ r ∈ q, P r.2) →
      ∃ L, itoBiasedLogLik M thi (q.map Prod.fst) (q.map Prod.snd) = .ok L ∧ Real.exp L = biasedProd (M.drift thi) (M.reduce thi) q := by
  intro q hq hP
  have hn : ¬ ((∃ d ∈ npDiff (q.map Prod.fst), d ≤ 0) ∨ ∃ v ∈ (q.map Prod.snd).tail, M.dvReduce thi v = 0) := by
    rintro (⟨d, h, h0⟩ | ⟨v, h, h0⟩)
    · induction q with
      | nil => simp [npDiff] at h
      | cons a q ih =>
        cases q with
        | nil => simp [npDiff] at h
        | cons b q =>
          simp only [List.map_cons, npDiff, List.mem_cons] at h
          rcases h with rfl | h
          · simp only [List.map_cons, List.pairwise_cons, List.mem_cons] at hq
            have := hq.1 b.1 (Or.inl rfl)
            linarith
          · simp only [List.map_cons, List.pairwise_cons] at hq
            exact ih (by simpa using hq.2) (fun r hr => hP r (List.mem_cons_of_mem _ hr)) h
    · have := List.mem_of_mem_tail h
      rw [List.mem_map] at this
      obtain ⟨r, hr, rfl⟩ := this
      exact (hd _ (hP r hr)).2 h0
  refine ⟨_, by rw [itoBiasedLogLik, if_neg (by simp), if_neg hn], ?_⟩
  clear hn
  induction q with
  | nil => simp [biasedProd]
  | cons a q ih =>
    cases q with
    | nil => simp [biasedProd, npDiff]
    | cons b q =>
      have hab : 0 < b.1 - a.1 := by
        simp only [List.map_cons, List.pairwise_cons, List.mem_cons] at hq
        linarith [hq.1 b.1 (Or.inl rfl)]
      have h1 : HasDerivAt (M.reduce thi) (M.dvReduce thi b.2) b.2 ∧ M.dvReduce thi b.2 ≠ 0 := hd _ (hP b (by simp))
      have ih := ih (by simp only [List.map_cons, List.pairwise_cons] at hq ⊢; exact hq.2) (fun r hr => hP r (List.mem_cons_of_mem _ hr))
      simp only [List.map_cons, npDiff, List.tail_cons, List.zip_cons_cons, List.zipWith_cons_cons, List.sum_cons] at ih ⊢
      rw [Real.exp_add, ih, biasedProd, biasedDens, hi _ _ (hP a (by simp)) (hP b (by simp)), h1.1.deriv, normDensR]
      congr 1
      have hs : 0 < 2 * Real.pi * (b.1 - a.1) := by have := Real.pi_pos; positivity
      have e : Real.exp (Real.log (2 * Real.pi * (b.1 - a.1)) / 2) = Real.sqrt (2 * Real.pi * (b.1 - a.1)) := by
        rw [Real.sqrt_eq_rpow, Real.rpow_def_of_pos hs]; congr 1; ring
      rw [← e, show ∀ A B C D E : ℝ, A - B - C + D - E = A + (-C - B) + (D - E) by intros; ring, Real.exp_add, Real.exp_add,
        Real.exp_log (abs_pos.2 h1.2), Real.exp_sub, neg_div]

/-- The biased log likelihood of the Ornstein-Uhlenbeck model is the logarithm of the product of the Girsanov factors. -/
theorem C96_lik_ou {thi : Fin 2 → ℝ} (h1 : thi 1 ≠ 0) {q : List (ℝ × ℝ)} (hq : (q.map Prod.fst).Pairwise (· < ·)) :
    ∃ L, itoBiasedLogLik itoOu thi (q.map Prod.fst) (q.map Prod.snd) = .ok L ∧
      Real.exp L = biasedProd (itoOu.drift thi) (itoOu.reduce thi) q := by
  refine biased_exp itoOu thi (fun _ => True) (fun v _ => ⟨((C61_ito_ou h1 0 v).2.1).1, ?_⟩) (fun v w _ _ => ?_) q hq (fun _ _ => trivial)
  · simp [itoOu, h1]
  · refine intervalIntegral.integral_eq_sub_of_hasDerivAt (fun x _ => (C61_ito_ou h1 x 0).1.1) ?_
    refine Continuous.intervalIntegrable ?_ _ _
    simp only [itoOu]; fun_prop

/-- The same for the Cox-Ingersoll-Ross model at positive data. -/
theorem C96_lik_cir {thi : Fin 3 → ℝ} (h2 : 0 < thi 2) {q : List (ℝ × ℝ)} (hq : (q.map Prod.fst).Pairwise (· < ·))
    (hv : ∀ r ∈ q, 0 < r.2) :
    ∃ L, itoBiasedLogLik itoCir thi (q.map Prod.fst) (q.map Prod.snd) = .ok L ∧
      Real.exp L = biasedProd (itoCir.drift thi) (itoCir.reduce thi) q := by
  refine biased_exp itoCir thi (fun v => 0 < v) (fun v h => ⟨((C61_ito_cir h2 one_pos h).2.1).1, ?_⟩) (fun v w hv hw => ?_) q hq hv
  · simp only [itoCir]
    have := Real.sqrt_pos.2 h
    positivity
  · have hp : ∀ x ∈ uIcc (itoCir.reduce thi v) (itoCir.reduce thi w), 0 < x := fun x hx =>
      lt_of_lt_of_le (lt_min (C61_ito_cir h2 one_pos hv).2.2.2 (C61_ito_cir h2 one_pos hw).2.2.2) hx.1
    refine intervalIntegral.integral_eq_sub_of_hasDerivAt (fun x hx => (C61_ito_cir h2 (hp x hx) one_pos).1.1) ?_
    refine ContinuousOn.intervalIntegrable (fun x hx => ?_)
    exact (C61_ito_cir h2 (hp x hx) one_pos).1.2.continuousAt.continuousWithinAt

/-- Two transitions of a mean reverting path, and of a positive one. -/
example : ([((0 : ℝ), (1 : ℝ)), (1, 2), (3, 1)].map Prod.fst).Pairwise (· < ·) ∧ ∀ r ∈ [((0 : ℝ), (1 : ℝ)), (1, 2), (3, 1)], 0 < r.2 := by
  norm_num

/-- One transition as a function of its end: the likelihood is the Jacobian times the density the end points are proposed from, with a factor
that does not depend on the end. -/
theorem C96_matches {p : ℕ} (M : ItoFns p) (thi : Fin p → ℝ) {finT v0 v1 : ℝ} (hT : 0 < finT) (h1 : M.dvReduce thi v1 ≠ 0) :
    ∃ L, itoBiasedLogLik M thi [0, finT] [v0, v1] = .ok L ∧
      Real.exp L = Real.exp (-M.sxDrift thi (M.reduce thi v0)) / Real.sqrt (2 * Real.pi * finT) *
        (|M.dvReduce thi v1| * Real.exp (convF M thi finT (M.reduce thi v0) (M.reduce thi v1))) := by
  have hn : ¬ ((∃ d ∈ npDiff [0, finT], d ≤ 0) ∨ ∃ v ∈ ([v0, v1] : List ℝ).tail, M.dvReduce thi v = 0) := by
    simp [npDiff, hT, h1]
  refine ⟨_, by rw [itoBiasedLogLik, if_neg (by simp), if_neg hn], ?_⟩
  have hs : 0 < 2 * Real.pi * finT := by have := Real.pi_pos; positivity
  have e : Real.sqrt (2 * Real.pi * finT) = Real.exp (Real.log (2 * Real.pi * finT) / 2) := by
    rw [Real.sqrt_eq_rpow, Real.rpow_def_of_pos hs]; congr 1; ring
  rw [e, ← Real.exp_sub]
  conv_rhs => rw [← Real.exp_log (abs_pos.2 h1)]
  rw [← Real.exp_add, ← Real.exp_add]
  congr 1
  simp only [npDiff, convF, List.map_cons, List.map_nil, List.tail_cons, List.zip_cons_cons, List.zip_nil_right, List.zipWith_cons_cons,
    List.zipWith_nil_right, List.sum_cons, List.sum_nil, List.zip_nil_left, sub_zero]
  ring

/-! ## The proposals -/

theorem conv_hasDerivAt {p : ℕ} (M : ItoFns p) (thi : Fin p → ℝ) (finT x0 : ℝ) {x : ℝ} (h : HasDerivAt (M.sxDrift thi) (M.drift thi x) x) :
    HasDerivAt (convF M thi finT x0) (convDf M thi finT x0 x) x := by
  have h2 := ((((hasDerivAt_id x).sub_const x0).pow 2).div_const (2 * finT))
  refine (h.sub h2).congr_deriv ?_
  simp only [convDf, id]
  congr 1
  rcases eq_or_ne finT 0 with rfl | hT
  · simp
  · field_simp; simp [mul_comm]

theorem convex_supp (lb ub : EReal) : Convex ℝ (supp lb ub) := by
  refine Set.OrdConnected.convex ⟨fun x hx y hy z hz => ⟨hx.1.trans_le ?_, lt_of_le_of_lt ?_ hy.2⟩⟩
  · exact EReal.coe_le_coe_iff.2 hz.1
  · exact EReal.coe_le_coe_iff.2 hz.2

theorem isOpen_supp' (lb ub : EReal) : IsOpen (supp lb ub) :=
  (isOpen_Ioi.preimage continuous_coe_real_ereal).inter (isOpen_Iio.preimage continuous_coe_real_ereal)

theorem conv_strict {p : ℕ} (M : ItoFns p) (thi : Fin p → ℝ) (finT x0 : ℝ) (lb ub : EReal)
    (h : ∀ x ∈ supp lb ub, HasDerivAt (M.sxDrift thi) (M.drift thi x) x) (ha : StrictAntiOn (convDf M thi finT x0) (supp lb ub)) :
    StrictDiff (convF M thi finT x0) (convDf M thi finT x0) (supp lb ub) := by
  have hd := fun x hx => conv_hasDerivAt M thi finT x0 (h x hx)
  refine ⟨StrictAntiOn.strictConcaveOn_of_deriv (convex_supp _ _) (fun x hx => (hd x hx).continuousAt.continuousWithinAt) ?_, hd⟩
  rw [(isOpen_supp' _ _).interior_eq]
  intro x hx y hy hxy
  rw [(hd x hx).deriv, (hd y hy).deriv]
  exact ha hx hy hxy

/-- Ornstein-Uhlenbeck: the mode of the proposal density. -/
noncomputable def ouMode (thi : Fin 2 → ℝ) (finT x0 : ℝ) : ℝ := x0 / (1 + thi 0 * finT)

/-- Ornstein-Uhlenbeck: the log density is strictly concave and its mode is in the support. -/
theorem C96_ou_concave {thi : Fin 2 → ℝ} {finT : ℝ} (hT : 0 < finT) (hb : 0 < 1 + thi 0 * finT) (x0 : ℝ) :
    StrictDiff (convF itoOu thi finT x0) (convDf itoOu thi finT x0) (supp ⊥ ⊤) ∧
      convDf itoOu thi finT x0 (ouMode thi finT x0) = 0 := by
  have key : ∀ x, convDf itoOu thi finT x0 x = (x0 - (1 + thi 0 * finT) * x) / finT := by
    intro x; simp only [convDf, itoOu]; field_simp; ring
  refine ⟨conv_strict _ _ _ _ _ _ (fun x _ => (driftOk_quad (thi 0) x).1) ?_, ?_⟩
  · intro x _ y _ hxy
    rw [key, key]
    have := mul_lt_mul_of_pos_left hxy hb
    gcongr
  · rw [key, ouMode]; field_simp; simp

theorem ou_expMass {thi : Fin 2 → ℝ} {finT : ℝ} (hT : 0 < finT) (hb : 0 < 1 + thi 0 * finT) (x0 : ℝ) {A : Set ℝ} (hA : MeasurableSet A) :
    expMass (convF itoOu thi finT x0) (supp ⊥ ⊤) A =
      ENNReal.ofReal (Real.exp (convF itoOu thi finT x0 (ouMode thi finT x0)) * Real.sqrt (2 * Real.pi * (finT / (1 + thi 0 * finT)))) *
        gaussianReal (ouMode thi finT x0) (finT / (1 + thi 0 * finT)).toNNReal A := by
  have hs : 0 < finT / (1 + thi 0 * finT) := by positivity
  have hs0 : (finT / (1 + thi 0 * finT)).toNNReal ≠ 0 := by simpa using hs
  have hu : A ∩ supp ⊥ ⊤ = A := by
    rw [inter_eq_left]; intro t _; exact ⟨EReal.bot_lt_coe _, EReal.coe_lt_top _⟩
  have hr : 0 < Real.sqrt (2 * Real.pi * (finT / (1 + thi 0 * finT))) := Real.sqrt_pos.2 (by have := Real.pi_pos; positivity)
  rw [expMass, hu, gaussianReal_of_var_ne_zero _ hs0, withDensity_apply _ hA, ← lintegral_const_mul _ (measurable_gaussianPDF _ _)]
  refine lintegral_congr fun t => ?_
  rw [gaussianPDF, gaussianPDFReal, Real.coe_toNNReal _ hs.le, ← ENNReal.ofReal_mul (by positivity)]
  congr 1
  rw [show ∀ a b c d : ℝ, a * b * (c * d) = (b * c) * (a * d) by intros; ring, mul_inv_cancel₀ hr.ne', one_mul, ← Real.exp_add]
  congr 1
  simp only [convF, itoOu, ouMode]
  field_simp
  ring

/-- Starting points on both sides of the mode make a good hull. -/
theorem good_of_bracing {f df : ℝ → ℝ} {lb ub : EReal} (hf : StrictDiff f df (supp lb ub)) {m a b : ℝ} (hm : m ∈ supp lb ub) (hd : df m = 0)
    (ha : a ∈ supp lb ub) (hb : b ∈ supp lb ub) (h1 : a < m) (h2 : m < b) : (Hull.init f df [a, b]).Good f df lb ub := by
  have hab : a < b := h1.trans h2
  have da : 0 < df a := by rw [← hd]; exact df_strict hf.conc hf.der ha hm h1
  have db : df b < 0 := by rw [← hd]; exact df_strict hf.conc hf.der hm hb h2
  have hx : (Hull.init f df [a, b]).x = [a, b] := by
    exact List.Pairwise.insertionSort_eq (by simp [hab.le])
  refine ⟨⟨by rw [hx]; simp, by rw [hx]; simpa using hab, ?_, rfl, rfl⟩, ?_, ?_, ?_, .inl (by rw [hx]; simp)⟩
  · intro c hc; rw [hx] at hc; simp only [List.mem_cons, List.not_mem_nil, or_false] at hc
    rcases hc with rfl | rfl
    · exact ha
    · exact hb
  · intro c hc; rw [hx] at hc; simp only [List.mem_cons, List.not_mem_nil, or_false] at hc
    rcases hc with rfl | rfl
    · exact da.ne'
    · exact db.ne
  · intro _; exact ⟨a, by rw [hx]; simp, da⟩
  · intro _; exact ⟨b, by rw [hx]; simp, db⟩

theorem ou_good {thi : Fin 2 → ℝ} {finT : ℝ} (hT : 0 < finT) (hb : 0 < 1 + thi 0 * finT) {x0 mode : ℝ} (hm : |mode - ouMode thi finT x0| < 1) :
    (Hull.init (convF itoOu thi finT x0) (convDf itoOu thi finT x0) (convInit ⊥ ⊤ mode)).Good
      (convF itoOu thi finT x0) (convDf itoOu thi finT x0) ⊥ ⊤ := by
  obtain ⟨hc, hd⟩ := C96_ou_concave hT hb x0
  have hall : ∀ t : ℝ, t ∈ supp ⊥ ⊤ := fun t => ⟨EReal.bot_lt_coe _, EReal.coe_lt_top _⟩
  rw [abs_lt] at hm
  refine good_of_bracing hc (hall _) hd (hall _) (hall _) ?_ ?_ <;> simp [brace] <;> linarith

/-- Ornstein-Uhlenbeck: the end points are independent normals with mean `x0 / (1 + bT)` and variance `T / (1 + bT)`, if the optimiser comes
within 1 of the mode. -/
theorem C96_ou_law {thi : Fin 2 → ℝ} {finT : ℝ} (hT : 0 < finT) (hb : 0 < 1 + thi 0 * finT) {x0 mode : ℝ}
    (hm : |mode - x0 / (1 + thi 0 * finT)| < 1) (fuel : ℕ) {As : List (Set ℝ)} (hA : ∀ A ∈ As, MeasurableSet A) :
    (sampleConvEndpt itoOu ⊥ ⊤ thi finT x0 mode fuel As.length).lexp (drawsIn As) =
      (As.map fun A => gaussianReal (x0 / (1 + thi 0 * finT)) (finT / (1 + thi 0 * finT)).toNNReal A).prod *
        (sampleConvEndpt itoOu ⊥ ⊤ thi finT x0 mode fuel As.length).lexp (drawsIn (As.map fun _ => univ)) := by
  rw [sampleConvEndpt, arsSample, (C75_iid (C96_ou_concave hT hb x0).1 (ou_good hT hb hm) 100 fuel hA).1]
  congr 2
  refine List.map_congr_left fun A hAm => ?_
  have hr : 0 < Real.exp (convF itoOu thi finT x0 (ouMode thi finT x0)) * Real.sqrt (2 * Real.pi * (finT / (1 + thi 0 * finT))) :=
    mul_pos (Real.exp_pos _) (Real.sqrt_pos.2 (by have := Real.pi_pos; positivity))
  rw [ou_expMass hT hb x0 (hA A hAm), ou_expMass hT hb x0 MeasurableSet.univ, measure_univ, mul_one, mul_comm, mul_div_assoc,
    ENNReal.div_self (ENNReal.ofReal_pos.2 hr).ne' ENNReal.ofReal_ne_top, mul_one, ouMode]

/-- Ornstein-Uhlenbeck: the sampler returns, but for a probability that decays geometrically in the number of passes. -/
theorem C96_ou_returns {thi : Fin 2 → ℝ} {finT : ℝ} (hT : 0 < finT) (hb : 0 < 1 + thi 0 * finT) {x0 mode : ℝ}
    (hm : |mode - x0 / (1 + thi 0 * finT)| < 1) (n : ℕ) :
    ∃ ρ : ℝ≥0∞, ρ < 1 ∧ ∀ fuel, (sampleConvEndpt itoOu ⊥ ⊤ thi finT x0 mode fuel n).lexp failInd ≤ 2 ^ n * ρ ^ fuel :=
  C75_returns (C96_ou_concave hT hb x0).1 (ou_good hT hb hm) 100 n

/-- Mean reversion 1/2 over two units of time from 3, the optimiser stopping at 1.4. -/
example : (sampleConvEndpt itoOu ⊥ ⊤ ![1 / 2, 1] 2 3 (7 / 5) 40 1).lexp (drawsIn [Ioi 2]) =
    gaussianReal (3 / (1 + 1 / 2 * 2)) (2 / (1 + 1 / 2 * 2) : ℝ).toNNReal (Ioi 2) * 1 *
      (sampleConvEndpt itoOu ⊥ ⊤ ![1 / 2, 1] 2 3 (7 / 5) 40 1).lexp (drawsIn [univ]) := by
  have h := C96_ou_law (thi := ![1 / 2, 1]) (finT := 2) (by norm_num) (by norm_num) (x0 := 3) (mode := 7 / 5) (by norm_num [abs_lt]) 40
    (As := [Ioi 2]) (by simp)
  simpa using h

/-! ## Cox-Ingersoll-Ross -/

theorem mem_supp_zero {t : ℝ} : t ∈ supp 0 ⊤ ↔ 0 < t := by
  simp only [supp, mem_setOf_eq, EReal.coe_lt_top, and_true]
  exact EReal.coe_pos

/-- The exponent of the drift at zero. -/
noncomputable def cirExpo (thi : Fin 3 → ℝ) : ℝ := 2 * thi 0 * thi 1 / thi 2 ^ 2 - 1 / 2

/-- The mode of the proposal density. -/
noncomputable def cirMode (thi : Fin 3 → ℝ) (finT x0 : ℝ) : ℝ :=
  (x0 / finT + Real.sqrt ((x0 / finT) ^ 2 + 4 * (thi 0 / 2 + 1 / finT) * cirExpo thi)) / (2 * (thi 0 / 2 + 1 / finT))

/-- Cox-Ingersoll-Ross with `s^2 <= 4 k m`: the log density is strictly concave on the positive half line, with its mode inside. -/
theorem C96_cir_concave {thi : Fin 3 → ℝ} (h0 : 0 ≤ thi 0) (h2 : 0 < thi 2) (hc : thi 2 ^ 2 ≤ 4 * thi 0 * thi 1) {finT x0 : ℝ} (hT : 0 < finT)
    (hx : 0 < x0) :
    StrictDiff (convF itoCir thi finT x0) (convDf itoCir thi finT x0) (supp 0 ⊤) ∧
      cirMode thi finT x0 ∈ supp 0 ⊤ ∧ convDf itoCir thi finT x0 (cirMode thi finT x0) = 0 := by
  have hce : 0 ≤ cirExpo thi := by
    rw [cirExpo, sub_nonneg, div_le_div_iff₀ (by norm_num) (by positivity)]; linarith
  set a := thi 0 / 2 + 1 / finT with ha
  have hap : 0 < a := by positivity
  have key : ∀ x, convDf itoCir thi finT x0 x = cirExpo thi / x - a * x + x0 / finT := by
    intro x; simp only [convDf, itoCir, cirExpo, ha]; ring
  have hmp : 0 < cirMode thi finT x0 := by
    rw [cirMode, ← ha]
    have := Real.sqrt_nonneg ((x0 / finT) ^ 2 + 4 * a * cirExpo thi)
    have : 0 < x0 / finT := by positivity
    positivity
  refine ⟨conv_strict _ _ _ _ _ _ (fun x hx => (C61_ito_cir h2 (mem_supp_zero.1 hx) one_pos).1.1) ?_, mem_supp_zero.2 hmp, ?_⟩
  · intro x hx y hy hxy
    rw [key, key]
    have hx := mem_supp_zero.1 hx
    have h1 : cirExpo thi / y ≤ cirExpo thi / x := by gcongr
    have h2 := mul_lt_mul_of_pos_left hxy hap
    linarith
  · rw [key]
    have hd : 0 ≤ (x0 / finT) ^ 2 + 4 * a * cirExpo thi := by positivity
    have hq : a * cirMode thi finT x0 ^ 2 - x0 / finT * cirMode thi finT x0 - cirExpo thi = 0 := by
      have hs := Real.sq_sqrt hd
      rw [cirMode, ← ha]
      set r := Real.sqrt ((x0 / finT) ^ 2 + 4 * a * cirExpo thi)
      generalize x0 / finT = y at *
      field_simp
      nlinarith
    generalize cirMode thi finT x0 = m at *
    have : cirExpo thi / m - a * m + x0 / finT = -(a * m ^ 2 - x0 / finT * m - cirExpo thi) / m := by
      field_simp; ring
    rw [this, hq]; simp

theorem cir_good {thi : Fin 3 → ℝ} (h0 : 0 ≤ thi 0) (h2 : 0 < thi 2) (hc : thi 2 ^ 2 ≤ 4 * thi 0 * thi 1) {finT x0 mode : ℝ} (hT : 0 < finT)
    (hx : 0 < x0) (hm0 : 0 < mode) (hm1 : mode / 2 < cirMode thi finT x0) (hm2 : cirMode thi finT x0 < mode + 1) :
    (Hull.init (convF itoCir thi finT x0) (convDf itoCir thi finT x0) (convInit 0 ⊤ mode)).Good
      (convF itoCir thi finT x0) (convDf itoCir thi finT x0) 0 ⊤ := by
  obtain ⟨hc, hm, hd⟩ := C96_cir_concave h0 h2 hc hT hx
  have e : brace 0 ⊤ mode = (mode / 2, mode + 1) := by simp [brace]
  rw [convInit, e]
  exact good_of_bracing hc hm hd (mem_supp_zero.2 (by simp only; linarith)) (mem_supp_zero.2 (by simp only; linarith)) hm1 hm2

/-- Cox-Ingersoll-Ross with `s^2 <= 4 k m`: the end points are independent draws from the density in proportion to
`exp (A(x) - (x - x0)^2 / (2T))`, whose mass is finite, if the optimiser comes near enough to the mode. -/
theorem C96_cir_partial {thi : Fin 3 → ℝ} (h0 : 0 ≤ thi 0) (h2 : 0 < thi 2) (hc : thi 2 ^ 2 ≤ 4 * thi 0 * thi 1) {finT x0 mode : ℝ}
    (hT : 0 < finT) (hx : 0 < x0) (hm0 : 0 < mode) (hm1 : mode / 2 < cirMode thi finT x0) (hm2 : cirMode thi finT x0 < mode + 1) (fuel : ℕ)
    {As : List (Set ℝ)} (hA : ∀ A ∈ As, MeasurableSet A) :
    (sampleConvEndpt itoCir 0 ⊤ thi finT x0 mode fuel As.length).lexp (drawsIn As) =
      (As.map fun A => expMass (convF itoCir thi finT x0) (Ioi 0) A / expMass (convF itoCir thi finT x0) (Ioi 0) univ).prod *
        (sampleConvEndpt itoCir 0 ⊤ thi finT x0 mode fuel As.length).lexp (drawsIn (As.map fun _ => univ)) ∧
    expMass (convF itoCir thi finT x0) (Ioi 0) univ ≠ 0 ∧ expMass (convF itoCir thi finT x0) (Ioi 0) univ ≠ ∞ := by
  have hs : (Ioi 0 : Set ℝ) = supp 0 ⊤ := by ext t; rw [mem_supp_zero]; rfl
  rw [hs, sampleConvEndpt, arsSample]
  exact C75_iid (C96_cir_concave h0 h2 hc hT hx).1 (cir_good h0 h2 hc hT hx hm0 hm1 hm2) 100 fuel hA

/-- The default parameters, one unit of time from 1. -/
example : (0 : ℝ) ≤ ![(1 : ℝ), 1, 1] 0 ∧ 0 < ![(1 : ℝ), 1, 1] 2 ∧ ![(1 : ℝ), 1, 1] 2 ^ 2 ≤ 4 * ![(1 : ℝ), 1, 1] 0 * ![(1 : ℝ), 1, 1] 1 ∧
    (4 / 3 : ℝ) / 2 < cirMode ![1, 1, 1] 1 1 ∧ cirMode ![1, 1, 1] 1 1 < 4 / 3 + 1 := by
  have e : cirMode ![1, 1, 1] 1 1 = (1 + Real.sqrt 10) / 3 := by
    simp only [cirMode, cirExpo, Matrix.cons_val_zero, Matrix.cons_val_one, Matrix.cons_val]
    norm_num
  have h1 : Real.sqrt 10 < 4 := by rw [Real.sqrt_lt' (by norm_num)]; norm_num
  have h2 : 3 < Real.sqrt 10 := by rw [Real.lt_sqrt (by norm_num)]; norm_num
  rw [e]
  have e2 : ![(1 : ℝ), 1, 1] 2 = 1 := rfl
  refine ⟨by norm_num, by rw [e2]; norm_num, by rw [e2]; norm_num, by linarith, by linarith⟩

/-- Cox-Ingersoll-Ross with `4 k m < s^2`, which the bounds on the parameters admit: the density is unbounded at zero, and whatever points the
hull is built on, near zero all tangents are below the log density.  No set of starting points gives an envelope. -/
theorem C96_violated {thi : Fin 3 → ℝ} (h2 : 0 < thi 2) (hc : 4 * thi 0 * thi 1 < thi 2 ^ 2) (finT x0 : ℝ) (init : List ℝ) :
    ∃ t ∈ supp 0 ⊤, ∀ a ∈ init, tangent (convF itoCir thi finT x0) (convDf itoCir thi finT x0) a t < convF itoCir thi finT x0 t := by
  have hce : cirExpo thi < 0 := by
    rw [cirExpo, sub_neg, div_lt_div_iff₀ (by positivity) (by norm_num)]; linarith
  have hlim : Tendsto (convF itoCir thi finT x0) (𝓝[>] 0) atTop := by
    have h1 : Tendsto (fun x => cirExpo thi * Real.log x) (𝓝[>] 0) atTop :=
      Real.tendsto_log_nhdsGT_zero.const_mul_atBot_of_neg hce
    have h3 : Tendsto (fun x : ℝ => -(thi 0 / 4 * x ^ 2) - (x - x0) ^ 2 / (2 * finT)) (𝓝[>] 0) (𝓝 (-(thi 0 / 4 * 0 ^ 2) - (0 - x0) ^ 2 / (2 * finT))) := by
      refine Tendsto.mono_left (Continuous.tendsto ?_ 0) nhdsWithin_le_nhds
      fun_prop
    refine (h1.atTop_add h3).congr fun x => ?_
    simp only [convF, itoCir, cirExpo]; ring
  have hev : ∀ a ∈ init, ∀ᶠ t in 𝓝[>] (0 : ℝ), tangent (convF itoCir thi finT x0) (convDf itoCir thi finT x0) a t < convF itoCir thi finT x0 t := by
    intro a _
    have ht : Tendsto (fun t => tangent (convF itoCir thi finT x0) (convDf itoCir thi finT x0) a t) (𝓝[>] 0)
        (𝓝 (tangent (convF itoCir thi finT x0) (convDf itoCir thi finT x0) a 0)) := by
      refine Tendsto.mono_left (Continuous.tendsto ?_ 0) nhdsWithin_le_nhds
      unfold tangent; fun_prop
    have hb := ht.eventually (gt_mem_nhds (lt_add_one _))
    filter_upwards [hb, hlim.eventually (eventually_gt_atTop (tangent (convF itoCir thi finT x0) (convDf itoCir thi finT x0) a 0 + 1))] with t h1 h2
    exact h1.trans h2
  have hall : ∀ᶠ t in 𝓝[>] (0 : ℝ), ∀ a ∈ init, tangent (convF itoCir thi finT x0) (convDf itoCir thi finT x0) a t < convF itoCir thi finT x0 t := by
    clear hlim
    induction init with
    | nil => simp
    | cons b l ih =>
      filter_upwards [hev b (by simp), ih (fun a ha => hev a (List.mem_cons_of_mem _ ha))] with t h1 h2
      intro a ha
      rcases List.mem_cons.1 ha with rfl | ha
      · exact h1
      · exact h2 a ha
  obtain ⟨t, h, hp⟩ := (hall.and self_mem_nhdsWithin).exists
  exact ⟨t, mem_supp_zero.2 hp, h⟩

/-- Parameters inside the bounds for which this happens. -/
example : 4 * ![(1 : ℝ), 1 / 8, 1] 0 * ![(1 : ℝ), 1 / 8, 1] 1 < ![(1 : ℝ), 1 / 8, 1] 2 ^ 2 := by
  have e2 : ![(1 : ℝ), 1 / 8, 1] 2 = 1 := rfl
  rw [e2]; norm_num

end Ctb
