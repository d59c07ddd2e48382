import Verif.Basic.Law
import Verif.Lemmas.Forwards
import Mathlib.MeasureTheory.Integral.ExpDecay
import Mathlib.MeasureTheory.Measure.Prod

/-! # Competing exponential clocks: the law of one step of `sample_forwards` -/

set_option linter.unusedSectionVars false

namespace Ctb

open Classical MeasureTheory ProbabilityTheory
open scoped ENNReal

/-- `exponential(1 / r)` has the density `r e^{-r x}` on the positive half-line. -/
theorem lintegral_exponential {r : ℝ} {f : ℝ → ℝ≥0∞} (hf : Measurable f) :
    ∫⁻ x, f x ∂(RDist.exponential (1 / r)).law = ∫⁻ x in Set.Ioi 0, ENNReal.ofReal (r * Real.exp (-(r * x))) * f x := by
  have hlaw : (RDist.exponential (1 / r)).law = volume.withDensity (exponentialPDF r) := by
    rw [RDist.law, one_div_one_div]; rfl
  have hpm : Measurable (exponentialPDF r) := (measurable_exponentialPDFReal r).ennreal_ofReal
  rw [hlaw, lintegral_withDensity_eq_lintegral_mul _ hpm hf, ← lintegral_indicator measurableSet_Ioi]
  refine lintegral_congr_ae ?_
  have h0 : ∀ᵐ x : ℝ, x ≠ 0 := by simp [ae_iff]
  filter_upwards [h0] with x hx
  rw [Pi.mul_apply, exponentialPDF_eq]
  by_cases h : 0 < x
  · rw [Set.indicator_of_mem (show x ∈ Set.Ioi 0 from h), if_pos h.le]
  · rw [Set.indicator_of_notMem (by simpa using h), if_neg (fun h' => h (lt_of_le_of_ne h' hx.symm))]; simp

theorem lintegral_exp_tail {r a : ℝ} (hr : 0 < r) : ∫⁻ x in Set.Ioi a, ENNReal.ofReal (r * Real.exp (-(r * x))) = ENNReal.ofReal (Real.exp (-(r * a))) := by
  have hi : IntegrableOn (fun x => r * Real.exp (-(r * x))) (Set.Ioi a) := by
    have := (exp_neg_integrableOn_Ioi a hr).const_mul r
    simp only [neg_mul] at this
    exact this
  rw [← ofReal_integral_eq_lintegral_ofReal hi (Filter.Eventually.of_forall fun x => by positivity)]
  congr 1
  rw [integral_const_mul]
  have := integral_exp_mul_Ioi (a := -r) (by linarith) a
  simp only [neg_mul] at this
  rw [this]
  field_simp

/-- A value at the smallest clock: `c` when all clocks are infinite. -/
noncomputable def minVal (φ : ℕ → ℝ → ℝ≥0∞) (c : ℝ≥0∞) : Res (ℕ × WithTop ℝ) → ℝ≥0∞
  | .error _ => 0
  | .ok (_, ⊤) => c
  | .ok (k, (h : ℝ)) => φ k h

/-- The same from the list of clocks. -/
noncomputable def holdVal (φ : ℕ → ℝ → ℝ≥0∞) (c : ℝ≥0∞) : Res (List (WithTop ℝ)) → ℝ≥0∞
  | .error _ => 0
  | .ok hold => minVal φ c (argmin hold)

/-- Law of the smallest of independent exponential clocks with the given rates. -/
noncomputable def holdLaw (rates : List ℝ) (φ : ℕ → ℝ → ℝ≥0∞) (c : ℝ≥0∞) : ℝ≥0∞ :=
  (∑ k ∈ Finset.range rates.length, ∫⁻ h in Set.Ioi 0, ENNReal.ofReal (rates.getD k 0 * Real.exp (-(rates.sum * h))) * φ k h) +
    if rates.sum = 0 then c else 0

theorem argmin_cons_top {l : List (WithTop ℝ)} (φ : ℕ → ℝ → ℝ≥0∞) (c : ℝ≥0∞) (hl : l ≠ []) :
    minVal φ c (argmin (⊤ :: l)) = minVal (fun k => φ (k + 1)) c (argmin l) := by
  cases l with
  | nil => exact absurd rfl hl
  | cons b l =>
    obtain ⟨⟨k, m⟩, hr⟩ := argmin_ok (l := b :: l) (by simp)
    rw [argmin, hr]
    cases m using WithTop.recTopCoe with
    | top => simp [minVal]
    | coe m => simp [minVal]

theorem argmin_cons_coe {l : List (WithTop ℝ)} (φ : ℕ → ℝ → ℝ≥0∞) (c : ℝ≥0∞) (hl : l ≠ []) (a : ℝ) :
    minVal φ c (argmin ((a : WithTop ℝ) :: l)) = minVal (fun k h => if a ≤ h then φ 0 a else φ (k + 1) h) (φ 0 a) (argmin l) := by
  cases l with
  | nil => exact absurd rfl hl
  | cons b l =>
    obtain ⟨⟨k, m⟩, hr⟩ := argmin_ok (l := b :: l) (by simp)
    rw [argmin, hr]
    cases m using WithTop.recTopCoe with
    | top => simp [minVal]
    | coe m =>
      by_cases h : a ≤ m
      · simp [minVal, h]
      · simp [minVal, h]

theorem sum_pos_of {l : List ℝ} (hl : ∀ r ∈ l, 0 ≤ r) : 0 ≤ l.sum := List.sum_nonneg hl

theorem getD_nonneg {l : List ℝ} (hl : ∀ r ∈ l, 0 ≤ r) (k : ℕ) : 0 ≤ l.getD k 0 := by
  rw [List.getD_eq_getElem?_getD]
  rcases h : l[k]? with _ | r
  · simp
  · simpa using hl r (List.mem_of_getElem? h)

theorem sum_getD (l : List ℝ) : ∑ k ∈ Finset.range l.length, l.getD k 0 = l.sum := by
  induction l with
  | nil => simp
  | cons a l ih =>
    rw [List.length_cons, Finset.sum_range_succ', List.sum_cons]
    simp only [List.getD_cons_succ, List.getD_cons_zero, ih]
    ring

/-- First clock finite at `a`: either it rings first, or one of the others does. -/
theorem holdLaw_split {rs : List ℝ} (hr : ∀ r ∈ rs, 0 ≤ r) {a : ℝ} (ha : 0 < a) {φ : ℕ → ℝ → ℝ≥0∞} :
    holdLaw rs (fun k h => if a ≤ h then φ 0 a else φ (k + 1) h) (φ 0 a) =
      ENNReal.ofReal (Real.exp (-(rs.sum * a))) * φ 0 a +
      ∑ k ∈ Finset.range rs.length, ∫⁻ h in Set.Ioo 0 a, ENNReal.ofReal (rs.getD k 0 * Real.exp (-(rs.sum * h))) * φ (k + 1) h := by
  unfold holdLaw
  have h1 : ∀ k, ∫⁻ h in Set.Ioi 0, ENNReal.ofReal (rs.getD k 0 * Real.exp (-(rs.sum * h))) * (if a ≤ h then φ 0 a else φ (k + 1) h) =
      (∫⁻ h in Set.Ioo 0 a, ENNReal.ofReal (rs.getD k 0 * Real.exp (-(rs.sum * h))) * φ (k + 1) h) +
      ENNReal.ofReal (rs.getD k 0) * (∫⁻ h in Set.Ioi a, ENNReal.ofReal (Real.exp (-(rs.sum * h)))) * φ 0 a := by
    intro k
    have hset : Set.Ioi (0 : ℝ) = Set.Ioo 0 a ∪ Set.Ici a := by
      ext h; simp only [Set.mem_Ioi, Set.mem_union, Set.mem_Ioo, Set.mem_Ici]
      constructor
      · intro h0; rcases lt_or_ge h a with h' | h'
        · exact Or.inl ⟨h0, h'⟩
        · exact Or.inr h'
      · rintro (⟨h0, -⟩ | h0) <;> linarith
    have hdis : Disjoint (Set.Ioo 0 a) (Set.Ici a) := by
      rw [Set.disjoint_left]; intro h h1 h2
      exact absurd (show a ≤ h from h2) (not_le.2 h1.2)
    rw [hset, lintegral_union measurableSet_Ici hdis]
    congr 1
    · refine setLIntegral_congr_fun measurableSet_Ioo fun h hh => ?_
      simp only [not_le.2 hh.2, if_false]
    · have hm : Measurable fun h : ℝ => ENNReal.ofReal (Real.exp (-(rs.sum * h))) := by fun_prop
      rw [setLIntegral_congr Ioi_ae_eq_Ici.symm, ← lintegral_const_mul _ hm, ← lintegral_mul_const _ (hm.const_mul _)]
      refine setLIntegral_congr_fun measurableSet_Ioi fun h hh => ?_
      simp only [(show a ≤ h from le_of_lt hh), if_true]
      rw [ENNReal.ofReal_mul (getD_nonneg hr k)]
  simp only [h1]
  rw [Finset.sum_add_distrib, ← Finset.sum_mul, ← Finset.sum_mul, ← ENNReal.ofReal_sum_of_nonneg fun k _ => getD_nonneg hr k, sum_getD, add_assoc, add_comm]
  congr 1
  rcases (sum_pos_of hr).eq_or_lt with h | h
  · rw [if_pos h.symm, ← h]; simp
  · rw [if_neg h.ne', add_zero]
    have hm : Measurable fun h : ℝ => ENNReal.ofReal (Real.exp (-(rs.sum * h))) := by fun_prop
    rw [← lintegral_const_mul _ hm, ← lintegral_exp_tail h]
    congr 1
    refine lintegral_congr fun x => ?_
    rw [ENNReal.ofReal_mul h.le]

theorem swap_triangle {F : ℝ → ℝ → ℝ≥0∞} (hF : Measurable fun p : ℝ × ℝ => F p.1 p.2) :
    ∫⁻ a in Set.Ioi 0, ∫⁻ h in Set.Ioo 0 a, F a h = ∫⁻ h in Set.Ioi 0, ∫⁻ a in Set.Ioi h, F a h := by
  have hind : Measurable fun p : ℝ × ℝ => if 0 < p.2 ∧ p.2 < p.1 then F p.1 p.2 else 0 := by
    refine Measurable.ite ?_ hF measurable_const
    exact (measurableSet_lt measurable_const measurable_snd).inter (measurableSet_lt measurable_snd measurable_fst)
  have e1 : ∫⁻ a in Set.Ioi 0, ∫⁻ h in Set.Ioo 0 a, F a h = ∫⁻ a : ℝ, ∫⁻ h : ℝ, if 0 < h ∧ h < a then F a h else 0 := by
    rw [← lintegral_indicator measurableSet_Ioi]
    refine lintegral_congr fun a => ?_
    by_cases ha : 0 < a
    · rw [Set.indicator_of_mem (show a ∈ Set.Ioi 0 from ha), ← lintegral_indicator measurableSet_Ioo]
      refine lintegral_congr fun h => ?_
      by_cases hh : 0 < h ∧ h < a
      · rw [Set.indicator_of_mem (show h ∈ Set.Ioo 0 a from hh), if_pos hh]
      · rw [Set.indicator_of_notMem (show h ∉ Set.Ioo 0 a from hh), if_neg hh]
    · rw [Set.indicator_of_notMem (by simpa using ha)]
      symm
      refine (lintegral_congr fun h => if_neg ?_).trans lintegral_zero
      exact fun hh => ha (hh.1.trans hh.2)
  have e2 : ∫⁻ h in Set.Ioi 0, ∫⁻ a in Set.Ioi h, F a h = ∫⁻ h : ℝ, ∫⁻ a : ℝ, if 0 < h ∧ h < a then F a h else 0 := by
    rw [← lintegral_indicator measurableSet_Ioi]
    refine lintegral_congr fun h => ?_
    by_cases h0 : 0 < h
    · rw [Set.indicator_of_mem (show h ∈ Set.Ioi 0 from h0), ← lintegral_indicator measurableSet_Ioi]
      refine lintegral_congr fun a => ?_
      by_cases hh : h < a
      · rw [Set.indicator_of_mem (show a ∈ Set.Ioi h from hh), if_pos ⟨h0, hh⟩]
      · rw [Set.indicator_of_notMem (by simpa using hh), if_neg fun h' => hh h'.2]
    · rw [Set.indicator_of_notMem (by simpa using h0)]
      symm
      refine (lintegral_congr fun a => if_neg ?_).trans lintegral_zero
      exact fun hh => h0 hh.1
  rw [e1, e2]
  exact lintegral_lintegral_swap hind.aemeasurable

/-- **Competing clocks.** -/
theorem hold_exp (rates : List ℝ) : ∀ (φ : ℕ → ℝ → ℝ≥0∞) (c : ℝ≥0∞), rates ≠ [] → (∀ r ∈ rates, 0 ≤ r) → (∀ k, Measurable (φ k)) →
    (Prog.mapM' drawHold rates).lexp (holdVal φ c) = holdLaw rates φ c := by
  induction rates with
  | nil => intro φ c h; exact absurd rfl h
  | cons r rs ih =>
    intro φ c _ hr hφ
    rw [List.forall_mem_cons] at hr
    by_cases hrs : rs = []
    · subst hrs
      rcases hr.1.eq_or_lt with h0 | h0
      · rw [← h0]
        simp [Prog.mapM', drawHold, holdVal, holdLaw, argmin, minVal]
      · simp only [Prog.mapM', drawHold, h0, if_true, Prog.real_bind, Prog.ret_bind, Prog.lexp_real, Prog.lexp_ret, holdVal, argmin, minVal]
        rw [lintegral_exponential (hφ 0)]
        simp [holdLaw, h0.ne']
    · have hne : ∀ hold, (Prog.mapM' drawHold rs).Out (.ok hold) → hold ≠ [] := by
        intro hold hh
        rw [Prog.out_mapM'_ok] at hh
        rintro rfl
        cases rs with
        | nil => exact hrs rfl
        | cons => simp at hh
      rcases hr.1.eq_or_lt with h0 | h0
      · rw [← h0]
        simp only [Prog.mapM', drawHold, lt_irrefl, if_false, if_true, Prog.ret_bind, Prog.lexp_bind]
        have : (Prog.mapM' drawHold rs).lexp (Prog.cont (fun l => Prog.ret (⊤ :: l)) (holdVal φ c) Prog.lexp) =
            (Prog.mapM' drawHold rs).lexp (holdVal (fun k => φ (k + 1)) c) := by
          refine Prog.lexp_congr fun res hres => ?_
          rcases res with e | hold
          · rfl
          · exact argmin_cons_top φ c (hne hold hres)
        rw [this, ih _ _ hrs hr.2 fun k => hφ (k + 1)]
        unfold holdLaw
        rw [List.length_cons, Finset.sum_range_succ']
        simp
      · simp only [Prog.mapM', drawHold, h0, if_true, Prog.real_bind, Prog.ret_bind, Prog.lexp_real, Prog.lexp_bind]
        have : ∀ a : ℝ, (Prog.mapM' drawHold rs).lexp (Prog.cont (fun l => Prog.ret ((a : WithTop ℝ) :: l)) (holdVal φ c) Prog.lexp) =
            holdLaw rs (fun k h => if a ≤ h then φ 0 a else φ (k + 1) h) (φ 0 a) := by
          intro a
          rw [← ih _ _ hrs hr.2 fun k => Measurable.ite measurableSet_Ici measurable_const (hφ (k + 1))]
          refine Prog.lexp_congr fun res hres => ?_
          rcases res with e | hold
          · rfl
          · exact argmin_cons_coe φ c (hne hold hres) a
        simp only [this]
        have hR := sum_pos_of hr.2
        have hmeasK : ∀ k, Measurable fun p : ℝ × ℝ => ENNReal.ofReal (r * Real.exp (-(r * p.1))) *
            (ENNReal.ofReal (rs.getD k 0 * Real.exp (-(rs.sum * p.2))) * φ (k + 1) p.2) := by
          intro k
          have h2 : Measurable fun p : ℝ × ℝ => φ (k + 1) p.2 := (hφ (k + 1)).comp measurable_snd
          fun_prop
        have hmeasI : ∀ k, Measurable fun a : ℝ => ∫⁻ h in Set.Ioo 0 a, ENNReal.ofReal (rs.getD k 0 * Real.exp (-(rs.sum * h))) * φ (k + 1) h := by
          intro k
          have hm : Measurable fun p : ℝ × ℝ => if 0 < p.2 ∧ p.2 < p.1 then ENNReal.ofReal (rs.getD k 0 * Real.exp (-(rs.sum * p.2))) * φ (k + 1) p.2 else 0 := by
            refine Measurable.ite ?_ ?_ measurable_const
            · exact (measurableSet_lt measurable_const measurable_snd).inter (measurableSet_lt measurable_snd measurable_fst)
            · have h2 : Measurable fun p : ℝ × ℝ => φ (k + 1) p.2 := (hφ (k + 1)).comp measurable_snd
              fun_prop
          have := hm.lintegral_prod_right' (ν := (volume : Measure ℝ))
          have heq : (fun a : ℝ => ∫⁻ h in Set.Ioo 0 a, ENNReal.ofReal (rs.getD k 0 * Real.exp (-(rs.sum * h))) * φ (k + 1) h) =
              fun a : ℝ => ∫⁻ h : ℝ, if 0 < h ∧ h < a then ENNReal.ofReal (rs.getD k 0 * Real.exp (-(rs.sum * h))) * φ (k + 1) h else 0 := ?_
          · rw [heq]; exact this
          ext a
          rw [← lintegral_indicator measurableSet_Ioo]
          refine lintegral_congr fun h => ?_
          by_cases hh : 0 < h ∧ h < a
          · rw [Set.indicator_of_mem (show h ∈ Set.Ioo 0 a from hh), if_pos hh]
          · rw [Set.indicator_of_notMem (show h ∉ Set.Ioo 0 a from hh), if_neg hh]
        have hlawm : Measurable fun a : ℝ => ENNReal.ofReal (Real.exp (-(rs.sum * a))) * φ 0 a +
            ∑ k ∈ Finset.range rs.length, ∫⁻ h in Set.Ioo 0 a, ENNReal.ofReal (rs.getD k 0 * Real.exp (-(rs.sum * h))) * φ (k + 1) h := by
          refine Measurable.add ?_ (Finset.measurable_sum _ fun k _ => hmeasI k)
          have := hφ 0
          fun_prop
        have hae : ∀ᵐ a ∂(RDist.exponential (1 / r)).law, holdLaw rs (fun k h => if a ≤ h then φ 0 a else φ (k + 1) h) (φ 0 a) =
            ENNReal.ofReal (Real.exp (-(rs.sum * a))) * φ 0 a +
            ∑ k ∈ Finset.range rs.length, ∫⁻ h in Set.Ioo 0 a, ENNReal.ofReal (rs.getD k 0 * Real.exp (-(rs.sum * h))) * φ (k + 1) h := by
          have hs : ∀ᵐ a ∂(RDist.exponential (1 / r)).law, a ∈ (RDist.exponential (1 / r)).support := by
            rw [ae_iff]; exact RDist.law_support _
          filter_upwards [hs] with a ha
          exact holdLaw_split hr.2 ha
        rw [lintegral_congr_ae hae, lintegral_exponential hlawm]
        simp only [mul_add]
        have hm0 : Measurable fun a : ℝ => ENNReal.ofReal (r * Real.exp (-(r * a))) * (ENNReal.ofReal (Real.exp (-(rs.sum * a))) * φ 0 a) := by
          have := hφ 0
          fun_prop
        rw [lintegral_add_left hm0]
        have hb : ∀ k, Measurable fun a : ℝ => ENNReal.ofReal (r * Real.exp (-(r * a))) *
            ∫⁻ h in Set.Ioo 0 a, ENNReal.ofReal (rs.getD k 0 * Real.exp (-(rs.sum * h))) * φ (k + 1) h := fun k =>
          Measurable.mul (by fun_prop) (hmeasI k)
        simp only [Finset.mul_sum]
        rw [lintegral_finset_sum _ fun k _ => hb k]
        unfold holdLaw
        rw [List.length_cons, Finset.sum_range_succ', List.sum_cons, if_neg (by linarith), add_zero, add_comm]
        simp only [List.getD_cons_succ, List.getD_cons_zero]
        congr 1
        · refine Finset.sum_congr rfl fun k _ => ?_
          have e1 : ∀ a : ℝ, ENNReal.ofReal (r * Real.exp (-(r * a))) *
              ∫⁻ h in Set.Ioo 0 a, ENNReal.ofReal (rs.getD k 0 * Real.exp (-(rs.sum * h))) * φ (k + 1) h =
              ∫⁻ h in Set.Ioo 0 a, ENNReal.ofReal (r * Real.exp (-(r * a))) *
              (ENNReal.ofReal (rs.getD k 0 * Real.exp (-(rs.sum * h))) * φ (k + 1) h) := by
            intro a
            rw [lintegral_const_mul]
            have := hφ (k + 1)
            fun_prop
          simp only [e1]
          rw [swap_triangle (hmeasK k)]
          refine lintegral_congr fun h => ?_
          rw [lintegral_mul_const _ (by fun_prop), lintegral_exp_tail h0, ← mul_assoc, ← ENNReal.ofReal_mul (Real.exp_pos _).le]
          congr 2
          rw [mul_left_comm, ← Real.exp_add]
          congr 2
          ring
        · refine lintegral_congr fun a => ?_
          rw [← mul_assoc, ← ENNReal.ofReal_mul (by positivity)]
          congr 2
          rw [mul_assoc, ← Real.exp_add]
          congr 2
          ring

end Ctb
