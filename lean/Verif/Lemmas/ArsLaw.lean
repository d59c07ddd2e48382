import Verif.Lemmas.ArsHull
import Verif.Basic.Law

set_option linter.unusedSectionVars false

/-! # Law of the envelope draw -/

namespace Ctb

open Set MeasureTheory
open scoped ENNReal

section
variable {lb ub : EReal} {E : ℝ → ℝ} {v : ℝ → ℝ}

theorem suppC_pos {p : EReal} {q : ℝ} (h : p < (q : EReal)) : 0 < volume (suppC p (q : EReal)) := by
  obtain ⟨r, h1, h2⟩ := EReal.lt_iff_exists_real_btwn.1 h
  have hrq : r < q := EReal.coe_lt_coe_iff.1 h2
  have : Ioc r q ⊆ suppC p (q : EReal) := by
    rintro t ⟨a, b⟩
    exact ⟨h1.trans (EReal.coe_lt_coe_iff.2 a), EReal.coe_le_coe_iff.2 b⟩
  refine lt_of_lt_of_le ?_ (measure_mono this)
  rw [Real.volume_Ioc]; simpa using hrq

/-- A positive density on `(lb, ub]`, inverted by `v`: `v z` for uniform `z` has that density, normalised. -/
theorem law_of_inverse (hE : Measurable E) (hpos : ∀ t, 0 < E t) (hint : IntegrableOn E (suppC lb ub))
    (hv : ∀ z ∈ Ioo (0 : ℝ) 1, v z ∈ supp lb ub ∧ ∫ t in suppC lb (v z : EReal), E t = z * ∫ t in suppC lb ub, E t) :
    AEMeasurable v (volume.restrict (Ioo (0 : ℝ) 1)) ∧ (0 < ∫ t in suppC lb ub, E t) ∧
    (volume.restrict (Ioo (0 : ℝ) 1)).map v =
      (volume.restrict (suppC lb ub)).withDensity fun t => ENNReal.ofReal (E t / ∫ t in suppC lb ub, E t) := by
  have hms := measurableSet_suppC lb ub
  set Z := ∫ t in suppC lb ub, E t with hZ
  -- distribution function
  set F : EReal → ℝ := fun s => ∫ t in suppC lb s, E t with hF
  have hsub : ∀ {s : EReal}, s ≤ ub → suppC lb s ⊆ suppC lb ub := fun hs t ht => ⟨ht.1, ht.2.trans hs⟩
  have hstrict : ∀ {s : EReal} {q : ℝ}, lb ≤ s → s < (q : EReal) → (q : EReal) ≤ ub → F s < F q := by
    intro s q h0 h1 h2
    obtain ⟨u1, u2⟩ := suppC_union h0 h1.le
    have i1 : IntegrableOn E (suppC lb s) := hint.mono_set (hsub (h1.le.trans h2))
    have i2 : IntegrableOn E (suppC s q) := hint.mono_set fun t ht => ⟨h0.trans_lt ht.1, ht.2.trans h2⟩
    simp only [hF]
    rw [u1, setIntegral_union u2 (measurableSet_suppC _ _) i1 i2]
    have : 0 < ∫ t in suppC s q, E t := by
      rw [setIntegral_pos_iff_support_of_nonneg_ae (Filter.Eventually.of_forall fun t => (hpos t).le) i2]
      have : Function.support E = univ := by
        ext t; simp [(hpos t).ne']
      rw [this, univ_inter]
      exact suppC_pos h1
    linarith
  have hmono : ∀ {s q : EReal}, s ≤ q → q ≤ ub → F s ≤ F q := by
    intro s q h1 h2
    exact setIntegral_mono_set (hint.mono_set (hsub h2)) (Filter.Eventually.of_forall fun t => (hpos t).le)
      (Filter.Eventually.of_forall fun t (ht : t ∈ suppC lb s) => ⟨ht.1, ht.2.trans h1⟩)
  have hF0 : ∀ s, 0 ≤ F s := fun s => integral_nonneg fun t => (hpos t).le
  have hZ0 : 0 < Z := by
    have h := hv (1 / 2) ⟨by norm_num, by norm_num⟩
    have h1 : F lb < F (v (1 / 2)) := hstrict le_rfl h.1.1 h.1.2.le
    have h2 : F (v (1 / 2)) = 1 / 2 * Z := h.2
    linarith [hF0 lb]
  have hmonov : MonotoneOn v (Ioo (0 : ℝ) 1) := by
    intro a ha b hb hab
    by_contra h
    rw [not_le] at h
    have h1 : F (v b) < F (v a) := hstrict (hv b hb).1.1.le (EReal.coe_lt_coe_iff.2 h) (hv a ha).1.2.le
    have h2 : F (v b) = b * Z := (hv b hb).2
    have h3 : F (v a) = a * Z := (hv a ha).2
    rw [h2, h3] at h1
    nlinarith
  have hme : AEMeasurable v (volume.restrict (Ioo (0 : ℝ) 1)) := aemeasurable_restrict_of_monotoneOn measurableSet_Ioo hmonov
  refine ⟨hme, hZ0, ?_⟩
  have hlint : ∀ s : EReal, s ≤ ub → ∫⁻ t in suppC lb s, ENNReal.ofReal (E t / Z) = ENNReal.ofReal (F s / Z) := by
    intro s hs
    rw [← ofReal_integral_eq_lintegral_ofReal]
    · rw [integral_div]
    · exact (hint.mono_set (hsub hs)).div_const Z
    · exact Filter.Eventually.of_forall fun t => (div_pos (hpos t) hZ0).le
  have : IsFiniteMeasure ((volume.restrict (Ioo (0 : ℝ) 1)).map v) := by
    infer_instance
  refine Measure.ext_of_Iic _ _ fun s => ?_
  rw [Measure.map_apply_of_aemeasurable hme measurableSet_Iic, withDensity_apply _ measurableSet_Iic,
    Measure.restrict_restrict measurableSet_Iic]
  have eset : Iic s ∩ suppC lb ub = suppC lb (min ub (s : EReal)) := by
    ext t
    simp only [suppC, mem_inter_iff, mem_Iic, mem_setOf_eq, le_min_iff, EReal.coe_le_coe_iff]
    tauto
  rw [eset, hlint _ (min_le_left _ _)]
  set c := F (min ub (s : EReal)) / Z with hc
  have hc0 : 0 ≤ c := div_nonneg (hF0 _) hZ0.le
  have hc1 : c ≤ 1 := by
    rw [hc, div_le_one hZ0]; exact hmono (min_le_left _ _) le_rfl
  have key : ∀ z ∈ Ioo (0 : ℝ) 1, v z ≤ s ↔ z ≤ c := by
    intro z hz
    obtain ⟨⟨g1, g2⟩, g3⟩ := hv z hz
    have g3' : F (v z) = z * Z := g3
    rw [hc, le_div_iff₀ hZ0, ← g3']
    constructor
    · intro h
      exact hmono (le_min g2.le (EReal.coe_le_coe_iff.2 h)) (min_le_left _ _)
    · intro h
      by_contra hlt
      rw [not_le] at hlt
      by_cases hl : lb ≤ (s : EReal)
      · have : F (min ub (s : EReal)) < F (v z) :=
          hstrict (le_min (g1.le.trans g2.le) hl) (lt_of_le_of_lt (min_le_right _ _) (EReal.coe_lt_coe_iff.2 hlt)) g2.le
        linarith
      · have e : F (min ub (s : EReal)) = 0 := by
          have : suppC lb (min ub (s : EReal)) = ∅ := by
            ext t
            simp only [suppC, mem_setOf_eq, mem_empty_iff_false, iff_false, not_and, not_le]
            intro h1
            exact lt_of_le_of_lt (min_le_right _ _) ((not_le.1 hl).trans h1)
          simp [hF, this]
        have : F lb < F (v z) := hstrict le_rfl g1 g2.le
        linarith [hF0 lb]
  rw [Measure.restrict_apply' measurableSet_Ioo]
  have e : v ⁻¹' Iic s ∩ Ioo 0 1 = Iic c ∩ Ioo 0 1 := by
    ext z
    simp only [mem_inter_iff, mem_preimage, mem_Iic]
    constructor
    · rintro ⟨a, b⟩; exact ⟨(key z b).1 a, b⟩
    · rintro ⟨a, b⟩; exact ⟨(key z b).2 a, b⟩
  rw [e]
  apply le_antisymm
  · have : Iic c ∩ Ioo (0 : ℝ) 1 ⊆ Icc 0 c := fun z hz => ⟨hz.2.1.le, hz.1⟩
    refine (measure_mono this).trans ?_
    rw [Real.volume_Icc, sub_zero]
  · have : Ioo (0 : ℝ) c ⊆ Iic c ∩ Ioo 0 1 := fun z hz => ⟨hz.2.le, hz.1, hz.2.trans_le hc1⟩
    refine le_trans ?_ (measure_mono this)
    rw [Real.volume_Ioo, sub_zero]

end

section
variable {f df : ℝ → ℝ} {H : Hull} {lb ub : EReal}

/-- What one pass of the sampler works with. -/
structure Env (f df : ℝ → ℝ) (lb ub : EReal) (H : Hull) (y : List EReal) (U v : ℝ → ℝ) (Z : ℝ) : Prop where
  breaks : hullBreaks lb ub H.x H.fx H.dfx = .ok y
  cont : Continuous U
  hull : ∀ t ∈ suppC lb ub, IsUpperHull f df H.x t (U t)
  draw : ∀ z ∈ Ioo (0 : ℝ) 1, sampleEnvelope H.x H.fx H.dfx y z = .ok (v z) ∧ v z ∈ supp lb ub
  meas : AEMeasurable v (volume.restrict (Ioo (0 : ℝ) 1))
  pos : 0 < Z
  norm : Z = ∫ t in suppC lb ub, Real.exp (U t)
  int : IntegrableOn (fun t => Real.exp (U t)) (suppC lb ub)
  law : (volume.restrict (Ioo (0 : ℝ) 1)).map v =
      (volume.restrict (suppC lb ub)).withDensity fun t => ENNReal.ofReal (Real.exp (U t) / Z)

theorem Hull.Good.env (hf : StrictDiff f df (supp lb ub)) (hH : H.Good f df lb ub) :
    ∃ y v Z, Env f df lb ub H y (hullFn f df H.x hH.ok.ne) v Z := by
  obtain ⟨y, hy⟩ := hH.breaks hf
  obtain ⟨off, hi, lo, h1, h2, h3⟩ := hH.total hf hy
  have hU : ∀ t ∈ suppC lb ub, IsUpperHull f df H.x t (hullFn f df H.x hH.ok.ne t) := fun t _ => hullFn_spec _ _ _
  have key := fun (z : ℝ) (hz : z ∈ Ioo (0 : ℝ) 1) => envelope_draw hf.concave hH.ok (hullBreaks_ok hH.ok hy) hU h1 h2 h3 hz.1 hz.2
  choose! v hv using key
  have hc := hullFn_continuous (f := f) (df := df) H.x hH.ok.ne
  have hint := (hv (1 / 2) ⟨by norm_num, by norm_num⟩).2.2.1
  obtain ⟨g1, g2, g3⟩ := law_of_inverse (E := fun t => Real.exp (hullFn f df H.x hH.ok.ne t)) (v := v)
    (Real.measurable_exp.comp hc.measurable) (fun t => Real.exp_pos _) hint
    fun z hz => ⟨(hv z hz).2.1, (hv z hz).2.2.2⟩
  exact ⟨y, v, _, hy, hc, hU, fun z hz => ⟨(hv z hz).1, (hv z hz).2.1⟩, g1, g2, rfl, hint, g3⟩

variable {y : List EReal} {U v : ℝ → ℝ} {Z : ℝ}

theorem Env.lintegral (he : Env f df lb ub H y U v Z) {g : ℝ → ℝ≥0∞} (hg : Measurable g) :
    ∫⁻ z in Ioo (0 : ℝ) 1, g (v z) = ∫⁻ t in suppC lb ub, ENNReal.ofReal (Real.exp (U t) / Z) * g t := by
  rw [← lintegral_map' hg.aemeasurable he.meas, he.law, lintegral_withDensity_eq_lintegral_mul _ _ hg]
  · rfl
  · exact ((Real.measurable_exp.comp he.cont.measurable).div_const Z).ennreal_ofReal

/-- Null sets of the line are not hit. -/
theorem Env.ae (he : Env f df lb ub H y U v Z) {N : Set ℝ} (hm : MeasurableSet N) (hN : volume N = 0) :
    ∀ᵐ z ∂(volume.restrict (Ioo (0 : ℝ) 1)), v z ∉ N := by
  have : (volume.restrict (Ioo (0 : ℝ) 1)).map v N = 0 := by
    rw [he.law]
    refine withDensity_absolutelyContinuous _ _ ?_
    exact le_antisymm ((Measure.restrict_apply_le _ _).trans hN.le) zero_le
  rw [Measure.map_apply_of_aemeasurable he.meas hm] at this
  rw [ae_iff]
  have e : {a | ¬ v a ∉ N} = v ⁻¹' N := by ext a; simp
  rw [e]; exact this

end

end Ctb
