import Verif.Lemmas.StripSplit
import Mathlib.Analysis.SpecialFunctions.Gaussian.GaussianIntegral

/-! # The mass of the paths that enter the strip -/

set_option linter.unusedSectionVars false

namespace Ctb

open MeasureTheory Set Filter Topology
open scoped ENNReal

variable {U m v w x y L : ℝ}

theorem half_mass {X : ℝ} (hX : 0 < X) (hv : 0 < v) (hw : 0 < w) :
    (∫⁻ z in Ioi 0, ENNReal.ofReal (passDens z v) * ENNReal.ofReal (normDensR w (X + z))) + ENNReal.ofReal (passDens X (v + w)) =
      ∫⁻ z in Ioi 0, ENNReal.ofReal (passDens z v) * ENNReal.ofReal (normDensR w (X - z)) := by
  have h := start_mass_zero hX (vs := [v, w]) (by simp) (by simp [hv, hw])
  simp only [startInt, kerInt, List.sum_cons, List.sum_nil, add_zero, mul_one] at h
  rw [entrDens, if_pos hX, sub_zero] at h
  have hz : ∫⁻ z, entrDens 0 v z * killDens 0 w z X = ∫⁻ z in Ioi 0, ENNReal.ofReal (passDens z v) * ENNReal.ofReal (normDensR w (X - z) - normDensR w (X + z)) := by
    rw [← lintegral_indicator measurableSet_Ioi]
    refine lintegral_congr fun z => ?_
    unfold entrDens killDens
    by_cases hz : 0 < z
    · rw [indicator_of_mem (mem_Ioi.2 hz), if_pos hz, if_pos ⟨hz, hX⟩]
      ring_nf
    · rw [indicator_of_notMem (by simpa using hz), if_neg hz, zero_mul]
  have hm1 : Measurable fun z => ENNReal.ofReal (passDens z v) * ENNReal.ofReal (normDensR w (X + z)) := by
    unfold passDens normDensR; fun_prop
  rw [← h, hz, ← lintegral_add_left hm1]
  refine setLIntegral_congr_fun measurableSet_Ioi fun z hz => ?_
  have hz' := mem_Ioi.1 hz
  have hle : normDensR w (X + z) ≤ normDensR w (X - z) := by
    rcases le_total z X with h' | h'
    · exact normDensR_anti hw (by linarith) (by linarith)
    · rw [← normDensR_even w (X - z)]
      exact normDensR_anti hw (by linarith) (by linarith)
  rw [← mul_add, ← ENNReal.ofReal_add (normDensR_nonneg' _ _) (by linarith), add_sub_cancel]

theorem pass_finite (hv : 0 < v) : ∫⁻ z in Ioi 0, ENNReal.ofReal (passDens z v) ≠ ∞ := by
  have h : Integrable fun z => passDens z v := by
    have := (integrable_mul_exp_neg_mul_sq (b := 1 / (2 * v)) (by positivity)).const_mul (1 / Real.sqrt (2 * Real.pi * v ^ 3))
    refine this.congr (ae_of_all _ fun z => ?_)
    unfold passDens
    simp only
    ring_nf
  exact ((lintegral_mono' Measure.restrict_le_self le_rfl).trans_lt h.lintegral_lt_top).ne

theorem lintegral_Ioo_flip (g : ℝ → ℝ≥0∞) (c L : ℝ) : ∫⁻ s in Ioo (c - L) c, g s = ∫⁻ s in Ioo 0 L, g (c - s) := by
  rw [← lintegral_indicator measurableSet_Ioo, ← lintegral_indicator measurableSet_Ioo, ← lintegral_sub_left_eq_self (fun s => (Ioo (c - L) c).indicator g s) c]
  refine lintegral_congr fun s => ?_
  by_cases h : s ∈ Ioo 0 L
  · rw [indicator_of_mem h, indicator_of_mem (show c - s ∈ Ioo (c - L) c from ⟨by linarith [h.2], by linarith [h.1]⟩)]
  · rw [indicator_of_notMem h, indicator_of_notMem fun h' => h ⟨by linarith [h'.2], by linarith [h'.1]⟩]

theorem fold_int (hL : 0 < L) (g : ℝ → ℝ≥0∞) :
    ∫⁻ z in Ioi 0, g z = (∑' j : ℕ, ∫⁻ y in Ioo 0 L, g (y + 2 * j * L)) + ∑' j : ℕ, ∫⁻ y in Ioo 0 L, g (2 * (j + 1) * L - y) := by
  have hmono : Monotone fun n : ℕ => (n : ℝ) * L := fun a b h => mul_le_mul_of_nonneg_right (by exact_mod_cast h) hL.le
  have hU : ⋃ n : ℕ, Ioc ((n : ℝ) * L) (((Order.succ n : ℕ) : ℝ) * L) = Ioi 0 := by
    have h := iUnion_Ioc_map_succ_eq_Ioi (f := fun n : ℕ => (n : ℝ) * L) (fun n => hmono bot_le) ?_
    · rw [h]; simp
    · rintro ⟨c, hc⟩
      obtain ⟨n, hn⟩ := exists_nat_gt (c / L)
      rw [div_lt_iff₀ hL] at hn
      exact absurd (hc (mem_range_self n)) (not_le.2 hn)
  rw [← hU, lintegral_iUnion (fun n => measurableSet_Ioc) hmono.pairwise_disjoint_on_Ioc_succ, ← tsum_even_add_odd ENNReal.summable ENNReal.summable]
  simp only [Nat.succ_eq_succ, Nat.succ_eq_add_one]
  congr 1
  · refine tsum_congr fun j => ?_
    rw [setLIntegral_congr Ioo_ae_eq_Ioc.symm, ← lintegral_Ioo_back (fun y => g (y + 2 * j * L)) (2 * j * L) L]
    have e1 : ((2 * j : ℕ) : ℝ) * L = 2 * j * L := by push_cast; ring
    have e2 : ((2 * j + 1 : ℕ) : ℝ) * L = 2 * j * L + L := by push_cast; ring
    rw [e1, e2]
    simp
  · refine tsum_congr fun j => ?_
    rw [setLIntegral_congr Ioo_ae_eq_Ioc.symm, ← lintegral_Ioo_flip]
    have e1 : ((2 * j + 1 : ℕ) : ℝ) * L = 2 * (j + 1) * L - L := by push_cast; ring
    have e2 : ((2 * j + 1 + 1 : ℕ) : ℝ) * L = 2 * (j + 1) * L := by push_cast; ring
    rw [e1, e2]

theorem fold_series (hL : 0 < L) {h : ℝ → ℝ≥0∞} (hh : Measurable h) (hper : ∀ (n : ℤ) z, h (z + 2 * n * L) = h z) :
    ∫⁻ z in Ioi 0, ENNReal.ofReal (passDens z v) * h z =
      (∫⁻ y in Ioo 0 L, entrPos L 0 v y * h y) + ∫⁻ y in Ioo 0 L, entrNeg L 0 v y * h (-y) := by
  have hpass : Measurable fun z => passDens z v := by unfold passDens; fun_prop
  rw [fold_int hL]
  congr 1
  · rw [← lintegral_tsum]
    · refine lintegral_congr fun y => ?_
      rw [entrPos, ← ENNReal.tsum_mul_right]
      refine tsum_congr fun j => ?_
      have := hper j y
      push_cast at this
      rw [this, sub_zero, sub_zero]
    · intro j
      have := (hpass.comp (measurable_id.add_const (2 * (j : ℝ) * L))).ennreal_ofReal.mul (hh.comp (measurable_id.add_const (2 * (j : ℝ) * L)))
      exact this.aemeasurable
  · rw [← lintegral_tsum]
    · refine lintegral_congr fun y => ?_
      rw [entrNeg, ← ENNReal.tsum_mul_right]
      refine tsum_congr fun j => ?_
      have := hper (j + 1) (-y)
      push_cast at this
      rw [neg_add_eq_sub] at this
      rw [this, sub_zero, sub_zero]
    · intro j
      have := (hpass.comp (measurable_id.const_sub (2 * ((j : ℝ) + 1) * L))).ennreal_ofReal.mul (hh.comp (measurable_id.const_sub (2 * ((j : ℝ) + 1) * L)))
      exact this.aemeasurable

theorem strip_mass_two (hx : 0 < x) (hxL : x < L) (hv : 0 < v) (hw : 0 < w) :
    ∫⁻ y, stripEntr L 0 v y * stripDens L 0 w y x = stripEntr L 0 (v + w) x := by
  have hL : 0 < L := hx.trans hxL
  set Θ : ℝ → ℝ≥0∞ := fun z => normImg L w (x - z) with hΘ
  have hΘm : Measurable Θ := by
    rw [hΘ]
    unfold normImg normDensR
    refine Measurable.ennreal_tsum fun j => ?_
    fun_prop
  have hper : ∀ (n : ℤ) z, Θ (z + 2 * n * L) = Θ z := fun n z => by
    rw [hΘ]
    simp only
    rw [← normImg_shift L w (x - z) (-n)]
    push_cast
    ring_nf
  have hper' : ∀ (n : ℤ) z, Θ (-(z + 2 * n * L)) = Θ (-z) := fun n z => by
    rw [← hper (-n) (-z)]
    push_cast
    ring_nf
  have hE : ∀ {F : ℝ → ℝ → ℝ → ℝ≥0∞}, (Measurable fun p : ℝ × ℝ × ℝ => F p.1 p.2.1 p.2.2) → Measurable fun y => F 0 v y := fun hF =>
    hF.comp (by fun_prop : Measurable fun y : ℝ => ((0 : ℝ), v, y))
  have hP := hE (measurable_entrPos L)
  have hN := hE (measurable_entrNeg L)
  have hQ := hE (measurable_stripEntr L)
  have hS : Measurable fun y => stripDens L 0 w y x := (measK_strip L w).comp (by fun_prop : Measurable fun y : ℝ => ((0 : ℝ), y, x))
  have hΘn : Measurable fun y => Θ (-y) := hΘm.comp measurable_neg
  have hI : ∫⁻ y, stripEntr L 0 v y * stripDens L 0 w y x = ∫⁻ y in Ioo 0 L, stripEntr L 0 v y * stripDens L 0 w y x := by
    rw [← lintegral_indicator measurableSet_Ioo]
    refine lintegral_congr fun y => ?_
    by_cases h : y ∈ Ioo 0 L
    · rw [indicator_of_mem h]
    · rw [indicator_of_notMem h, stripEntr, if_neg (show ¬(0 < y ∧ y < L) from fun h' => h h'), zero_mul]
  set J1 := ∫⁻ z in Ioi 0, ENNReal.ofReal (passDens z v) * Θ z with hJ1
  set J2 := ∫⁻ z in Ioi 0, ENNReal.ofReal (passDens z v) * Θ (-z) with hJ2
  have hbal : (∫⁻ y, stripEntr L 0 v y * stripDens L 0 w y x) + J2 = J1 := by
    have g1 : Measurable fun y => entrPos L 0 v y * Θ y := hP.mul hΘm
    have g2 : Measurable fun y => entrPos L 0 v y * Θ (-y) := hP.mul hΘn
    have g3 : Measurable fun y => stripEntr L 0 v y * stripDens L 0 w y x := hQ.mul hS
    rw [hJ1, hJ2, fold_series hL hΘm hper, fold_series hL hΘn (fun n z => hper' n z), hI, ← lintegral_add_left g1, ← lintegral_add_left g2, ← lintegral_add_left g3]
    refine setLIntegral_congr_fun measurableSet_Ioo fun y hy => ?_
    have h1 := stripEntr_pair hv hy.1 hy.2
    have h2 := stripDens_pair hw hy.1 hy.2 hx hxL
    have e1 : normImg (L - 0) w (y + x - 2 * 0) = Θ (-y) := by rw [hΘ]; simp only; congr 1 <;> ring
    have e2 : normImg (L - 0) w (x - y) = Θ y := by rw [hΘ]; simp only; congr 1 <;> ring
    rw [e1, e2] at h2
    simp only [neg_neg]
    rw [← h1, ← h2]
    ring
  set jp : ℝ → ℝ≥0∞ := fun X => ∫⁻ z in Ioi 0, ENNReal.ofReal (passDens z v) * ENNReal.ofReal (normDensR w (X - z)) with hjp
  set jm : ℝ → ℝ≥0∞ := fun X => ∫⁻ z in Ioi 0, ENNReal.ofReal (passDens z v) * ENNReal.ofReal (normDensR w (X + z)) with hjm
  have hm1 : ∀ X, Measurable fun z => ENNReal.ofReal (passDens z v) * ENNReal.ofReal (normDensR w (X - z)) := by
    intro X; unfold passDens normDensR; fun_prop
  have hm2 : ∀ X, Measurable fun z => ENNReal.ofReal (passDens z v) * ENNReal.ofReal (normDensR w (X + z)) := by
    intro X; unfold passDens normDensR; fun_prop
  have hA : ∀ n : ℕ, 0 < x + 2 * n * L := fun n => by positivity
  have hB : ∀ n : ℕ, 0 < 2 * (n + 1) * L - x := fun n => by
    have : 0 ≤ 2 * (n : ℝ) * L := by positivity
    linarith
  have s1 : J1 = (∑' n : ℕ, jp (x + 2 * n * L)) + ∑' n : ℕ, jm (2 * (n + 1) * L - x) := by
    rw [hJ1, hjp, hjm, ← lintegral_tsum fun n => (hm1 _).aemeasurable, ← lintegral_tsum fun n => (hm2 _).aemeasurable, ← lintegral_add_left (Measurable.ennreal_tsum fun n => hm1 _)]
    refine lintegral_congr fun z => ?_
    rw [hΘ]
    simp only
    rw [normImg_split, mul_add, ← ENNReal.tsum_mul_left, ← ENNReal.tsum_mul_left]
    congr 1
    · exact tsum_congr fun n => by ring_nf
    · exact tsum_congr fun n => by ring_nf
  have s2 : J2 = (∑' n : ℕ, jm (x + 2 * n * L)) + ∑' n : ℕ, jp (2 * (n + 1) * L - x) := by
    rw [hJ2, hjp, hjm, ← lintegral_tsum fun n => (hm1 _).aemeasurable, ← lintegral_tsum fun n => (hm2 _).aemeasurable, ← lintegral_add_left (Measurable.ennreal_tsum fun n => hm2 _)]
    refine lintegral_congr fun z => ?_
    rw [hΘ]
    simp only
    rw [normImg_split, mul_add, ← ENNReal.tsum_mul_left, ← ENNReal.tsum_mul_left]
    congr 1
    · exact tsum_congr fun n => by ring_nf
    · exact tsum_congr fun n => by ring_nf
  have t1 : ∑' n : ℕ, jp (x + 2 * n * L) = (∑' n : ℕ, jm (x + 2 * n * L)) + entrPos L 0 (v + w) x := by
    rw [entrPos, ← ENNReal.tsum_add]
    refine tsum_congr fun n => ?_
    rw [sub_zero, sub_zero]
    exact (half_mass (hA n) hv hw).symm
  have t2 : ∑' n : ℕ, jp (2 * (n + 1) * L - x) = (∑' n : ℕ, jm (2 * (n + 1) * L - x)) + entrNeg L 0 (v + w) x := by
    rw [entrNeg, ← ENNReal.tsum_add]
    refine tsum_congr fun n => ?_
    rw [sub_zero, sub_zero]
    exact (half_mass (hB n) hv hw).symm
  have hjle : ∀ {X}, 0 < X → jm X ≤ (∫⁻ z in Ioi 0, ENNReal.ofReal (passDens z v)) * ENNReal.ofReal (normDensR w X) := by
    intro X hX
    rw [hjm, ← lintegral_mul_const' _ _ ENNReal.ofReal_ne_top]
    refine setLIntegral_mono' measurableSet_Ioi fun z hz => ?_
    have hz' := mem_Ioi.1 hz
    exact mul_le_mul_right (ENNReal.ofReal_le_ofReal (normDensR_anti hw hX.le (by linarith))) _
  have hΘf := normImg_ne_top hw hL x
  rw [normImg_split] at hΘf
  have fA : ∑' n : ℕ, jm (x + 2 * n * L) ≠ ∞ := by
    refine ((ENNReal.tsum_le_tsum fun n => hjle (hA n)).trans_lt ?_).ne
    rw [ENNReal.tsum_mul_left]
    exact ENNReal.mul_lt_top (pass_finite hv).lt_top (ENNReal.add_ne_top.1 hΘf).1.lt_top
  have fB : ∑' n : ℕ, jm (2 * (n + 1) * L - x) ≠ ∞ := by
    refine ((ENNReal.tsum_le_tsum fun n => hjle (hB n)).trans_lt ?_).ne
    rw [ENNReal.tsum_mul_left]
    exact ENNReal.mul_lt_top (pass_finite hv).lt_top (ENNReal.add_ne_top.1 hΘf).2.lt_top
  have hvw : 0 < v + w := by linarith
  rw [s1, s2, t1, t2, ← stripEntr_pair hvw hx hxL] at hbal
  have hfin : (∑' n : ℕ, jm (x + 2 * n * L)) + (∑' n : ℕ, jm (2 * (n + 1) * L - x)) + entrNeg L 0 (v + w) x ≠ ∞ :=
    ENNReal.add_ne_top.2 ⟨ENNReal.add_ne_top.2 ⟨fA, fB⟩, entrNeg_ne_top hvw hx hxL⟩
  refine (ENNReal.add_left_inj hfin).1 ?_
  generalize ∑' n : ℕ, jm (x + 2 * n * L) = A at hbal ⊢
  generalize ∑' n : ℕ, jm (2 * (n + 1) * L - x) = B at hbal ⊢
  rw [add_assoc A B, hbal]
  ring

theorem strip_mass_zero (hx : 0 < x) (hxL : x < L) {vs : List ℝ} (hne : vs ≠ []) (hp : ∀ v ∈ vs, 0 < v) :
    startInt (stripEntr L 0) (stripDens L 0) x vs (fun _ => 1) = stripEntr L 0 vs.sum x := by
  induction vs using List.reverseRecOn generalizing x with
  | nil => exact absurd rfl hne
  | append_singleton us w ih =>
    by_cases hus : us = []
    · subst hus; simp [startInt]
    · have h0 : 0 < us.sum := List.sum_pos _ (fun v hv => hp v (by simp [hv])) hus
      have hE : ∀ v, Measurable (stripEntr L 0 v) := fun v => (measurable_stripEntr L).comp (by fun_prop : Measurable fun y : ℝ => ((0 : ℝ), v, y))
      have hK : MeasK fun _ : Unit => stripDens L 0 := (measK_strip L).comp (φ := fun _ : Unit => (0 : ℝ)) measurable_const
      obtain ⟨u, us', rfl⟩ := List.exists_cons_of_ne_nil hus
      rw [startInt_append hK hE w u x us' (measL_one _), List.sum_append, List.sum_singleton, ← strip_mass_two hx hxL h0 (hp w (by simp))]
      refine lintegral_congr fun y => ?_
      by_cases hy : 0 < y ∧ y < L
      · rw [ih hy.1 hy.2 (by simp) fun v hv => hp v (List.mem_append_left _ hv)]
      · rw [stripDens, if_neg fun h => hy ⟨h.1, h.2.1⟩, mul_zero, mul_zero]

theorem stripDens_shift (U m v x y : ℝ) : stripDens U m v (x + m) (y + m) = stripDens (U - m) 0 v x y := by
  unfold stripDens
  by_cases h : 0 < x ∧ x < U - m ∧ 0 < y ∧ y < U - m
  · rw [if_pos ⟨by linarith [h.1], by linarith [h.2.1], by linarith [h.2.2.1], by linarith [h.2.2.2]⟩, if_pos h]
    congr 1
    refine tsum_congr fun k => ?_
    ring_nf
  · rw [if_neg h, if_neg fun h' => h ⟨by linarith [h'.1], by linarith [h'.2.1], by linarith [h'.2.2.1], by linarith [h'.2.2.2]⟩]

theorem stripEntr_shift (U m v y : ℝ) : stripEntr U m v (y + m) = stripEntr (U - m) 0 v y := by
  unfold stripEntr
  by_cases h : 0 < y ∧ y < U - m
  · rw [if_pos ⟨by linarith [h.1], by linarith [h.2]⟩, if_pos h]
    congr 1
    refine tsum_congr fun k => ?_
    ring_nf
  · rw [if_neg h, if_neg fun h' => h ⟨by linarith [h'.1], by linarith [h'.2]⟩]

/-- The entrance density of the strip is consistent. -/
theorem strip_mass (hx : m < x) (hxU : x < U) {vs : List ℝ} (hne : vs ≠ []) (hp : ∀ v ∈ vs, 0 < v) :
    startInt (stripEntr U m) (stripDens U m) x vs (fun _ => 1) = stripEntr U m vs.sum x := by
  have h := strip_mass_zero (sub_pos.2 hx) (by linarith : x - m < U - m) hne hp
  have h2 := startInt_shift (stripEntr_shift U m) (stripDens_shift U m) (x - m) vs (fun _ => 1)
  rw [sub_add_cancel] at h2
  rw [← h2, h, ← stripEntr_shift U m, sub_add_cancel]

end Ctb
