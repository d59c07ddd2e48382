import Verif.Lemmas.StripImages

/-! # Image sums of the strip as differences of non-negative series -/

set_option linter.unusedSectionVars false

namespace Ctb

open MeasureTheory Set Filter Topology
open scoped ENNReal

variable {U m v x y L : ℝ}

/-- Images of the entrance density with a positive sign. -/
noncomputable def entrPos (U m v y : ℝ) : ℝ≥0∞ := ∑' j : ℕ, ENNReal.ofReal (passDens (y - m + 2 * j * (U - m)) v)

/-- Images of the entrance density with a negative sign. -/
noncomputable def entrNeg (U m v y : ℝ) : ℝ≥0∞ := ∑' j : ℕ, ENNReal.ofReal (passDens (2 * (j + 1) * (U - m) - (y - m)) v)

/-- Normal density around all the translates of `d` by multiples of `2 L`. -/
noncomputable def normImg (L v d : ℝ) : ℝ≥0∞ := ∑' k : ℤ, ENNReal.ofReal (normDensR v (d + 2 * k * L))

theorem normDensR_nonneg' (v d : ℝ) : 0 ≤ normDensR v d := by unfold normDensR; positivity

theorem normImg_eq (hv : 0 < v) (hL : 0 < L) (d : ℝ) : normImg L v d = ENNReal.ofReal (∑' k : ℤ, normDensR v (d + 2 * k * L)) :=
  (ENNReal.ofReal_tsum_of_nonneg (fun _ => normDensR_nonneg' _ _) (norm_images_summable hv hL d)).symm

theorem normImg_ne_top (hv : 0 < v) (hL : 0 < L) (d : ℝ) : normImg L v d ≠ ∞ := by
  rw [normImg_eq hv hL]; exact ENNReal.ofReal_ne_top

theorem normImg_neg (L v d : ℝ) : normImg L v (-d) = normImg L v d := by
  unfold normImg
  rw [← (Equiv.neg ℤ).tsum_eq]
  refine tsum_congr fun k => ?_
  rw [← normDensR_even]
  simp only [Equiv.neg_apply]
  push_cast
  ring_nf

theorem normImg_shift (L v d : ℝ) (n : ℤ) : normImg L v (d + 2 * n * L) = normImg L v d := by
  unfold normImg
  rw [← (Equiv.addRight (-n)).tsum_eq]
  refine tsum_congr fun k => ?_
  simp only [Equiv.coe_addRight]
  push_cast
  ring_nf

theorem normImg_split (L v d : ℝ) :
    normImg L v d = (∑' n : ℕ, ENNReal.ofReal (normDensR v (d + 2 * n * L))) + ∑' n : ℕ, ENNReal.ofReal (normDensR v (2 * (n + 1) * L - d)) := by
  unfold normImg
  rw [tsum_of_nat_of_neg_add_one ENNReal.summable ENNReal.summable]
  congr 1
  refine tsum_congr fun n => ?_
  rw [← normDensR_even]
  push_cast
  ring_nf

theorem stripDens_pair (hv : 0 < v) (hx : m < x) (hxU : x < U) (hy : m < y) (hyU : y < U) :
    stripDens U m v x y + normImg (U - m) v (x + y - 2 * m) = normImg (U - m) v (y - x) := by
  have hL : 0 < U - m := by linarith
  have h1 := norm_images_summable hv hL (y - x)
  have h2 := norm_images_summable hv hL (x + y - 2 * m)
  obtain ⟨p, hp0, hp1, hp⟩ := C43_series hv (sub_pos.2 hx).le (sub_pos.2 hy) (by linarith : x - m < U - m) (by linarith : y - m < U - m)
  have hs := stripDens_esc hv hx hxU hy hyU hp
  rw [stripDens, if_pos ⟨hx, hxU, hy, hyU⟩] at hs ⊢
  rw [normImg_eq hv hL, normImg_eq hv hL]
  rw [h1.tsum_sub h2] at hs ⊢
  have hnn : 0 ≤ ∑' k : ℤ, normDensR v (x + y - 2 * m + 2 * k * (U - m)) := tsum_nonneg fun _ => normDensR_nonneg' _ _
  rw [← ENNReal.ofReal_add _ hnn, sub_add_cancel]
  by_contra hneg
  rw [ENNReal.ofReal_of_nonpos (not_le.1 hneg).le] at hs
  exact mul_ne_zero (killDens_pos hv (lt_min hx hy)).1 (ENNReal.ofReal_pos.2 (by linarith)).ne' hs.symm

theorem stripEntr_pair (hv : 0 < v) (hy : m < y) (hyU : y < U) : stripEntr U m v y + entrNeg U m v y = entrPos U m v y := by
  have hL : 0 < U - m := by linarith
  have h1 := pass_images_summable hv hL (y - m)
  obtain ⟨p, hp0, hp1, hp⟩ := C43_series hv le_rfl (sub_pos.2 hy) (by linarith : (0 : ℝ) < U - m) (by linarith : y - m < U - m)
  have hs := stripEntr_esc hv hy hyU hp
  rw [stripEntr, if_pos ⟨hy, hyU⟩] at hs ⊢
  have hA : Summable fun n : ℕ => passDens (y - m + 2 * n * (U - m)) v := by
    have := h1.comp_injective (i := fun n : ℕ => (n : ℤ)) Nat.cast_injective
    refine this.congr fun n => ?_
    simp [Function.comp]
  have hB' : Summable fun n : ℕ => passDens (y - m + 2 * ((-((n : ℤ) + 1) : ℤ) : ℝ) * (U - m)) v :=
    h1.comp_injective (i := fun n : ℕ => -((n : ℤ) + 1)) fun a b h => by simpa using h
  have e : ∀ n : ℕ, passDens (y - m + 2 * ((-((n : ℤ) + 1) : ℤ) : ℝ) * (U - m)) v = -passDens (2 * (n + 1) * (U - m) - (y - m)) v := by
    intro n
    rw [← passDens_odd]
    push_cast
    ring_nf
  have hB : Summable fun n : ℕ => passDens (2 * (n + 1) * (U - m) - (y - m)) v := by
    have := hB'.neg
    refine this.congr fun n => ?_
    rw [e, neg_neg]
  have hsum : ∑' k : ℤ, passDens (y - m + 2 * k * (U - m)) v = (∑' n : ℕ, passDens (y - m + 2 * n * (U - m)) v) - ∑' n : ℕ, passDens (2 * (n + 1) * (U - m) - (y - m)) v := by
    rw [tsum_of_nat_of_neg_add_one (f := fun k : ℤ => passDens (y - m + 2 * k * (U - m)) v) (by simpa using hA) hB', tsum_congr e, tsum_neg, ← sub_eq_add_neg]
    simp
  have hA0 : ∀ n : ℕ, 0 ≤ passDens (y - m + 2 * n * (U - m)) v := fun n => passDens_nonneg (by
    have : 0 ≤ 2 * (n : ℝ) * (U - m) := by positivity
    linarith)
  have hB0 : ∀ n : ℕ, 0 ≤ passDens (2 * (n + 1) * (U - m) - (y - m)) v := fun n => passDens_nonneg (by
    have : 0 ≤ 2 * (n : ℝ) * (U - m) := by positivity
    linarith)
  rw [hsum] at hs ⊢
  rw [entrPos, entrNeg, ← ENNReal.ofReal_tsum_of_nonneg hA0 hA, ← ENNReal.ofReal_tsum_of_nonneg hB0 hB, ← ENNReal.ofReal_add _ (tsum_nonneg hB0), sub_add_cancel]
  by_contra hneg
  rw [ENNReal.ofReal_of_nonpos (not_le.1 hneg).le] at hs
  exact mul_ne_zero (entrDens_pos hv hy).1 (ENNReal.ofReal_pos.2 (by linarith)).ne' hs.symm

theorem entrNeg_ne_top (hv : 0 < v) (hy : m < y) (hyU : y < U) : entrNeg U m v y ≠ ∞ := by
  have hL : 0 < U - m := by linarith
  have h1 := pass_images_summable hv hL (y - m)
  have hB' : Summable fun n : ℕ => passDens (y - m + 2 * ((-((n : ℤ) + 1) : ℤ) : ℝ) * (U - m)) v :=
    h1.comp_injective (i := fun n : ℕ => -((n : ℤ) + 1)) fun a b h => by simpa using h
  have e : ∀ n : ℕ, passDens (y - m + 2 * ((-((n : ℤ) + 1) : ℤ) : ℝ) * (U - m)) v = -passDens (2 * (n + 1) * (U - m) - (y - m)) v := by
    intro n
    rw [← passDens_odd]
    push_cast
    ring_nf
  have hB : Summable fun n : ℕ => passDens (2 * (n + 1) * (U - m) - (y - m)) v := by
    have := hB'.neg
    refine this.congr fun n => ?_
    rw [e, neg_neg]
  have hB0 : ∀ n : ℕ, 0 ≤ passDens (2 * (n + 1) * (U - m) - (y - m)) v := fun n => passDens_nonneg (by
    have : 0 ≤ 2 * (n : ℝ) * (U - m) := by positivity
    linarith)
  rw [entrNeg, ← ENNReal.ofReal_tsum_of_nonneg hB0 hB]
  exact ENNReal.ofReal_ne_top

theorem measurable_entrPos (U : ℝ) : Measurable fun p : ℝ × ℝ × ℝ => entrPos U p.1 p.2.1 p.2.2 := by
  unfold entrPos passDens
  refine Measurable.ennreal_tsum fun j => ?_
  fun_prop

theorem measurable_entrNeg (U : ℝ) : Measurable fun p : ℝ × ℝ × ℝ => entrNeg U p.1 p.2.1 p.2.2 := by
  unfold entrNeg passDens
  refine Measurable.ennreal_tsum fun j => ?_
  fun_prop

theorem measurable_normImg (v : ℝ) : Measurable fun p : ℝ × ℝ => normImg p.1 v p.2 := by
  unfold normImg normDensR
  refine Measurable.ennreal_tsum fun j => ?_
  fun_prop

/-- No time left. -/
theorem stripEntr_nonpos (hv : v ≤ 0) : stripEntr U m v y = 0 := by
  unfold stripEntr
  have : ∀ a, passDens a v = 0 := by
    intro a
    have h3 : v ^ 3 ≤ 0 := by
      have := mul_nonneg (sq_nonneg v) (neg_nonneg.2 hv)
      nlinarith
    have hpi := Real.pi_pos
    rw [passDens, Real.sqrt_eq_zero_of_nonpos (by nlinarith), div_zero, zero_mul]
  simp [this]

theorem stripDens_nonpos (hv : v ≤ 0) : stripDens U m v x y = 0 := by
  unfold stripDens
  have : ∀ a, normDensR v a = 0 := by
    intro a
    have hpi := Real.pi_pos
    rw [normDensR, Real.sqrt_eq_zero_of_nonpos (by nlinarith), div_zero]
  simp [this]

theorem measurable_stripEntr (U : ℝ) : Measurable fun p : ℝ × ℝ × ℝ => stripEntr U p.1 p.2.1 p.2.2 := by
  have e : (fun p : ℝ × ℝ × ℝ => stripEntr U p.1 p.2.1 p.2.2) =
      fun p => if 0 < p.2.1 ∧ p.1 < p.2.2 ∧ p.2.2 < U then entrPos U p.1 p.2.1 p.2.2 - entrNeg U p.1 p.2.1 p.2.2 else 0 := by
    funext p
    split_ifs with h
    · rw [← stripEntr_pair h.1 h.2.1 h.2.2, ENNReal.add_sub_cancel_right (entrNeg_ne_top h.1 h.2.1 h.2.2)]
    · by_cases hv : 0 < p.2.1
      · exact if_neg fun h' => h ⟨hv, h'⟩
      · exact stripEntr_nonpos (not_lt.1 hv)
  rw [e]
  have hy : Measurable fun p : ℝ × ℝ × ℝ => p.2.2 := by fun_prop
  have ht : Measurable fun p : ℝ × ℝ × ℝ => p.2.1 := by fun_prop
  refine Measurable.ite ?_ ((measurable_entrPos U).sub (measurable_entrNeg U)) measurable_const
  exact (measurableSet_lt measurable_const ht).inter ((measurableSet_lt measurable_fst hy).inter (measurableSet_lt hy measurable_const))

theorem measK_strip (U : ℝ) : MeasK (stripDens U) := by
  intro v
  by_cases hv : 0 < v
  · have e : (fun p : ℝ × ℝ × ℝ => stripDens U p.1 v p.2.1 p.2.2) =
        fun p => if p.1 < p.2.1 ∧ p.2.1 < U ∧ p.1 < p.2.2 ∧ p.2.2 < U then normImg (U - p.1) v (p.2.2 - p.2.1) - normImg (U - p.1) v (p.2.1 + p.2.2 - 2 * p.1) else 0 := by
      funext p
      split_ifs with h
      · rw [← stripDens_pair hv h.1 h.2.1 h.2.2.1 h.2.2.2, ENNReal.add_sub_cancel_right (normImg_ne_top hv (by linarith) _)]
      · exact if_neg h
    rw [e]
    have hx : Measurable fun p : ℝ × ℝ × ℝ => p.2.1 := by fun_prop
    have hy : Measurable fun p : ℝ × ℝ × ℝ => p.2.2 := by fun_prop
    have h1 : Measurable fun p : ℝ × ℝ × ℝ => normImg (U - p.1) v (p.2.2 - p.2.1) := by
      unfold normImg normDensR
      refine Measurable.ennreal_tsum fun j => ?_
      fun_prop
    have h2 : Measurable fun p : ℝ × ℝ × ℝ => normImg (U - p.1) v (p.2.1 + p.2.2 - 2 * p.1) := by
      unfold normImg normDensR
      refine Measurable.ennreal_tsum fun j => ?_
      fun_prop
    refine Measurable.ite ?_ (h1.sub h2) measurable_const
    exact (measurableSet_lt measurable_fst hx).inter ((measurableSet_lt hx measurable_const).inter
      ((measurableSet_lt measurable_fst hy).inter (measurableSet_lt hy measurable_const)))
  · simp only [stripDens_nonpos (not_lt.1 hv)]
    exact measurable_const

theorem stripDens_symm (U m v x y : ℝ) : stripDens U m v x y = stripDens U m v y x := by
  by_cases h : m < x ∧ x < U ∧ m < y ∧ y < U
  · by_cases hv : 0 < v
    · have h1 := stripDens_pair hv h.1 h.2.1 h.2.2.1 h.2.2.2
      have h2 := stripDens_pair hv h.2.2.1 h.2.2.2 h.1 h.2.1
      rw [← normImg_neg _ _ (y - x), neg_sub, ← h2, add_comm y x] at h1
      exact (ENNReal.add_left_inj (normImg_ne_top hv (by linarith) _)).1 h1
    · rw [stripDens_nonpos (not_lt.1 hv), stripDens_nonpos (not_lt.1 hv)]
  · rw [stripDens, stripDens, if_neg h, if_neg fun h' => h ⟨h'.2.2.1, h'.2.2.2, h'.1, h'.2.1⟩]

/-! ## splitting at the minimum -/

theorem normDensR_anti (hv : 0 < v) {a b : ℝ} (ha : 0 ≤ a) (hab : a ≤ b) : normDensR v b ≤ normDensR v a := by
  unfold normDensR
  gcongr

theorem pass_linear {α β m1 : ℝ} (hv : 0 < v) (hβ : 0 ≤ β) (hm : m ≤ m1) (hc : β * m1 ≤ α) :
    (∫⁻ u in Ioo m m1, ENNReal.ofReal (β * passDens (α - β * u) v)) + ENNReal.ofReal (normDensR v (α - β * m)) = ENNReal.ofReal (normDensR v (α - β * m1)) := by
  have hd : ∀ u ∈ uIcc m m1, HasDerivAt (fun u => normDensR v (α - β * u)) (β * passDens (α - β * u) v) u := by
    intro u _
    have h1 : HasDerivAt (fun u : ℝ => α - β * u) (-β) u := by simpa using ((hasDerivAt_id u).const_mul β).const_sub α
    have h2 : HasDerivAt (fun u : ℝ => -(α - β * u) ^ 2 / (2 * v)) (-(2 * (α - β * u) * (-β)) / (2 * v)) u := by
      have := ((h1.pow 2).neg).div_const (2 * v)
      simpa using this
    have h3 := h2.exp.div_const (Real.sqrt (2 * Real.pi * v))
    have e : Real.exp (-(α - β * u) ^ 2 / (2 * v)) * (-(2 * (α - β * u) * (-β)) / (2 * v)) / Real.sqrt (2 * Real.pi * v) = β * passDens (α - β * u) v := by
      rw [passDens_norm hv, normDensR]
      field_simp
    rw [e] at h3
    exact h3
  have hcont : Continuous fun u : ℝ => β * passDens (α - β * u) v := by
    unfold passDens; fun_prop
  have hi : IntervalIntegrable (fun u : ℝ => β * passDens (α - β * u) v) volume m m1 := hcont.intervalIntegrable _ _
  have h := intervalIntegral.integral_eq_sub_of_hasDerivAt hd hi
  rw [intervalIntegral.integral_of_le hm, integral_Ioc_eq_integral_Ioo] at h
  rw [← ofReal_integral_eq_lintegral_ofReal ((intervalIntegrable_iff_integrableOn_Ioo_of_le hm).1 hi) ?_, h, ← ENNReal.ofReal_add _ (normDensR_nonneg' _ _), sub_add_cancel]
  · rw [sub_nonneg]
    exact normDensR_anti hv (by linarith) (by nlinarith)
  · refine (ae_restrict_iff' measurableSet_Ioo).2 (ae_of_all _ fun u hu => ?_)
    have := passDens_nonneg (a := α - β * u) (s := v) (by nlinarith [hu.2])
    simp only [Pi.zero_apply]
    positivity

theorem conv_series (hv : 0 < v) {A B : ℕ → ℝ} (hA : ∀ j, 0 < A j) (hB : ∀ j, 0 < B j) :
    ∫⁻ s in Ioo 0 v, 2 * ((∑' j, ENNReal.ofReal (passDens (A j) s)) * ∑' k, ENNReal.ofReal (passDens (B k) (v - s))) =
      ∑' j, ∑' k, ENNReal.ofReal (2 * passDens (A j + B k) v) := by
  have e : ∀ s, 2 * ((∑' j, ENNReal.ofReal (passDens (A j) s)) * ∑' k, ENNReal.ofReal (passDens (B k) (v - s))) =
      ∑' j, ∑' k, 2 * ENNReal.ofReal (passDens (A j) s * passDens (B k) (v - s)) := by
    intro s
    rw [← ENNReal.tsum_mul_right, ← ENNReal.tsum_mul_left]
    refine tsum_congr fun j => ?_
    rw [← ENNReal.tsum_mul_left, ← ENNReal.tsum_mul_left]
    refine tsum_congr fun k => ?_
    rw [ENNReal.ofReal_mul (passDens_nonneg (hA j).le)]
  have hm : ∀ j k, Measurable fun s => 2 * ENNReal.ofReal (passDens (A j) s * passDens (B k) (v - s)) := by
    intro j k
    unfold passDens
    fun_prop
  rw [lintegral_congr e, lintegral_tsum fun j => (Measurable.ennreal_tsum fun k => hm j k).aemeasurable]
  refine tsum_congr fun j => ?_
  rw [lintegral_tsum fun k => (hm j k).aemeasurable]
  refine tsum_congr fun k => ?_
  have hm' : Measurable fun s => ENNReal.ofReal (passDens (A j) s * passDens (B k) (v - s)) := by
    unfold passDens
    fun_prop
  rw [lintegral_const_mul _ hm', passDens_conv hv (hA j) (hB k), ENNReal.ofReal_mul (by norm_num)]
  simp

theorem tsum_diag (f : ℕ → ℝ≥0∞) : ∑' j : ℕ, ∑' k : ℕ, f (j + k) = ∑' n : ℕ, (n + 1) * f n := by
  rw [← ENNReal.tsum_prod (f := fun j k => f (j + k)), ← Finset.HasAntidiagonal.sigmaAntidiagonalEquivProd.tsum_eq, ENNReal.tsum_sigma']
  refine tsum_congr fun n => ?_
  rw [tsum_fintype]
  have : ∀ b : Finset.antidiagonal n, f ((Finset.HasAntidiagonal.sigmaAntidiagonalEquivProd ⟨n, b⟩).1 + (Finset.HasAntidiagonal.sigmaAntidiagonalEquivProd ⟨n, b⟩).2) = f n := by
    intro b
    have := Finset.mem_antidiagonal.1 b.2
    simp [this]
  rw [Finset.sum_congr rfl fun b _ => this b, Finset.sum_const, Finset.card_univ, Fintype.card_coe, Finset.Nat.card_antidiagonal, nsmul_eq_mul]
  push_cast
  rfl

/-- One of the four families of pairs of images. -/
theorem pair_series {m1 : ℝ} (hv : 0 < v) (hm : m ≤ m1) {A B : ℝ → ℕ → ℝ} {α : ℕ → ℝ} (hA : ∀ u ∈ Ioo m m1, ∀ j, 0 < A u j) (hB : ∀ u ∈ Ioo m m1, ∀ j, 0 < B u j)
    (he : ∀ u j k, A u j + B u k = α (j + k) - 2 * ((j + k : ℕ) + 1) * u) (hα : ∀ n : ℕ, 2 * ((n : ℝ) + 1) * m1 ≤ α n) :
    (∫⁻ u in Ioo m m1, ∫⁻ s in Ioo 0 v, 2 * ((∑' j, ENNReal.ofReal (passDens (A u j) s)) * ∑' k, ENNReal.ofReal (passDens (B u k) (v - s)))) +
      ∑' n : ℕ, ENNReal.ofReal (normDensR v (α n - 2 * (n + 1) * m)) = ∑' n : ℕ, ENNReal.ofReal (normDensR v (α n - 2 * (n + 1) * m1)) := by
  have e : ∀ u ∈ Ioo m m1, ∫⁻ s in Ioo 0 v, 2 * ((∑' j, ENNReal.ofReal (passDens (A u j) s)) * ∑' k, ENNReal.ofReal (passDens (B u k) (v - s))) =
      ∑' n : ℕ, ENNReal.ofReal (2 * (n + 1) * passDens (α n - 2 * (n + 1) * u) v) := by
    intro u hu
    rw [conv_series hv (hA u hu) (hB u hu)]
    simp only [he u]
    rw [tsum_diag fun n => ENNReal.ofReal (2 * passDens (α n - 2 * ((n : ℝ) + 1) * u) v)]
    refine tsum_congr fun n => ?_
    have : ((n : ℝ≥0∞) + 1) = ENNReal.ofReal ((n : ℝ) + 1) := by
      rw [ENNReal.ofReal_add (by positivity) (by norm_num)]; simp
    rw [this, ← ENNReal.ofReal_mul (by positivity)]
    congr 1
    ring
  rw [setLIntegral_congr_fun measurableSet_Ioo e, lintegral_tsum, ← ENNReal.tsum_add]
  · exact tsum_congr fun n => pass_linear hv (by positivity) hm (hα n)
  · intro n
    refine Measurable.aemeasurable ?_
    unfold passDens
    fun_prop

end Ctb
