import Verif.Model.SdeModels

set_option linter.unusedSectionVars false

/-! # Lemmas on the diffusion models -/

namespace Ctb

/-! ## Ornstein-Uhlenbeck discriminants -/

theorem ou_least {A B : ℝ} (hA : 0 ≤ A) {disc : ℝ → ℝ} (hd : ∀ x, disc x = A * x ^ 2 + B) {le ue : ℝ} (h : le ≤ ue) :
    IsLeast (disc '' Set.Icc le ue) (if le < 0 ∧ 0 < ue then disc 0 else disc (min |le| |ue|)) := by
  split_ifs with h0
  · refine ⟨⟨0, ⟨h0.1.le, h0.2.le⟩, rfl⟩, ?_⟩
    rintro _ ⟨x, -, rfl⟩
    rw [hd, hd]
    nlinarith [mul_nonneg hA (sq_nonneg x)]
  · have hcase : 0 ≤ le ∨ ue ≤ 0 := by
      by_contra hc
      push Not at hc
      exact h0 hc
    rcases hcase with hc | hc
    · have e : min |le| |ue| = le := by
        rw [abs_of_nonneg hc, abs_of_nonneg (hc.trans h), min_eq_left h]
      rw [e]
      refine ⟨⟨le, ⟨le_refl _, h⟩, rfl⟩, ?_⟩
      rintro _ ⟨x, hx, rfl⟩
      rw [hd, hd]
      have : le ^ 2 ≤ x ^ 2 := pow_le_pow_left₀ hc hx.1 2
      nlinarith [mul_le_mul_of_nonneg_left this hA]
    · have e : min |le| |ue| = -ue := by
        rw [abs_of_nonpos (h.trans hc), abs_of_nonpos hc, min_eq_right (neg_le_neg h)]
      rw [e]
      have e2 : disc (-ue) = disc ue := by rw [hd, hd, neg_sq]
      rw [e2]
      refine ⟨⟨ue, ⟨h, le_refl _⟩, rfl⟩, ?_⟩
      rintro _ ⟨x, hx, rfl⟩
      rw [hd, hd]
      have : ue ^ 2 ≤ x ^ 2 := by nlinarith [hx.2]
      nlinarith [mul_le_mul_of_nonneg_left this hA]

theorem ou_greatest {A B : ℝ} (hA : 0 ≤ A) {disc : ℝ → ℝ} (hd : ∀ x, disc x = A * x ^ 2 + B) {le ue : ℝ} (h : le ≤ ue) :
    IsGreatest (disc '' Set.Icc le ue) (disc (max |le| |ue|)) := by
  have habs : ∀ x, disc |x| = disc x := fun x => by rw [hd, hd, sq_abs]
  constructor
  · rcases max_cases |le| |ue| with ⟨e, -⟩ | ⟨e, -⟩
    · rw [e, habs]; exact ⟨le, ⟨le_refl _, h⟩, rfl⟩
    · rw [e, habs]; exact ⟨ue, ⟨h, le_refl _⟩, rfl⟩
  · rintro _ ⟨x, hx, rfl⟩
    rw [← habs x, hd, hd]
    have h1 : |x| ≤ max |le| |ue| := by
      rw [abs_le]
      constructor
      · have := neg_abs_le le
        have := le_max_left |le| |ue|
        linarith [hx.1]
      · have := le_abs_self ue
        have := le_max_right |le| |ue|
        linarith [hx.2]
    have := pow_le_pow_left₀ (abs_nonneg x) h1 2
    nlinarith [mul_le_mul_of_nonneg_left this hA]

/-! ## The CIR discriminant -/

/-- The coefficient of `1 / (2 x²)`. -/
noncomputable def cirP (thi : Fin 3 → ℝ) : ℝ :=
  (2 * thi 0 * thi 1 / thi 2 ^ 2 - 1 / 2) ^ 2 - (2 * thi 0 * thi 1 / thi 2 ^ 2 - 1 / 2)

theorem cir_disc (thi : Fin 3 → ℝ) {x : ℝ} (hx : x ≠ 0) : itoCir.disc thi x =
    (cirP thi / x ^ 2 + thi 0 ^ 2 / 4 * x ^ 2 - (2 * thi 0 * thi 1 / thi 2 ^ 2) * thi 0) / 2 := by
  simp only [ItoFns.disc, itoCir, cirP]
  generalize 2 * thi 0 * thi 1 / thi 2 ^ 2 = a
  field_simp
  ring

theorem cir_diff (thi : Fin 3 → ℝ) {x y : ℝ} (hx : x ≠ 0) (hy : y ≠ 0) : itoCir.disc thi y - itoCir.disc thi x =
    (y ^ 2 - x ^ 2) * (thi 0 ^ 2 / 4 * (x ^ 2 * y ^ 2) - cirP thi) / (2 * (x ^ 2 * y ^ 2)) := by
  rw [cir_disc thi hx, cir_disc thi hy]
  field_simp
  ring

/-- The discriminant increases where `x² y²` exceeds the fourth power of the minimiser, and decreases below. -/
theorem cir_le {thi : Fin 3 → ℝ} {x y : ℝ} (hx : 0 < x) (hxy : x ≤ y) (h : cirP thi ≤ thi 0 ^ 2 / 4 * (x ^ 2 * y ^ 2)) :
    itoCir.disc thi x ≤ itoCir.disc thi y := by
  have hy : 0 < y := hx.trans_le hxy
  have h1 := cir_diff thi hx.ne' hy.ne'
  have h2 : 0 ≤ (y ^ 2 - x ^ 2) * (thi 0 ^ 2 / 4 * (x ^ 2 * y ^ 2) - cirP thi) / (2 * (x ^ 2 * y ^ 2)) := by
    apply div_nonneg (mul_nonneg _ (by linarith)) (by positivity)
    have := pow_le_pow_left₀ hx.le hxy 2
    linarith
  linarith

theorem cir_ge {thi : Fin 3 → ℝ} {x y : ℝ} (hx : 0 < x) (hxy : x ≤ y) (h : thi 0 ^ 2 / 4 * (x ^ 2 * y ^ 2) ≤ cirP thi) :
    itoCir.disc thi y ≤ itoCir.disc thi x := by
  have hy : 0 < y := hx.trans_le hxy
  have h1 := cir_diff thi hx.ne' hy.ne'
  have h2 : (y ^ 2 - x ^ 2) * (thi 0 ^ 2 / 4 * (x ^ 2 * y ^ 2) - cirP thi) / (2 * (x ^ 2 * y ^ 2)) ≤ 0 := by
    apply div_nonpos_of_nonpos_of_nonneg (mul_nonpos_of_nonneg_of_nonpos _ (by linarith)) (by positivity)
    have := pow_le_pow_left₀ hx.le hxy 2
    linarith
  linarith

theorem cir_lt {thi : Fin 3 → ℝ} {x y : ℝ} (hx : 0 < x) (hxy : x < y) (h : cirP thi < thi 0 ^ 2 / 4 * (x ^ 2 * y ^ 2)) :
    itoCir.disc thi x < itoCir.disc thi y := by
  have hy : 0 < y := hx.trans hxy
  have h1 := cir_diff thi hx.ne' hy.ne'
  have h2 : 0 < (y ^ 2 - x ^ 2) * (thi 0 ^ 2 / 4 * (x ^ 2 * y ^ 2) - cirP thi) / (2 * (x ^ 2 * y ^ 2)) := by
    apply div_pos (mul_pos _ (by linarith)) (by positivity)
    have := pow_lt_pow_left₀ hxy hx.le two_ne_zero
    linarith
  linarith

theorem cir_gt {thi : Fin 3 → ℝ} {x y : ℝ} (hx : 0 < x) (hxy : x < y) (h : thi 0 ^ 2 / 4 * (x ^ 2 * y ^ 2) < cirP thi) :
    itoCir.disc thi y < itoCir.disc thi x := by
  have hy : 0 < y := hx.trans hxy
  have h1 := cir_diff thi hx.ne' hy.ne'
  have h2 : (y ^ 2 - x ^ 2) * (thi 0 ^ 2 / 4 * (x ^ 2 * y ^ 2) - cirP thi) / (2 * (x ^ 2 * y ^ 2)) < 0 := by
    apply div_neg_of_neg_of_pos (mul_neg_of_pos_of_neg _ (by linarith)) (by positivity)
    have := pow_lt_pow_left₀ hxy hx.le two_ne_zero
    linarith
  linarith

/-- The radicand of `f_argmin_disc`. -/
noncomputable def cirRad (thi : Fin 3 → ℝ) : ℝ := (4 * thi 1 / thi 2 ^ 2 - 2 / thi 0) ^ 2 - 1 / thi 0 ^ 2

theorem cir_rad {thi : Fin 3 → ℝ} (h0 : 0 < thi 0) (h2 : 0 < thi 2) : thi 0 ^ 2 / 4 * cirRad thi = cirP thi := by
  unfold cirRad cirP
  field_simp
  ring

theorem cir_rad_nonneg {thi : Fin 3 → ℝ} (h0 : 0 < thi 0) (h2 : 0 < thi 2)
    (h : ¬ 4 * thi 0 * thi 1 < 3 * thi 2 ^ 2) : 0 ≤ cirRad thi := by
  have h3 : 3 / thi 0 ≤ 4 * thi 1 / thi 2 ^ 2 := by
    rw [div_le_div_iff₀ h0 (by positivity)]
    linarith
  have h4 : 1 / thi 0 ≤ 4 * thi 1 / thi 2 ^ 2 - 2 / thi 0 := by
    have : 3 / thi 0 = 1 / thi 0 + 2 / thi 0 := by ring
    linarith
  have h5 : 0 ≤ 1 / thi 0 := by positivity
  have := pow_le_pow_left₀ h5 h4 2
  unfold cirRad
  rw [one_div_pow] at this
  linarith

theorem cir_argmin_pow {thi : Fin 3 → ℝ} (h : 0 ≤ cirRad thi) : cirArgmin thi ^ 4 = cirRad thi := by
  unfold cirArgmin
  change (cirRad thi ^ ((1 : ℝ) / 4)) ^ 4 = _
  rw [← Real.rpow_natCast, ← Real.rpow_mul h]
  norm_num

theorem cir_argmin_nonneg {thi : Fin 3 → ℝ} (h : 0 ≤ cirRad thi) : 0 ≤ cirArgmin thi := Real.rpow_nonneg h _

/-! ## Gradient bounds -/

theorem abs_mul_le' {a b A B : ℝ} (ha : |a| ≤ A) (hb : |b| ≤ B) : |a * b| ≤ A * B := by
  rw [abs_mul]
  exact mul_le_mul ha hb (abs_nonneg _) ((abs_nonneg _).trans ha)

theorem abs_add_le' {a b A B : ℝ} (ha : |a| ≤ A) (hb : |b| ≤ B) : |a + b| ≤ A + B :=
  (abs_add_le a b).trans (add_le_add ha hb)

theorem abs_avg {a b A : ℝ} (ha : |a| ≤ A) (hb : |b| ≤ A) : |(a + b) / 2| ≤ A := by
  have := abs_add_le' ha hb
  rw [abs_div, abs_two]
  linarith

theorem abs_le_max {a b z : ℝ} (h : z ∈ Set.uIcc a b) : |z| ≤ max |a| |b| := by
  rw [Set.mem_uIcc] at h
  rcases h with h | h
  · rcases le_total 0 z with h0 | h0
    · rw [abs_of_nonneg h0]; exact (h.2.trans (le_abs_self _)).trans (le_max_right _ _)
    · rw [abs_of_nonpos h0]; exact ((neg_le_neg h.1).trans (neg_le_abs _)).trans (le_max_left _ _)
  · rcases le_total 0 z with h0 | h0
    · rw [abs_of_nonneg h0]; exact (h.2.trans (le_abs_self _)).trans (le_max_left _ _)
    · rw [abs_of_nonpos h0]; exact ((neg_le_neg h.1).trans (neg_le_abs _)).trans (le_max_right _ _)

theorem interp_mem {a b s : ℝ} (h0 : 0 ≤ s) (h1 : s ≤ 1) : |a + s * (b - a)| ≤ max |a| |b| := by
  have e : a + s * (b - a) = (1 - s) * a + s * b := by ring
  rw [e]
  have h2 : |(1 - s) * a| ≤ (1 - s) * max |a| |b| := by
    rw [abs_mul, abs_of_nonneg (by linarith : (0 : ℝ) ≤ 1 - s)]
    exact mul_le_mul_of_nonneg_left (le_max_left _ _) (by linarith)
  have h3 : |s * b| ≤ s * max |a| |b| := by
    rw [abs_mul, abs_of_nonneg h0]
    exact mul_le_mul_of_nonneg_left (le_max_right _ _) h0
  have := abs_add_le' h2 h3
  linarith

/-- `|φ(β', σ') - φ(β, σ)|` for `φ = (β² (w + v/σ)² - β)/2`. -/
theorem ouGap {b b' s s' w v W V : ℝ} (hb : 0 < b) (hb' : 0 < b') (hs : 0 < s) (hs' : 0 < s') (hw : |w| ≤ W) (hv : |v| ≤ V) :
    |(b' ^ 2 * (w + v / s') ^ 2 - b') / 2 - (b ^ 2 * (w + v / s) ^ 2 - b) / 2| ≤
      |b - b'| * (max b b' * (W + V / min s s') ^ 2 + 1 / 2) +
      |s - s'| * (max b b' ^ 2 * (V / min s s' ^ 2 * (W + V / min s s'))) := by
  have hS : 0 < min s s' := lt_min hs hs'
  have hV : 0 ≤ V := (abs_nonneg _).trans hv
  have hB : |b| ≤ max b b' := by rw [abs_of_pos hb]; exact le_max_left _ _
  have hB' : |b'| ≤ max b b' := by rw [abs_of_pos hb']; exact le_max_right _ _
  have hq : ∀ r, min s s' ≤ r → |v / r| ≤ V / min s s' := by
    intro r hr
    rw [abs_div, abs_of_pos (hS.trans_le hr)]
    exact div_le_div₀ hV hv hS hr
  have hx : |w + v / s| ≤ W + V / min s s' := abs_add_le' hw (hq s (min_le_left _ _))
  have hx' : |w + v / s'| ≤ W + V / min s s' := abs_add_le' hw (hq s' (min_le_right _ _))
  have e : (b' ^ 2 * (w + v / s') ^ 2 - b') / 2 - (b ^ 2 * (w + v / s) ^ 2 - b) / 2 =
      (b - b') * (-((b + b') / 2 * ((w + v / s') * (w + v / s'))) + 1 / 2) +
      (s - s') * (b * b * (v / (s * s') * (((w + v / s') + (w + v / s)) / 2))) := by
    field_simp
    ring
  rw [e]
  apply abs_add_le'
  · apply abs_mul_le' le_rfl
    apply abs_add_le' _ (by norm_num)
    rw [abs_neg, pow_two]
    exact abs_mul_le' (abs_avg hB hB') (abs_mul_le' hx' hx')
  · apply abs_mul_le' le_rfl
    rw [pow_two]
    apply abs_mul_le' (abs_mul_le' hB hB)
    apply abs_mul_le' _ (abs_avg hx' hx)
    rw [abs_div, abs_of_pos (mul_pos hs hs')]
    apply div_le_div₀ hV hv (by positivity)
    rw [pow_two]
    exact mul_le_mul (min_le_left _ _) (min_le_right _ _) hS.le hs.le

/-- `|φ(β', γ') - φ(β, γ)|` for `φ = (β² (w + v γ)² - β)/2`. -/
theorem ouGap1 {b b' s s' w v W V : ℝ} (hb : 0 < b) (hb' : 0 < b') (hs : 0 < s) (hs' : 0 < s') (hw : |w| ≤ W) (hv : |v| ≤ V) :
    |(b' ^ 2 * (w + v * s') ^ 2 - b') / 2 - (b ^ 2 * (w + v * s) ^ 2 - b) / 2| ≤
      |b - b'| * (max b b' * (W + V * max s s') ^ 2 + 1 / 2) +
      |s - s'| * (max b b' ^ 2 * (V * (W + V * max s s'))) := by
  have hB : |b| ≤ max b b' := by rw [abs_of_pos hb]; exact le_max_left _ _
  have hB' : |b'| ≤ max b b' := by rw [abs_of_pos hb']; exact le_max_right _ _
  have hS : |s| ≤ max s s' := by rw [abs_of_pos hs]; exact le_max_left _ _
  have hS' : |s'| ≤ max s s' := by rw [abs_of_pos hs']; exact le_max_right _ _
  have hx : |w + v * s| ≤ W + V * max s s' := abs_add_le' hw (abs_mul_le' hv hS)
  have hx' : |w + v * s'| ≤ W + V * max s s' := abs_add_le' hw (abs_mul_le' hv hS')
  have e : (b' ^ 2 * (w + v * s') ^ 2 - b') / 2 - (b ^ 2 * (w + v * s) ^ 2 - b) / 2 =
      (b - b') * (-((b + b') / 2 * ((w + v * s') * (w + v * s'))) + 1 / 2) +
      (s - s') * (b * b * (-v * (((w + v * s') + (w + v * s)) / 2))) := by
    ring
  rw [e]
  apply abs_add_le'
  · apply abs_mul_le' le_rfl
    apply abs_add_le' _ (by norm_num)
    rw [abs_neg, pow_two]
    exact abs_mul_le' (abs_avg hB hB') (abs_mul_le' hx' hx')
  · apply abs_mul_le' le_rfl
    rw [pow_two]
    exact abs_mul_le' (abs_mul_le' hB hB) (abs_mul_le' (by rwa [abs_neg]) (abs_avg hx' hx))

/-- `|φ(β', λ') - φ(β, λ)|` for `φ = ((β w + v λ)² - β)/2`. -/
theorem ouGap2 {b b' s s' w v W V : ℝ} (hb : 0 < b) (hb' : 0 < b') (hs : 0 < s) (hs' : 0 < s') (hw : |w| ≤ W) (hv : |v| ≤ V) :
    |((b' * w + v * s') ^ 2 - b') / 2 - ((b * w + v * s) ^ 2 - b) / 2| ≤
      |b - b'| * (W * (max b b' * W + V * max s s') + 1 / 2) +
      |s - s'| * (V * (max b b' * W + V * max s s')) := by
  have hB : |b| ≤ max b b' := by rw [abs_of_pos hb]; exact le_max_left _ _
  have hB' : |b'| ≤ max b b' := by rw [abs_of_pos hb']; exact le_max_right _ _
  have hS : |s| ≤ max s s' := by rw [abs_of_pos hs]; exact le_max_left _ _
  have hS' : |s'| ≤ max s s' := by rw [abs_of_pos hs']; exact le_max_right _ _
  have hx : |b * w + v * s| ≤ max b b' * W + V * max s s' := abs_add_le' (abs_mul_le' hB hw) (abs_mul_le' hv hS)
  have hx' : |b' * w + v * s'| ≤ max b b' * W + V * max s s' := abs_add_le' (abs_mul_le' hB' hw) (abs_mul_le' hv hS')
  have e : ((b' * w + v * s') ^ 2 - b') / 2 - ((b * w + v * s) ^ 2 - b) / 2 =
      (b - b') * (-w * (((b * w + v * s) + (b' * w + v * s')) / 2) + 1 / 2) +
      (s - s') * (-v * (((b * w + v * s) + (b' * w + v * s')) / 2)) := by
    ring
  rw [e]
  apply abs_add_le'
  · apply abs_mul_le' le_rfl
    exact abs_add_le' (abs_mul_le' (by rwa [abs_neg]) (abs_avg hx hx')) (by norm_num)
  · exact abs_mul_le' le_rfl (abs_mul_le' (by rwa [abs_neg]) (abs_avg hx hx'))

/-- `|φ(ρ', λ') - φ(ρ, λ)|` for `φ = (λ² (ρ w + v)² - ρ λ / 2)/2`. -/
theorem ouGap3 {b b' s s' w v W V : ℝ} (hb : 0 < b) (hb' : 0 < b') (hs : 0 < s) (hs' : 0 < s') (hw : |w| ≤ W) (hv : |v| ≤ V) :
    |(s' ^ 2 * (b' * w + v) ^ 2 - b' * s' / 2) / 2 - (s ^ 2 * (b * w + v) ^ 2 - b * s / 2) / 2| ≤
      |b - b'| * (max s s' ^ 2 * (W * (max b b' * W + V)) + max s s' / 2) +
      |s - s'| * (max s s' * (max b b' * W + V) ^ 2 + max b b' / 2) := by
  have hB : |b| ≤ max b b' := by rw [abs_of_pos hb]; exact le_max_left _ _
  have hB' : |b'| ≤ max b b' := by rw [abs_of_pos hb']; exact le_max_right _ _
  have hS : |s| ≤ max s s' := by rw [abs_of_pos hs]; exact le_max_left _ _
  have hS' : |s'| ≤ max s s' := by rw [abs_of_pos hs']; exact le_max_right _ _
  have hx : |b * w + v| ≤ max b b' * W + V := abs_add_le' (abs_mul_le' hB hw) hv
  have hx' : |b' * w + v| ≤ max b b' * W + V := abs_add_le' (abs_mul_le' hB' hw) hv
  have e : (s' ^ 2 * (b' * w + v) ^ 2 - b' * s' / 2) / 2 - (s ^ 2 * (b * w + v) ^ 2 - b * s / 2) / 2 =
      (b - b') * (s' * s' * (-w * (((b * w + v) + (b' * w + v)) / 2)) + s' / 4) +
      (s - s') * (-((s + s') / 2 * ((b * w + v) * (b * w + v))) + b / 4) := by
    ring
  rw [e]
  have quarter : ∀ {a A : ℝ}, |a| ≤ A → |a / 4| ≤ A / 2 := by
    intro a A h
    rw [abs_div, abs_of_pos (by norm_num : (0 : ℝ) < 4)]
    have := abs_nonneg a
    linarith
  apply abs_add_le'
  · apply abs_mul_le' le_rfl
    apply abs_add_le' _ (quarter hS')
    rw [pow_two]
    exact abs_mul_le' (abs_mul_le' hS' hS') (abs_mul_le' (by rwa [abs_neg]) (abs_avg hx hx'))
  · apply abs_mul_le' le_rfl
    apply abs_add_le' _ (quarter hB)
    rw [abs_neg, pow_two]
    exact abs_mul_le' (abs_avg hS hS') (abs_mul_le' hx hx)

/-- From the mean-value form to the intensity. -/
theorem intensity_ge {nil prime g : Fin 2 → ℝ} {x : ℝ} (hg : ∀ i, 0 ≤ g i)
    (h : x ≤ |nil 0 - prime 0| * g 0 + |nil 1 - prime 1| * g 1) :
    x ≤ swIntensity nil prime g ∧ x ≤ itoIntensity nil prime g := by
  have e : itoIntensity nil prime g = swIntensity nil prime g := by
    unfold itoIntensity swIntensity
    simp only [abs_of_nonneg (hg _)]
  rw [e]
  have key : x ≤ swIntensity nil prime g := by
    refine h.trans ?_
    unfold swIntensity
    simp only [Fin.sum_univ_two]
    have a0 := abs_nonneg (nil 0 - prime 0)
    have a1 := abs_nonneg (nil 1 - prime 1)
    have g0 := hg 0
    have g1 := hg 1
    by_cases h0 : nil 0 = prime 0 <;> by_cases h1 : nil 1 = prime 1 <;> simp [h0, h1]
    have := mul_nonneg a0 g1
    have := mul_nonneg a1 g0
    nlinarith
  exact ⟨key, key⟩

end Ctb
