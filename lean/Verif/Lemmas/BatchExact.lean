import Verif.Lemmas.BatchLaw

/-! # Cases in which the batches of `sample_batch_ppp` have the right law -/

set_option linter.unusedSectionVars false

namespace Ctb

open Classical MeasureTheory ProbabilityTheory
open scoped ENNReal

theorem lintegral_affine {F : ℝ → ℝ≥0∞} (hF : Measurable F) {x s : ℝ} (hs : 0 < s) :
    ∫⁻ z, F z = ENNReal.ofReal s * ∫⁻ y, F (x + s * y) := by
  have h1 : ∫⁻ z, F z = ∫⁻ z, F (x + z) := (lintegral_add_left_eq_self F x).symm
  rw [h1]
  conv_lhs => rw [← Real.smul_map_volume_mul_left hs.ne']
  rw [lintegral_smul_measure, lintegral_map (by fun_prop) (by fun_prop), abs_of_pos hs]
  rfl

theorem uniform_above {w c : ℝ} (hw : 0 < w) (hc : 0 ≤ c) (hcw : c ≤ w) :
    ∫⁻ m, (if m < c then 0 else 1) ∂(RDist.uniform 0 w).law = ENNReal.ofReal ((w - c) / w) := by
  have h1 : (fun m : ℝ => if m < c then (0 : ℝ≥0∞) else 1) = (Set.Ici c).indicator 1 := by
    funext m
    by_cases h : m < c
    · rw [if_pos h, Set.indicator_of_notMem (by simpa using h)]
    · rw [if_neg h, Set.indicator_of_mem (by simpa using h)]; rfl
  rw [h1, lintegral_indicator_one measurableSet_Ici, law_uniform_zero hw, Measure.smul_apply, Measure.restrict_apply measurableSet_Ici]
  have h2 : Set.Ici c ∩ Set.Ico 0 w = Set.Ico c w := by
    ext m; simp only [Set.mem_inter_iff, Set.mem_Ici, Set.mem_Ico]
    constructor
    · rintro ⟨a, -, b⟩; exact ⟨a, b⟩
    · rintro ⟨a, b⟩; exact ⟨a, hc.trans a, b⟩
  rw [h2, Real.volume_Ico, smul_eq_mul, ← ENNReal.ofReal_mul (by positivity)]
  congr 1
  ring

theorem beta_thin {n i : ℕ} (hi : 0 < i) (hn : i ≤ n) {x : ℝ} (h0 : 0 ≤ x) (h1 : x < 1) :
    ∫⁻ z, (if z < x then 0 else ENNReal.ofReal ((z - x) / z) ^ (i - 1)) ∂(RDist.beta i (n + 1 - i)).law = ENNReal.ofReal (1 - x) ^ n := by
  have hi' : (0 : ℝ) < i := by exact_mod_cast hi
  have hn' : (0 : ℝ) < (n : ℝ) + 1 - i := by
    have : (i : ℝ) ≤ n := by exact_mod_cast hn
    linarith
  have hs : 0 < 1 - x := by linarith
  have hm : Measurable fun z : ℝ => if z < x then (0 : ℝ≥0∞) else ENNReal.ofReal ((z - x) / z) ^ (i - 1) :=
    Measurable.ite measurableSet_Iio measurable_const (by fun_prop)
  have hp : Measurable (betaPDF i (n + 1 - i)) := (measurable_betaPDFReal _ _).ennreal_ofReal
  rw [RDist.law, betaMeasure, lintegral_withDensity_eq_lintegral_mul _ hp hm, lintegral_affine (hp.mul hm) hs (x := x)]
  have hae : ∀ᵐ y : ℝ, (betaPDF (i : ℝ) (n + 1 - i) * fun z : ℝ => if z < x then (0 : ℝ≥0∞) else ENNReal.ofReal ((z - x) / z) ^ (i - 1)) (x + (1 - x) * y) =
      ENNReal.ofReal (1 - x) ^ (n - 1) * betaPDF (i : ℝ) (n + 1 - i) y := by
    have hne : ∀ᵐ y : ℝ, y ≠ 0 := by
      rw [ae_iff]; simp
    filter_upwards [hne] with y hy
    rw [Pi.mul_apply]
    by_cases hy0 : y < 0
    · have : x + (1 - x) * y < x := by nlinarith
      rw [if_pos this, mul_zero, betaPDF_eq_zero_of_nonpos hy0.le, mul_zero]
    have hyp : 0 < y := lt_of_le_of_ne (not_lt.1 hy0) (Ne.symm hy)
    by_cases hy1 : 1 ≤ y
    · rw [betaPDF_eq_zero_of_one_le hy1, betaPDF_eq_zero_of_one_le (by nlinarith), zero_mul, mul_zero]
    rw [not_le] at hy1
    have hz : 0 < x + (1 - x) * y := by nlinarith [mul_pos hs hyp]
    have hz1 : x + (1 - x) * y < 1 := by nlinarith
    have hnl : ¬ x + (1 - x) * y < x := by nlinarith [mul_pos hs hyp]
    rw [if_neg hnl, betaPDF_of_pos_lt_one hz hz1, betaPDF_of_pos_lt_one hyp hy1]
    have hq : 0 ≤ (x + (1 - x) * y - x) / (x + (1 - x) * y) := div_nonneg (by nlinarith [mul_pos hs hyp]) hz.le
    rw [← ENNReal.ofReal_pow hq, ← ENNReal.ofReal_pow hs.le, ← ENNReal.ofReal_mul' (by positivity), ← ENNReal.ofReal_mul (by positivity)]
    congr 1
    have e1 : ((i : ℝ) - 1) = ((i - 1 : ℕ) : ℝ) := by rw [Nat.cast_sub (by omega)]; simp
    have e2 : ((n : ℝ) + 1 - i - 1) = ((n - i : ℕ) : ℝ) := by rw [Nat.cast_sub hn]; ring
    rw [e1, e2, Real.rpow_natCast, Real.rpow_natCast, Real.rpow_natCast, Real.rpow_natCast, div_pow]
    have e3 : 1 - (x + (1 - x) * y) = (1 - x) * (1 - y) := by ring
    have e4 : x + (1 - x) * y - x = (1 - x) * y := by ring
    have e5 : n - 1 = (i - 1) + (n - i) := by omega
    rw [e3, e4, e5, pow_add, mul_pow, mul_pow]
    field_simp
  rw [lintegral_congr_ae hae, lintegral_const_mul _ hp, lintegral_betaPDF_eq_one hi' hn', mul_one, ← pow_succ']
  congr 1; omega

/-- The first batch decides when the graph is flat. -/
theorem batchLaw_flat {n : ℕ} {h c : ℝ} (hh : 0 < h) (hc : 0 ≤ c) (hch : c ≤ h) {G : ℝ → ℝ≥0∞} (hG : ∀ a, G a = if a < c then 0 else 1)
    (i : ℕ) (is : List ℕ) (his : ∀ j ∈ i :: is, 0 < j ∧ j ≤ n) : batchLaw n h G 0 (i :: is) = ENNReal.ofReal (1 - c / h) ^ n := by
  have hle : ∀ a, G a ≤ 1 := by intro a; rw [hG]; split_ifs <;> simp
  have hrest : ∀ lb, c ≤ lb → ∀ l : List ℕ, (∀ j ∈ l, 0 < j ∧ j ≤ n) → batchLaw n h G lb l = 1 := by
    intro lb hlb l hl
    refine le_antisymm (batchLaw_le hle l hl lb) ?_
    induction l generalizing lb with
    | nil => simp [batchLaw]
    | cons j l ih =>
      haveI := beta_prob (hl j (by simp)).1 (hl j (by simp)).2
      rw [batchLaw]
      calc (1 : ℝ≥0∞) = ∫⁻ _z, 1 ∂(RDist.beta j (n + 1 - j)).law := by simp
        _ ≤ _ := by
          refine lintegral_mono_ae ((beta_ae _ _).mono fun z hz => ?_)
          have h1 : 0 ≤ h * z := (mul_pos hh hz.1).le
          have h2 : (1 : ℝ≥0∞) ≤ G (lb + h * z) := by rw [hG, if_neg (by linarith)]
          have h3 : (1 : ℝ≥0∞) ≤ ∫⁻ m, G m ∂(RDist.uniform lb (lb + h * z)).law := by
            calc (1 : ℝ≥0∞) = ∫⁻ _m, 1 ∂(RDist.uniform lb (lb + h * z)).law := by simp
              _ ≤ _ := lintegral_mono_ae ((uniform_ae (by linarith)).mono fun m hm => by
                rw [hG, if_neg (by linarith [hm.1])])
          exact one_le_mul (one_le_mul h2 (one_le_pow_of_one_le' h3 _)) (ih _ (by linarith) (fun k hk => hl k (by simp [hk])))
  have hi := his i (by simp)
  have hst : batchLaw n h G 0 (i :: is) = ∫⁻ z, (if z < c / h then 0 else ENNReal.ofReal ((z - c / h) / z) ^ (i - 1)) ∂(RDist.beta i (n + 1 - i)).law := by
    rw [batchLaw]
    refine lintegral_congr_ae ((beta_ae _ _).mono fun z hz => ?_)
    have hhz : 0 < h * z := mul_pos hh hz.1
    simp only [zero_add]
    by_cases hlt : z < c / h
    · have : h * z < c := by rwa [lt_div_iff₀ hh, mul_comm] at hlt
      rw [if_pos hlt, hG (h * z), if_pos this, zero_mul, zero_mul]
    · have hge : c ≤ h * z := by rw [not_lt, div_le_iff₀ hh] at hlt; linarith
      rw [if_neg hlt, hG (h * z), if_neg (by linarith), one_mul, hrest _ hge is (fun j hj => his j (by simp [hj])), mul_one]
      simp only [hG]
      rw [uniform_above hhz hc hge]
      congr 2
      field_simp
  rw [hst]
  rcases hch.lt_or_eq with hlt | rfl
  · exact beta_thin hi.1 hi.2 (by positivity) (by rwa [div_lt_one hh])
  · rw [div_self hh.ne']
    rw [sub_self, ENNReal.ofReal_zero, zero_pow (by omega)]
    rw [lintegral_congr_ae (g := fun _ => 0) ((beta_ae _ _).mono fun z hz => by rw [if_pos hz.2])]
    simp

theorem power_int {G : ℝ → ℝ≥0∞} (hG : Measurable G) (k : ℕ) : ∀ M : ℝ,
    (k + 1) * ∫⁻ w in Set.Ico 0 M, G w * (∫⁻ m in Set.Ico 0 w, G m) ^ k = (∫⁻ m in Set.Ico 0 M, G m) ^ (k + 1) := by
  have hA : Measurable fun w : ℝ => ∫⁻ m in Set.Ico 0 w, G m := by
    refine Monotone.measurable fun a b hab => ?_
    exact lintegral_mono_set (Set.Ico_subset_Ico_right hab)
  induction k with
  | zero => intro M; simp
  | succ k ih =>
    intro M
    set A := fun w : ℝ => ∫⁻ m in Set.Ico 0 w, G m with hAd
    have hk : Measurable fun y => (k + 1 : ℝ≥0∞) * (G y * A y ^ k) := (hG.mul (hA.pow_const k)).const_mul _
    set K := fun y => (k + 1 : ℝ≥0∞) * (G y * A y ^ k) with hK
    have hk1 : Measurable fun y => G y * A y ^ (k + 1) := hG.mul (hA.pow_const _)
    have hIH : ∀ M : ℝ, ∫⁻ y in Set.Ico 0 M, K y = A M ^ (k + 1) := by
      intro M
      have h0 : Measurable fun y => G y * A y ^ k := hG.mul (hA.pow_const k)
      rw [← ih M, hK, lintegral_const_mul _ h0]
    have hprod : A M ^ (k + 1 + 1) = ∫⁻ x in Set.Ico 0 M, ∫⁻ y in Set.Ico 0 M, G x * K y := by
      rw [pow_succ', ← hIH M]
      rw [← lintegral_mul_const _ hG]
      refine lintegral_congr fun x => ?_
      rw [lintegral_const_mul _ hk]
    have hsplit : ∀ x ∈ Set.Ico 0 M, ∫⁻ y in Set.Ico 0 M, G x * K y = G x * A x ^ (k + 1) + ∫⁻ y in Set.Ico 0 M, (Set.Ici x).indicator (fun y => G x * K y) y := by
      intro x hx
      rw [← hIH x, ← lintegral_const_mul _ hk, ← Set.Ico_union_Ico_eq_Ico hx.1 hx.2.le, lintegral_union measurableSet_Ico (by
        rw [Set.disjoint_left]; intro y hy hy2; exact absurd hy.2 (not_lt.2 hy2.1))]
      congr 1
      rw [lintegral_union measurableSet_Ico (by
        rw [Set.disjoint_left]; intro y hy hy2; exact absurd hy.2 (not_lt.2 hy2.1))]
      have z1 : ∫⁻ y in Set.Ico 0 x, (Set.Ici x).indicator (fun y => G x * K y) y = 0 := by
        rw [setLIntegral_congr_fun (g := fun _ => 0) measurableSet_Ico (fun y hy => by
          rw [Set.indicator_of_notMem]; simpa using hy.2)]
        simp
      rw [z1, zero_add]
      refine setLIntegral_congr_fun measurableSet_Ico fun y hy => ?_
      rw [Set.indicator_of_mem (show y ∈ Set.Ici x from hy.1)]
    rw [hprod, setLIntegral_congr_fun measurableSet_Ico hsplit, lintegral_add_left hk1]
    rw [lintegral_lintegral_swap]
    · have : ∀ y ∈ Set.Ico 0 M, ∫⁻ x in Set.Ico 0 M, (Set.Ici x).indicator (fun y => G x * K y) y = (k + 1) * (G y * A y ^ (k + 1)) := by
        intro y hy
        have h1 : ∫⁻ x in Set.Ico 0 M, (Set.Ici x).indicator (fun y => G x * K y) y = ∫⁻ x in Set.Ico 0 M, (Set.Iic y).indicator (fun x => G x * K y) x := by
          refine lintegral_congr fun x => ?_
          by_cases hxy : x ≤ y
          · rw [Set.indicator_of_mem (show y ∈ Set.Ici x from hxy), Set.indicator_of_mem (show x ∈ Set.Iic y from hxy)]
          · rw [Set.indicator_of_notMem (show y ∉ Set.Ici x from hxy), Set.indicator_of_notMem (show x ∉ Set.Iic y from hxy)]
        rw [h1, setLIntegral_indicator measurableSet_Iic]
        have h2 : (Set.Iic y ∩ Set.Ico 0 M : Set ℝ) = Set.Icc 0 y := by
          ext x; simp only [Set.mem_inter_iff, Set.mem_Iic, Set.mem_Ico, Set.mem_Icc]
          constructor
          · rintro ⟨a, b, -⟩; exact ⟨b, a⟩
          · rintro ⟨a, b⟩; exact ⟨b, a, b.trans_lt hy.2⟩
        rw [h2, setLIntegral_congr (Ico_ae_eq_Icc (μ := volume)).symm, lintegral_mul_const _ hG]
        simp only [hK, hAd]
        ring
      rw [setLIntegral_congr_fun measurableSet_Ico this, lintegral_const_mul _ hk1]
      push_cast
      ring
    · refine Measurable.aemeasurable ?_
      have : (Function.uncurry fun x y => (Set.Ici x).indicator (fun y => G x * K y) y) = Set.indicator {p : ℝ × ℝ | p.1 ≤ p.2} fun p => G p.1 * K p.2 := by
        funext p
        by_cases hp : p.1 ≤ p.2
        · rw [Set.indicator_of_mem (show p ∈ {p : ℝ × ℝ | p.1 ≤ p.2} from hp)]
          exact Set.indicator_of_mem (show p.2 ∈ Set.Ici p.1 from hp) (fun y => G p.1 * K y)
        · rw [Set.indicator_of_notMem (show p ∉ {p : ℝ × ℝ | p.1 ≤ p.2} from hp)]
          exact Set.indicator_of_notMem (show p.2 ∉ Set.Ici p.1 from hp) (fun y => G p.1 * K y)
      rw [this]
      exact ((hG.comp measurable_fst).mul (hk.comp measurable_snd)).indicator (measurableSet_le measurable_fst measurable_snd)

theorem mean_uniform_zero (G : ℝ → ℝ≥0∞) {w : ℝ} (hw : 0 < w) :
    ∫⁻ m, G m ∂(RDist.uniform 0 w).law = ENNReal.ofReal (1 / w) * ∫⁻ m in Set.Ico 0 w, G m := by
  rw [law_uniform_zero hw, lintegral_smul_measure]
  rfl

theorem beta_nat_one {n : ℕ} (hn : 0 < n) {z : ℝ} (h0 : 0 < z) (h1 : z < 1) :
    betaPDF n (n + 1 - n) z = ENNReal.ofReal (n * z ^ (n - 1)) := by
  rw [betaPDF_of_pos_lt_one h0 h1]
  congr 1
  have e1 : ((n : ℝ) - 1) = ((n - 1 : ℕ) : ℝ) := by rw [Nat.cast_sub (by omega)]; simp
  have e2 : (n : ℝ) + 1 - n = 1 := by ring
  have hn0 : (n : ℝ) ≠ 0 := by positivity
  have e3 : beta n 1 = 1 / n := by
    rw [beta, Real.Gamma_one, mul_one, Real.Gamma_add_one hn0]
    have := (Real.Gamma_pos_of_pos (show (0 : ℝ) < n by positivity)).ne'
    field_simp
  rw [e2, e3, sub_self, Real.rpow_zero, e1, Real.rpow_natCast]
  field_simp

/-- A single batch of all `n` points has the law of `n` independent points. -/
theorem batchLaw_one {n : ℕ} (hn : 0 < n) {h : ℝ} (hh : 0 < h) {G : ℝ → ℝ≥0∞} (hG : Measurable G) :
    batchLaw n h G 0 [n] = (∫⁻ m, G m ∂(RDist.uniform 0 h).law) ^ n := by
  have hA : Measurable fun w : ℝ => ∫⁻ m in Set.Ico 0 w, G m := by
    refine Monotone.measurable fun a b hab => ?_
    exact lintegral_mono_set (Set.Ico_subset_Ico_right hab)
  set A := fun w : ℝ => ∫⁻ m in Set.Ico 0 w, G m with hAd
  have hp : Measurable (betaPDF n (n + 1 - n)) := (measurable_betaPDFReal _ _).ennreal_ofReal
  have hF : Measurable fun w => G w * A w ^ (n - 1) := hG.mul (hA.pow_const _)
  have hU : Measurable fun w : ℝ => G w * (ENNReal.ofReal (1 / w) * A w) ^ (n - 1) := by
    refine hG.mul (((Measurable.ennreal_ofReal (by fun_prop)).mul hA).pow_const _)
  have h1 : batchLaw n h G 0 [n] = ∫⁻ z, (fun w : ℝ => G w * (ENNReal.ofReal (1 / w) * A w) ^ (n - 1)) (h * z) ∂(RDist.beta n (n + 1 - n)).law := by
    rw [batchLaw]
    refine lintegral_congr_ae ((beta_ae _ _).mono fun z hz => ?_)
    simp only [zero_add, batchLaw, mul_one]
    rw [mean_uniform_zero G (mul_pos hh hz.1)]
  have hlaw : (RDist.beta n (n + 1 - n)).law = volume.withDensity (betaPDF n (n + 1 - n)) := rfl
  have hU' : Measurable fun z : ℝ => (fun w : ℝ => G w * (ENNReal.ofReal (1 / w) * A w) ^ (n - 1)) (h * z) := hU.comp (by fun_prop)
  rw [h1, hlaw, lintegral_withDensity_eq_lintegral_mul _ hp hU']
  have h2 : ∀ z, (betaPDF n (n + 1 - n) * fun z => (fun w : ℝ => G w * (ENNReal.ofReal (1 / w) * A w) ^ (n - 1)) (h * z)) z =
      (ENNReal.ofReal n * ENNReal.ofReal (1 / h) ^ (n - 1)) * (fun w => (Set.Ioo 0 h).indicator (fun w => G w * A w ^ (n - 1)) w) (0 + h * z) := by
    intro z
    rw [Pi.mul_apply]
    simp only [zero_add]
    by_cases hz0 : z ≤ 0
    · rw [betaPDF_eq_zero_of_nonpos hz0, Set.indicator_of_notMem, zero_mul, mul_zero]
      intro hc
      have := hc.1
      nlinarith
    by_cases hz1 : 1 ≤ z
    · rw [betaPDF_eq_zero_of_one_le hz1, Set.indicator_of_notMem, zero_mul, mul_zero]
      intro hc
      have := hc.2
      nlinarith
    rw [not_le] at hz0 hz1
    rw [beta_nat_one hn hz0 hz1, Set.indicator_of_mem (show h * z ∈ Set.Ioo 0 h from ⟨mul_pos hh hz0, by nlinarith⟩), mul_pow, ENNReal.ofReal_mul (by positivity),
      ← ENNReal.ofReal_pow (by positivity), ← ENNReal.ofReal_pow (by positivity)]
    have : ENNReal.ofReal (z ^ (n - 1)) * ENNReal.ofReal ((1 / (h * z)) ^ (n - 1)) = ENNReal.ofReal ((1 / h) ^ (n - 1)) := by
      rw [← ENNReal.ofReal_mul (by positivity), ← mul_pow]
      congr 2
      field_simp
    rw [← this]
    ring
  simp only [h2]
  have hI : Measurable fun w => (Set.Ioo 0 h).indicator (fun w => G w * A w ^ (n - 1)) w := hF.indicator measurableSet_Ioo
  have hI' : Measurable fun z : ℝ => (fun w => (Set.Ioo 0 h).indicator (fun w => G w * A w ^ (n - 1)) w) (0 + h * z) := hI.comp (by fun_prop)
  rw [lintegral_const_mul _ hI']
  have h3 := lintegral_affine hI hh (x := 0)
  have h4 : ENNReal.ofReal (1 / h) * ENNReal.ofReal h = 1 := by
    rw [← ENNReal.ofReal_mul (by positivity), one_div_mul_cancel hh.ne', ENNReal.ofReal_one]
  have h5 : ∫⁻ z, (fun w => (Set.Ioo 0 h).indicator (fun w => G w * A w ^ (n - 1)) w) (0 + h * z) = ENNReal.ofReal (1 / h) * ∫⁻ w in Set.Ico 0 h, G w * A w ^ (n - 1) := by
    rw [setLIntegral_congr Ioo_ae_eq_Ico.symm, ← lintegral_indicator measurableSet_Ioo, h3, ← mul_assoc, h4, one_mul]
  rw [h5, mean_uniform_zero G hh]
  have h6 := power_int hG (n - 1) h
  have h7 : ((n - 1 : ℕ) : ℝ≥0∞) + 1 = ENNReal.ofReal n := by
    rw [ENNReal.ofReal_natCast, ← Nat.cast_succ]
    congr 1
    omega
  have h8 : n - 1 + 1 = n := by omega
  rw [h7, h8] at h6
  rw [mul_pow, ← h6]
  have h9 : ENNReal.ofReal (1 / h) ^ n = ENNReal.ofReal (1 / h) ^ (n - 1) * ENNReal.ofReal (1 / h) := by rw [← pow_succ, h8]
  rw [h9]
  simp only [hAd]
  ring

theorem batchSizes_single {n s : ℕ} (hn : 0 < n) (hs : n ≤ s) : batchSizes n s = [n] := by
  unfold batchSizes
  rcases hs.lt_or_eq with h | rfl
  · rw [Nat.div_eq_of_lt h, Nat.mod_eq_of_lt h]
    simp [hn.ne']
  · simp [Nat.div_self hn]

end Ctb
