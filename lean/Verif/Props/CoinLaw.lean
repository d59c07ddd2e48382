import Verif.Lemmas.BatchExact
import Verif.Props.Coin
import Verif.Spec.CoinLaw

set_option linter.unusedSectionVars false

/-! # C81: the probability shown by a Poisson coin -/

namespace Ctb

open Classical MeasureTheory ProbabilityTheory
open scoped ENNReal

/-- The coin of `flip_poisson_coin` on the fixed path `X` over `[0, T]`, discriminant bounds `l` and `l + h`. -/
noncomputable def pathCoin (disc X : ℝ → ℝ) (T l h : ℝ) (size : ℕ) : Prog (Bool × ℝ × Unit) :=
  seedCoin (fun s ts => .ret (s, ts.map X)) disc ⟨T, 1, 0, 0⟩ (.ok ([0, T], [l], [((l + h : ℝ) : WithTop ℝ)])) size ()

/-- Probability of `True`. -/
noncomputable def pathCoinTrue (disc X : ℝ → ℝ) (T l h : ℝ) (size : ℕ) : ℝ≥0∞ :=
  (pathCoin disc X T l h size).prob fun r => ∃ q, r = .ok (true, q)

/-- The coin of `flip_poisson_coin_skeleton` on the fixed path `X`, the discriminant being reduced by `l`. -/
noncomputable def skelCoinTrue (disc X : ℝ → ℝ) (T l h : ℝ) (size : ℕ) : ℝ≥0∞ :=
  (skelCoin (fun s ts => .ret (s, ts.map X)) disc (some l, l, ((l + h : ℝ) : WithTop ℝ)) T size ()).prob fun r => ∃ q, r = .ok (true, q)

theorem noPoint_batch {ψ : ℝ → ℝ} {T h : ℝ} (hh : 0 < h) (hT : 0 < T) {size : ℕ} (hs : 0 < size) :
    (sampleBatchPpp 1 [h, T] size).prob (fun r => ∃ bs, r = .ok bs ∧ ∀ row ∈ bs.flatten, ¬ (pointOf row).1 < ψ (pointOf row).2) =
      ∫⁻ n, batchLaw n h (markMean (aboveInd ψ) T) 0 (batchSizes n size) ∂(NDist.poisson (h * T)).law := by
  have hg : ∀ a t, aboveInd ψ a t ≤ 1 := by
    intro a t; unfold aboveInd; split_ifs <;> simp
  rw [← sampleBatchPpp_exp hg hh hT hs]
  unfold Prog.prob
  refine Prog.lexp_congr fun r _ => ?_
  rcases r with e | bs
  · rw [if_neg (by rintro ⟨bs, hb, -⟩; cases hb)]; rfl
  · change _ = rowsProd _ _
    rw [rowsProd_aboveInd]
    congr 1
    simp

theorem coin_batch {disc X : ℝ → ℝ} {T l h : ℝ} (hh : 0 < h) (hT : 0 < T) {size : ℕ} (hs : 0 < size) :
    pathCoinTrue disc X T l h size =
      ∫⁻ n, batchLaw n h (markMean (aboveInd fun t => disc (X t) - l) T) 0 (batchSizes n size) ∂(NDist.poisson (h * T)).law := by
  rw [← noPoint_batch hh hT hs]
  unfold pathCoinTrue pathCoin
  rw [C54_path, add_sub_cancel_left]

theorem skelCoin_same {disc X : ℝ → ℝ} {T l h : ℝ} {size : ℕ} : skelCoinTrue disc X T l h size = pathCoinTrue disc X T l h size := by
  unfold pathCoinTrue pathCoin skelCoinTrue
  rw [C54_path, C54_skeleton_path]

theorem aboveInd_le (ψ : ℝ → ℝ) (a t : ℝ) : aboveInd ψ a t ≤ 1 := by unfold aboveInd; split_ifs <;> simp

theorem markMean_meas (ψ : ℝ → ℝ) (T : ℝ) : Measurable (markMean (aboveInd ψ) T) := by
  refine Monotone.measurable fun a b hab => ?_
  refine lintegral_mono fun t => ?_
  unfold aboveInd
  split_ifs with h1 h2
  · rfl
  · simp
  · exact absurd (hab.trans_lt ‹_›) h1
  · rfl

theorem bdd_int {ψ : ℝ → ℝ} (hm : Measurable ψ) {h : ℝ} (hψ : ∀ t, 0 ≤ ψ t ∧ ψ t ≤ h) (a b : ℝ) : IntervalIntegrable ψ volume a b := by
  refine (intervalIntegrable_const (c := h)).mono_fun' hm.aestronglyMeasurable ?_
  refine ae_of_all _ fun t => ?_
  change ‖ψ t‖ ≤ h
  rw [Real.norm_eq_abs, abs_of_nonneg (hψ t).1]
  exact (hψ t).2

/-- A uniform point is above the graph. -/
theorem mean_above {ψ : ℝ → ℝ} (hm : Measurable ψ) {T h : ℝ} (hT : 0 < T) (hh : 0 < h) (hψ : ∀ t, 0 ≤ ψ t ∧ ψ t ≤ h) :
    ∫⁻ m, markMean (aboveInd ψ) T m ∂(RDist.uniform 0 h).law = ENNReal.ofReal (1 - (∫ t in (0 : ℝ)..T, ψ t) / (h * T)) := by
  unfold markMean
  rw [lintegral_lintegral_swap]
  · have h1 : ∀ t, ∫⁻ m, aboveInd ψ m t ∂(RDist.uniform 0 h).law = ENNReal.ofReal ((h - ψ t) / h) := fun t =>
      uniform_above hh (hψ t).1 (hψ t).2
    have hi : IntervalIntegrable ψ volume 0 T := bdd_int hm hψ _ _
    simp only [h1]
    rw [lintegral_uniform_ofReal hT (fun t _ _ => div_nonneg (by linarith [(hψ t).2]) hh.le) ((intervalIntegrable_const.sub hi).div_const h)]
    congr 1
    rw [intervalIntegral.integral_div, intervalIntegral.integral_sub intervalIntegrable_const hi]
    simp only [intervalIntegral.integral_const, sub_zero, smul_eq_mul]
    field_simp
  · refine Measurable.aemeasurable ?_
    unfold aboveInd
    refine Measurable.ite (measurableSet_lt measurable_fst (hm.comp measurable_snd)) measurable_const measurable_const

/-- With no more points than the batch size the coin's points are those of a Poisson process. -/
theorem batch_within {ψ : ℝ → ℝ} (hm : Measurable ψ) {T h : ℝ} (hT : 0 < T) (hh : 0 < h) (hψ : ∀ t, 0 ≤ ψ t ∧ ψ t ≤ h) {n size : ℕ} (hn : n ≤ size) :
    batchLaw n h (markMean (aboveInd ψ) T) 0 (batchSizes n size) = ENNReal.ofReal (1 - (∫ t in (0 : ℝ)..T, ψ t) / (h * T)) ^ n := by
  rcases Nat.eq_zero_or_pos n with rfl | hn0
  · simp [batchSizes, batchLaw]
  · rw [batchSizes_single hn0 hn, batchLaw_one hn0 hh (markMean_meas ψ T), mean_above hm hT hh hψ]

theorem survival_poisson {ψ : ℝ → ℝ} (hm : Measurable ψ) {T h : ℝ} (hT : 0 < T) (hh : 0 < h) (hψ : ∀ t, 0 ≤ ψ t ∧ ψ t ≤ h) :
    ∫⁻ n, ENNReal.ofReal (1 - (∫ t in (0 : ℝ)..T, ψ t) / (h * T)) ^ n ∂(NDist.poisson (h * T)).law = survival ψ T := by
  have hI : ∫ t in (0 : ℝ)..T, ψ t ≤ h * T := by
    have hi : IntervalIntegrable ψ volume 0 T := bdd_int hm hψ _ _
    have := intervalIntegral.integral_mono_on hT.le hi (intervalIntegrable_const (c := h)) fun t _ => (hψ t).2
    simpa [mul_comm] using this
  have h1 : 0 ≤ 1 - (∫ t in (0 : ℝ)..T, ψ t) / (h * T) := by
    have := div_le_one_of_le₀ hI (by positivity)
    linarith
  rw [lintegral_poisson_pow (by positivity) h1]
  unfold survival
  congr 2
  have : h * T ≠ 0 := by positivity
  field_simp
  ring

/-- The coin misses the right probability by at most the probability that the points do not fit into one batch. -/
theorem C81_close_partial {disc X : ℝ → ℝ} {T l h : ℝ} (hh : 0 < h) (hT : 0 < T) {size : ℕ} (hs : 0 < size)
    (hm : Measurable fun t => disc (X t)) (hb : ∀ t, l ≤ disc (X t) ∧ disc (X t) ≤ l + h) :
    pathCoinTrue disc X T l h size ≤ survival (fun t => disc (X t) - l) T + (NDist.poisson (h * T)).law (Set.Ioi size) ∧
      survival (fun t => disc (X t) - l) T ≤ pathCoinTrue disc X T l h size + (NDist.poisson (h * T)).law (Set.Ioi size) := by
  have hm' : Measurable fun t => disc (X t) - l := hm.sub_const l
  have hψ : ∀ t, 0 ≤ disc (X t) - l ∧ disc (X t) - l ≤ h := fun t => ⟨by linarith [(hb t).1], by linarith [(hb t).2]⟩
  rw [coin_batch hh hT hs, ← survival_poisson hm' hT hh hψ]
  have hI : (NDist.poisson (h * T)).law (Set.Ioi size) = ∫⁻ n, (Set.Ioi size).indicator 1 n ∂(NDist.poisson (h * T)).law := by
    rw [lintegral_indicator_one (Set.to_countable _).measurableSet]
  have hle : ∀ n, batchLaw n h (markMean (aboveInd fun t => disc (X t) - l) T) 0 (batchSizes n size) ≤ 1 := fun n =>
    batchLaw_le (markMean_le (aboveInd_le _) T) _ (batchSizes_le hs) 0
  rw [hI, ← lintegral_add_left (measurable_of_countable _), ← lintegral_add_left (measurable_of_countable _)]
  constructor
  · refine lintegral_mono fun n => ?_
    by_cases hn : n ≤ size
    · rw [batch_within hm' hT hh hψ hn]
      exact le_self_add
    · rw [Set.indicator_of_mem (show n ∈ Set.Ioi size from not_le.1 hn)]
      exact (hle n).trans le_add_self
  · refine lintegral_mono fun n => ?_
    by_cases hn : n ≤ size
    · rw [batch_within hm' hT hh hψ hn]
      exact le_self_add
    · rw [Set.indicator_of_mem (show n ∈ Set.Ioi size from not_le.1 hn)]
      refine le_trans (pow_le_one' ?_ n) le_add_self
      rw [← ENNReal.ofReal_one]
      refine ENNReal.ofReal_le_ofReal ?_
      have : 0 ≤ ∫ t in (0 : ℝ)..T, (disc (X t) - l) := intervalIntegral.integral_nonneg hT.le fun t _ => (hψ t).1
      have : 0 ≤ (∫ t in (0 : ℝ)..T, (disc (X t) - l)) / (h * T) := by positivity
      linarith

/-- A constant discriminant along the path: the coin shows `True` with the right probability, for every batch size. -/
theorem C81_constant_partial {disc X : ℝ → ℝ} {T l h c : ℝ} (hh : 0 < h) (hT : 0 < T) {size : ℕ} (hs : 0 < size) (hc : 0 ≤ c) (hch : c ≤ h)
    (hX : ∀ t, 0 ≤ t → t < T → disc (X t) = l + c) :
    pathCoinTrue disc X T l h size = survival (fun t => disc (X t) - l) T ∧ skelCoinTrue disc X T l h size = survival (fun t => disc (X t) - l) T := by
  rw [skelCoin_same]
  refine ⟨?_, ?_⟩ <;>
  · have hsv : survival (fun t => disc (X t) - l) T = survival (fun _ => c) T := by
      unfold survival
      congr 3
      refine intervalIntegral.integral_congr_ae ?_
      have hne : ∀ᵐ t : ℝ, t ≠ T := by rw [ae_iff]; simp
      filter_upwards [hne] with t ht hmem
      rw [Set.uIoc_of_le hT.le] at hmem
      rw [hX t hmem.1.le (lt_of_le_of_ne hmem.2 ht)]
      ring
    have hG : ∀ a, markMean (aboveInd fun t => disc (X t) - l) T a = if a < c then 0 else 1 := by
      intro a
      have : ∀ᵐ t ∂(RDist.uniform 0 T).law, aboveInd (fun t => disc (X t) - l) a t = if a < c then 0 else 1 := by
        rw [law_uniform_zero hT]
        refine Measure.ae_smul_measure ?_ _
        refine (ae_restrict_iff' measurableSet_Ico).2 (ae_of_all _ fun t ht => ?_)
        unfold aboveInd
        have : disc (X t) - l = c := by rw [hX t ht.1 ht.2]; ring
        simp only [this]
      unfold markMean
      rw [lintegral_congr_ae this]
      simp
    rw [coin_batch hh hT hs, hsv, ← survival_poisson measurable_const hT hh fun _ => ⟨hc, hch⟩]
    refine lintegral_congr fun n => ?_
    have hq : 1 - (∫ t in (0 : ℝ)..T, c) / (h * T) = 1 - c / h := by
      simp only [intervalIntegral.integral_const, sub_zero, smul_eq_mul]
      field_simp
    rw [hq]
    rcases Nat.eq_zero_or_pos n with rfl | hn
    · simp [batchSizes, batchLaw]
    · rcases hbs : batchSizes n size with _ | ⟨i, is⟩
      · have := batchSizes_sum n size
        rw [hbs] at this
        simp at this
        omega
      · refine batchLaw_flat hh hc hch hG i is ?_
        rw [← hbs]
        exact batchSizes_le hs

/-- A path half of whose time the discriminant is at its upper bound, the other half at its lower. -/
noncomputable def halfDisc (T l h : ℝ) (t : ℝ) : ℝ := if t < T / 2 then l + h else l

/-- The coin is biased for every batch size, duration and bounds: the path that spends half its time at the upper bound is accepted too often. -/
theorem C81_violated {T l h : ℝ} (hh : 0 < h) (hT : 0 < T) {size : ℕ} (hs : 0 < size) :
    (∀ t, l ≤ halfDisc T l h (id t) ∧ halfDisc T l h (id t) ≤ l + h) ∧
      survival (fun t => halfDisc T l h (id t) - l) T < pathCoinTrue (halfDisc T l h) id T l h size ∧
      survival (fun t => halfDisc T l h (id t) - l) T < skelCoinTrue (halfDisc T l h) id T l h size := by
  rw [skelCoin_same]
  have hb : ∀ t, l ≤ halfDisc T l h (id t) ∧ halfDisc T l h (id t) ≤ l + h := by
    intro t
    unfold halfDisc
    split_ifs <;> constructor <;> linarith
  have hm : Measurable fun t => halfDisc T l h (id t) - l := by
    refine Measurable.sub_const ?_ l
    exact Measurable.ite measurableSet_Iio measurable_const measurable_const
  have hψ : ∀ t, 0 ≤ halfDisc T l h (id t) - l ∧ halfDisc T l h (id t) - l ≤ h := fun t => ⟨by linarith [(hb t).1], by linarith [(hb t).2]⟩
  have hG : ∀ a, 0 ≤ a → ENNReal.ofReal (1 / 2) ≤ markMean (aboveInd fun t => halfDisc T l h (id t) - l) T a := by
    intro a ha
    have h1 := uniform_above hT (by positivity : 0 ≤ T / 2) (by linarith)
    have h2 : (T - T / 2) / T = 1 / 2 := by field_simp; norm_num
    rw [h2] at h1
    rw [← h1]
    refine lintegral_mono fun t => ?_
    by_cases ht : t < T / 2
    · rw [if_pos ht]; simp
    · have h3 : halfDisc T l h (id t) - l = 0 := by
        unfold halfDisc
        rw [if_neg (show ¬ id t < T / 2 from ht), sub_self]
      have h4 : aboveInd (fun t => halfDisc T l h (id t) - l) a t = 1 := if_neg (by simp only [h3]; exact not_lt.2 ha)
      rw [if_neg ht, h4]
  have hG1 : ∀ a, h ≤ a → markMean (aboveInd fun t => halfDisc T l h (id t) - l) T a = 1 := by
    intro a ha
    have : ∀ t, aboveInd (fun t => halfDisc T l h (id t) - l) a t = 1 := fun t => if_neg (by linarith [(hψ t).2])
    unfold markMean
    rw [lintegral_congr this]
    simp
  have hint : 1 - (∫ t in (0 : ℝ)..T, (halfDisc T l h (id t) - l)) / (h * T) = 1 / 2 := by
    have e1 : ∫ t in (0 : ℝ)..T, (halfDisc T l h (id t) - l) = h * T / 2 := by
      have i1 : IntervalIntegrable (fun t => halfDisc T l h (id t) - l) volume 0 (T / 2) := bdd_int hm hψ _ _
      have i2 : IntervalIntegrable (fun t => halfDisc T l h (id t) - l) volume (T / 2) T := bdd_int hm hψ _ _
      rw [← intervalIntegral.integral_add_adjacent_intervals i1 i2]
      have e2 : ∫ t in (0 : ℝ)..T / 2, (halfDisc T l h (id t) - l) = ∫ t in (0 : ℝ)..T / 2, h := by
        refine intervalIntegral.integral_congr_ae ?_
        have hne : ∀ᵐ t : ℝ, t ≠ T / 2 := by rw [ae_iff]; simp
        filter_upwards [hne] with t ht hmem
        rw [Set.uIoc_of_le (by positivity)] at hmem
        unfold halfDisc
        rw [if_pos (show id t < T / 2 from lt_of_le_of_ne hmem.2 ht)]
        ring
      have e3 : ∫ t in (T / 2)..T, (halfDisc T l h (id t) - l) = ∫ t in (T / 2)..T, (0 : ℝ) := by
        refine intervalIntegral.integral_congr fun t hmem => ?_
        rw [Set.uIcc_of_le (by linarith)] at hmem
        change halfDisc T l h (id t) - l = 0
        unfold halfDisc
        rw [if_neg (show ¬ id t < T / 2 from not_lt.2 hmem.1)]
        ring
      rw [e2, e3]
      simp
      ring
    rw [e1]
    field_simp
    norm_num
  have hlt : survival (fun t => halfDisc T l h (id t) - l) T < pathCoinTrue (halfDisc T l h) id T l h size := by
    rw [coin_batch hh hT hs, ← survival_poisson hm hT hh hψ, hint]
    have hfin : ∫⁻ n, ENNReal.ofReal (1 / 2) ^ n ∂(NDist.poisson (h * T)).law ≠ ∞ := by
      rw [lintegral_poisson_pow (by positivity) (by norm_num)]
      exact ENNReal.ofReal_ne_top
    refine lintegral_strict_mono_of_ae_le_of_ae_lt_on (s := {size + 1}) (measurable_of_countable _).aemeasurable hfin ?_ ?_ ?_
    · refine ae_of_all _ fun n => ?_
      have := batchLaw_ge (n := n) hh hG (batchSizes n size) (batchSizes_le hs) 0 le_rfl
      rwa [batchSizes_sum] at this
    · have := poissonMeasure_real_singleton_pos (r := (h * T).toNNReal) (size + 1) (Real.toNNReal_pos.2 (by positivity))
      intro h0
      rw [measureReal_def] at this
      change (poissonMeasure (h * T).toNNReal) {size + 1} = 0 at h0
      rw [h0] at this
      simp at this
    · refine ae_of_all _ fun n hn => ?_
      rw [Set.mem_singleton_iff] at hn
      subst hn
      rw [batchSizes_succ hs]
      exact batchLaw_gt hs hh (by simp) (by rw [← ENNReal.ofReal_one]; exact (ENNReal.ofReal_lt_ofReal_iff one_pos).2 (by norm_num)) hG hG1
  exact ⟨hb, hlt, hlt⟩

/-- Non-trivial instances. -/
example : survival (fun t => halfDisc 3 (-1) 2 (id t) - -1) 3 < pathCoinTrue (halfDisc 3 (-1) 2) id 3 (-1) 2 10 :=
  (C81_violated two_pos three_pos (by norm_num)).2.1

example : pathCoinTrue (fun _ => 1 / 2) id 3 0 2 2 = survival (fun _ => (1 / 2 : ℝ) - 0) 3 :=
  (C81_constant_partial (disc := fun _ => 1 / 2) (X := id) (c := 1 / 2) two_pos three_pos two_pos (by norm_num) (by norm_num) (by norm_num)).1

example (size : ℕ) (hs : 0 < size) : pathCoinTrue Real.sin id 3 (-1) 2 size ≤
    survival (fun t => Real.sin (id t) - -1) 3 + (NDist.poisson (2 * 3)).law (Set.Ioi size) :=
  (C81_close_partial two_pos three_pos hs (show Measurable fun t => Real.sin (id t) from Real.measurable_sin) fun t => ⟨Real.neg_one_le_sin _, by have := Real.sin_le_one (id t); linarith⟩).1

end Ctb
