import Verif.Lemmas.GridEdge
import Verif.Props.MinLaw

/-!
# C110: escape decisions and minima agree with simulated paths

`g n` are the durations of the segments of grids on `[0, T]` whose longest segment gets arbitrarily short; the times are `(npCumsum (g n)).dropLast`.
-/

set_option linter.unusedSectionVars false

namespace Ctb

open MeasureTheory Set Filter Topology
open scoped ENNReal

variable {T a b m U K p : ℝ} {g : ℕ → List ℝ}

theorem prob_allIn (q : Prog (List ℝ)) (D : ℝ → Prop) : q.prob (fun r => ∃ l, r = .ok l ∧ ∀ y ∈ l, D y) = q.lexp (onOk (allIn D)) := by
  unfold Prog.prob allIn
  refine Prog.lexp_congr ?_
  rintro (e | l) -
  · simp [onOk]
  · by_cases h : ∀ y ∈ l, D y
    · simp only [onOk]; rw [if_pos ⟨l, rfl, h⟩, if_pos h]
    · simp only [onOk]; rw [if_neg (by rintro ⟨l', e, h'⟩; cases e; exact h h'), if_neg h]

theorem prob_allIn_fst {β : Type} (q : Prog (List ℝ × β)) (D : ℝ → Prop) :
    q.prob (fun r => ∃ l, r = .ok l ∧ ∀ y ∈ l.1, D y) = q.lexp (onOk fun l => allIn D l.1) := by
  unfold Prog.prob allIn
  refine Prog.lexp_congr ?_
  rintro (e | l) -
  · simp [onOk]
  · by_cases h : ∀ y ∈ l.1, D y
    · simp only [onOk]; rw [if_pos ⟨l, rfl, h⟩, if_pos h]
    · simp only [onOk]; rw [if_neg (by rintro ⟨l', e, h'⟩; cases e; exact h h'), if_neg h]

/-- The probability that the bridge satisfies `D` on the grid. -/
theorem brownbr_stay {vs : List ℝ} (h2 : 2 ≤ vs.length) (hp : ∀ v ∈ vs, 0 < v) {D : ℝ → Prop} (hD : MeasurableSet {y | D y}) :
    normDens vs.sum (b - a) * (sampleBrownbr (npCumsum vs).dropLast vs.sum a b).prob (fun r => ∃ l, r = .ok l ∧ ∀ y ∈ l, D y) =
      kerInt normKer b vs a (allIn D) := by
  have hne : vs ≠ [] := by rintro rfl; simp at h2
  have hF : MeasL (vs.length - 1) fun _ : Unit => allIn D := (measurable_allIn D hD _).comp measurable_snd
  rw [prob_allIn, brownbr_cond a b h2 hp hF (fun _ => rfl), kerInt_condInt b hne hp a hF]
  rfl

theorem FineGrids.pos_total (hg : FineGrids T g) : 0 < T := by
  rw [← hg.total 0]
  exact List.sum_pos _ (hg.pos 0) (by intro h; have := hg.two 0; simp [h] at this)

theorem tendsto_of_mul {c x : ℝ≥0∞} {f : ℕ → ℝ≥0∞} (h0 : c ≠ 0) (ht : c ≠ ∞) (h : Tendsto (fun n => c * f n) atTop (𝓝 (c * x))) : Tendsto f atTop (𝓝 x) := by
  have := ENNReal.Tendsto.const_mul (a := c⁻¹) h (Or.inr (ENNReal.inv_ne_top.2 h0))
  simpa only [← mul_assoc, ENNReal.inv_mul_cancel h0 ht, one_mul] using this

theorem normDens_pos' (hT : 0 < T) (x : ℝ) : normDens T x ≠ 0 := by
  rw [normDens, Ne, ENNReal.ofReal_eq_zero, not_le]
  unfold normDensR
  positivity

/-- **C110.** The probability that a simulated bridge lies between `m` and `U` on a grid, for every grid: it is at least the probability to stay that the
escape decision uses, and it exceeds that of a strip wider by `ε` at most by a factor `1 / (1 - Σ v² / ε⁴)`. -/
theorem C110_bounds {vs : List ℝ} {ε : ℝ} (h2 : 2 ≤ vs.length) (hp : ∀ v ∈ vs, 0 < v) (hm : m < min a b) (hU : max a b < U) (hε : 0 < ε) :
    stripDens U m vs.sum a b ≤ normDens vs.sum (b - a) *
        (sampleBrownbr (npCumsum vs).dropLast vs.sum a b).prob (fun r => ∃ l, r = .ok l ∧ ∀ y ∈ l, m < y ∧ y < U) ∧
      (1 - ENNReal.ofReal (vs.map fun v => v ^ 2 / ε ^ 4).sum) * (normDens vs.sum (b - a) *
        (sampleBrownbr (npCumsum vs).dropLast vs.sum a b).prob (fun r => ∃ l, r = .ok l ∧ ∀ y ∈ l, m < y ∧ y < U)) ≤
          stripDens (U + ε) (m - ε) vs.sum a b := by
  have hne : vs ≠ [] := by rintro rfl; simp at h2
  obtain ⟨ha, hb⟩ := lt_min_iff.1 hm
  obtain ⟨hau, hbu⟩ := max_lt_iff.1 hU
  rw [brownbr_stay h2 hp (D := fun y => m < y ∧ y < U) measurableSet_Ioo]
  constructor
  · rw [← chapman_strip hm hne hp]
    exact kerInt_lower (D := fun y => m < y ∧ y < U) (fun v hv x y hx hy => strip_le_norm hv hx hy) (fun v x y hy => if_neg fun h => hy h.2.2) ⟨hb, hbu⟩ _ _
      ⟨ha, hau⟩ hp
  · rw [← chapman_strip (by linarith) hne hp]
    exact grid_upper (D := fun y => m < y ∧ y < U) (fun v hv x y hx hy => strip_grid_upper hε hv hx hy) ⟨ha, hau⟩ ⟨hb, hbu⟩ hp

/-- Two levels: on fine grids the simulated bridge stays strictly between them with the probability that is used for paths in continuous time. -/
theorem C110_strip (hg : FineGrids T g) (hm : m < min a b) (hU : max a b < U) :
    Tendsto (fun n => (sampleBrownbr (npCumsum (g n)).dropLast T a b).prob (fun r => ∃ l, r = .ok l ∧ ∀ y ∈ l, m < y ∧ y < U)) atTop
      (𝓝 (stripDens U m T a b / normDens T (b - a))) := by
  have h0 := normDens_pos' hg.pos_total (b - a)
  have ht : normDens T (b - a) ≠ ∞ := ENNReal.ofReal_ne_top
  refine tendsto_of_mul h0 ht ?_
  rw [ENNReal.mul_div_cancel h0 ht]
  refine (strip_grid hm hU hg).congr fun n => ?_
  rw [← brownbr_stay (hg.two n) (hg.pos n) (D := fun y => m < y ∧ y < U) measurableSet_Ioo, hg.total n]

/-- **C110.** `sample_brownbr_esc` says that the bridge does not escape with the limit, along grids that get finer, of the probabilities that a bridge
simulated by `sample_brownbr` stays below `K` in absolute value on the grid. -/
theorem C110_escape (hg : FineGrids T g) (ha : |a| < K) (hb : |b| < K) :
    Tendsto (fun n => (sampleBrownbr (npCumsum (g n)).dropLast T a b).prob (fun r => ∃ l, r = .ok l ∧ ∀ y ∈ l, |y| < K)) atTop
      (𝓝 ((brownEsc T a b K none none).prob fun r => r = .ok false)) := by
  have hT := hg.pos_total
  have hm : -K < min a b := lt_min (abs_lt.1 ha).1 (abs_lt.1 hb).1
  have hU : max a b < K := max_lt (abs_lt.1 ha).2 (abs_lt.1 hb).2
  obtain ⟨p, p0, p1, hp, -⟩ := C41_series hT ha hb
  have h := C110_strip hg hm hU
  have e : stripSeries K (-K) T a b = brownSeries T a b K := by
    unfold stripSeries
    congr 1 <;> ring
  rw [stripDens_stay hT hm hU (e ▸ hp)] at h
  rw [(C41_prob hT ha hb hp).2]
  have h0 := normDens_pos' hT (b - a)
  have ht : normDens T (b - a) ≠ ∞ := ENNReal.ofReal_ne_top
  have e2 : ENNReal.ofReal (normDensR T (b - a)) * ENNReal.ofReal (1 - p) / normDens T (b - a) = ENNReal.ofReal (1 - p) := by
    change normDens T (b - a) * _ / _ = _
    rw [mul_comm, ENNReal.mul_div_cancel_right h0 ht]
  rw [e2] at h
  simpa only [abs_lt] using h

/-- One level. -/
theorem C110_half (hg : FineGrids T g) (hm : m < min a b) :
    Tendsto (fun n => (sampleBrownbr (npCumsum (g n)).dropLast T a b).prob (fun r => ∃ l, r = .ok l ∧ ∀ y ∈ l, m < y)) atTop
      (𝓝 (ENNReal.ofReal (1 - Real.exp (-2 * (a - m) * (b - m) / T)))) := by
  have hT := hg.pos_total
  have h0 := normDens_pos' hT (b - a)
  have ht : normDens T (b - a) ≠ ∞ := ENNReal.ofReal_ne_top
  refine tendsto_of_mul h0 ht ?_
  have h := half_grid hm hg
  rw [killDens_eq hT hm] at h
  refine h.congr fun n => ?_
  rw [← brownbr_stay (hg.two n) (hg.pos n) (D := fun y => m < y) measurableSet_Ioi, hg.total n]

/-- **C110.** `cdf_brownbr_min` is the limit of the distribution functions of the minima of bridges simulated by `sample_brownbr` on grids that get finer. -/
theorem C110_cdf (hg : FineGrids T g) (hm : m < min a b) : ∃ c, cdfBridgeMin (some m) T a b none none = .ok c ∧
    Tendsto (fun n => (sampleBrownbr (npCumsum (g n)).dropLast T a b).prob (fun r => ∃ l, r = .ok l ∧ ∀ y ∈ l, m < y)) atTop (𝓝 (ENNReal.ofReal (1 - c))) := by
  have hT := hg.pos_total
  refine ⟨_, ?_, C110_half hg hm⟩
  unfold cdfBridgeMin
  rw [if_neg (not_not.2 hT), if_neg (not_not.2 ⟨by simp, le_rfl⟩), if_pos ⟨rfl, rfl⟩, cdfMinBase_eq hm.le]

/-- The draws of `sample_brownbr_min` have the same limit law. -/
theorem C110_minimum (hg : FineGrids T g) (hm : m < min a b) :
    Tendsto (fun n => (sampleBrownbr (npCumsum (g n)).dropLast T a b).prob (fun r => ∃ l, r = .ok l ∧ ∀ y ∈ l, m < y)) atTop
      (𝓝 ((sampleBridgeMin T a b none none).prob fun r => ∃ q, r = .ok q ∧ m < q.2)) := by
  classical
  have hT := hg.pos_total
  have h := C91_law (T := T) (a := a) (b := b) (lb := none) (ub := none) (F := fun q => if m < q.2 then 1 else 0) hT ⟨by simp, le_rfl⟩
    (Measurable.ite (measurableSet_lt measurable_const measurable_snd) measurable_const measurable_const)
  have e : minRange none (min a b) = Iio (min a b) := by ext m; simp [minRange]
  rw [Option.getD_none, e, C91_density hT, one_mul] at h
  have e2 : (sampleBridgeMin T a b none none).prob (fun r => ∃ q, r = .ok q ∧ m < q.2) =
      (sampleBridgeMin T a b none none).lexp (onOk fun q => if m < q.2 then 1 else 0) := by
    unfold Prog.prob
    refine Prog.lexp_congr ?_
    rintro (e | l) - <;> simp [onOk]
  have hb : MinBoundsOk a b (some m) ((none : Option ℝ).getD (min a b)) := ⟨by rintro l ⟨⟩; exact hm, le_rfl⟩
  have h3 := (C91_mass hT hb).1
  have e3 : minRange (some m) (min a b) = Ioo m (min a b) := by ext x; simp [minRange]
  rw [Option.getD_none, e3] at h3
  have e4 : minBelow T a b (some (min a b)) = 1 := by
    simp only [minBelow]
    rcases le_total a b with h | h
    · rw [min_eq_left h]; simp
    · rw [min_eq_right h]; simp
  have key : ∫⁻ x in Iio (min a b), ∫⁻ s in Ioo 0 T, ENNReal.ofReal (minDens T a b s x) * (if m < x then 1 else 0) =
      ∫⁻ x in Ioo m (min a b), ∫⁻ s in Ioo 0 T, ENNReal.ofReal (minDens T a b s x) := by
    rw [← lintegral_indicator measurableSet_Iio, ← lintegral_indicator measurableSet_Ioo]
    refine lintegral_congr fun x => ?_
    by_cases h1 : x < min a b
    · by_cases h2 : m < x
      · rw [indicator_of_mem (mem_Iio.2 h1), indicator_of_mem (mem_Ioo.2 ⟨h2, h1⟩)]
        simp [h2]
      · rw [indicator_of_mem (mem_Iio.2 h1), indicator_of_notMem fun h => h2 h.1]
        simp [h2]
    · rw [indicator_of_notMem (fun h => h1 (mem_Iio.1 h)), indicator_of_notMem fun h => h1 h.2]
  rw [e2, h, key, h3, e4]
  exact C110_half hg hm

/-- **C110.** The same for paths conditioned to stay above `m`: `sample_bessel3br_esc` says that the path does not reach `U` with the limit, along grids
that get finer, of the probabilities that a path simulated by `sample_layerbr` above `m` stays below `U` on the grid. -/
theorem C110_layer {n k : ℕ} (hn : 0 < n) (hk : 0 < k) (hg : FineGrids T g) (hm : m < min a b) (hU : max a b < U) :
    Tendsto (fun i => (sampleLayerbr n k (npCumsum (g i)).dropLast T a b m none none).prob (fun r => ∃ l, r = .ok l ∧ ∀ y ∈ l.1, y < U)) atTop
      (𝓝 ((besEsc T (a - m) (b - m) (U - m) none none).prob fun r => r = .ok false)) := by
  have hT := hg.pos_total
  obtain ⟨ha, hb⟩ := lt_min_iff.1 hm
  obtain ⟨hau, hbu⟩ := max_lt_iff.1 hU
  obtain ⟨p, p0, p1, hp⟩ := C43_series (T := T) (a := a - m) (b := b - m) (K := U - m) hT (by linarith) (by linarith) (by linarith) (by linarith)
  rw [(C43_prob hT (by linarith) (by linarith) (by linarith) (by linarith) hp).2]
  obtain ⟨h0, ht⟩ := killDens_pos hT hm
  refine tendsto_of_mul h0 ht ?_
  have h := kill_grid hm hU hg
  rw [C95_kernel hT hm hU hp] at h
  refine h.congr fun i => ?_
  rw [← C94_law hn hk hm (hg.two i) (hg.pos i) (measurable_allIn (fun y => y < U) measurableSet_Iio _), hg.total i, prob_allIn_fst]

/-- **C110.** From 0: `sample_bessel3br_esc` says that the Bessel bridge from 0 to `b` does not reach `K` with the limit, along grids that get finer, of the
probabilities that a path simulated by `sample_besselbr` in three dimensions stays below `K` on the grid. -/
theorem C110_bessel (hg : FineGrids T g) (hb : 0 < b) (hK : b < K) :
    Tendsto (fun i => (sampleBesselbr (npCumsum (g i)).dropLast T b 3).prob (fun r => ∃ l, r = .ok l ∧ ∀ y ∈ l, y < K)) atTop
      (𝓝 ((besEsc T 0 b K none none).prob fun r => r = .ok false)) := by
  have hT := hg.pos_total
  obtain ⟨p, p0, p1, hp⟩ := C43_series (T := T) (a := 0) (b := b) (K := K) hT le_rfl hb (by linarith) hK
  rw [(C43_prob hT le_rfl hb (by linarith) hK hp).2]
  obtain ⟨h0, ht⟩ := entrDens_pos hT hb
  refine tendsto_of_mul h0 ht ?_
  have h := edge_grid hb hK hg
  rw [stripEntr_esc hT hb hK (by rw [sub_zero, sub_zero]; exact hp)] at h
  refine h.congr fun i => ?_
  rw [← C93_law hb (hg.two i) (hg.pos i) (measurable_allIn (fun y => y < K) measurableSet_Iio _), hg.total i, prob_allIn]

/-- The same for a path of `sample_layerbr` that starts at its infimum. -/
theorem C110_from_infimum {n k : ℕ} (hn : 0 < n) (hk : 0 < k) (hg : FineGrids T g) (hm : m < b) (hU : b < U) :
    Tendsto (fun i => (sampleLayerbr n k (npCumsum (g i)).dropLast T m b m none none).prob (fun r => ∃ l, r = .ok l ∧ ∀ y ∈ l.1, y < U)) atTop
      (𝓝 ((besEsc T 0 (b - m) (U - m) none none).prob fun r => r = .ok false)) := by
  have hT := hg.pos_total
  obtain ⟨p, p0, p1, hp⟩ := C43_series (T := T) (a := 0) (b := b - m) (K := U - m) hT le_rfl (by linarith) (by linarith) (by linarith)
  rw [(C43_prob hT le_rfl (by linarith) (by linarith) (by linarith) hp).2]
  obtain ⟨h0, ht⟩ := entrDens_pos hT hm
  refine tendsto_of_mul h0 ht ?_
  have h := edge_grid hm hU hg
  rw [stripEntr_esc hT hm hU hp] at h
  refine h.congr fun i => ?_
  rw [← C94_from_infimum hn hk hm (hg.two i) (hg.pos i) (measurable_allIn (fun y => y < U) measurableSet_Iio _), hg.total i, prob_allIn_fst]

/-- Equal steps. -/
theorem C110_equal (hT : 0 < T) : FineGrids T fun n => List.replicate (n + 2) (T / (n + 2 : ℕ)) where
  two n := by simp
  pos n v hv := by
    rw [List.eq_of_mem_replicate hv]
    positivity
  total n := by
    rw [List.sum_replicate, nsmul_eq_mul]
    field_simp
  fine h hh := by
    have ht : Tendsto (fun n : ℕ => T / ((n + 2 : ℕ) : ℝ)) atTop (𝓝 0) :=
      (tendsto_natCast_atTop_atTop.comp (tendsto_add_atTop_nat 2)).const_div_atTop T
    filter_upwards [ht.eventually (gt_mem_nhds hh)] with n hn v hv
    rw [List.eq_of_mem_replicate hv]
    exact hn

/-- A bridge from `1/2` to `-1/4` of duration 5 in `(-1, 1)`. -/
example : Tendsto (fun n : ℕ => (sampleBrownbr (npCumsum (List.replicate (n + 2) ((5 : ℝ) / (n + 2 : ℕ)))).dropLast 5 (1 / 2) (-1 / 4)).prob
    (fun r => ∃ l, r = .ok l ∧ ∀ y ∈ l, |y| < 1)) atTop (𝓝 ((brownEsc 5 (1 / 2) (-1 / 4) 1 none none).prob fun r => r = .ok false)) :=
  C110_escape (C110_equal (by norm_num)) (by rw [abs_lt]; norm_num) (by rw [abs_lt]; norm_num)

example : Tendsto (fun n : ℕ => (sampleBrownbr (npCumsum (List.replicate (n + 2) ((2 : ℝ) / (n + 2 : ℕ)))).dropLast 2 0 1).prob
    (fun r => ∃ l, r = .ok l ∧ ∀ y ∈ l, -1 < y)) atTop (𝓝 (ENNReal.ofReal (1 - Real.exp (-2 * (0 - -1) * (1 - -1) / 2)))) :=
  C110_half (C110_equal (by norm_num)) (by norm_num)

example : Tendsto (fun n : ℕ => (sampleBesselbr (npCumsum (List.replicate (n + 2) ((2 : ℝ) / (n + 2 : ℕ)))).dropLast 2 1 3).prob
    (fun r => ∃ l, r = .ok l ∧ ∀ y ∈ l, y < 3)) atTop (𝓝 ((besEsc 2 0 1 3 none none).prob fun r => r = .ok false)) :=
  C110_bessel (C110_equal (by norm_num)) (by norm_num) (by norm_num)

end Ctb
