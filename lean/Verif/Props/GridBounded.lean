import Verif.Props.GridLimit
import Verif.Props.EscBounded

/-!
# C42, C78: decisions below a bound are conditional probabilities of simulated paths

Where the decisions below an upper bound are exact (see `C42_violated`, `C78_violated` for where they are not), they agree with paths simulated on
finer and finer grids: among the paths below the bound, the fraction of those below the level.
-/

namespace Ctb

open MeasureTheory Set Filter Topology
open scoped ENNReal

variable {T a b m K B p q : ℝ} {g : ℕ → List ℝ}

theorem prob_mono {α : Type} (x : Prog α) {P Q : Res α → Prop} (h : ∀ r, P r → Q r) : x.prob P ≤ x.prob Q := by
  unfold Prog.prob
  refine Prog.lexp_mono _ fun r => ?_
  split_ifs with h1 h2
  · exact le_rfl
  · exact absurd (h r h1) h2
  · exact zero_le
  · exact le_rfl

/-- A ratio of probabilities with limits `1 - p`, `1 - q`. -/
theorem ratio_limit {f h : ℕ → ℝ≥0∞} (hq : q < 1) (hf : Tendsto f atTop (𝓝 (ENNReal.ofReal (1 - p)))) (hh : Tendsto h atTop (𝓝 (ENNReal.ofReal (1 - q))))
    (hle : ∀ n, f n ≤ h n) : Tendsto (fun n => f n / h n) atTop (𝓝 (1 - ENNReal.ofReal (1 - (1 - p) / (1 - q)))) := by
  have h1 : 0 < 1 - q := by linarith
  have h2 : ENNReal.ofReal (1 - q) ≠ 0 := by rwa [Ne, ENNReal.ofReal_eq_zero, not_le]
  have h3 : 1 - p ≤ 1 - q := by
    have := le_of_tendsto_of_tendsto' hf hh hle
    rwa [ENNReal.ofReal_le_ofReal_iff h1.le] at this
  have e : 1 - ENNReal.ofReal (1 - (1 - p) / (1 - q)) = ENNReal.ofReal (1 - p) / ENNReal.ofReal (1 - q) := by
    have h4 : (1 - p) / (1 - q) ≤ 1 := (div_le_one h1).2 h3
    rw [← ENNReal.ofReal_div_of_pos h1]
    conv_lhs => rw [← ENNReal.ofReal_one, ← ENNReal.ofReal_sub _ (by linarith)]
    congr 1
    ring
  rw [e]
  exact ENNReal.Tendsto.div hf (Or.inr h2) hh (Or.inr ENNReal.ofReal_ne_top)

/-- Brownian bridges. -/
theorem C42_grid_partial (hg : FineGrids T g) (ha : |a| < K) (hb : |b| < K) (hB : K ≤ B) (h3 : brownSeries T a b B 3 < 1) :
    Tendsto (fun n => (sampleBrownbr (npCumsum (g n)).dropLast T a b).prob (fun r => ∃ l, r = .ok l ∧ ∀ y ∈ l, |y| < K) /
      (sampleBrownbr (npCumsum (g n)).dropLast T a b).prob (fun r => ∃ l, r = .ok l ∧ ∀ y ∈ l, |y| < B)) atTop
      (𝓝 ((brownEsc T a b K (some B) none).prob fun r => r = .ok false)) := by
  have hT := hg.pos_total
  obtain ⟨p, p0, p1, hp, -⟩ := C41_series hT ha hb
  obtain ⟨q, q0, q1, hq, -⟩ := C41_series hT (ha.trans_le hB) (hb.trans_le hB)
  rw [(C42_prob_partial hT ha hb hB hp hq h3).2]
  have h1 := C110_escape hg ha hb
  have h2 := C110_escape hg (ha.trans_le hB) (hb.trans_le hB)
  rw [(C41_prob hT ha hb hp).2] at h1
  rw [(C41_prob hT (ha.trans_le hB) (hb.trans_le hB) hq).2] at h2
  exact ratio_limit q1 h1 h2 fun n => prob_mono _ fun r ⟨l, e, hl⟩ => ⟨l, e, fun y hy => (hl y hy).trans_le hB⟩

/-- Bessel bridges from the origin. -/
theorem C78_grid_partial (hg : FineGrids T g) (hb : 0 < b) (hbK : b < K) (hB : K ≤ B) (hs : T < 3 * K ^ 2) (h3 : besSeries T 0 b B 3 < 1) :
    Tendsto (fun n => (sampleBesselbr (npCumsum (g n)).dropLast T b 3).prob (fun r => ∃ l, r = .ok l ∧ ∀ y ∈ l, y < K) /
      (sampleBesselbr (npCumsum (g n)).dropLast T b 3).prob (fun r => ∃ l, r = .ok l ∧ ∀ y ∈ l, y < B)) atTop
      (𝓝 ((besEsc T 0 b K (some B) none).prob fun r => r = .ok false)) := by
  have hT := hg.pos_total
  obtain ⟨p, p0, p1, hp⟩ := C43_series hT le_rfl hb (hb.trans hbK) hbK
  obtain ⟨q, q0, q1, hq⟩ := C43_series hT le_rfl hb ((hb.trans hbK).trans_le hB) (hbK.trans_le hB)
  rw [(C78_prob_partial hT le_rfl hb (hb.trans hbK) hbK hB (Or.inr hs) hp hq h3).2]
  have h1 := C110_bessel hg hb hbK
  have h2 := C110_bessel hg hb (hbK.trans_le hB)
  rw [(C43_prob hT le_rfl hb (hb.trans hbK) hbK hp).2] at h1
  rw [(C43_prob hT le_rfl hb ((hb.trans hbK).trans_le hB) (hbK.trans_le hB) hq).2] at h2
  exact ratio_limit q1 h1 h2 fun n => prob_mono _ fun r ⟨l, e, hl⟩ => ⟨l, e, fun y hy => (hl y hy).trans_le hB⟩

/-- Bridges above a level `m`, of any duration. -/
theorem C78_grid_above_partial {n k : ℕ} (hn : 0 < n) (hk : 0 < k) (hg : FineGrids T g) (hm : m < min a b) (hK : max a b < K) (hB : K ≤ B)
    (h3 : besSeries T (a - m) (b - m) (B - m) 3 < 1) :
    Tendsto (fun i => (sampleLayerbr n k (npCumsum (g i)).dropLast T a b m none none).prob (fun r => ∃ l, r = .ok l ∧ ∀ y ∈ l.1, y < K) /
      (sampleLayerbr n k (npCumsum (g i)).dropLast T a b m none none).prob (fun r => ∃ l, r = .ok l ∧ ∀ y ∈ l.1, y < B)) atTop
      (𝓝 ((besEsc T (a - m) (b - m) (K - m) (some (B - m)) none).prob fun r => r = .ok false)) := by
  have hT := hg.pos_total
  obtain ⟨ha, hb⟩ := lt_min_iff.1 hm
  obtain ⟨hak, hbk⟩ := max_lt_iff.1 hK
  obtain ⟨p, p0, p1, hp⟩ := C43_series (T := T) (a := a - m) (b := b - m) (K := K - m) hT (by linarith) (by linarith) (by linarith) (by linarith)
  obtain ⟨q, q0, q1, hq⟩ := C43_series (T := T) (a := a - m) (b := b - m) (K := B - m) hT (by linarith) (by linarith) (by linarith) (by linarith)
  rw [(C78_prob_partial hT (by linarith) (by linarith) (by linarith) (by linarith) (by linarith) (Or.inl (by linarith)) hp hq h3).2]
  have h1 := C110_layer hn hk hg hm hK
  have h2 := C110_layer hn hk hg hm (hK.trans_le hB)
  rw [(C43_prob hT (by linarith) (by linarith) (by linarith) (by linarith) hp).2] at h1
  rw [(C43_prob hT (by linarith) (by linarith) (by linarith) (by linarith) hq).2] at h2
  exact ratio_limit q1 h1 h2 fun n => prob_mono _ fun r ⟨l, e, hl⟩ => ⟨l, e, fun y hy => (hl y hy).trans_le hB⟩

/-- A Bessel bridge from 0 to 1 of duration 1, level 2, bound 3. -/
example : Tendsto (fun n : ℕ => (sampleBesselbr (npCumsum (List.replicate (n + 2) ((1 : ℝ) / (n + 2 : ℕ)))).dropLast 1 1 3).prob (fun r => ∃ l, r = .ok l ∧ ∀ y ∈ l, y < 2) /
      (sampleBesselbr (npCumsum (List.replicate (n + 2) ((1 : ℝ) / (n + 2 : ℕ)))).dropLast 1 1 3).prob (fun r => ∃ l, r = .ok l ∧ ∀ y ∈ l, y < 3)) atTop
      (𝓝 ((besEsc 1 0 1 2 (some 3) none).prob fun r => r = .ok false)) :=
  C78_grid_partial (C110_equal (by norm_num)) (by norm_num) (by norm_num) (by norm_num) (by norm_num) bound_three

/-- A Brownian bridge from 0 to 0 of duration 1/4, level 1/2, bound 1. -/
example : Tendsto (fun n : ℕ => (sampleBrownbr (npCumsum (List.replicate (n + 2) ((1 / 4 : ℝ) / (n + 2 : ℕ)))).dropLast (1 / 4) 0 0).prob (fun r => ∃ l, r = .ok l ∧ ∀ y ∈ l, |y| < 1 / 2) /
      (sampleBrownbr (npCumsum (List.replicate (n + 2) ((1 / 4 : ℝ) / (n + 2 : ℕ)))).dropLast (1 / 4) 0 0).prob (fun r => ∃ l, r = .ok l ∧ ∀ y ∈ l, |y| < 1)) atTop
      (𝓝 ((brownEsc (1 / 4) 0 0 (1 / 2) (some 1) none).prob fun r => r = .ok false)) :=
  C42_grid_partial (C110_equal (by norm_num)) (by norm_num) (by norm_num) (by norm_num) brown_bound_three

/-- A bridge from 2 to 2 of duration 1/4 above 1, level 5/2, bound 3. -/
example : Tendsto (fun i : ℕ => (sampleLayerbr 9 9 (npCumsum (List.replicate (i + 2) ((1 / 4 : ℝ) / (i + 2 : ℕ)))).dropLast (1 / 4) 2 2 1 none none).prob (fun r => ∃ l, r = .ok l ∧ ∀ y ∈ l.1, y < 5 / 2) /
      (sampleLayerbr 9 9 (npCumsum (List.replicate (i + 2) ((1 / 4 : ℝ) / (i + 2 : ℕ)))).dropLast (1 / 4) 2 2 1 none none).prob (fun r => ∃ l, r = .ok l ∧ ∀ y ∈ l.1, y < 3)) atTop
      (𝓝 ((besEsc (1 / 4) (2 - 1) (2 - 1) (5 / 2 - 1) (some (3 - 1)) none).prob fun r => r = .ok false)) := by
  refine C78_grid_above_partial (by norm_num) (by norm_num) (C110_equal (by norm_num)) (by norm_num) (by norm_num) (by norm_num) ?_
  have h : 0 < 1 - Real.exp (-2 * (2 - 1) * (2 - 1) / (1 / 4)) := sub_pos.2 (Real.exp_lt_one_iff.2 (by norm_num))
  unfold besSeries
  rw [if_pos (by norm_num)]
  have e : brownSeries (1 / 4) (2 - 1 - (3 - 1) / 2) (2 - 1 - (3 - 1) / 2) ((3 - 1) / 2) 3 < 1 := by
    convert brown_bound_three using 2 <;> norm_num
  have := div_pos (sub_pos.2 e) h
  linarith

end Ctb
