import Verif.Props.StripLaw
import Verif.Props.Layer

/-! # Probabilities of staying between two levels -/

set_option linter.unusedSectionVars false

namespace Ctb

open MeasureTheory Set Filter Topology
open scoped ENNReal

variable {T a b m U p : ℝ}

/-- Series of the probability to leave the strip between `m` and `U`. -/
noncomputable def stripSeries (U m T a b : ℝ) : ℕ → ℝ := brownSeries T (a - (m + U) / 2) (b - (m + U) / 2) ((U - m) / 2)

theorem strip_inside (hm : m < min a b) (hU : max a b < U) : |a - (m + U) / 2| < (U - m) / 2 ∧ |b - (m + U) / 2| < (U - m) / 2 := by
  rw [lt_min_iff] at hm
  rw [max_lt_iff] at hU
  constructor <;> rw [abs_lt] <;> constructor <;> linarith

/-- The kernel of the strip is that of the free path times the probability to stay. -/
theorem stripDens_stay (hT : 0 < T) (hm : m < min a b) (hU : max a b < U) (hp : Tendsto (stripSeries U m T a b) atTop (𝓝 p)) :
    stripDens U m T a b = ENNReal.ofReal (normDensR T (b - a)) * ENNReal.ofReal (1 - p) := by
  obtain ⟨ha, hb⟩ := lt_min_iff.1 hm
  obtain ⟨hau, hbu⟩ := max_lt_iff.1 hU
  have hab : 0 < (a - m) * (b - m) := mul_pos (sub_pos.2 ha) (sub_pos.2 hb)
  have he : Real.exp (-2 * (a - m) * (b - m) / T) < 1 := by
    rw [Real.exp_lt_one_iff, show -2 * (a - m) * (b - m) / T = -(2 * ((a - m) * (b - m)) / T) by ring]
    have : 0 < 2 * ((a - m) * (b - m)) / T := by positivity
    linarith
  have hbes : Tendsto (besSeries T (a - m) (b - m) (U - m)) atTop (𝓝 (1 - (1 - p) / (1 - Real.exp (-2 * (a - m) * (b - m) / T)))) := by
    refine (((hp.const_sub 1).div_const (1 - Real.exp (-2 * (a - m) * (b - m) / T))).const_sub 1).congr fun i => ?_
    unfold besSeries stripSeries
    rw [if_pos (sub_pos.2 ha).ne', show a - m - (U - m) / 2 = a - (m + U) / 2 by ring, show b - m - (U - m) / 2 = b - (m + U) / 2 by ring]
  rw [stripDens_esc hT ha hau hb hbu hbes, killDens_eq hT hm, mul_assoc, ← ENNReal.ofReal_mul (by linarith), sub_sub_cancel,
    mul_div_cancel₀ _ (by linarith)]

theorem stripSeries_limit (hT : 0 < T) (hm : m < min a b) (hU : max a b < U) :
    ∃ p, 0 < p ∧ p < 1 ∧ Tendsto (stripSeries U m T a b) atTop (𝓝 p) ∧
      p < Real.exp (-2 * (a - m) * (b - m) / T) + Real.exp (-2 * (U - a) * (U - b) / T) := by
  obtain ⟨h1, h2⟩ := strip_inside hm hU
  obtain ⟨p, p0, p1, hp, alt⟩ := C41_series hT h1 h2
  refine ⟨p, p0, p1, hp, (alt 0).2.trans_le (le_of_eq ?_)⟩
  simp only [brownSeries, partialSum, brownTerm, escUp]
  norm_num
  rw [add_comm]
  congr 2 <;> ring

theorem brownSeries_neg (T a b K : ℝ) : brownSeries T (-a) (-b) K = brownSeries T a b K := by
  unfold brownSeries
  congr 1
  funext i
  unfold brownTerm
  simp only [neg_neg]
  split_ifs <;> ring

theorem stripSeries_reflect (U m T a b : ℝ) : stripSeries (-m) (-U) T (-a) (-b) = stripSeries U m T a b := by
  unfold stripSeries
  rw [← brownSeries_neg]
  congr 1 <;> ring

theorem min_neg_max (a b : ℝ) : min (-a) (-b) = -max a b := by
  rcases le_total a b with h | h
  · rw [max_eq_right h, min_eq_right (by linarith)]
  · rw [max_eq_left h, min_eq_left (by linarith)]

theorem max_neg_min (a b : ℝ) : max (-a) (-b) = -min a b := by
  rcases le_total a b with h | h
  · rw [min_eq_left h, max_eq_left (by linarith)]
  · rw [min_eq_right h, max_eq_right (by linarith)]

/-- Reflection of the strip. -/
theorem stripDens_reflect (hT : 0 < T) (hm : m < min a b) (hU : max a b < U) : stripDens (-m) (-U) T (-a) (-b) = stripDens U m T a b := by
  obtain ⟨p, -, -, hp, -⟩ := stripSeries_limit hT hm hU
  rw [stripDens_stay hT hm hU hp, stripDens_stay (p := p) hT (by rw [min_neg_max]; linarith) (by rw [max_neg_min]; linarith)
    (by rw [stripSeries_reflect]; exact hp), show -b - -a = -(b - a) by ring, normDensR_even]

theorem stripDens_mono_left {m' : ℝ} (hT : 0 < T) (hm : m < min a b) (hU : max a b < U) (h : m' ≤ m) : stripDens U m T a b ≤ stripDens U m' T a b := by
  rw [← C95_split hT hm hU, ← C95_split hT (h.trans_lt hm) hU]
  exact lintegral_mono_set (Ioo_subset_Ioo_left h)

/-- A larger strip. -/
theorem stripDens_mono {m' U' : ℝ} (hT : 0 < T) (hm : m < min a b) (hU : max a b < U) (h : m' ≤ m) (h' : U ≤ U') :
    stripDens U m T a b ≤ stripDens U' m' T a b := by
  refine (stripDens_mono_left hT hm hU h).trans ?_
  have hm' := h.trans_lt hm
  rw [← stripDens_reflect hT hm' hU, ← stripDens_reflect hT hm' (hU.trans_le h')]
  exact stripDens_mono_left hT (by rw [min_neg_max]; linarith) (by rw [max_neg_min]; linarith) (by linarith)

theorem stripDens_sup_left {f : ℕ → ℝ} (hT : 0 < T) (hm : m < min a b) (hU : max a b < U) (hf : Antitone f) (hfm : ∀ k, m < f k)
    (hlim : Tendsto f atTop (𝓝 m)) (hf1 : ∀ k, f k < min a b) : ⨆ k, stripDens U (f k) T a b = stripDens U m T a b := by
  have e : ∀ k, stripDens U (f k) T a b = ∫⁻ u, (Ioo (f k) (min a b)).indicator
      (fun m' => ∫⁻ s in Ioo 0 T, 2 * (stripEntr U m' s a * stripEntr U m' (T - s) b)) u := fun k => by
    rw [lintegral_indicator measurableSet_Ioo, C95_split hT (hf1 k) hU]
  simp only [e]
  have hmeas : Measurable fun m' => ∫⁻ s in Ioo 0 T, 2 * (stripEntr U m' s a * stripEntr U m' (T - s) b) := by
    have hM := measurable_stripEntr U
    refine Measurable.lintegral_prod_right' (f := fun q : ℝ × ℝ => 2 * (stripEntr U q.1 q.2 a * stripEntr U q.1 (T - q.2) b)) ?_
    refine measurable_const.mul (Measurable.mul ?_ ?_)
    · exact hM.comp (measurable_fst.prodMk (measurable_snd.prodMk measurable_const))
    · exact hM.comp (measurable_fst.prodMk ((measurable_const.sub measurable_snd).prodMk measurable_const))
  rw [← lintegral_iSup (fun k => hmeas.indicator measurableSet_Ioo), ← C95_split hT hm hU, ← lintegral_indicator measurableSet_Ioo]
  · refine lintegral_congr fun u => ?_
    by_cases hu : u ∈ Ioo m (min a b)
    · rw [indicator_of_mem hu]
      obtain ⟨k, hk⟩ := (hlim.eventually (gt_mem_nhds hu.1)).exists
      refine le_antisymm (iSup_le fun j => indicator_le_self _ _ _) ?_
      refine le_iSup_of_le k ?_
      rw [indicator_of_mem (show u ∈ Ioo (f k) (min a b) from ⟨hk, hu.2⟩)]
    · rw [indicator_of_notMem hu]
      refine le_antisymm (iSup_le fun j => ?_) zero_le
      rw [indicator_of_notMem fun h => hu ⟨(hfm j).trans h.1, h.2⟩]
  · intro i j hij
    exact indicator_le_indicator_of_subset (Ioo_subset_Ioo_left (hf hij)) (fun _ => zero_le)

/-- Strips that grow to the strip between `m` and `U`. -/
theorem stripDens_sup {f g : ℕ → ℝ} (hT : 0 < T) (hm : m < min a b) (hU : max a b < U) (hf : Antitone f) (hfm : ∀ k, m < f k)
    (hlim : Tendsto f atTop (𝓝 m)) (hf1 : ∀ k, f k < min a b) (hg : Monotone g) (hgm : ∀ k, g k < U) (hglim : Tendsto g atTop (𝓝 U))
    (hg1 : ∀ k, max a b < g k) : ⨆ k, stripDens (g k) (f k) T a b = stripDens U m T a b := by
  refine le_antisymm (iSup_le fun k => stripDens_mono hT (hf1 k) (hg1 k) (hfm k).le (hgm k).le) ?_
  rw [← stripDens_sup_left hT hm hU hf hfm hlim hf1]
  refine iSup_le fun j => ?_
  have h := stripDens_sup_left (U := -(f j)) (m := -U) (a := -a) (b := -b) (f := fun k => -(g k)) hT (by rw [min_neg_max]; linarith)
    (by rw [max_neg_min]; linarith [hf1 j]) (fun i k h => neg_le_neg (hg h)) (fun k => neg_lt_neg (hgm k)) hglim.neg
    (fun k => by rw [min_neg_max]; linarith [hg1 k])
  rw [stripDens_reflect hT (hf1 j) hU] at h
  rw [← h]
  refine iSup_le fun k => ?_
  rw [stripDens_reflect hT (hf1 j) (hg1 k)]
  exact le_iSup_of_le (max j k) (stripDens_mono hT (hf1 j) (hg1 k) (hf (le_max_left j k)) (hg (le_max_right j k)))

end Ctb
