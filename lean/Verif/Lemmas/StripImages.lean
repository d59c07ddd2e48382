import Verif.Spec.Strip
import Verif.Lemmas.LayerHalf
import Verif.Props.Escape

/-! # Image sums -/

set_option linter.unusedSectionVars false

namespace Ctb

open MeasureTheory Set Filter Topology
open scoped ENNReal

variable {U m v x y L : ℝ}

theorem passDens_odd (a v : ℝ) : passDens (-a) v = -passDens a v := by
  unfold passDens; rw [neg_sq]; ring

theorem normDensR_even (v a : ℝ) : normDensR v (-a) = normDensR v a := by
  unfold normDensR; rw [neg_sq]

theorem norm_images (hv : 0 < v) (hL : 0 < L) (d : ℝ) :
    HasSum (fun k : ℤ => normDensR v (d + 2 * k * L))
      (HurwitzZeta.evenKernel ((d / (2 * L) : ℝ) : UnitAddCircle) (2 * L ^ 2 / (Real.pi * v)) / Real.sqrt (2 * Real.pi * v)) := by
  have hpi := Real.pi_pos
  have h := (HurwitzZeta.hasSum_int_evenKernel (d / (2 * L)) (t := 2 * L ^ 2 / (Real.pi * v)) (by positivity)).div_const (Real.sqrt (2 * Real.pi * v))
  refine h.congr_fun fun k => ?_
  unfold normDensR
  congr 2
  field_simp
  ring

theorem norm_images_summable (hv : 0 < v) (hL : 0 < L) (d : ℝ) : Summable fun k : ℤ => normDensR v (d + 2 * k * L) := (norm_images hv hL d).summable

theorem pass_images_summable (hv : 0 < v) (hL : 0 < L) (d : ℝ) : Summable fun k : ℤ => passDens (d + 2 * k * L) v := by
  have hpi := Real.pi_pos
  have h := (HurwitzZeta.hasSum_int_oddKernel (d / (2 * L)) (x := 2 * L ^ 2 / (Real.pi * v)) (by positivity)).mul_left (2 * L / Real.sqrt (2 * Real.pi * v ^ 3))
  refine h.summable.congr fun k => ?_
  unfold passDens
  have e1 : -(d + 2 * (k : ℝ) * L) ^ 2 / (2 * v) = -Real.pi * ((k : ℝ) + d / (2 * L)) ^ 2 * (2 * L ^ 2 / (Real.pi * v)) := by
    field_simp
    ring
  rw [e1, div_mul_eq_mul_div, div_mul_eq_mul_div, ← mul_assoc]
  congr 2
  field_simp
  ring

/-- The entrance density of the strip is that of the half-line times the probability of no escape. -/
theorem stripEntr_esc (hv : 0 < v) (hm : m < y) (hU : y < U) {p : ℝ} (hp : Tendsto (besSeries v 0 (y - m) (U - m)) atTop (𝓝 p)) :
    stripEntr U m v y = entrDens m v y * ENNReal.ofReal (1 - p) := by
  have hb : 0 < y - m := sub_pos.2 hm
  have h := (C43_images hv hb (by linarith) hp).div_const (Real.sqrt (2 * Real.pi * v ^ 3))
  rw [stripEntr, if_pos ⟨hm, hU⟩, entrDens, if_pos hm, ← ENNReal.ofReal_mul (passDens_nonneg hb.le)]
  congr 1
  have e : (fun k : ℤ => passDens (y - m + 2 * k * (U - m)) v) = fun n : ℤ => (2 * (U - m) * n + (y - m)) * Real.exp (-(2 * (U - m) * n + (y - m)) ^ 2 / (2 * v)) / Real.sqrt (2 * Real.pi * v ^ 3) := by
    funext k
    unfold passDens
    rw [div_mul_eq_mul_div]
    ring_nf
  rw [e, h.tsum_eq]
  unfold passDens
  ring

/-- The kernel of the strip is that of the half-line times the probability of no escape. -/
theorem stripDens_esc (hv : 0 < v) (hx : m < x) (hxU : x < U) (hy : m < y) (hyU : y < U) {p : ℝ}
    (hp : Tendsto (besSeries v (x - m) (y - m) (U - m)) atTop (𝓝 p)) :
    stripDens U m v x y = killDens m v x y * ENNReal.ofReal (1 - p) := by
  have hL : 0 < U - m := by linarith
  have ha : 0 < x - m := sub_pos.2 hx
  have hb : 0 < y - m := sub_pos.2 hy
  have hpi := Real.pi_pos
  obtain ⟨q, hq⟩ := brownSeries_alt (T := v) (a := x - m - (U - m) / 2) (b := y - m - (U - m) / 2) (K := (U - m) / 2) hv
    (by rw [abs_lt]; constructor <;> linarith) (by rw [abs_lt]; constructor <;> linarith)
  have hq' := hq.1
  have hne : 1 - Real.exp (-2 * (x - m) * (y - m) / v) ≠ 0 := by
    have h1 : 0 < (x - m) * (y - m) := mul_pos ha hb
    have : 0 < 2 * ((x - m) * (y - m)) / v := by positivity
    have h2 : Real.exp (-2 * (x - m) * (y - m) / v) < 1 := by
      rw [Real.exp_lt_one_iff]
      have e : -2 * (x - m) * (y - m) / v = -(2 * ((x - m) * (y - m)) / v) := by ring
      rw [e]; linarith
    linarith
  have hpq : p = 1 - (1 - q) / (1 - Real.exp (-2 * (x - m) * (y - m) / v)) := by
    refine tendsto_nhds_unique hp ?_
    have := ((hq'.const_sub 1).div_const (1 - Real.exp (-2 * (x - m) * (y - m) / v))).const_sub 1
    refine this.congr fun i => ?_
    unfold besSeries
    rw [if_pos ha.ne']
  have hlim := strip_limit (a := x - m) (b := y - m) hv hL hq'
  rw [stripDens, if_pos ⟨hx, hxU, hy, hyU⟩, killDens_eq hv (lt_min hx hy), ← ENNReal.ofReal_mul (normDensR_gt hv _).le, ← ENNReal.ofReal_mul']
  swap
  · have := (C43_series hv ha.le hb (by linarith) (by linarith : y - m < U - m)).choose_spec
    rw [tendsto_nhds_unique hp this.2.2]
    linarith [this.2.1]
  congr 1
  have h1 := norm_images hv hL (x - y)
  have h2 := norm_images hv hL (x + y - 2 * m)
  have h4 : HasSum (fun k : ℤ => normDensR v (y - x + 2 * k * (U - m))) (HurwitzZeta.evenKernel (((x - y) / (2 * (U - m)) : ℝ) : UnitAddCircle) (2 * (U - m) ^ 2 / (Real.pi * v)) / Real.sqrt (2 * Real.pi * v)) := by
    have := (Equiv.neg ℤ).hasSum_iff.2 h1
    refine this.congr_fun fun k => ?_
    simp only [Function.comp, Equiv.neg_apply]
    rw [← normDensR_even]
    push_cast
    ring_nf
  rw [(h4.sub h2).tsum_eq, hpq, hlim]
  have e2 : x - m - (y - m) = x - y := by ring
  have e3 : x - m + (y - m) = x + y - 2 * m := by ring
  rw [e2, e3]
  have e4 : Real.exp ((x - y) ^ 2 / (2 * v)) * Real.exp (-(y - x) ^ 2 / (2 * v)) = 1 := by
    rw [← Real.exp_add, ← Real.exp_zero]; congr 1; ring
  generalize HurwitzZeta.evenKernel (((x - y) / (2 * (U - m)) : ℝ) : UnitAddCircle) (2 * (U - m) ^ 2 / (Real.pi * v)) = A
  generalize HurwitzZeta.evenKernel (((x + y - 2 * m) / (2 * (U - m)) : ℝ) : UnitAddCircle) (2 * (U - m) ^ 2 / (Real.pi * v)) = B
  have e5 : normDensR v (y - x) * (1 - Real.exp (-2 * (x - m) * (y - m) / v)) * (Real.exp ((x - y) ^ 2 / (2 * v)) * (A - B) / (1 - Real.exp (-2 * (x - m) * (y - m) / v))) =
      normDensR v (y - x) * (Real.exp ((x - y) ^ 2 / (2 * v)) * (A - B)) := by
    rw [mul_assoc, mul_div_cancel₀ _ hne]
  rw [_root_.sub_sub_cancel, _root_.sub_sub_cancel, e5, normDensR, div_mul_eq_mul_div, ← mul_assoc, mul_comm (Real.exp (-(y - x) ^ 2 / (2 * v))), e4, one_mul, sub_div]

end Ctb
