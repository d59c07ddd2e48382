import Verif.Spec.RawLaw
import Verif.Props.EscBounded
import Verif.Props.Layer
import Verif.Props.GridLimit

set_option linter.unusedSectionVars false

/-! # Layers of a bridge in an unbounded state space and the decisions in them -/

namespace Ctb

open Classical MeasureTheory Set Filter Topology
open scoped ENNReal

variable {T a b : ℝ} {k : ℕ}

theorem layerLow_symm (T a b : ℝ) (k : ℕ) : layerLow T b a k = layerLow T a b k := by
  unfold layerLow
  rw [show (a - b) ^ 2 = (b - a) ^ 2 by ring, add_comm b a]

theorem layerHigh_symm (T a b : ℝ) (k : ℕ) : layerHigh T b a k = layerHigh T a b k := by
  unfold layerHigh
  rw [layerLow_symm, add_comm b a]

theorem layerLow_zero (T a b : ℝ) : layerLow T a b 0 = min a b := by
  unfold layerLow
  simp only [Nat.cast_zero, ne_eq, OfNat.ofNat_ne_zero, not_false_eq_true, zero_pow, zero_add, Real.log_one, mul_zero, add_zero, Real.sqrt_sq_eq_abs]
  rcases le_total a b with h | h
  · rw [abs_of_nonneg (by linarith), min_eq_left h]; ring
  · rw [abs_of_nonpos (by linarith), min_eq_right h]; ring

theorem layerHigh_zero (T a b : ℝ) : layerHigh T a b 0 = max a b := by
  rw [layerHigh, layerLow_zero, ← min_add_max a b]
  ring

theorem layer_root (hT : 0 < T) (k : ℕ) : 0 ≤ (b - a) ^ 2 + 2 * T * Real.log ((k : ℝ) ^ 2 + 1) := by
  have : 0 ≤ Real.log ((k : ℝ) ^ 2 + 1) := Real.log_nonneg (by nlinarith [sq_nonneg (k : ℝ)])
  positivity

/-- The probability that the minimum is below the edge. -/
theorem layerLow_mul (hT : 0 < T) (k : ℕ) : (a - layerLow T a b k) * (b - layerLow T a b k) = T * Real.log ((k : ℝ) ^ 2 + 1) / 2 := by
  have := Real.sq_sqrt (layer_root (a := a) (b := b) hT k)
  unfold layerLow
  nlinarith

theorem layerLow_anti (hT : 0 < T) : StrictAnti (layerLow T a b) := by
  refine strictAnti_nat_of_succ_lt fun k => ?_
  unfold layerLow
  have : √((b - a) ^ 2 + 2 * T * Real.log ((k : ℝ) ^ 2 + 1)) < √((b - a) ^ 2 + 2 * T * Real.log (((k + 1 : ℕ) : ℝ) ^ 2 + 1)) := by
    refine Real.sqrt_lt_sqrt (layer_root hT k) ?_
    have : Real.log ((k : ℝ) ^ 2 + 1) < Real.log (((k + 1 : ℕ) : ℝ) ^ 2 + 1) := by
      refine Real.log_lt_log (by positivity) ?_
      push_cast
      nlinarith [(Nat.cast_nonneg k : (0 : ℝ) ≤ k)]
    nlinarith
  linarith

theorem layerHigh_mono (hT : 0 < T) : StrictMono (layerHigh T a b) := fun i j h => by
  unfold layerHigh
  linarith [layerLow_anti (a := a) (b := b) hT h]

theorem layerLow_le (hT : 0 < T) (k : ℕ) : layerLow T a b k ≤ min a b := by
  rw [← layerLow_zero T a b]
  exact (layerLow_anti hT).antitone (Nat.zero_le k)

theorem layerLow_lt (hT : 0 < T) (hk : 1 ≤ k) : layerLow T a b k < min a b := by
  rw [← layerLow_zero T a b]
  exact layerLow_anti hT (by omega)

theorem layerHigh_ge (hT : 0 < T) (k : ℕ) : max a b ≤ layerHigh T a b k := by
  rw [← layerHigh_zero T a b]
  exact (layerHigh_mono hT).monotone (Nat.zero_le k)

theorem layerHigh_gt (hT : 0 < T) (hk : 1 ≤ k) : max a b < layerHigh T a b k := by
  rw [← layerHigh_zero T a b]
  exact layerHigh_mono hT (by omega)

/-- `compute_edges` without bounds. -/
theorem computeEdges_free (hT : 0 < T) (k : ℕ) : computeEdges k T a b none none 2 = .ok (layerLow T a b k, layerHigh T a b k) := by
  rcases Nat.eq_zero_or_pos k with rfl | hk
  · rw [layerLow_zero, layerHigh_zero]
    exact C39_zero hT (by simp) (by simp)
  have p0 : (0 : ℝ) < 1 / ((k : ℝ) ^ 2 + 1) := by positivity
  have p1 : 1 / ((k : ℝ) ^ 2 + 1) ≤ 1 := (div_le_one (by positivity)).2 (by nlinarith [sq_nonneg (k : ℝ)])
  unfold computeEdges mirrorBound
  rw [if_neg (not_not.2 hT), if_neg (by simp), if_neg (by simp), if_neg (by omega)]
  simp only [Option.map_none]
  rw [ppfBridgeMin_eq ⟨p0.le, p1⟩ hT ⟨by simp, le_rfl⟩, ppfBridgeMin_eq ⟨p0.le, p1⟩ hT ⟨by simp, le_rfl⟩]
  simp only [Option.getD_none, cdfMinBase_top]
  simp only [cdfMinBase, sub_zero, mul_one, add_zero, ppfMinBase]
  rw [if_neg p0.ne', if_neg p0.ne']
  simp only [one_div, Real.log_inv, layerHigh, layerLow, Except.ok.injEq, Prod.mk.injEq]
  constructor
  · ring_nf
  · ring_nf

/-- `1 + 2 r < 2 ^ (1 + r)` -/
theorem two_pow_bound {r : ℝ} (hr : 0 ≤ r) : 1 + 2 * r < Real.exp (Real.log 2 * (1 + r)) := by
  have h1 := Real.log_two_gt_d9
  have h2 := Real.log_two_lt_d9
  have e : Real.exp (Real.log 2 * (1 + r)) = 4 * Real.exp ((r - 1) * Real.log 2) := by
    rw [show Real.log 2 * (1 + r) = Real.log 2 + Real.log 2 + (r - 1) * Real.log 2 by ring, Real.exp_add, Real.exp_add, Real.exp_log two_pos]
    ring
  rw [e]
  have := Real.add_one_le_exp ((r - 1) * Real.log 2)
  nlinarith

/-- Size 1 of the terms from 0 is small where the level is far. -/
theorem besSize_one_lt {v x B : ℝ} (hv : 0 < v) (hx : 0 < x) (hB : x < B) (h : v * Real.log 2 ≤ 2 * (x * (B - x))) : besSize v x B 1 < 1 := by
  have hr : 0 < (B - x) / x := div_pos (by linarith) hx
  have e : besSize v x B 1 = (1 + 2 * ((B - x) / x)) * Real.exp (-(2 * B * (B - x) / v)) := by
    simp only [besSize, besInc, Nat.one_mod, if_true]
    norm_num
    field_simp
    ring_nf
  rw [e, Real.exp_neg, ← div_eq_mul_inv, div_lt_one (Real.exp_pos _)]
  refine (two_pow_bound hr.le).trans_le (Real.exp_le_exp.2 ?_)
  rw [le_div_iff₀ hv]
  have e2 : B = x * (1 + (B - x) / x) := by field_simp; ring
  have : 2 * B * (B - x) = 2 * (x * (B - x)) * (1 + (B - x) / x) := by
    nth_rw 1 [e2]; ring
  rw [this]
  nlinarith

theorem bes_three_lt {v x B : ℝ} (hv : 0 < v) (hx : 0 < x) (hB : x < B) (hs : v < 3 * B ^ 2) (h : v * Real.log 2 ≤ 2 * (x * (B - x))) : besSeries v 0 x B 3 < 1 := by
  have e : besSeries v 0 x B = partialSum (besTerm v x B) := by funext i; unfold besSeries; simp
  have hpos := besSize_pos hv hx hB
  have h23 : besSize v x B 3 < besSize v x B 2 := by
    refine besSize_anti hv hx hB (m := 2) ?_ le_rfl
    rw [Real.sqrt_le_left (besY_pos hx hB 2).le]
    simp only [besY]
    norm_num
    nlinarith
  have h1 := besSize_one_lt hv hx hB h
  rw [e]
  simp only [partialSum, besTerm_sign]
  norm_num
  linarith [hpos 1, hpos 2, hpos 3]

/-- The conditions under which the bounded decision is exact hold for the minima of the sectors. -/
theorem sector_far (hT : 0 < T) (hk : 1 ≤ k) {s m : ℝ} (hs : 0 < s) (hsT : s ≤ T) (hm : layerLow T a b (k + 1) ≤ m) (hm' : m < layerLow T a b k) :
    s < 3 * (layerHigh T a b k - m) ^ 2 ∧ besSeries s 0 (a - m) (layerHigh T a b (k + 1) - m) 3 < 1 := by
  obtain ⟨l1, l2⟩ := lt_min_iff.1 (layerLow_lt (a := a) (b := b) hT hk)
  obtain ⟨u1, u2⟩ := max_lt_iff.1 (layerHigh_gt (a := a) (b := b) hT hk)
  have hlog : 0.69 < Real.log 2 := by have := Real.log_two_gt_d9; linarith
  have hk2 : Real.log 2 ≤ Real.log ((k : ℝ) ^ 2 + 1) := by
    refine Real.log_le_log two_pos ?_
    have : (1 : ℝ) ≤ k := by exact_mod_cast hk
    nlinarith
  have hmul := layerLow_mul (a := a) (b := b) hT k
  have hprod : T * Real.log 2 ≤ 2 * ((a - m) * (b - m)) := by
    have h1 : T * Real.log 2 ≤ T * Real.log ((k : ℝ) ^ 2 + 1) := mul_le_mul_of_nonneg_left hk2 hT.le
    have h2 : (a - layerLow T a b k) * (b - layerLow T a b k) ≤ (a - m) * (b - m) :=
      mul_le_mul (by linarith) (by linarith) (by linarith) (by linarith)
    linarith
  have hmono := layerHigh_mono (a := a) (b := b) hT (Nat.lt_succ_self k)
  have c1 : s < 3 * (layerHigh T a b k - m) ^ 2 := by
    have : layerHigh T a b k - m > (a - m) ∧ layerHigh T a b k - m > (b - m) := ⟨by linarith, by linarith⟩
    have : (a - m) * (b - m) < (layerHigh T a b k - m) ^ 2 := by
      rw [sq]
      exact mul_lt_mul'' this.1 this.2 (by linarith) (by linarith)
    nlinarith
  refine ⟨c1, bes_three_lt hs (by linarith) (by simp only [Nat.succ_eq_add_one] at hmono; linarith) (c1.trans_le ?_) ?_⟩
  · have : layerHigh T a b k - m ≤ layerHigh T a b (k + 1) - m := by simp only [Nat.succ_eq_add_one] at hmono; linarith
    nlinarith
  · have h1 : b - m ≤ layerHigh T a b (k + 1) - m - (a - m) := by unfold layerHigh; linarith
    have h2 : (a - m) * (b - m) ≤ (a - m) * (layerHigh T a b (k + 1) - m - (a - m)) := mul_le_mul_of_nonneg_left h1 (by linarith)
    nlinarith

/-! ## The entrance density and the level -/

theorem startInt_mono {e : ℝ → ℝ → ℝ≥0∞} {K : ℝ → ℝ → ℝ → ℝ≥0∞} (x1 : ℝ) (vs : List ℝ) {F G : List ℝ → ℝ≥0∞} (h : ∀ l, F l ≤ G l) :
    startInt e K x1 vs F ≤ startInt e K x1 vs G := by
  match vs with
  | [] => exact le_rfl
  | [v] => simp only [startInt]; gcongr; exact h _
  | v :: w :: vs =>
    simp only [startInt]
    refine lintegral_mono fun y => ?_
    gcongr
    exact kerInt_mono _ _ _ fun l => h _

theorem stripEntr_mono {U U' m v y : ℝ} (hv : 0 < v) (h : U ≤ U') : stripEntr U m v y ≤ stripEntr U' m v y := by
  by_cases hy : m < y ∧ y < U
  · have hg : FineGrids v fun n => List.replicate (n + 2) (v / (n + 2 : ℕ)) := C110_equal hv
    refine le_of_tendsto_of_tendsto' (edge_grid hy.1 hy.2 hg) (edge_grid hy.1 (hy.2.trans_le h) hg) fun n => ?_
    refine startInt_mono _ _ fun l => ?_
    unfold allIn
    split_ifs with h1 h2
    · exact le_rfl
    · exact absurd (fun y hy => (h1 y hy).trans_le h) h2
    · exact zero_le
    · exact le_rfl
  · rw [stripEntr, if_neg hy]
    exact zero_le

/-- The decision with both levels, at a side of the minimum of a sector. -/
theorem sector_decide (hT : 0 < T) (hk : 1 ≤ k) {s m : ℝ} (hs : 0 < s) (hsT : s ≤ T) (hm : layerLow T a b (k + 1) ≤ m) (hm' : m < layerLow T a b k)
    (g : Res Bool → ℝ≥0∞) :
    stripEntr (layerHigh T a b (k + 1)) m s a * (besEsc s 0 (a - m) (layerHigh T a b k - m) (some (layerHigh T a b (k + 1) - m)) none).lexp g =
      ∑ f : Bool, passEntr (layerHigh T a b (k + 1)) (layerHigh T a b k) m s a f * g (.ok f) := by
  obtain ⟨l1, l2⟩ := lt_min_iff.1 (layerLow_lt (a := a) (b := b) hT hk)
  obtain ⟨u1, u2⟩ := max_lt_iff.1 (layerHigh_gt (a := a) (b := b) hT hk)
  have hmono := layerHigh_mono (a := a) (b := b) hT (Nat.lt_succ_self k)
  rw [Nat.succ_eq_add_one] at hmono
  obtain ⟨h1, h2⟩ := sector_far hT hk hs hsT hm hm'
  generalize layerHigh T a b (k + 1) = U at *
  generalize layerHigh T a b k = H at *
  have hma : m < a := hm'.trans l1
  obtain ⟨p, p0, p1, hp⟩ := C43_series hs le_rfl (sub_pos.2 hma) (by linarith : (0 : ℝ) < H - m) (by linarith : a - m < H - m)
  obtain ⟨q, q0, q1, hq⟩ := C43_series hs le_rfl (sub_pos.2 hma) (by linarith : (0 : ℝ) < U - m) (by linarith : a - m < U - m)
  have eH := stripEntr_esc hs hma u1 hp
  have eU := stripEntr_esc hs hma (u1.trans hmono) hq
  obtain ⟨d0, d1⟩ := entrDens_pos hs hma
  have hpq : q ≤ p := by
    have := stripEntr_mono (m := m) (y := a) hs hmono.le
    rw [eH, eU, ENNReal.mul_le_mul_iff_right d0 d1, ENNReal.ofReal_le_ofReal_iff (by linarith)] at this
    linarith
  obtain ⟨-, -, i0, hA, hu⟩ := bes_bounded_search hs le_rfl (sub_pos.2 hma) (by linarith : (0 : ℝ) < H - m) (by linarith : a - m < H - m) (by linarith : H - m ≤ U - m) (Or.inr h1) hp hq h2
  have c0 : 0 ≤ 1 - (1 - p) / (1 - q) := by
    rw [sub_nonneg, div_le_one (by linarith)]; linarith
  have c1 : 1 - (1 - p) / (1 - q) ≤ 1 := by
    have := div_nonneg (sub_nonneg.2 p1.le) (sub_nonneg.2 q1.le)
    linarith
  have e : (besEsc s 0 (a - m) (H - m) (some (U - m)) none).lexp g =
      ENNReal.ofReal (1 - (1 - p) / (1 - q)) * g (.ok true) + ENNReal.ofReal (1 - (1 - (1 - p) / (1 - q))) * g (.ok false) := by
    simp only [besEsc, Prog.draw, Prog.real_bind, Prog.ret_bind, Prog.lexp_real]
    refine unif_decide c0 c1 (fun u h0 h1 h => ?_) (fun u h0 h1 h => ?_)
    · rw [hu u h0 h1.le, escSearch_true hA h]; simp [searchResult]
    · rw [hu u h0 h1.le, escSearch_false hA h]; simp [searchResult]
  rw [e, mul_add, ← mul_assoc, ← mul_assoc, Fintype.sum_bool]
  have f0 : stripEntr U m s a * ENNReal.ofReal (1 - (1 - (1 - p) / (1 - q))) = stripEntr H m s a := by
    rw [eH, eU, mul_assoc, ← ENNReal.ofReal_mul (by linarith)]
    congr 2
    have : 1 - q ≠ 0 := by linarith
    field_simp
    ring
  have f1 : stripEntr U m s a * ENNReal.ofReal (1 - (1 - p) / (1 - q)) = stripEntr U m s a - stripEntr H m s a := by
    rw [← f0, sub_sub_cancel, ENNReal.ofReal_sub _ (by linarith), ENNReal.ofReal_one, ENNReal.mul_sub, mul_one]
    intro _ _
    exact (stripEntr_pos hs hma (u1.trans hmono)).2
  rw [f0, f1]
  simp [passEntr]

end Ctb
