import Verif.Props.LayerProb

set_option linter.unusedSectionVars false

/-! # C79: the side of the anchor

`sample_anchor` draws on which side of the layer the bridge is anchored, the lower one with probability `p_lo / (p_lo + p_hi)`.  The two
probabilities agree for every layer and all bounds of the state space, finite or not: the edges are the quantiles of the same level of the
minimum and of the maximum conditioned on their own bound. -/

namespace Ctb

open Classical MeasureTheory Filter Topology
open scoped ENNReal NNReal

variable {T a b : ℝ} {lb ub : Option ℝ} {n F k : ℕ}

theorem edge_levels (hT : 0 < T) (hb : BoundsAround a b lb ub) {e : ℝ × ℝ} (he : computeEdges k T a b lb ub 2 = .ok e) :
    cdfMinBase T a b (some e.1) = 1 / ((k : ℝ) ^ 2 + 1) * (1 - cdfMinBase T a b lb) + cdfMinBase T a b lb ∧
      cdfMinBase T (-a) (-b) (some (-e.2)) = 1 / ((k : ℝ) ^ 2 + 1) * (1 - cdfMinBase T (-a) (-b) (ub.map Neg.neg)) + cdfMinBase T (-a) (-b) (ub.map Neg.neg) := by
  rcases Nat.eq_zero_or_pos k with rfl | hk
  · obtain ⟨f, hf, h0, -⟩ := C39_brackets (i := 0) (pow := 2) hT hb.1 hb.2
    rw [he] at hf
    cases hf
    have : e = (min a b, max a b) := by
      unfold computeEdges at he
      rw [if_neg (not_not.2 hT), if_neg (not_not.2 hb.1), if_neg (not_not.2 hb.2), if_pos rfl] at he
      cases he
      rfl
    subst this
    rw [cdfMinBase_top, ← min_neg_max, cdfMinBase_top]
    constructor <;> norm_num
  · exact edge_level hT hb hk he

theorem sector_level (hT : 0 < T) (hb : BoundsAround a b lb ub) (hk : 1 ≤ k) {e f : ℝ × ℝ} (he : computeEdges k T a b lb ub 2 = .ok e)
    (hf : computeEdges (k - 1) T a b lb ub 2 = .ok f) :
    ∃ p, 0 < p ∧ sectorProbs T a b (e.1, f.1) (f.2, e.2) = .ok (p, p) := by
  obtain ⟨b1, b2⟩ : e.1 < min a b ∧ max a b < e.2 := by
    obtain ⟨g, hg, -, -, -, -, -, -, h8⟩ := C39_brackets (i := k) (pow := 2) hT hb.1 hb.2
    rw [he] at hg
    cases hg
    exact h8 (by omega)
  obtain ⟨c1, c2⟩ := edge_levels hT hb he
  obtain ⟨d1, d2⟩ := edge_levels hT hb hf
  have hl : cdfMinBase T a b lb < 1 := by
    rw [← cdfMinBase_top (T := T) (a := a) (b := b)]
    exact cdfMinBase_lb_lt hT (hb.1) le_rfl
  have hu : cdfMinBase T (-a) (-b) (ub.map Neg.neg) < 1 := by
    rw [← cdfMinBase_top (T := T) (a := -a) (b := -b)]
    refine cdfMinBase_lb_lt hT (fun l h => ?_) le_rfl
    rcases ub with _ | u
    · cases h
    · rw [Option.map_some, Option.some.injEq] at h
      rw [← h, min_neg_max]
      linarith [hb.2 u rfl]
  set q : ℝ := 1 / ((k : ℝ) ^ 2 + 1) with hq
  set r : ℝ := 1 / (((k - 1 : ℕ) : ℝ) ^ 2 + 1) with hr
  have hk' : ((k - 1 : ℕ) : ℝ) = k - 1 := by rw [Nat.cast_sub hk, Nat.cast_one]
  have hk1 : (1 : ℝ) ≤ k := by exact_mod_cast hk
  have hqr : q < r := by
    rw [hq, hr, hk']
    exact one_div_lt_one_div_of_lt (by positivity) (by nlinarith)
  have hq1 : q < 1 := by
    rw [hq, div_lt_one (by positivity)]
    nlinarith
  refine ⟨(r - q) / (1 - q), div_pos (by linarith) (by linarith), ?_⟩
  have e1 : cdfBridgeMin (some f.1) T a b (some e.1) none = .ok ((r - q) / (1 - q)) := by
    rw [cdfBridgeMin_eq hT ⟨by simpa using b1, by simp⟩, Option.getD_none, cdfMinBase_top, c1, d1]
    congr 1
    rw [div_eq_div_iff (by nlinarith) (by linarith)]
    ring
  have sw : ∀ m : Option ℝ, cdfMinBase T (-b) (-a) m = cdfMinBase T (-a) (-b) m := by
    intro m
    have := cdfMinBase_shift (T := T) (a := -a) (b := -b) 0 m
    simpa using this
  have e2 : cdfBridgeMin (some (-f.2)) T (-b) (-a) (some (-e.2)) none = .ok ((r - q) / (1 - q)) := by
    rw [cdfBridgeMin_eq hT ⟨by rw [Option.getD_none, min_neg_max, max_comm]; simpa using b2, by simp⟩, Option.getD_none, cdfMinBase_top, sw, sw, c2, d2]
    congr 1
    rw [div_eq_div_iff (by nlinarith) (by linarith)]
    ring
  unfold sectorProbs
  simp only [e1, e2]

theorem layerSearch_ge {u : ℝ} {l : ℕ} (h : (layerSearch T a b lb ub u F k).Out (.ok l)) : k ≤ l := by
  induction F generalizing k with
  | zero => simp only [layerSearch] at h; cases h
  | succ F ih =>
    simp only [layerSearch, Prog.out_bind_ok] at h
    obtain ⟨e, -, esc, -, h⟩ := h
    split_ifs at h
    · have := ih h; omega
    · cases h; exact le_rfl

/-- **C79.** Given the layer, the anchor is on the lower and on the upper side with probability one half each. -/
theorem C79_sides (hT : 0 < T) (hb : BoundsAround a b lb ub) (z : Bool) (S : (ℝ × ℝ) × ℝ × ℝ → Prop) :
    (sampleAnchor n F T a b lb ub).prob (fun r => ∃ q, r = .ok q ∧ q.1 = z ∧ S q.2) =
      2⁻¹ * (sampleAnchor n F T a b lb ub).prob (fun r => ∃ q, r = .ok q ∧ S q.2) := by
  unfold Prog.prob
  rw [← Prog.lexp_const_mul _ _ (by simp)]
  unfold sampleAnchor
  simp only [Prog.assert, if_pos hT, Prog.ret_bind]
  rw [Prog.lexp_bind, Prog.lexp_bind]
  refine Prog.lexp_congr fun r hr => ?_
  rcases r with er | l
  · simp
  simp only [Prog.cont_ok]
  have hl : 1 ≤ l := by
    simp only [sampleLayer, Prog.out_bind_ok] at hr
    obtain ⟨_, -, u, -, hr⟩ := hr
    exact layerSearch_ge hr
  obtain ⟨e, he, -⟩ := C39_brackets (i := l) (pow := 2) hT hb.1 hb.2
  obtain ⟨f, hf, -⟩ := C39_brackets (i := l - 1) (pow := 2) hT hb.1 hb.2
  obtain ⟨p, hp, hs⟩ := sector_level hT hb hl he hf
  have h2 : p / (p + p) = 1 / 2 := by field_simp; norm_num
  simp only [he, hf, hs, Prog.lift, Prog.ret_bind, Prog.draw, Prog.real_bind, Prog.lexp_real, Prog.lexp_ret, h2]
  have hhalf : ENNReal.ofReal (1 / 2) = 2⁻¹ := by
    rw [ENNReal.ofReal_div_of_pos (by norm_num)]; simp
  by_cases hS : S ((e.1, f.1), f.2, e.2)
  · have hR : ∀ x : ℝ, (2⁻¹ : ℝ≥0∞) * (if ∃ q : Bool × (ℝ × ℝ) × ℝ × ℝ, (Except.ok (decide (x < 1 / 2), (e.1, f.1), f.2, e.2) : Res _) = .ok q ∧ S q.2 then 1 else 0) = 2⁻¹ := by
      intro x
      rw [if_pos ⟨_, rfl, hS⟩, mul_one]
    have hL : ∀ x : ℝ, (if ∃ q : Bool × (ℝ × ℝ) × ℝ × ℝ, (Except.ok (decide (x < 1 / 2), (e.1, f.1), f.2, e.2) : Res _) = .ok q ∧ q.1 = z ∧ S q.2 then (1 : ℝ≥0∞) else 0) =
        if x < 1 / 2 then (if z then 1 else 0) else (if z then 0 else 1) := by
      intro x
      have : (∃ q : Bool × (ℝ × ℝ) × ℝ × ℝ, (Except.ok (decide (x < 1 / 2), (e.1, f.1), f.2, e.2) : Res _) = .ok q ∧ q.1 = z ∧ S q.2) ↔ decide (x < 1 / 2) = z := by
        constructor
        · rintro ⟨q, h, h', -⟩
          cases h
          exact h'
        · exact fun h => ⟨_, rfl, h, hS⟩
      rw [if_congr this rfl rfl]
      by_cases hx : x < 1 / 2 <;> simp only [hx, decide_true, decide_false, if_true, if_false] <;> cases z <;> simp
    refine (lintegral_congr hL).trans ((lintegral_uniform_lt (by norm_num) (by norm_num) _ _).trans ?_)
    refine Eq.trans ?_ (lintegral_congr hR).symm
    rw [lintegral_uniform_const, show (1 : ℝ) - 1 / 2 = 1 / 2 by norm_num, hhalf]
    cases z <;> simp
  · have hR : ∀ x : ℝ, (2⁻¹ : ℝ≥0∞) * (if ∃ q : Bool × (ℝ × ℝ) × ℝ × ℝ, (Except.ok (decide (x < 1 / 2), (e.1, f.1), f.2, e.2) : Res _) = .ok q ∧ S q.2 then 1 else 0) = 0 := by
      intro x
      rw [if_neg, mul_zero]
      rintro ⟨q, h, h'⟩
      cases h
      exact hS h'
    have hL : ∀ x : ℝ, (if ∃ q : Bool × (ℝ × ℝ) × ℝ × ℝ, (Except.ok (decide (x < 1 / 2), (e.1, f.1), f.2, e.2) : Res _) = .ok q ∧ q.1 = z ∧ S q.2 then (1 : ℝ≥0∞) else 0) = 0 := by
      intro x
      rw [if_neg]
      rintro ⟨q, h, -, h'⟩
      cases h
      exact hS h'
    exact (lintegral_congr hL).trans (lintegral_congr hR).symm

/-- A box reaching further down than up. -/
example : (sampleAnchor 5 9 2 0 1 (some (-4)) (some (3 / 2))).prob (fun r => ∃ q, r = .ok q ∧ q.1 = true ∧ q.2.1.1 < -1) =
    2⁻¹ * (sampleAnchor 5 9 2 0 1 (some (-4)) (some (3 / 2))).prob (fun r => ∃ q, r = .ok q ∧ q.2.1.1 < -1) :=
  C79_sides (by norm_num) ⟨by norm_num, by norm_num⟩ true fun q => q.1.1 < -1

end Ctb
