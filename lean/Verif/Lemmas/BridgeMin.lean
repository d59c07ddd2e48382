import Verif.Model.Hitting
import Mathlib.Analysis.SpecialFunctions.Exp

set_option linter.unusedSectionVars false

/-! # Lemmas on the distribution of the minimum of a bridge -/

namespace Ctb

open Classical

variable {T a b : ℝ}

theorem cdfMinBase_eq {m : ℝ} (h : m ≤ min a b) : cdfMinBase T a b (some m) = Real.exp (-2 * (a - m) * (b - m) / T) := by
  simp only [cdfMinBase]
  by_cases h1 : m < min a b
  · rw [if_pos h1]
  · rw [if_neg h1]
    have : m = min a b := le_antisymm h (not_lt.1 h1)
    rcases min_choice a b with h2 | h2 <;> rw [h2] at this <;> subst this <;> simp

theorem cdfMinBase_pos (m : ℝ) : 0 < cdfMinBase T a b (some m) := by
  simp only [cdfMinBase]
  split_ifs
  · exact Real.exp_pos _
  · exact one_pos

theorem cdfMinBase_lt (hT : 0 < T) {m m' : ℝ} (h : m < m') (h' : m' ≤ min a b) :
    cdfMinBase T a b (some m) < cdfMinBase T a b (some m') := by
  rw [cdfMinBase_eq (h.le.trans h'), cdfMinBase_eq h', Real.exp_lt_exp, div_lt_div_iff_of_pos_right hT]
  have h1 := h'.trans (min_le_left _ _)
  have h2 := h'.trans (min_le_right _ _)
  nlinarith

theorem cdfMinBase_top : cdfMinBase T a b (some (min a b)) = 1 := by
  simp only [cdfMinBase]
  rw [if_neg (lt_irrefl _)]

theorem cdfMinBase_le_one (hT : 0 < T) {m : ℝ} (h : m ≤ min a b) : cdfMinBase T a b (some m) ≤ 1 := by
  rcases h.eq_or_lt with h | h
  · rw [h, cdfMinBase_top]
  · rw [← cdfMinBase_top (T := T) (a := a) (b := b)]
    exact (cdfMinBase_lt hT h le_rfl).le

/-- The quantile function on `(0, 1]`. -/
theorem ppfMinBase_spec (hT : 0 < T) {p : ℝ} (h0 : 0 < p) (h1 : p ≤ 1) :
    ∃ m, ppfMinBase T a b p = some m ∧ m ≤ min a b ∧ cdfMinBase T a b (some m) = p := by
  unfold ppfMinBase
  rw [if_neg h0.ne']
  have hl : Real.log p ≤ 0 := Real.log_nonpos h0.le h1
  have hD : 0 ≤ (b - a) ^ 2 - 2 * T * Real.log p := by nlinarith [sq_nonneg (b - a)]
  have hs : |b - a| ≤ √((b - a) ^ 2 - 2 * T * Real.log p) := by
    rw [← Real.sqrt_sq_eq_abs]
    exact Real.sqrt_le_sqrt (by nlinarith)
  have hsq := Real.sq_sqrt hD
  have hm : (b + a - √((b - a) ^ 2 - 2 * T * Real.log p)) / 2 ≤ min a b := by
    obtain ⟨q1, q2⟩ := abs_le.1 hs
    rw [le_min_iff]
    constructor <;> linarith
  refine ⟨_, rfl, hm, ?_⟩
  rw [cdfMinBase_eq hm]
  set S := √((b - a) ^ 2 - 2 * T * Real.log p)
  rw [show -2 * (a - (b + a - S) / 2) * (b - (b + a - S) / 2) / T = Real.log p by
    field_simp
    nlinarith]
  exact Real.exp_log h0

theorem cdfMinBase_inj (hT : 0 < T) {m m' : ℝ} (h : m ≤ min a b) (h' : m' ≤ min a b)
    (e : cdfMinBase T a b (some m) = cdfMinBase T a b (some m')) : m = m' := by
  rcases lt_trichotomy m m' with q | q | q
  · exact absurd e (cdfMinBase_lt hT q h').ne
  · exact q
  · exact absurd e (cdfMinBase_lt hT q h).ne'

theorem cdfMinBase_lt_iff (hT : 0 < T) {m m' : ℝ} (h : m ≤ min a b) (h' : m' ≤ min a b) :
    cdfMinBase T a b (some m) < cdfMinBase T a b (some m') ↔ m < m' := by
  constructor
  · intro e
    by_contra q
    rcases (not_lt.1 q).eq_or_lt with q | q
    · rw [q] at e; exact lt_irrefl _ e
    · exact absurd e (cdfMinBase_lt hT q h).le.not_gt
  · exact fun q => cdfMinBase_lt hT q h'

/-- The level `lb` has smaller probability than any level above it. -/
theorem cdfMinBase_lb_lt (hT : 0 < T) {lb : Option ℝ} {m : ℝ} (h : ∀ l, lb = some l → l < m) (hm : m ≤ min a b) :
    cdfMinBase T a b lb < cdfMinBase T a b (some m) := by
  rcases lb with _ | l
  · exact cdfMinBase_pos m
  · exact cdfMinBase_lt hT (h l rfl) hm

theorem cdfMinBase_lb_le (hT : 0 < T) {lb : Option ℝ} {m : ℝ} (h : ∀ l, lb = some l → l ≤ m) (hm : m ≤ min a b) :
    cdfMinBase T a b lb ≤ cdfMinBase T a b (some m) := by
  rcases lb with _ | l
  · exact (cdfMinBase_pos m).le
  · rcases (h l rfl).eq_or_lt with q | q
    · rw [q]
    · exact (cdfMinBase_lt hT q hm).le

theorem cdfMinBase_lb_nonneg (lb : Option ℝ) : 0 ≤ cdfMinBase T a b lb := by
  rcases lb with _ | l
  · exact le_rfl
  · exact (cdfMinBase_pos l).le

/-- Both functions in one formula (the unbounded case is the same formula with `cdf_lb = 0`, `cdf_ub = 1`). -/
theorem cdfBridgeMin_eq {m : Option ℝ} {lb ub : Option ℝ} (hT : 0 < T) (hb : MinBoundsOk a b lb (ub.getD (min a b))) :
    cdfBridgeMin m T a b lb ub = .ok ((cdfMinBase T a b m - cdfMinBase T a b lb) /
      (cdfMinBase T a b (some (ub.getD (min a b))) - cdfMinBase T a b lb)) := by
  unfold cdfBridgeMin
  rw [if_neg (not_not.2 hT), if_neg (not_not.2 hb)]
  split_ifs with h
  · rw [h.1, h.2, cdfMinBase_top]
    simp [cdfMinBase]
  · rfl

theorem ppfBridgeMin_eq {p : ℝ} {lb ub : Option ℝ} (hp : 0 ≤ p ∧ p ≤ 1) (hT : 0 < T) (hb : MinBoundsOk a b lb (ub.getD (min a b))) :
    ppfBridgeMin p T a b lb ub = .ok (ppfMinBase T a b
      (p * (cdfMinBase T a b (some (ub.getD (min a b))) - cdfMinBase T a b lb) + cdfMinBase T a b lb)) := by
  unfold ppfBridgeMin
  rw [if_neg (not_not.2 hp), if_neg (not_not.2 hT), if_neg (not_not.2 hb)]
  split_ifs with h
  · rw [h.1, h.2, cdfMinBase_top]
    simp [cdfMinBase]
  · rfl

/-- What `ppf` returns for `0 ≤ p ≤ 1`. -/
theorem ppfBridgeMin_spec {p : ℝ} {lb ub : Option ℝ} (h0 : 0 ≤ p) (h1 : p ≤ 1) (hT : 0 < T) (hb : MinBoundsOk a b lb (ub.getD (min a b)))
    (hz : p = 0 → lb ≠ none) :
    ∃ m, ppfBridgeMin p T a b lb ub = .ok (some m) ∧ m ≤ ub.getD (min a b) ∧ (∀ l, lb = some l → l ≤ m) ∧
      (p < 1 → m < ub.getD (min a b)) ∧ (0 < p → ∀ l, lb = some l → l < m) ∧
      cdfMinBase T a b (some m) = p * (cdfMinBase T a b (some (ub.getD (min a b))) - cdfMinBase T a b lb) + cdfMinBase T a b lb := by
  rw [ppfBridgeMin_eq ⟨h0, h1⟩ hT hb]
  set U := ub.getD (min a b)
  have hU : U ≤ min a b := hb.2
  have d : cdfMinBase T a b lb < cdfMinBase T a b (some U) := cdfMinBase_lb_lt hT hb.1 hU
  have n := cdfMinBase_lb_nonneg (T := T) (a := a) (b := b) lb
  have u1 := cdfMinBase_le_one hT hU
  set q := p * (cdfMinBase T a b (some U) - cdfMinBase T a b lb) + cdfMinBase T a b lb with hq
  have q0 : 0 < q := by
    rcases h0.eq_or_lt with e | e
    · rcases hlb : lb with _ | l
      · exact absurd hlb (hz e.symm)
      · have := cdfMinBase_pos (T := T) (a := a) (b := b) l
        rw [hq, ← e, hlb]; simpa using this
    · have := mul_pos e (sub_pos.2 d); linarith
  have qU : q ≤ cdfMinBase T a b (some U) := by nlinarith
  obtain ⟨m, e1, e2, e3⟩ := ppfMinBase_spec (a := a) (b := b) hT q0 (qU.trans u1)
  refine ⟨m, by rw [e1], ?_, ?_, ?_, ?_, e3⟩
  · by_contra hc
    exact absurd (cdfMinBase_lt hT (not_le.1 hc) e2) (by rw [e3]; exact qU.not_gt)
  · intro l hl
    by_contra hc
    have := cdfMinBase_lt hT (not_le.1 hc) ((hb.1 l hl).le.trans hU)
    rw [e3, hq, hl] at this
    rw [hl] at d
    nlinarith [mul_nonneg h0 (sub_pos.2 d).le]
  · intro hp
    by_contra hc
    have hm : U ≤ m := not_lt.1 hc
    have : q < cdfMinBase T a b (some U) := by nlinarith
    rcases hm.eq_or_lt with e | e
    · rw [← e] at e3; linarith
    · have := cdfMinBase_lt hT e e2; linarith
  · intro hp l hl
    rw [← cdfMinBase_lt_iff hT ((hb.1 l hl).le.trans hU) e2, e3, hq, hl]
    rw [hl] at d
    nlinarith [mul_pos hp (sub_pos.2 d)]

theorem cdfMinBase_shift (c : ℝ) (m : Option ℝ) : cdfMinBase T (b + c) (a + c) (m.map (· + c)) = cdfMinBase T a b m := by
  rcases m with _ | m
  · rfl
  · simp only [cdfMinBase, Option.map_some]
    rw [min_comm, min_add_add_right]
    simp only [add_lt_add_iff_right]
    split_ifs
    · congr 2; ring
    · rfl

theorem ppfMinBase_shift (c p : ℝ) : ppfMinBase T (b + c) (a + c) p = (ppfMinBase T a b p).map (· + c) := by
  unfold ppfMinBase
  split_ifs
  · rfl
  · simp only [Option.map_some, Option.some.injEq]
    rw [show (a + c - (b + c)) ^ 2 = (b - a) ^ 2 by ring]
    ring

/-- Translating a bridge and exchanging its ends. -/
theorem ppfBridgeMin_shift (c p : ℝ) (lb : Option ℝ) :
    ppfBridgeMin p T (b + c) (a + c) (lb.map (· + c)) none = (ppfBridgeMin p T a b lb none).map (Option.map (· + c)) := by
  have hmin : min (b + c) (a + c) = min a b + c := by rw [min_comm, min_add_add_right]
  have e : MinBoundsOk (b + c) (a + c) (lb.map (· + c)) (min (b + c) (a + c)) ↔ MinBoundsOk a b lb (min a b) := by
    unfold MinBoundsOk
    rw [hmin]
    rcases lb with _ | l <;> simp
  have e2 : lb.map (· + c) = none ↔ lb = none := by simp
  unfold ppfBridgeMin
  simp only [Option.getD_none, e, e2, ppfMinBase_shift, cdfMinBase_shift]
  have e3 : cdfMinBase T (b + c) (a + c) (some (min (b + c) (a + c))) = cdfMinBase T a b (some (min a b)) := by
    rw [hmin]; exact cdfMinBase_shift c (some (min a b))
  rw [e3]
  simp only [and_true]
  split_ifs <;> rfl

end Ctb
