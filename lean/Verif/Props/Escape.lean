import Verif.Lemmas.EscDecide

set_option linter.unusedSectionVars false

/-! # C41-C43, C78: escape decisions

`T` is `fin_t`, `a` is `init_x`, `b` is `fin_x`, `K` is `ue_x`, `B` is `ub_x`. -/

namespace Ctb

open Classical Filter Topology MeasureTheory ENNReal

variable {T a b K p u : ℝ}

/-! ## C41 -/

/-- The series converges to a number in `(0, 1)`, from below at even indices and from above at odd ones. -/
theorem C41_series (hT : 0 < T) (ha : |a| < K) (hb : |b| < K) :
    ∃ p, 0 < p ∧ p < 1 ∧ Tendsto (brownSeries T a b K) atTop (𝓝 p) ∧
      ∀ i, brownSeries T a b K (2 * i) < p ∧ p < brownSeries T a b K (2 * i + 1) := by
  obtain ⟨p, hp⟩ := brownSeries_alt hT ha hb
  have key : ∀ i, brownSeries T a b K (2 * i) < p ∧ p < brownSeries T a b K (2 * i + 1) := by
    intro i
    have e := (hp.2 (2 * i + 2) (by omega)).1 (by omega)
    have o := (hp.2 (2 * i + 3) (by omega)).2 (by omega)
    unfold brownSeries at *
    simp only [partialSum, brownTerm_sign] at *
    rw [Even.neg_one_pow (by rw [Nat.even_iff]; omega), Odd.neg_one_pow (by rw [Nat.odd_iff]; omega)] at *
    have h1 := brownSize_lt hT ha hb (i := 2 * i + 1) (by omega)
    have h2 := brownSize_lt hT ha hb (i := 2 * i + 2) (by omega)
    rw [Even.neg_one_pow (by rw [Nat.even_iff]; omega)] at o
    constructor
    · linarith
    · linarith
  exact ⟨p, by simpa [brownSeries, partialSum] using (key 0).1, brownSeries_lt_one hT ha hb hp.1, hp.1, key⟩

/-- The limit is the escape probability of the Brownian bridge, in the form given by the method of images. -/
theorem C41_images (hT : 0 < T) (ha : |a| < K) (hb : |b| < K) (hp : Tendsto (brownSeries T a b K) atTop (𝓝 p)) :
    HasSum (fun n : ℤ => Real.exp (-(4 * K * n + (a - b)) ^ 2 / (2 * T)) - Real.exp (-(4 * K * n + 2 * K - (a + b)) ^ 2 / (2 * T)))
      ((1 - p) * Real.exp (-(a - b) ^ 2 / (2 * T))) := by
  have hK : 0 < K := (abs_nonneg a).trans_lt ha
  have hpi := Real.pi_pos
  have hx : 0 < 8 * K ^ 2 / (Real.pi * T) := by positivity
  have h := (HurwitzZeta.hasSum_int_evenKernel ((a - b) / (4 * K)) hx).sub (HurwitzZeta.hasSum_int_evenKernel (1 / 2 - (a + b) / (4 * K)) hx)
  have e : (1 - p) * Real.exp (-(a - b) ^ 2 / (2 * T)) =
      HurwitzZeta.evenKernel (((a - b) / (4 * K) : ℝ) : UnitAddCircle) (8 * K ^ 2 / (Real.pi * T)) -
        HurwitzZeta.evenKernel ((1 / 2 - (a + b) / (4 * K) : ℝ) : UnitAddCircle) (8 * K ^ 2 / (Real.pi * T)) := by
    rw [brownSeries_limit hT hK hp, _root_.sub_sub_cancel, mul_right_comm, ← Real.exp_add,
      show (a - b) ^ 2 / (2 * T) + -(a - b) ^ 2 / (2 * T) = 0 by ring, Real.exp_zero, one_mul]
  rw [e]
  refine h.congr_fun fun n => ?_
  have e1 : -(4 * K * (n : ℝ) + (a - b)) ^ 2 / (2 * T) = -Real.pi * ((n : ℝ) + (a - b) / (4 * K)) ^ 2 * (8 * K ^ 2 / (Real.pi * T)) := by
    field_simp; ring
  have e2 : -(4 * K * (n : ℝ) + 2 * K - (a + b)) ^ 2 / (2 * T) =
      -Real.pi * ((n : ℝ) + (1 / 2 - (a + b) / (4 * K))) ^ 2 * (8 * K ^ 2 / (Real.pi * T)) := by
    field_simp; ring
  rw [e1, e2]

theorem brownEscSeeded_eq {B : Option ℝ} (hT : 0 < T) (ha : |a| < K) (hb : |b| < K) (hB : ∀ B', B = some B' → K ≤ B') (h0 : 0 ≤ u) (h1 : u ≤ 1) :
    brownEscSeeded T a b K B u = searchResult (escSearch (brownEscSeries T a b K B) u 1) := by
  unfold brownEscSeeded Prog.assert
  rw [if_pos hT, if_pos ⟨h0, h1⟩]
  simp only [Prog.ret_bind]
  rw [if_neg (by rw [not_le]; exact max_lt ha hb), if_neg]
  rintro ⟨B', e, h⟩
  exact absurd h (not_lt.2 (hB B' e))

/-- Whether the search says `True` or `False` is decided by comparing the seed with the limit; the seed equal to the limit searches forever. -/
theorem C41_decision (hT : 0 < T) (ha : |a| < K) (hb : |b| < K) (hp : Tendsto (brownSeries T a b K) atTop (𝓝 p)) (h0 : 0 ≤ u) (h1 : u ≤ 1)
    (r : Res Bool) :
    (u < p → ((brownEsc T a b K none (some u)).Out r ↔ r = .ok true)) ∧ (p < u → ((brownEsc T a b K none (some u)).Out r ↔ r = .ok false)) ∧
      (u = p → ((brownEsc T a b K none (some u)).Out r ↔ r = .error .fuel)) := by
  obtain ⟨p', hp'⟩ := brownSeries_alt hT ha hb
  obtain rfl := tendsto_nhds_unique hp hp'.1
  have hA := hp'.mono (Nat.zero_le 1)
  simp only [brownEsc]
  rw [brownEscSeeded_eq hT ha hb (by simp) h0 h1, brownEscSeries]
  refine ⟨fun h => ?_, fun h => ?_, fun h => ?_⟩
  · rw [escSearch_true hA h]; rfl
  · rw [escSearch_false hA h]; rfl
  · rw [h, escSearch_none hA]; rfl

/-- With its own uniform seed, the sampler says `True` with probability `p`, else `False`. -/
theorem C41_prob (hT : 0 < T) (ha : |a| < K) (hb : |b| < K) (hp : Tendsto (brownSeries T a b K) atTop (𝓝 p)) :
    (brownEsc T a b K none none).prob (fun r => r = .ok true) = ENNReal.ofReal p ∧
      (brownEsc T a b K none none).prob (fun r => r = .ok false) = ENNReal.ofReal (1 - p) := by
  obtain ⟨p', hp0, hp1, hp', -⟩ := C41_series hT ha hb
  obtain rfl := tendsto_nhds_unique hp hp'
  obtain ⟨p', hp'⟩ := brownSeries_alt hT ha hb
  obtain rfl := tendsto_nhds_unique hp hp'.1
  have hA := hp'.mono (Nat.zero_le 1)
  unfold Prog.prob
  simp only [brownEsc, Prog.draw, Prog.real_bind, Prog.ret_bind, Prog.lexp_real]
  constructor
  · rw [unif_decide (A := 1) (B := 0) hp0.le hp1.le (fun u h0 h1 h => ?_) (fun u h0 h1 h => ?_)]
    · simp
    · rw [brownEscSeeded_eq hT ha hb (by simp) h0 h1.le, brownEscSeries, escSearch_true hA h]; simp [searchResult]
    · rw [brownEscSeeded_eq hT ha hb (by simp) h0 h1.le, brownEscSeries, escSearch_false hA h]; simp [searchResult]
  · rw [unif_decide (A := 0) (B := 1) hp0.le hp1.le (fun u h0 h1 h => ?_) (fun u h0 h1 h => ?_)]
    · simp
    · rw [brownEscSeeded_eq hT ha hb (by simp) h0 h1.le, brownEscSeries, escSearch_true hA h]; simp [searchResult]
    · rw [brownEscSeeded_eq hT ha hb (by simp) h0 h1.le, brownEscSeries, escSearch_false hA h]; simp [searchResult]

/-- An end point outside the band: the path leaves it. -/
theorem C41_outside {B : Option ℝ} (hT : 0 < T) (h : K ≤ max |a| |b|) (h0 : 0 ≤ u) (h1 : u ≤ 1) (r : Res Bool) :
    (brownEsc T a b K B (some u)).Out r ↔ r = .ok true := by
  simp only [brownEsc]
  unfold brownEscSeeded Prog.assert
  rw [if_pos hT, if_pos ⟨h0, h1⟩]
  simp only [Prog.ret_bind]
  rw [if_pos h]
  rfl

/-- A duration that is not positive, or a seed outside `[0, 1]`, is an assertion error. -/
theorem C41_error {B : Option ℝ} (h : ¬ (0 < T ∧ 0 ≤ u ∧ u ≤ 1)) (r : Res Bool) : (brownEsc T a b K B (some u)).Out r ↔ r = .error .assertion := by
  simp only [brownEsc]
  unfold brownEscSeeded Prog.assert
  by_cases hT : 0 < T
  · rw [if_pos hT, if_neg (fun h' => h ⟨hT, h'⟩)]
    simp only [Prog.ret_bind, Prog.err_bind]
    rfl
  · rw [if_neg hT]
    simp only [Prog.err_bind]
    rfl

example : ∃ p, 0 < p ∧ p < 1 ∧ Tendsto (brownSeries 5 (1 / 2) (-1 / 4) 1) atTop (𝓝 p) ∧
    ∀ i, brownSeries 5 (1 / 2) (-1 / 4) 1 (2 * i) < p ∧ p < brownSeries 5 (1 / 2) (-1 / 4) 1 (2 * i + 1) :=
  C41_series (by norm_num) (by rw [abs_lt]; norm_num) (by rw [abs_lt]; norm_num)

/-! ## C42 -/

/-- The bounded series brackets the conditional probability as long as value 3 of the series for the upper bound is below 1. -/
theorem bounded_alt {B q : ℝ} (hT : 0 < T) (ha : |a| < K) (hb : |b| < K) (hB : K ≤ B) (hp : Tendsto (brownSeries T a b K) atTop (𝓝 p))
    (hq : Tendsto (brownSeries T a b B) atTop (𝓝 q)) (h3 : brownSeries T a b B 3 < 1) :
    AltAround (brownEscSeries T a b K (some B)) (1 - (1 - p) / (1 - q)) 1 := by
  obtain ⟨p', hp'⟩ := brownSeries_alt hT ha hb
  obtain rfl := tendsto_nhds_unique hp hp'.1
  obtain ⟨q', hq'⟩ := brownSeries_alt hT (ha.trans_le hB) (hb.trans_le hB)
  obtain rfl := tendsto_nhds_unique hq hq'.1
  refine boundedSeries_alt (hp'.mono (Nat.zero_le 1)) (hq'.mono (Nat.zero_le 1)) (fun i hi ho => ?_) (brownSeries_lt_one hT ha hb hp).le
  obtain ⟨j, rfl⟩ : ∃ j, i = 2 * j + 3 := ⟨(i - 3) / 2, by omega⟩
  clear hi ho
  induction j with
  | zero => exact h3
  | succ j ih =>
    refine lt_trans ?_ ih
    rw [show 2 * (j + 1) + 3 = 2 * j + 3 + 1 + 1 by ring]
    unfold brownSeries
    rw [partialSum, partialSum, brownTerm_sign, brownTerm_sign, Odd.neg_one_pow (by rw [Nat.odd_iff]; omega),
      Even.neg_one_pow (by rw [Nat.even_iff]; omega)]
    have := brownSize_lt hT (ha.trans_le hB) (hb.trans_le hB) (i := 2 * j + 3 + 1) (by omega)
    linarith

/-- Decision of the bounded sampler, provided value 3 of the series for the upper bound is below 1 (which long durations violate). -/
theorem C42_decision_partial {B q : ℝ} (hT : 0 < T) (ha : |a| < K) (hb : |b| < K) (hB : K ≤ B) (hp : Tendsto (brownSeries T a b K) atTop (𝓝 p))
    (hq : Tendsto (brownSeries T a b B) atTop (𝓝 q)) (h3 : brownSeries T a b B 3 < 1) (h0 : 0 ≤ u) (h1 : u ≤ 1) (r : Res Bool) :
    (u < 1 - (1 - p) / (1 - q) → ((brownEsc T a b K (some B) (some u)).Out r ↔ r = .ok true)) ∧
      (1 - (1 - p) / (1 - q) < u → ((brownEsc T a b K (some B) (some u)).Out r ↔ r = .ok false)) := by
  have hA := bounded_alt hT ha hb hB hp hq h3
  simp only [brownEsc]
  rw [brownEscSeeded_eq hT ha hb (by rintro B' ⟨⟩; exact hB) h0 h1]
  refine ⟨fun h => ?_, fun h => ?_⟩
  · rw [escSearch_true hA h]; rfl
  · rw [escSearch_false hA h]; rfl

/-- With its own seed, under the same proviso. -/
theorem C42_prob_partial {B q : ℝ} (hT : 0 < T) (ha : |a| < K) (hb : |b| < K) (hB : K ≤ B) (hp : Tendsto (brownSeries T a b K) atTop (𝓝 p))
    (hq : Tendsto (brownSeries T a b B) atTop (𝓝 q)) (h3 : brownSeries T a b B 3 < 1) :
    (brownEsc T a b K (some B) none).prob (fun r => r = .ok true) = ENNReal.ofReal (1 - (1 - p) / (1 - q)) ∧
      (brownEsc T a b K (some B) none).prob (fun r => r = .ok false) = 1 - ENNReal.ofReal (1 - (1 - p) / (1 - q)) := by
  have hA := bounded_alt hT ha hb hB hp hq h3
  have hp1 := brownSeries_lt_one hT ha hb hp
  have hq1 := brownSeries_lt_one hT (ha.trans_le hB) (hb.trans_le hB) hq
  have l1 : 1 - (1 - p) / (1 - q) ≤ 1 := by
    have := div_nonneg (sub_nonneg.2 hp1.le) (sub_nonneg.2 hq1.le)
    linarith
  generalize 1 - (1 - p) / (1 - q) = c at hA l1 ⊢
  have l0 : 0 ≤ max 0 c := le_max_left _ _
  have l1' : max 0 c ≤ 1 := max_le zero_le_one l1
  have t : ∀ u : ℝ, 0 ≤ u → u < max 0 c → u < c := fun u h0 h => (lt_max_iff.1 h).resolve_left (not_lt.2 h0)
  have f : ∀ u : ℝ, max 0 c < u → c < u := fun u h => (le_max_right _ _).trans_lt h
  have e1 : ENNReal.ofReal c = ENNReal.ofReal (max 0 c) := by
    rcases le_total 0 c with h | h
    · rw [max_eq_right h]
    · rw [max_eq_left h, ENNReal.ofReal_of_nonpos h, ENNReal.ofReal_zero]
  have hs : ∀ B', some B = some B' → K ≤ B' := by rintro B' ⟨⟩; exact hB
  unfold Prog.prob
  simp only [brownEsc, Prog.draw, Prog.real_bind, Prog.ret_bind, Prog.lexp_real]
  rw [e1]
  constructor
  · rw [unif_decide (A := 1) (B := 0) l0 l1' (fun u h0 h1 h => ?_) (fun u h0 h1 h => ?_)]
    · simp
    · rw [brownEscSeeded_eq hT ha hb hs h0 h1.le, escSearch_true hA (t u h0 h)]; simp [searchResult]
    · rw [brownEscSeeded_eq hT ha hb hs h0 h1.le, escSearch_false hA (f u h)]; simp [searchResult]
  · rw [unif_decide (A := 0) (B := 1) l0 l1' (fun u h0 h1 h => ?_) (fun u h0 h1 h => ?_)]
    · rw [ENNReal.ofReal_sub _ l0]; simp
    · rw [brownEscSeeded_eq hT ha hb hs h0 h1.le, escSearch_true hA (t u h0 h)]; simp [searchResult]
    · rw [brownEscSeeded_eq hT ha hb hs h0 h1.le, escSearch_false hA (f u h)]; simp [searchResult]

theorem brown_bound_three : brownSeries (1 / 4) 0 0 1 3 < 1 := by
  have h1 := (C41_series (T := 1 / 4) (a := 0) (b := 0) (K := 1) (by norm_num) (by norm_num) (by norm_num))
  have e : brownSeries (1 / 4) 0 0 1 3 < brownSeries (1 / 4) 0 0 1 1 := by
    have := brownSize_lt (T := 1 / 4) (a := 0) (b := 0) (K := 1) (by norm_num) (by norm_num) (by norm_num) (i := 2) (by norm_num)
    unfold brownSeries
    simp only [partialSum, brownTerm_sign]
    norm_num at this ⊢
    linarith
  refine e.trans ?_
  simp only [brownSeries, partialSum, brownTerm, escUp]
  norm_num
  have : Real.exp (-8) < 1 / 2 := by
    rw [Real.exp_neg, ← one_div, one_div_lt_one_div (Real.exp_pos _) (by norm_num)]
    have := Real.add_one_le_exp (8 : ℝ)
    linarith
  linarith

/-- If the second search value exceeds 1, and the first too, the search says `True` whatever the seed. -/
theorem always_true {s : ℕ → ℝ} (h1 : 1 < s 1) (h2 : 1 < s 2) (hu : u ≤ 1) : escSearch s u 1 = some true := by
  have hex : ∃ i, 1 ≤ i ∧ EscStops s u i := ⟨2, by norm_num, Or.inl ⟨rfl, by linarith⟩⟩
  unfold escSearch
  rw [dif_pos hex]
  have : Nat.find hex = 2 := by
    rw [Nat.find_eq_iff]
    refine ⟨⟨by norm_num, Or.inl ⟨rfl, by linarith⟩⟩, fun n hn => ?_⟩
    rintro ⟨h3, h4⟩
    obtain rfl : n = 1 := by omega
    rcases h4 with ⟨h, -⟩ | ⟨-, h⟩
    · norm_num at h
    · linarith
  rw [this]
  rfl

/-- Terms of the witness: powers of 23/25. -/
theorem witness_exp (n : ℕ) : Real.exp (-(n * Real.log (25 / 23))) = (23 / 25 : ℝ) ^ n := by
  rw [Real.exp_neg, Real.exp_nat_mul, Real.exp_log (by norm_num), ← inv_pow]
  norm_num

/-- For `T = 1 / (2 log (25/23))` (about 6), a bridge from 0 to 0, level 1/2 and upper bound 1, the sampler says `True` for every seed,
although the conditional probability is below 1. -/
theorem C42_violated : ∃ T a b K B p q : ℝ, 0 < T ∧ |a| < K ∧ |b| < K ∧ K < B ∧ Tendsto (brownSeries T a b K) atTop (𝓝 p) ∧
    Tendsto (brownSeries T a b B) atTop (𝓝 q) ∧ 1 - (1 - p) / (1 - q) < 1 ∧
    (∀ u, 0 ≤ u → u ≤ 1 → ∀ r, (brownEsc T a b K (some B) (some u)).Out r ↔ r = .ok true) ∧
    (brownEsc T a b K (some B) none).prob (fun r => r = .ok true) = 1 := by
  have hL : 0 < Real.log (25 / 23) := Real.log_pos (by norm_num)
  have hT : 0 < 1 / (2 * Real.log (25 / 23)) := by positivity
  have ha : |(0 : ℝ)| < 1 / 2 := by norm_num
  have ha' : |(0 : ℝ)| < 1 := by norm_num
  obtain ⟨p, -, hp1, hp, -⟩ := C41_series hT ha ha
  obtain ⟨q, -, hq1, hq, -⟩ := C41_series hT ha' ha'
  have d : ∀ x : ℝ, x / (1 / (2 * Real.log (25 / 23))) = x * 2 * Real.log (25 / 23) := by intro x; field_simp
  have w1 := witness_exp 1
  have w4 := witness_exp 4
  have w16 := witness_exp 16
  have w36 := witness_exp 36
  push_cast at w1 w4 w16 w36
  rw [one_mul] at w1
  have r1 : brownSeries (1 / (2 * Real.log (25 / 23))) 0 0 (1 / 2) 1 = 2 * (23 / 25) := by
    simp only [brownSeries, partialSum, brownTerm, escUp, d]
    norm_num
    rw [w1]
    norm_num
  have r2 : brownSeries (1 / (2 * Real.log (25 / 23))) 0 0 (1 / 2) 2 = 2 * (23 / 25) - 2 * (23 / 25) ^ 4 := by
    rw [show brownSeries (1 / (2 * Real.log (25 / 23))) 0 0 (1 / 2) 2 = brownSeries (1 / (2 * Real.log (25 / 23))) 0 0 (1 / 2) 1 +
      brownTerm (1 / (2 * Real.log (25 / 23))) 0 0 (1 / 2) 2 from rfl, r1]
    simp only [brownTerm, escDown, d]
    norm_num
    rw [w4]
    norm_num
  have s2 : brownSeries (1 / (2 * Real.log (25 / 23))) 0 0 1 2 = 2 * (23 / 25) ^ 4 - 2 * (23 / 25) ^ 16 := by
    simp only [brownSeries, partialSum, brownTerm, escUp, escDown, d]
    norm_num
    rw [w4, w16]
    norm_num
  have s3 : brownSeries (1 / (2 * Real.log (25 / 23))) 0 0 1 3 = 2 * (23 / 25) ^ 4 - 2 * (23 / 25) ^ 16 + 2 * (23 / 25) ^ 36 := by
    rw [show brownSeries (1 / (2 * Real.log (25 / 23))) 0 0 1 3 = brownSeries (1 / (2 * Real.log (25 / 23))) 0 0 1 2 +
      brownTerm (1 / (2 * Real.log (25 / 23))) 0 0 1 3 from rfl, s2]
    simp only [brownTerm, escUp, d]
    norm_num
    rw [w36]
    norm_num
  have q1 : 1 < brownEscSeries (1 / (2 * Real.log (25 / 23))) 0 0 (1 / 2) (some 1) 1 := by
    simp only [brownEscSeries, boundedSeries, r1, s2]
    norm_num
  have q2 : 1 < brownEscSeries (1 / (2 * Real.log (25 / 23))) 0 0 (1 / 2) (some 1) 2 := by
    simp only [brownEscSeries, boundedSeries, r2, s3]
    norm_num
  have hs : ∀ B', some (1 : ℝ) = some B' → 1 / 2 ≤ B' := by rintro B' ⟨⟩; norm_num
  refine ⟨1 / (2 * Real.log (25 / 23)), 0, 0, 1 / 2, 1, p, q, hT, ha, ha, by norm_num, hp, hq, ?_, fun u h0 h1 r => ?_, ?_⟩
  · have := div_pos (sub_pos.2 hp1) (sub_pos.2 hq1)
    linarith
  · simp only [brownEsc]
    rw [brownEscSeeded_eq hT ha ha hs h0 h1, always_true q1 q2 h1]
    rfl
  · unfold Prog.prob
    simp only [brownEsc, Prog.draw, Prog.real_bind, Prog.ret_bind, Prog.lexp_real]
    rw [unif_decide (p := 1) (A := 1) (B := 1) zero_le_one le_rfl (fun u h0 h1 _ => ?_) (fun u h0 h1 _ => ?_)]
    · simp
    all_goals
      rw [brownEscSeeded_eq hT ha ha hs h0 h1.le, always_true q1 q2 h1.le]
      simp [searchResult]

/-! ## C43 -/

/-- From any start `0 ≤ a < K`, the series converges to a number in `[0, 1)`. -/
theorem C43_series (hT : 0 < T) (ha : 0 ≤ a) (hb : 0 < b) (haK : a < K) (hbK : b < K) :
    ∃ p, 0 ≤ p ∧ p < 1 ∧ Tendsto (besSeries T a b K) atTop (𝓝 p) := by
  obtain ⟨p, h1, h2, h3, -⟩ := bes_search hT ha hb haK hbK
  exact ⟨p, h3, h1, h2⟩

/-- From 0, the limit is the escape probability of the Bessel bridge, in the form given by the method of images. -/
theorem C43_images (hT : 0 < T) (hb : 0 < b) (hbK : b < K) (hp : Tendsto (besSeries T 0 b K) atTop (𝓝 p)) :
    HasSum (fun n : ℤ => (2 * K * n + b) * Real.exp (-(2 * K * n + b) ^ 2 / (2 * T))) ((1 - p) * (b * Real.exp (-b ^ 2 / (2 * T)))) := by
  have e0 : besSeries T 0 b K = partialSum (besTerm T b K) := by funext i; unfold besSeries; simp
  rw [e0] at hp
  have hK : 0 < K := hb.trans hbK
  have hpi := Real.pi_pos
  have hx : 0 < 2 * K ^ 2 / (Real.pi * T) := by positivity
  have h := (HurwitzZeta.hasSum_int_oddKernel (b / (2 * K)) hx).mul_left (2 * K)
  have e : (1 - p) * (b * Real.exp (-b ^ 2 / (2 * T))) =
      2 * K * HurwitzZeta.oddKernel ((b / (2 * K) : ℝ) : UnitAddCircle) (2 * K ^ 2 / (Real.pi * T)) := by
    have e1 : Real.exp (b ^ 2 / (2 * T)) * Real.exp (-b ^ 2 / (2 * T)) = 1 := by
      rw [← Real.exp_add, show b ^ 2 / (2 * T) + -b ^ 2 / (2 * T) = 0 by ring, Real.exp_zero]
    rw [besSeries_limit hT hb hbK hp, _root_.sub_sub_cancel]
    calc _ = Real.exp (b ^ 2 / (2 * T)) * Real.exp (-b ^ 2 / (2 * T)) *
          (2 * K * HurwitzZeta.oddKernel ((b / (2 * K) : ℝ) : UnitAddCircle) (2 * K ^ 2 / (Real.pi * T))) * (b / b) := by ring
      _ = _ := by rw [e1, div_self hb.ne', one_mul, mul_one]
  rw [e]
  refine h.congr_fun fun n => ?_
  have e1 : -(2 * K * (n : ℝ) + b) ^ 2 / (2 * T) = -Real.pi * ((n : ℝ) + b / (2 * K)) ^ 2 * (2 * K ^ 2 / (Real.pi * T)) := by
    field_simp
  rw [e1]
  field_simp

/-- The decision, for every duration, including those for which the series is first fast-forwarded. -/
theorem C43_decision (hT : 0 < T) (ha : 0 ≤ a) (hb : 0 < b) (haK : a < K) (hbK : b < K) (hp : Tendsto (besSeries T a b K) atTop (𝓝 p))
    (h0 : 0 ≤ u) (h1 : u ≤ 1) (r : Res Bool) :
    (u < p → ((besEsc T a b K none (some u)).Out r ↔ r = .ok true)) ∧ (p < u → ((besEsc T a b K none (some u)).Out r ↔ r = .ok false)) := by
  obtain ⟨p', -, hp', -, i0, hA, hs⟩ := bes_search hT ha hb haK hbK
  obtain rfl := tendsto_nhds_unique hp hp'
  simp only [besEsc]
  rw [hs u h0 h1]
  refine ⟨fun h => ?_, fun h => ?_⟩
  · rw [escSearch_true hA h]; rfl
  · rw [escSearch_false hA h]; rfl

/-- With its own seed: `True` with probability `p`, else `False`. -/
theorem C43_prob (hT : 0 < T) (ha : 0 ≤ a) (hb : 0 < b) (haK : a < K) (hbK : b < K) (hp : Tendsto (besSeries T a b K) atTop (𝓝 p)) :
    (besEsc T a b K none none).prob (fun r => r = .ok true) = ENNReal.ofReal p ∧
      (besEsc T a b K none none).prob (fun r => r = .ok false) = ENNReal.ofReal (1 - p) := by
  obtain ⟨p', hp1, hp', hp0, i0, hA, hs⟩ := bes_search hT ha hb haK hbK
  obtain rfl := tendsto_nhds_unique hp hp'
  unfold Prog.prob
  simp only [besEsc, Prog.draw, Prog.real_bind, Prog.ret_bind, Prog.lexp_real]
  constructor
  · rw [unif_decide (A := 1) (B := 0) hp0 hp1.le (fun u h0 h1 h => ?_) (fun u h0 h1 h => ?_)]
    · simp
    · rw [hs u h0 h1.le, escSearch_true hA h]; simp [searchResult]
    · rw [hs u h0 h1.le, escSearch_false hA h]; simp [searchResult]
  · rw [unif_decide (A := 0) (B := 1) hp0 hp1.le (fun u h0 h1 h => ?_) (fun u h0 h1 h => ?_)]
    · simp
    · rw [hs u h0 h1.le, escSearch_true hA h]; simp [searchResult]
    · rw [hs u h0 h1.le, escSearch_false hA h]; simp [searchResult]

/-- An end point at or above the level: `True`. -/
theorem C43_outside {B : Option ℝ} (hT : 0 < T) (ha : 0 ≤ a) (hb : 0 < b) (h : K ≤ max a b) (h0 : 0 ≤ u) (h1 : u ≤ 1) (r : Res Bool) :
    (besEsc T a b K B (some u)).Out r ↔ r = .ok true := by
  simp only [besEsc]
  unfold besEscSeeded Prog.assert
  rw [if_pos hT, if_pos ha, if_pos hb, if_pos ⟨h0, h1⟩]
  simp only [Prog.ret_bind]
  rw [if_pos h]
  rfl

example : ∃ p, 0 ≤ p ∧ p < 1 ∧ Tendsto (besSeries 10 0 (1 / 2) 1) atTop (𝓝 p) ∧ ¬ (10 : ℝ) < 3 * 1 ^ 2 := by
  obtain ⟨p, h1, h2, h3⟩ := C43_series (T := 10) (a := 0) (b := 1 / 2) (K := 1) (by norm_num) le_rfl (by norm_num) (by norm_num) (by norm_num)
  exact ⟨p, h1, h2, h3, by norm_num⟩

/-! ## C78 -/

theorem bes_witness_exp (n : ℕ) : Real.exp (-(n * Real.log (50 / 49))) = (49 / 50 : ℝ) ^ n := by
  rw [Real.exp_neg, Real.exp_nat_mul, Real.exp_log (by norm_num), ← inv_pow]
  norm_num

/-- Bessel bridge from 0 to 1/10 of duration `1 / (25 log (50/49))` (about 2), level 1, upper bound 11/10: the sampler says `True` for every
seed, although the conditional probability is below 1. -/
theorem C78_violated : ∃ T b K B p q : ℝ, 0 < T ∧ 0 < b ∧ b < K ∧ K < B ∧ Tendsto (besSeries T 0 b K) atTop (𝓝 p) ∧
    Tendsto (besSeries T 0 b B) atTop (𝓝 q) ∧ 1 - (1 - p) / (1 - q) < 1 ∧
    ∀ u, 0 ≤ u → u ≤ 1 → ∀ r, (besEsc T 0 b K (some B) (some u)).Out r ↔ r = .ok true := by
  have hL : 0 < Real.log (50 / 49) := Real.log_pos (by norm_num)
  have hL1 : 1 / 50 ≤ Real.log (50 / 49) := by
    have := Real.one_sub_inv_le_log_of_pos (show (0 : ℝ) < 50 / 49 by norm_num)
    norm_num at this ⊢
    linarith
  have hT : 0 < 1 / (25 * Real.log (50 / 49)) := by positivity
  obtain ⟨p, -, hp1, hp⟩ := C43_series (a := 0) (b := 1 / 10) (K := 1) hT le_rfl (by norm_num) (by norm_num) (by norm_num)
  obtain ⟨q, -, hq1, hq⟩ := C43_series (a := 0) (b := 1 / 10) (K := 11 / 10) hT le_rfl (by norm_num) (by norm_num) (by norm_num)
  have d : ∀ x : ℝ, x / (1 / (25 * Real.log (50 / 49))) = x * 25 * Real.log (50 / 49) := by intro x; field_simp
  have e0 : ∀ K i, besSeries (1 / (25 * Real.log (50 / 49))) 0 (1 / 10) K i = partialSum (besTerm (1 / (25 * Real.log (50 / 49))) (1 / 10) K) i := by
    intro K i; unfold besSeries; simp
  have w45 := bes_witness_exp 45
  have w55 := bes_witness_exp 55
  have w66 := bes_witness_exp 66
  have w231 := bes_witness_exp 231
  push_cast at w45 w55 w66 w231
  have r1 : besSeries (1 / (25 * Real.log (50 / 49))) 0 (1 / 10) 1 1 = 19 * (49 / 50) ^ 45 := by
    simp only [e0, partialSum, besTerm, besInc, d]
    norm_num
    rw [w45]
    norm_num
  have r2 : besSeries (1 / (25 * Real.log (50 / 49))) 0 (1 / 10) 1 2 = 19 * (49 / 50) ^ 45 - 21 * (49 / 50) ^ 55 := by
    rw [e0, partialSum, ← e0, r1]
    simp only [besTerm, besInc, d]
    norm_num
    rw [w55]
    norm_num
  have s2 : besSeries (1 / (25 * Real.log (50 / 49))) 0 (1 / 10) (11 / 10) 2 = 21 * (49 / 50) ^ 55 - 23 * (49 / 50) ^ 66 := by
    simp only [e0, partialSum, besTerm, besInc, d]
    norm_num
    rw [w55, w66]
    norm_num
  have s3 : besSeries (1 / (25 * Real.log (50 / 49))) 0 (1 / 10) (11 / 10) 3 =
      21 * (49 / 50) ^ 55 - 23 * (49 / 50) ^ 66 + 43 * (49 / 50) ^ 231 := by
    rw [e0, partialSum, ← e0, s2]
    simp only [besTerm, besInc, d]
    norm_num
    rw [w231]
    norm_num
  have q1 : 1 < besEscSeries (1 / (25 * Real.log (50 / 49))) 0 (1 / 10) 1 (some (11 / 10)) 1 := by
    simp only [besEscSeries, boundedSeries, r1, s2]
    norm_num
  have q2 : 1 < besEscSeries (1 / (25 * Real.log (50 / 49))) 0 (1 / 10) 1 (some (11 / 10)) 2 := by
    simp only [besEscSeries, boundedSeries, r2, s3]
    norm_num
  refine ⟨1 / (25 * Real.log (50 / 49)), 1 / 10, 1, 11 / 10, p, q, hT, by norm_num, by norm_num, by norm_num, hp, hq, ?_, fun u h0 h1 r => ?_⟩
  · have := div_pos (sub_pos.2 hp1) (sub_pos.2 hq1)
    linarith
  · simp only [besEsc]
    unfold besEscSeeded Prog.assert
    rw [if_pos hT, if_pos le_rfl, if_pos (by norm_num), if_pos ⟨h0, h1⟩]
    simp only [Prog.ret_bind]
    rw [if_neg (by norm_num), if_neg (by rintro ⟨B', e, h⟩; obtain rfl := Option.some.inj e; norm_num at h), if_pos, always_true q1 q2 h1]
    · rfl
    · rw [div_lt_iff₀ (by positivity)]
      linarith

end Ctb
