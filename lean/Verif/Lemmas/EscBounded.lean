import Verif.Lemmas.EscDecide

set_option linter.unusedSectionVars false

/-! # The bounded Bessel decision -/

namespace Ctb

open Classical Filter Topology

variable {T a b K B p q u : ℝ}

/-- From a positive value, even values increase. -/
theorem besPos_even (hT : 0 < T) (ha : 0 < a) (hb : 0 < b) (haK : a < K) (hbK : b < K) {i : ℕ} (hi : i % 2 = 0) :
    besSeries T a b K i < besSeries T a b K (i + 2) := by
  have h1 : |a - K / 2| < K / 2 := by rw [abs_lt]; constructor <;> linarith
  have h2 : |b - K / 2| < K / 2 := by rw [abs_lt]; constructor <;> linarith
  have hd : 0 < 1 - Real.exp (-2 * a * b / T) := by
    have : Real.exp (-2 * a * b / T) < 1 := by
      rw [Real.exp_lt_one_iff]
      have := div_pos (mul_pos ha hb) hT
      rw [show -2 * a * b / T = -2 * (a * b / T) by ring]
      linarith
    linarith
  have step : ∀ i, brownSeries T (a - K / 2) (b - K / 2) (K / 2) (i + 1) = brownSeries T (a - K / 2) (b - K / 2) (K / 2) i +
      (-1) ^ (i + 2) * brownSize T (a - K / 2) (b - K / 2) (K / 2) (i + 1) := fun i => by
    rw [brownSeries, partialSum, brownTerm_sign]
  have h : brownSeries T (a - K / 2) (b - K / 2) (K / 2) i < brownSeries T (a - K / 2) (b - K / 2) (K / 2) (i + 2) := by
    rw [show i + 2 = i + 1 + 1 by omega, step (i + 1), step i, Even.neg_one_pow (by rw [Nat.even_iff]; omega), Odd.neg_one_pow (by rw [Nat.odd_iff]; omega)]
    linarith [brownSize_lt hT h1 h2 (show 1 ≤ i + 1 by omega)]
  unfold besSeries
  rw [if_pos ha.ne', if_pos ha.ne']
  have := div_lt_div_of_pos_right (sub_lt_sub_left h 1) hd
  linarith

/-- Where the series brackets its limit from the start, and its odd values decrease. -/
theorem bes_bracket (hT : 0 < T) (ha : 0 ≤ a) (hb : 0 < b) (haK : a < K) (hbK : b < K) (hs : 0 < a ∨ T < 3 * K ^ 2) :
    ∃ p, p < 1 ∧ AltAround (besSeries T a b K) p 0 ∧ ∀ i, i % 2 = 1 → besSeries T a b K (i + 2) < besSeries T a b K i := by
  rcases ha.eq_or_lt with rfl | ha
  · have h3 := hs.resolve_left (lt_irrefl _)
    have e : besSeries T 0 b K = partialSum (besTerm T b K) := by funext i; unfold besSeries; simp
    rw [e]
    obtain ⟨p, hp⟩ := besSeries_alt_short hT hb hbK h3
    refine ⟨p, besSeries_lt_one hT hb hbK hp.1, hp, fun i hi => ?_⟩
    have hlt : besSize T b K (i + 2) < besSize T b K (i + 1) := by
      refine besSize_anti hT hb hbK (m := 2) ?_ (by omega)
      have hKp : 0 < K := hb.trans hbK
      rw [Real.sqrt_le_left (besY_pos hb hbK 2).le]
      simp only [besY]
      norm_num
      nlinarith
    rw [show i + 2 = i + 1 + 1 by omega, partialSum, partialSum, besTerm_sign, besTerm_sign, Odd.neg_one_pow (by rw [Nat.odd_iff]; omega),
      Even.neg_one_pow (by rw [Nat.even_iff]; omega)]
    rw [show i + 2 = i + 1 + 1 by omega] at hlt
    linarith
  · obtain ⟨p, -, hp1, hA, hstep⟩ := besPos_alt hT ha hb haK hbK
    exact ⟨p, hp1, hA, fun i hi => ((hstep i (by omega)).1 hi).2⟩

theorem odd_below {s : ℕ → ℝ} (h : ∀ i, i % 2 = 1 → s (i + 2) < s i) (h3 : s 3 < 1) {i : ℕ} (hi : 1 < i) (ho : i % 2 = 1) : s i < 1 := by
  obtain ⟨j, rfl⟩ : ∃ j, i = 2 * j + 3 := ⟨(i - 3) / 2, by omega⟩
  clear hi ho
  induction j with
  | zero => exact h3
  | succ j ih => exact (h (2 * j + 3) (by omega)).trans ih

/-- The value by which `sample_bessel3br_esc` decides, given an upper bound. -/
theorem bes_bounded_search (hT : 0 < T) (ha : 0 ≤ a) (hb : 0 < b) (haK : a < K) (hbK : b < K) (hB : K ≤ B) (hs : 0 < a ∨ T < 3 * K ^ 2)
    (hp : Tendsto (besSeries T a b K) atTop (𝓝 p)) (hq : Tendsto (besSeries T a b B) atTop (𝓝 q)) (h3 : besSeries T a b B 3 < 1) :
    p < 1 ∧ q < 1 ∧ ∃ i0, AltAround (besEscSeries T a b K (some B)) (1 - (1 - p) / (1 - q)) i0 ∧
      ∀ u, 0 ≤ u → u ≤ 1 → besEscSeeded T a b K (some B) u = searchResult (escSearch (besEscSeries T a b K (some B)) u i0) := by
  have hKp : 0 < K := hb.trans hbK
  obtain ⟨p', hp1, hA, ho⟩ := bes_bracket hT ha hb haK hbK hs
  obtain rfl := tendsto_nhds_unique hp hA.1
  obtain ⟨q', hq1, hA', ho'⟩ := bes_bracket hT ha hb (haK.trans_le hB) (hbK.trans_le hB) (hs.imp_right fun h => h.trans_le (by nlinarith))
  obtain rfl := tendsto_nhds_unique hq hA'.1
  have hAB : AltAround (besEscSeries T a b K (some B)) (1 - (1 - p) / (1 - q)) 1 :=
    boundedSeries_alt (hA.mono (Nat.zero_le 1)) (hA'.mono (Nat.zero_le 1)) (fun i hi hio => odd_below ho' h3 hi hio) hp1.le
  have hu' : ∀ u : ℝ, 0 ≤ u → u ≤ 1 → besEscSeeded T a b K (some B) u =
      if T < 3 * K ^ 2 then searchResult (escSearch (besEscSeries T a b K (some B)) u 1)
      else match fastForward (besEscSeries T a b K (some B)) with
        | some i0 => searchResult (escSearch (besEscSeries T a b K (some B)) u i0)
        | none => .err .fuel := by
    intro u h0 h1
    unfold besEscSeeded Prog.assert
    rw [if_pos hT, if_pos ha, if_pos hb, if_pos ⟨h0, h1⟩]
    simp only [Prog.ret_bind]
    have hn : ¬∃ B', some B = some B' ∧ B' < K := by
      rintro ⟨B', e, h⟩
      cases e
      exact absurd h (not_lt.2 hB)
    rw [if_neg (by rw [not_le]; exact max_lt haK hbK), if_neg hn]
    rfl
  refine ⟨hp1, hq1, ?_⟩
  by_cases ht : T < 3 * K ^ 2
  · exact ⟨1, hAB, fun u h0 h1 => by rw [hu' u h0 h1, if_pos ht]⟩
  · have ha' : 0 < a := hs.resolve_right ht
    have hc1 : 1 - (1 - p) / (1 - q) < 1 := by
      have := div_pos (sub_pos.2 hp1) (sub_pos.2 hq1)
      linarith
    have hex : ∃ i, 1 ≤ i ∧ FastStops (besEscSeries T a b K (some B)) i := by
      obtain ⟨N, hN⟩ := eventually_atTop.1 (hAB.1.eventually_lt_const hc1)
      refine ⟨2 * N + 3, by omega, ?_⟩
      have hle : besEscSeries T a b K (some B) (2 * N + 2) ≤ besEscSeries T a b K (some B) (2 * N + 3) :=
        ((hAB.2 (2 * N + 2) (by omega)).1 (by omega)).trans ((hAB.2 (2 * N + 3) (by omega)).2 (by omega))
      rcases hle.eq_or_lt with he | hl
      · right
        rw [if_neg (by omega)]
        exact he.symm
      · left
        refine ⟨by omega, by omega, hN _ (by omega), ?_, hl⟩
        show besEscSeries T a b K (some B) (2 * N + 3) < besEscSeries T a b K (some B) (2 * N + 1)
        simp only [besEscSeries, boundedSeries]
        have k1 := ho (2 * N + 1) (by omega)
        have k2 := besPos_even hT ha' hb (haK.trans_le hB) (hbK.trans_le hB) (show (2 * N + 2) % 2 = 0 by omega)
        have k3 := (hA'.2 (2 * N + 2 + 2) (by omega)).1 (by omega)
        have hr : 1 - besSeries T a b K (2 * N + 1) < 1 - besSeries T a b K (2 * N + 3) := by
          have : besSeries T a b K (2 * N + 3) < besSeries T a b K (2 * N + 1) := k1
          linarith
        have hpos : 0 < 1 - besSeries T a b B (2 * N + 3 + 1) := by
          have : besSeries T a b B (2 * N + 3 + 1) ≤ q := k3
          linarith
        have hle2 : 1 - besSeries T a b B (2 * N + 3 + 1) ≤ 1 - besSeries T a b B (2 * N + 1 + 1) := by
          have : besSeries T a b B (2 * N + 1 + 1) < besSeries T a b B (2 * N + 3 + 1) := k2
          linarith
        have hnum : 0 < 1 - besSeries T a b K (2 * N + 3) := by
          have := hN (2 * N + 3) (by omega)
          simp only [besEscSeries, boundedSeries] at this
          have h5 : 0 < (1 - besSeries T a b K (2 * N + 3)) / (1 - besSeries T a b B (2 * N + 3 + 1)) := by linarith
          exact (div_pos_iff_of_pos_right hpos).1 h5
        have : (1 - besSeries T a b K (2 * N + 1)) / (1 - besSeries T a b B (2 * N + 1 + 1)) <
            (1 - besSeries T a b K (2 * N + 3)) / (1 - besSeries T a b B (2 * N + 3 + 1)) :=
          div_lt_div₀ hr hle2 hnum.le hpos
        linarith
    obtain ⟨i0, hi0, hA2⟩ := fast_search hex hAB.1 fun i hi _ => ⟨_, hAB.mono (by omega)⟩
    exact ⟨i0, hA2, fun u h0 h1 => by rw [hu' u h0 h1, if_neg ht, hi0]⟩

end Ctb
