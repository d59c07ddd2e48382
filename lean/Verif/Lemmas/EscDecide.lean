import Verif.Lemmas.Theta
import Verif.Basic.Law

set_option linter.unusedSectionVars false

/-! # From bracketing sequences to decisions, and the fast-forward of the Bessel search -/

namespace Ctb

open Classical Filter Topology MeasureTheory ENNReal

variable {T a b K p u : ℝ}

theorem unif_decide {F : ℝ → ℝ≥0∞} {A B : ℝ≥0∞} (h0 : 0 ≤ p) (h1 : p ≤ 1) (hA : ∀ u, 0 ≤ u → u < 1 → u < p → F u = A)
    (hB : ∀ u, 0 ≤ u → u < 1 → p < u → F u = B) :
    ∫⁻ u, F u ∂(RDist.uniform 0 1).law = ENNReal.ofReal p * A + ENNReal.ofReal (1 - p) * B := by
  rw [← lintegral_uniform_lt h0 h1]
  apply lintegral_congr_ae
  have hs : ∀ᵐ u ∂(RDist.uniform 0 1).law, u ∈ Set.Ico (0 : ℝ) 1 := by
    rw [RDist.law_uniform01]
    exact ae_restrict_mem measurableSet_Ico
  have hp : ∀ᵐ u ∂(RDist.uniform 0 1).law, u ≠ p := by
    rw [RDist.law_uniform01]
    exact ae_restrict_of_ae (by rw [ae_iff]; simp)
  filter_upwards [hs, hp] with u hu hne
  rcases lt_or_gt_of_ne hne with h | h
  · rw [hA u hu.1 hu.2 h, if_pos h]
  · rw [hB u hu.1 hu.2 h, if_neg (not_lt.2 h.le)]

/-! ## Bessel from 0 -/

theorem partialSum_succ2 {f : ℕ → ℝ} (i : ℕ) (hi : 2 ≤ i) : partialSum f i = partialSum f (i - 2) + f (i - 1) + f i := by
  obtain ⟨j, rfl⟩ := Nat.exists_eq_add_of_le hi
  rw [show 2 + j = j + 1 + 1 by omega, partialSum, partialSum]
  rfl

theorem bes_no_tie (hT : 0 < T) (hb : 0 < b) (hK : b < K) {i : ℕ} (hi : 1 ≤ i) :
    partialSum (besTerm T b K) i ≠ (if i = 1 then 0 else partialSum (besTerm T b K) (i - 1)) := by
  have e : (if i = 1 then (0 : ℝ) else partialSum (besTerm T b K) (i - 1)) = partialSum (besTerm T b K) (i - 1) := by
    split_ifs with h
    · subst h; rfl
    · rfl
  rw [e]
  obtain ⟨j, rfl⟩ := Nat.exists_eq_add_of_le hi
  rw [Nat.add_comm 1 j, Nat.add_sub_cancel, partialSum]
  intro h
  have h2 : besTerm T b K (j + 1) = 0 := by linarith
  rw [besTerm_sign] at h2
  have := besSize_pos hT hb hK (j + 1)
  rcases mul_eq_zero.1 h2 with h3 | h3
  · exact absurd h3 (pow_ne_zero _ (by norm_num))
  · linarith

/-- Where the fast-forward stops, the remaining values bracket the limit. -/
theorem bes_alt_after (hT : 0 < T) (hb : 0 < b) (hK : b < K) {i : ℕ} (hi : 1 ≤ i) (h : FastStops (partialSum (besTerm T b K)) i) :
    ∃ p, AltAround (partialSum (besTerm T b K)) p (i + 1) := by
  rcases h with ⟨h2, ho, -, hlt, -⟩ | h
  · rw [partialSum_succ2 i (by omega), besTerm_sign, besTerm_sign, Odd.neg_one_pow (by rw [Nat.odd_iff]; omega),
      Even.neg_one_pow (by rw [Nat.even_iff]; omega)] at hlt
    have hs : besSize T b K i < besSize T b K (i - 1) := by linarith
    have hy : √T ≤ besY b K i := by
      by_contra hc
      rw [not_le] at hc
      have hl : besY b K (i - 1) < besY b K i := besY_mono hb hK (by omega)
      have := besH_mono hT ⟨(besY_pos hb hK (i - 1)).le, (hl.trans hc).le⟩ ⟨(besY_pos hb hK i).le, hc.le⟩ hl
      rw [besSize_lt_iff hT hb] at hs
      linarith
    obtain ⟨p, hp⟩ := besSeries_alt_from hT hb hK hi hy
    exact ⟨p, hp.mono (by omega)⟩
  · exact absurd h (bes_no_tie hT hb hK hi)

theorem bes_converges (hT : 0 < T) (hb : 0 < b) (hK : b < K) : ∃ p, Tendsto (partialSum (besTerm T b K)) atTop (𝓝 p) := by
  have hKp : 0 < K := hb.trans hK
  obtain ⟨n, hn⟩ := exists_nat_ge (√T / (2 * K))
  have hy : √T ≤ besY b K (2 * (n + 1)) := by
    unfold besY
    rw [if_neg (by omega), show 2 * (n + 1) / 2 = n + 1 by omega]
    rw [div_le_iff₀ (by linarith)] at hn
    push_cast
    nlinarith
  obtain ⟨p, hp⟩ := besSeries_alt_from hT hb hK (by omega) hy
  exact ⟨p, hp.1⟩

/-- The fast-forward ends. -/
theorem bes_fast_ends (hT : 0 < T) (hb : 0 < b) (hK : b < K) : ∃ i, 1 ≤ i ∧ FastStops (partialSum (besTerm T b K)) i := by
  have hKp : 0 < K := hb.trans hK
  obtain ⟨p, hp⟩ := bes_converges hT hb hK
  have hp1 := besSeries_lt_one hT hb hK hp
  obtain ⟨N, hN⟩ := eventually_atTop.1 (hp.eventually_lt_const hp1)
  obtain ⟨n, hn⟩ := exists_nat_ge (√T / (2 * K))
  have hy : √T ≤ besY b K (2 * (n + 1)) := by
    unfold besY
    rw [if_neg (by omega), show 2 * (n + 1) / 2 = n + 1 by omega]
    rw [div_le_iff₀ (by linarith)] at hn
    push_cast
    nlinarith
  have hi : 2 * (n + 1) ≤ 2 * (N + n + 1) := by omega
  have hd := besSize_anti hT hb hK hy (i := 2 * (N + n + 1)) hi
  have hpos := besSize_pos hT hb hK (2 * (N + n + 1) + 1)
  refine ⟨2 * (N + n + 1) + 1, by omega, Or.inl ⟨by omega, by omega, hN _ (by omega), ?_, ?_⟩⟩
  · rw [partialSum_succ2 (2 * (N + n + 1) + 1) (by omega), besTerm_sign, besTerm_sign, Odd.neg_one_pow (by rw [Nat.odd_iff]; omega),
      Even.neg_one_pow (by rw [Nat.even_iff]; omega), show 2 * (N + n + 1) + 1 - 1 = 2 * (N + n + 1) by omega]
    linarith
  · rw [show 2 * (N + n + 1) + 1 - 1 = 2 * (N + n + 1) by omega, partialSum, besTerm_sign, Even.neg_one_pow (by rw [Nat.even_iff]; omega)]
    linarith

/-! ## Bessel from a positive value -/

/-- The series from a positive value brackets its limit, which is below 1. -/
theorem besPos_alt (hT : 0 < T) (ha : 0 < a) (hb : 0 < b) (haK : a < K) (hbK : b < K) :
    ∃ p, 0 ≤ p ∧ p < 1 ∧ AltAround (besSeries T a b K) p 0 ∧
      ∀ i, 1 ≤ i → (i % 2 = 1 → besSeries T a b K (i - 1) < besSeries T a b K i ∧ besSeries T a b K (i + 2) < besSeries T a b K i) ∧
        besSeries T a b K i ≠ besSeries T a b K (i - 1) := by
  have h1 : |a - K / 2| < K / 2 := by rw [abs_lt]; constructor <;> linarith
  have h2 : |b - K / 2| < K / 2 := by rw [abs_lt]; constructor <;> linarith
  obtain ⟨p, hp⟩ := brownSeries_alt hT h1 h2
  have hp1 := brownSeries_lt_one hT h1 h2 hp.1
  have hd : 0 < 1 - Real.exp (-2 * a * b / T) := by
    have : Real.exp (-2 * a * b / T) < 1 := by
      rw [Real.exp_lt_one_iff]
      have := div_pos (mul_pos ha hb) hT
      rw [show -2 * a * b / T = -2 * (a * b / T) by ring]
      linarith
    linarith
  have e : ∀ i, besSeries T a b K i =
      1 - (1 - brownSeries T (a - K / 2) (b - K / 2) (K / 2) i) / (1 - Real.exp (-2 * a * b / T)) := fun i => by
    unfold besSeries; rw [if_pos ha.ne']
  have hm : ∀ {x y : ℝ}, x < y → 1 - (1 - x) / (1 - Real.exp (-2 * a * b / T)) < 1 - (1 - y) / (1 - Real.exp (-2 * a * b / T)) := by
    intro x y h
    have := div_lt_div_of_pos_right (show 1 - y < 1 - x by linarith) hd
    linarith
  have hm' : ∀ {x y : ℝ}, x ≤ y → 1 - (1 - x) / (1 - Real.exp (-2 * a * b / T)) ≤ 1 - (1 - y) / (1 - Real.exp (-2 * a * b / T)) := by
    intro x y h
    have := div_le_div_of_nonneg_right (show 1 - y ≤ 1 - x by linarith) hd.le
    linarith
  have hsz : ∀ i, 0 < brownSize T (a - K / 2) (b - K / 2) (K / 2) i := brownSize_pos
  have step : ∀ i, brownSeries T (a - K / 2) (b - K / 2) (K / 2) (i + 1) = brownSeries T (a - K / 2) (b - K / 2) (K / 2) i +
      (-1) ^ (i + 2) * brownSize T (a - K / 2) (b - K / 2) (K / 2) (i + 1) := fun i => by
    rw [brownSeries, partialSum, brownTerm_sign]
  have hp0 := strip_limit_ge hT ha hb haK hbK hp.1
  refine ⟨1 - (1 - p) / (1 - Real.exp (-2 * a * b / T)), ?_, ?_, ⟨?_, fun i _ => ?_⟩, fun i hi => ?_⟩
  · rw [sub_nonneg, div_le_one hd]
    linarith
  · have := div_pos (sub_pos.2 hp1) hd
    linarith
  · simp_rw [funext e]
    exact ((hp.1.const_sub 1).div_const _).const_sub 1
  · rw [e]
    exact ⟨fun h => hm' ((hp.2 i (Nat.zero_le _)).1 h), fun h => hm' ((hp.2 i (Nat.zero_le _)).2 h)⟩
  · obtain ⟨j, rfl⟩ := Nat.exists_eq_add_of_le hi
    rw [Nat.add_comm 1 j, Nat.add_sub_cancel, e, e, e]
    refine ⟨fun h => ⟨hm ?_, hm ?_⟩, ?_⟩
    · rw [step j, Even.neg_one_pow (by rw [Nat.even_iff]; omega)]
      linarith [hsz (j + 1)]
    · rw [show j + 1 + 2 = j + 1 + 1 + 1 by omega, step (j + 1 + 1), step (j + 1), Odd.neg_one_pow (by rw [Nat.odd_iff]; omega),
        Even.neg_one_pow (by rw [Nat.even_iff]; omega)]
      linarith [brownSize_lt hT h1 h2 (show 1 ≤ j + 1 + 1 by omega)]
    · have hne : brownSeries T (a - K / 2) (b - K / 2) (K / 2) (j + 1) ≠ brownSeries T (a - K / 2) (b - K / 2) (K / 2) j := by
        rw [step j]
        intro h
        have h3 : (-1 : ℝ) ^ (j + 2) * brownSize T (a - K / 2) (b - K / 2) (K / 2) (j + 1) = 0 := by linarith
        rcases mul_eq_zero.1 h3 with h4 | h4
        · exact absurd h4 (pow_ne_zero _ (by norm_num))
        · linarith [hsz (j + 1)]
      rcases lt_or_gt_of_ne hne with h | h
      · exact (hm h).ne
      · exact (hm h).ne'

/-- Fast-forward then search: the outcome is decided by the limit. -/
theorem fast_search {s : ℕ → ℝ} (hex : ∃ i, 1 ≤ i ∧ FastStops s i) (hp : Tendsto s atTop (𝓝 p))
    (h : ∀ i, 1 ≤ i → FastStops s i → ∃ p, AltAround s p (i + 1)) :
    ∃ i0, fastForward s = some i0 ∧ AltAround s p i0 := by
  unfold fastForward
  rw [dif_pos hex]
  obtain ⟨h1, h2⟩ := Nat.find_spec hex
  obtain ⟨p', hp'⟩ := h _ h1 h2
  rw [tendsto_nhds_unique hp hp'.1]
  exact ⟨_, rfl, hp'⟩

/-- The value by which `sample_bessel3br_esc` decides (no upper bound). -/
theorem bes_search (hT : 0 < T) (ha : 0 ≤ a) (hb : 0 < b) (haK : a < K) (hbK : b < K) :
    ∃ p, p < 1 ∧ Tendsto (besSeries T a b K) atTop (𝓝 p) ∧ 0 ≤ p ∧
      ∃ i0, AltAround (besSeries T a b K) p i0 ∧
        ∀ u, 0 ≤ u → u ≤ 1 → besEscSeeded T a b K none u = searchResult (escSearch (besSeries T a b K) u i0) := by
  have hu' : ∀ u : ℝ, 0 ≤ u → u ≤ 1 → besEscSeeded T a b K none u =
      if T < 3 * K ^ 2 then searchResult (escSearch (besSeries T a b K) u 1)
      else match fastForward (besSeries T a b K) with
        | some i0 => searchResult (escSearch (besSeries T a b K) u i0)
        | none => .err .fuel := by
    intro u h0 h1
    unfold besEscSeeded Prog.assert
    rw [if_pos hT, if_pos ha, if_pos hb, if_pos ⟨h0, h1⟩]
    simp only [Prog.ret_bind]
    rw [if_neg (by rw [not_le]; exact max_lt haK hbK), if_neg (by simp)]
    rfl
  rcases ha.eq_or_lt with rfl | ha
  · have e : besSeries T 0 b K = partialSum (besTerm T b K) := by funext i; unfold besSeries; simp
    rw [e] at hu' ⊢
    obtain ⟨p, hp⟩ := bes_converges hT hb hbK
    have hp1 := besSeries_lt_one hT hb hbK hp
    obtain ⟨i0, hi0, hA⟩ := fast_search (bes_fast_ends hT hb hbK) hp fun i hi h => bes_alt_after hT hb hbK hi h
    refine ⟨p, hp1, hp, ?_, ?_⟩
    · exact bes_limit_nonneg hT hb hbK hp fun K' h => bes_converges hT hb h
    · by_cases h3 : T < 3 * K ^ 2
      · obtain ⟨p', hp'⟩ := besSeries_alt_short hT hb hbK h3
        rw [tendsto_nhds_unique hp hp'.1]
        refine ⟨1, hp'.mono (by omega), fun u h0 h1 => ?_⟩
        rw [hu' u h0 h1, if_pos h3]
      · refine ⟨i0, hA, fun u h0 h1 => ?_⟩
        rw [hu' u h0 h1, if_neg h3, hi0]
  · obtain ⟨p, hp0, hp1, hA, hstep⟩ := besPos_alt hT ha hb haK hbK
    refine ⟨p, hp1, hA.1, hp0, ?_⟩
    · by_cases h3 : T < 3 * K ^ 2
      · exact ⟨1, hA.mono (by omega), fun u h0 h1 => by rw [hu' u h0 h1, if_pos h3]⟩
      · have hex : ∃ i, 1 ≤ i ∧ FastStops (besSeries T a b K) i := by
          obtain ⟨N, hN⟩ := eventually_atTop.1 (hA.1.eventually_lt_const hp1)
          refine ⟨2 * N + 3, by omega, Or.inl ⟨by omega, by omega, hN _ (by omega), ?_, ?_⟩⟩
          · exact ((hstep (2 * N + 1) (by omega)).1 (by omega)).2
          · exact ((hstep (2 * N + 3) (by omega)).1 (by omega)).1
        obtain ⟨i0, hi0, hA'⟩ := fast_search hex hA.1 fun i hi _ => ⟨p, hA.mono (Nat.zero_le _)⟩
        refine ⟨i0, hA', fun u h0 h1 => ?_⟩
        rw [hu' u h0 h1, if_neg h3, hi0]

end Ctb
