import Verif.Model.Hitting
import Mathlib.Analysis.SpecificLimits.Normed

set_option linter.unusedSectionVars false

/-! # Lemmas on alternating series and on the search through one -/

namespace Ctb

open Classical Filter Topology Finset

/-- The values of `s` from index `n` on converge to `p`, even ones from below and odd ones from above. -/
def AltAround (s : ℕ → ℝ) (p : ℝ) (n : ℕ) : Prop :=
  Tendsto s atTop (𝓝 p) ∧ ∀ i, n ≤ i → (i % 2 = 0 → s i ≤ p) ∧ (i % 2 = 1 → p ≤ s i)

theorem AltAround.mono {s : ℕ → ℝ} {p : ℝ} {n m : ℕ} (h : AltAround s p n) (hnm : n ≤ m) : AltAround s p m :=
  ⟨h.1, fun i hi => h.2 i (hnm.trans hi)⟩

theorem escSearch_true {s : ℕ → ℝ} {p u : ℝ} {n : ℕ} (h : AltAround s p n) (hu : u < p) : escSearch s u n = some true := by
  have he : ∃ i, n ≤ i ∧ EscStops s u i := by
    have h1 := (h.1.eventually_const_lt hu).and (eventually_ge_atTop n)
    obtain ⟨N, hN⟩ := eventually_atTop.1 h1
    exact ⟨2 * N, (hN (2 * N) (by omega)).2, Or.inl ⟨by omega, (hN (2 * N) (by omega)).1⟩⟩
  unfold escSearch
  rw [dif_pos he]
  obtain ⟨h1, h2⟩ := Nat.find_spec he
  rcases h2 with h2 | h2
  · rw [decide_eq_true h2.1]
  · linarith [(h.2 _ h1).2 h2.1, h2.2]

theorem escSearch_false {s : ℕ → ℝ} {p u : ℝ} {n : ℕ} (h : AltAround s p n) (hu : p < u) : escSearch s u n = some false := by
  have he : ∃ i, n ≤ i ∧ EscStops s u i := by
    have h1 := (h.1.eventually_lt_const hu).and (eventually_ge_atTop n)
    obtain ⟨N, hN⟩ := eventually_atTop.1 h1
    exact ⟨2 * N + 1, (hN (2 * N + 1) (by omega)).2, Or.inr ⟨by omega, (hN (2 * N + 1) (by omega)).1⟩⟩
  unfold escSearch
  rw [dif_pos he]
  obtain ⟨h1, h2⟩ := Nat.find_spec he
  rcases h2 with h2 | h2
  · linarith [(h.2 _ h1).1 h2.1, h2.2]
  · rw [decide_eq_false (by omega)]

theorem escSearch_none {s : ℕ → ℝ} {p : ℝ} {n : ℕ} (h : AltAround s p n) : escSearch s p n = none := by
  unfold escSearch
  rw [dif_neg]
  rintro ⟨i, h1, h2 | h2⟩
  · exact absurd ((h.2 i h1).1 h2.1) h2.2.not_ge
  · exact absurd ((h.2 i h1).2 h2.1) h2.2.not_ge

theorem partialSum_eq (f : ℕ → ℝ) (n : ℕ) : partialSum f n = ∑ i ∈ range n, f (i + 1) := by
  induction n with
  | zero => rfl
  | succ n ih => rw [partialSum, sum_range_succ, ih]

/-- Alternating terms of decreasing size from index `m` on. -/
theorem altAround_of_terms {f c : ℕ → ℝ} {m : ℕ} (hm : 1 ≤ m) (hf : ∀ i, 1 ≤ i → f i = (-1) ^ (i + 1) * c i)
    (hc : ∀ i, m ≤ i → c (i + 1) ≤ c i) (h0 : Tendsto c atTop (𝓝 0)) : ∃ p, AltAround (partialSum f) p (m - 1) := by
  have ha : Antitone fun k => c (m + k) := antitone_nat_of_succ_le fun k => hc (m + k) (by omega)
  have ht : Tendsto (fun k => c (m + k)) atTop (𝓝 0) := by
    have := (tendsto_add_atTop_iff_nat m).2 h0
    simpa [Nat.add_comm] using this
  obtain ⟨l, hl⟩ := ha.tendsto_alternating_series_of_tendsto_zero ht
  have e : ∀ n, partialSum f (m - 1 + n) = partialSum f (m - 1) + (-1) ^ (m + 1) * ∑ k ∈ range n, (-1) ^ k * c (m + k) := by
    intro n
    induction n with
    | zero => simp
    | succ n ih =>
      rw [← Nat.add_assoc, partialSum, ih, sum_range_succ, hf _ (by omega), show m - 1 + n + 1 = m + n by omega]
      rw [show m + n + 1 = (m + 1) + n by omega, pow_add]
      ring
  refine ⟨partialSum f (m - 1) + (-1) ^ (m + 1) * l, ?_, ?_⟩
  · rw [← tendsto_add_atTop_iff_nat (m - 1)]
    have := (hl.const_mul ((-1) ^ (m + 1))).const_add (partialSum f (m - 1))
    refine this.congr fun n => ?_
    rw [Nat.add_comm n, e n]
  · intro i hi
    obtain ⟨n, rfl⟩ : ∃ n, i = m - 1 + n := ⟨i - (m - 1), by omega⟩
    rw [e n]
    have hev := ha.alternating_series_le_tendsto hl
    have hod := ha.tendsto_le_alternating_series hl
    rcases Nat.even_or_odd m with q | q
    · rw [(Even.add_one q).neg_one_pow]
      obtain ⟨r, hr⟩ := q
      constructor
      · intro h
        obtain ⟨k, rfl⟩ : ∃ k, n = 2 * k + 1 := ⟨n / 2, by omega⟩
        linarith [hod k]
      · intro h
        obtain ⟨k, rfl⟩ : ∃ k, n = 2 * k := ⟨n / 2, by omega⟩
        linarith [hev k]
    · rw [(Odd.add_one q).neg_one_pow]
      obtain ⟨r, hr⟩ := q
      constructor
      · intro h
        obtain ⟨k, rfl⟩ : ∃ k, n = 2 * k := ⟨n / 2, by omega⟩
        linarith [hev k]
      · intro h
        obtain ⟨k, rfl⟩ : ∃ k, n = 2 * k + 1 := ⟨n / 2, by omega⟩
        linarith [hod k]

/-- A decreasing non-negative sequence whose even members vanish in the limit. -/
theorem tendsto_of_even {c : ℕ → ℝ} {m : ℕ} (hc : ∀ i, m ≤ i → c (i + 1) ≤ c i) (h0 : ∀ i, 0 ≤ c i)
    (h : Tendsto (fun j => c (2 * j)) atTop (𝓝 0)) : Tendsto c atTop (𝓝 0) := by
  rw [Metric.tendsto_atTop] at h ⊢
  intro ε hε
  obtain ⟨N, hN⟩ := h ε hε
  refine ⟨2 * (N + m), fun i hi => ?_⟩
  have hmono : ∀ k, c (2 * (N + m) + k) ≤ c (2 * (N + m)) := by
    intro k
    induction k with
    | zero => exact le_rfl
    | succ k ih => exact (hc (2 * (N + m) + k) (by omega)).trans ih
  have h1 := hmono (i - 2 * (N + m))
  rw [show 2 * (N + m) + (i - 2 * (N + m)) = i by omega] at h1
  have h2 := hN (N + m) (by omega)
  rw [Real.dist_eq, sub_zero, abs_of_nonneg (h0 _)] at h2 ⊢
  linarith

end Ctb
