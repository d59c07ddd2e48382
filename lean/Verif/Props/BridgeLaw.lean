import Verif.Lemmas.BridgeLaw
import Verif.Props.ForwardLaw
import Verif.Lemmas.TwoState

/-!
# C83: `sample_bridge` samples the jump process conditioned on its end state

`fuel` bounds the number of rounds of the search for the number of jumps; the code has no such bound, so its law is the limit for `fuel → ∞`.
-/

set_option linter.unusedSectionVars false

namespace Ctb

open Classical MeasureTheory ProbabilityTheory
open scoped ENNReal

variable {d : ℕ} [NeZero d]

/-- **C83.** Joint law of jump counts and occupation times of `sample_bridge` from `i` to `f`: for all weights `θ ≥ 0` and `v`, the expectation of
`θ^counts · e^{-v · times}` on the paths ending in `f` increases with the budget to `exp (fin_t · Q')[i, f] / exp (fin_t · gen)[i, f]`, with `Q'` the tilted
generator.  By C82 this is the conditional expectation for the jump process started in `i`, given that it ends in `f`. -/
theorem C83_bridge_law {g : Mat} (hQ : IsQMatrix (toM d g)) {fin : ℝ} (hf : 0 < fin) {i f : Fin d} (hc : 0 < NormedSpace.exp (fin • toM d g) i f)
    {θ : ℕ → ℕ → ℝ} (hθ : ∀ i k, 0 ≤ θ i k) (v : ℕ → ℝ) :
    (∀ fuel, (sampleBridge fuel (toM d g) fin i f).lexp (atSkel fun sk => sk.weight d θ v f) ≤
      ENNReal.ofReal (NormedSpace.exp (fin • tilted d g θ v) i f / NormedSpace.exp (fin • toM d g) i f)) ∧
    Filter.Tendsto (fun fuel => (sampleBridge fuel (toM d g) fin i f).lexp (atSkel fun sk => sk.weight d θ v f)) Filter.atTop
      (nhds (ENNReal.ofReal (NormedSpace.exp (fin • tilted d g θ v) i f / NormedSpace.exp (fin • toM d g) i f))) := by
  have hc' : 0 < getTrans fin (toM d g) i f := hc
  obtain ⟨h1, h2⟩ := bridgeSum_tendsto hQ hf i f hθ v
  have he : ENNReal.ofReal (NormedSpace.exp (fin • tilted d g θ v) i f / NormedSpace.exp (fin • toM d g) i f) =
      ENNReal.ofReal (1 / getTrans fin (toM d g) i f) * ENNReal.ofReal (NormedSpace.exp (fin • tilted d g θ v) i f) := by
    rw [← ENNReal.ofReal_mul (one_div_pos.2 hc').le, one_div, mul_comm, ← div_eq_mul_inv]
    rfl
  simp only [bridge_weight hQ hf hc' hθ, he]
  exact ⟨fun fuel => mul_le_mul_right (h1 fuel) _, ENNReal.Tendsto.const_mul h2 (Or.inr ENNReal.ofReal_ne_top)⟩

/-- **C83, conditioning.** The bridge from `x` to `j` has the law of `sample_forwards` from `x` given that it ends in `j`: expectations of the statistics
on the event "ends in `j`" are the probability of the event times those under the bridge. -/
theorem C83_is_conditioned_forward (hd : 2 ≤ d) {g : Mat} (hQ : IsQMatrix (toM d g)) {fin : ℝ} (hf : 0 < fin) {x j : Fin d}
    (hc : 0 < NormedSpace.exp (fin • toM d g) x j) {θ : ℕ → ℕ → ℝ} (hθ : ∀ i k, 0 ≤ θ i k) (v : ℕ → ℝ) :
    ∃ F B p : ℝ≥0∞,
      Filter.Tendsto (fun fuel => (sampleForwards fuel d g fin (some x)).lexp (atSkel fun sk => sk.weight d θ v j)) Filter.atTop (nhds F) ∧
      Filter.Tendsto (fun fuel => (sampleForwards fuel d g fin (some x)).prob fun r => ∃ sk, r = .ok sk ∧ sk.xt.getLast? = some j.val) Filter.atTop (nhds p) ∧
      Filter.Tendsto (fun fuel => (sampleBridge fuel (toM d g) fin x j).lexp (atSkel fun sk => sk.weight d θ v j)) Filter.atTop (nhds B) ∧
      p ≠ 0 ∧ F = p * B := by
  refine ⟨_, _, _, (C82_forward_law hd hQ hf hθ v x j).2, C82_end_state hd hQ hf x j, (C83_bridge_law hQ hf hc hθ v).2, ?_, ?_⟩
  · simpa using hc
  · rw [← ENNReal.ofReal_mul hc.le, mul_div_cancel₀ _ hc.ne']

/-- **C83, termination.** The search for the number of jumps ends with probability one, and the bridge ends in `f`. -/
theorem C83_terminates {g : Mat} (hQ : IsQMatrix (toM d g)) {fin : ℝ} (hf : 0 < fin) {i f : Fin d} (hc : 0 < NormedSpace.exp (fin • toM d g) i f) :
    Filter.Tendsto (fun fuel => (sampleBridge fuel (toM d g) fin i f).prob fun r => ∃ sk, r = .ok sk ∧ sk.xt.getLast? = some f.val) Filter.atTop (nhds 1) ∧
    Filter.Tendsto (fun fuel => (sampleBridge fuel (toM d g) fin i f).prob fun r => r = .error .fuel) Filter.atTop (nhds 0) := by
  have h1 : Filter.Tendsto (fun fuel => (sampleBridge fuel (toM d g) fin i f).prob fun r => ∃ sk, r = .ok sk ∧ sk.xt.getLast? = some f.val) Filter.atTop (nhds 1) := by
    have := (C83_bridge_law hQ hf hc (θ := fun _ _ => 1) (fun _ _ => zero_le_one) (fun _ => 0)).2
    simp only [lexp_last, tilted_one, div_self hc.ne', ENNReal.ofReal_one] at this
    exact this
  refine ⟨h1, ?_⟩
  have hsub : Filter.Tendsto (fun fuel => 1 - (sampleBridge fuel (toM d g) fin i f).prob fun r => ∃ sk, r = .ok sk ∧ sk.xt.getLast? = some f.val)
      Filter.atTop (nhds 0) := by
    have := ENNReal.Tendsto.sub (tendsto_const_nhds (x := (1 : ℝ≥0∞))) h1 (Or.inl ENNReal.one_ne_top)
    simpa using this
  refine tendsto_of_tendsto_of_tendsto_of_le_of_le tendsto_const_nhds hsub (fun _ => zero_le) fun fuel => ?_
  have h := (proper_sampleBridge (fuel := fuel) (G := toM d g) fin i f).prob_add_le_one (P := fun r => r = .error .fuel)
    (Q := fun r => ∃ sk, r = .ok sk ∧ sk.xt.getLast? = some f.val) (by rintro r rfl ⟨sk, h, -⟩; cases h)
  exact ENNReal.le_sub_of_add_le_right (ne_top_of_le_ne_top ENNReal.one_ne_top ((proper_sampleBridge fin i f).prob_le_one _)) h

/-- Column sums of the transition matrix are positive. -/
theorem colsum_pos {g : Mat} (hQ : IsQMatrix (toM d g)) {fin : ℝ} (hf : 0 < fin) (f : Fin d) : 0 < ∑ k, getTrans fin (toM d g) k f :=
  Finset.sum_pos' (fun k _ => hQ.getTrans_nonneg hf.le k f) ⟨f, Finset.mem_univ f, hQ.getTrans_self_pos hf.le f⟩

theorem backwards_exp {g : Mat} (hQ : IsQMatrix (toM d g)) {fin : ℝ} (hf : 0 < fin) (f : Fin d) (fuel : ℕ) (F : Res (Skel ℝ) → ℝ≥0∞) :
    (sampleBackwards fuel (toM d g) fin f).lexp F =
      ∑ i, ENNReal.ofReal (getTrans fin (toM d g) i f / ∑ k, getTrans fin (toM d g) k f) * (sampleBridge fuel (toM d g) fin i f).lexp F := by
  have hs := colsum_pos hQ hf f
  refine lexp_pyChoice ⟨fun i => div_nonneg (hQ.getTrans_nonneg hf.le i f) hs.le, ?_⟩ _ _
  rw [← Finset.sum_div, div_self hs.ne']

theorem tilted_nonneg {g : Mat} (hQ : IsQMatrix (toM d g)) {fin : ℝ} (hf : 0 ≤ fin) {θ : ℕ → ℕ → ℝ} (hθ : ∀ i k, 0 ≤ θ i k) (v : ℕ → ℝ) (i f : Fin d) :
    0 ≤ getTrans fin (tilted d g θ v) i f := by
  have hoff : ∀ x y : Fin d, x ≠ y → 0 ≤ tilted d g θ v x y := by
    intro x y hxy
    rw [tilted, if_neg hxy]
    exact mul_nonneg (hθ _ _) (hQ.off x y hxy)
  have := mexp_nonneg hoff hf i f
  rw [mexp_def] at this
  exact this

/-- A target out of reach stays out of reach with other weights. -/
theorem tilted_zero {g : Mat} (hQ : IsQMatrix (toM d g)) {fin : ℝ} (hf : 0 < fin) {θ : ℕ → ℕ → ℝ} (hθ : ∀ i k, 0 ≤ θ i k) (v : ℕ → ℝ) {i f : Fin d}
    (h0 : getTrans fin (toM d g) i f = 0) : getTrans fin (tilted d g θ v) i f = 0 := by
  have hz : ∀ n, bridgeSum (toM d g) (selfOne θ) v fin f n fin i = 0 := by
    intro n
    rw [bridgeSum, Finset.sum_eq_zero, mul_zero]
    intro k _
    have hterm : nTransTerm (toM d g) fin i f k = 0 := by
      by_contra hne
      have hpos := hQ.getTrans_pos_of_term hf.le (lt_of_le_of_ne (hQ.term_nonneg hf.le i f k) (Ne.symm hne))
      linarith
    rw [nTransTerm] at hterm
    rcases mul_eq_zero.1 hterm with h | h
    · have hk : (rateBound (toM d g)) ^ k = 0 := by
        rcases div_eq_zero_iff.1 h with h | h
        · rw [mul_pow] at h
          exact (mul_eq_zero.1 h).resolve_right (pow_ne_zero _ hf.ne')
        · exact absurd h (Nat.cast_ne_zero.2 (Nat.factorial_ne_zero _))
      rw [hk]; simp
    · rw [dyson_zero hQ.dtrans_nonneg _ v fin f k i _ h, mul_zero]
  have hlim := (bridgeSum_tendsto hQ hf i f hθ v).2
  simp only [hz] at hlim
  have := tendsto_nhds_unique hlim tendsto_const_nhds
  exact le_antisymm (ENNReal.ofReal_eq_zero.1 this) (tilted_nonneg hQ hf.le hθ v i f)

/-- **C83, `sample_backwards`.** The law is that of the jump process started from the *uniform* law over the states, given that it ends in `f`. -/
theorem C83_backwards_law {g : Mat} (hQ : IsQMatrix (toM d g)) {fin : ℝ} (hf : 0 < fin) (f : Fin d) {θ : ℕ → ℕ → ℝ} (hθ : ∀ i k, 0 ≤ θ i k) (v : ℕ → ℝ) :
    Filter.Tendsto (fun fuel => (sampleBackwards fuel (toM d g) fin f).lexp (atSkel fun sk => sk.weight d θ v f)) Filter.atTop
      (nhds (ENNReal.ofReal ((∑ i, NormedSpace.exp (fin • tilted d g θ v) i f) / ∑ k, NormedSpace.exp (fin • toM d g) k f))) := by
  have hs := colsum_pos hQ hf f
  simp only [backwards_exp hQ hf]
  have hterm : ∀ i, Filter.Tendsto (fun fuel => ENNReal.ofReal (getTrans fin (toM d g) i f / ∑ k, getTrans fin (toM d g) k f) *
      (sampleBridge fuel (toM d g) fin i f).lexp (atSkel fun sk => sk.weight d θ v f)) Filter.atTop
      (nhds (ENNReal.ofReal (if 0 < getTrans fin (toM d g) i f then getTrans fin (tilted d g θ v) i f / ∑ k, getTrans fin (toM d g) k f else 0))) := by
    intro i
    by_cases hc : 0 < getTrans fin (toM d g) i f
    · rw [if_pos hc]
      have := ENNReal.Tendsto.const_mul (a := ENNReal.ofReal (getTrans fin (toM d g) i f / ∑ k, getTrans fin (toM d g) k f)) (C83_bridge_law hQ hf hc hθ v).2
        (Or.inr ENNReal.ofReal_ne_top)
      rw [← ENNReal.ofReal_mul (div_nonneg hc.le hs.le)] at this
      have he : getTrans fin (toM d g) i f / (∑ k, getTrans fin (toM d g) k f) * (NormedSpace.exp (fin • tilted d g θ v) i f / NormedSpace.exp (fin • toM d g) i f) =
          getTrans fin (tilted d g θ v) i f / ∑ k, getTrans fin (toM d g) k f := by
        change getTrans fin (toM d g) i f / (∑ k, getTrans fin (toM d g) k f) * (getTrans fin (tilted d g θ v) i f / getTrans fin (toM d g) i f) = _
        have := hc.ne'
        field_simp
      rw [he] at this
      exact this
    · have h0 : getTrans fin (toM d g) i f = 0 := le_antisymm (not_lt.1 hc) (hQ.getTrans_nonneg hf.le i f)
      rw [if_neg hc, h0]
      simp
  have hsum := tendsto_finset_sum Finset.univ fun i _ => hterm i
  rw [← ENNReal.ofReal_sum_of_nonneg] at hsum
  · have he : ∑ i, (if 0 < getTrans fin (toM d g) i f then getTrans fin (tilted d g θ v) i f / ∑ k, getTrans fin (toM d g) k f else 0) =
        (∑ i, getTrans fin (tilted d g θ v) i f) / ∑ k, getTrans fin (toM d g) k f := by
      rw [Finset.sum_div]
      refine Finset.sum_congr rfl fun i _ => ?_
      split_ifs with hc
      · rfl
      · have h0 : getTrans fin (toM d g) i f = 0 := le_antisymm (not_lt.1 hc) (hQ.getTrans_nonneg hf.le i f)
        rw [tilted_zero hQ hf hθ v h0, zero_div]
    rw [he] at hsum
    exact hsum
  · intro i _
    split_ifs
    · exact div_nonneg (tilted_nonneg hQ hf.le hθ v i f) hs.le
    · exact le_rfl

/-- The hypotheses hold for the generator that leaves state 0 at rate 1 and state 1 at rate 3; the bridge from 0 to 0 over time 1 has no jumps with probability
`e⁻¹ / (3/4 + e⁻⁴/4)`. -/
example : Filter.Tendsto (fun fuel => (sampleBridge fuel (toM 2 slowFast) 1 0 0).lexp (atSkel fun sk => sk.weight 2 (fun _ _ => 0) (fun _ => 0) 0)) Filter.atTop
    (nhds (ENNReal.ofReal (Real.exp (-1) / (3 / 4 + Real.exp (-4) / 4)))) := by
  have hQ := slowFast_isGenerator.toQ
  have hpos : 0 < getTrans 1 (toM 2 slowFast) 0 0 := hQ.getTrans_self_pos zero_le_one 0
  have h := (C83_bridge_law hQ one_pos hpos (θ := fun _ _ => 0) (fun _ _ => le_rfl) fun _ => 0).2
  have e1 : NormedSpace.exp ((1 : ℝ) • tilted 2 slowFast (fun _ _ => 0) fun _ => 0) 0 0 = Real.exp (-1) := by
    have : (1 : ℝ) • tilted 2 slowFast (fun _ _ => 0) (fun _ => 0) = Matrix.diagonal fun i : Fin 2 => slowFast i i := by
      ext i k
      rw [Matrix.smul_apply, Matrix.diagonal_apply, tilted]
      by_cases h : i = k <;> simp [h]
    rw [this, Matrix.exp_diagonal, Matrix.diagonal_apply_eq, Pi.coe_exp, ← Real.exp_eq_exp_ℝ]
    simp [slowFast]
  have e2 : NormedSpace.exp ((1 : ℝ) • toM 2 slowFast) 0 0 = 3 / 4 + Real.exp (-4) / 4 := by
    refine (slowFast_trans 1 0 0).trans ?_
    simp [slowFast]
    ring
  rw [e1, e2] at h
  exact h

end Ctb
