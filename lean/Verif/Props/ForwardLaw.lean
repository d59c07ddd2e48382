import Verif.Lemmas.ForwardLaw
import Verif.Lemmas.Proper
import Verif.Props.MjpSampling

/-!
# C82: `sample_forwards` samples the jump process with the given generator

`fuel` bounds the number of rounds of the `while` loop; the code has no such bound, so its law is the limit for `fuel → ∞`.
-/

set_option linter.unusedSectionVars false

namespace Ctb

open Classical MeasureTheory ProbabilityTheory
open scoped ENNReal

variable {d : ℕ}

/-- **C82.** Joint law of end state, jump counts and occupation times of `sample_forwards` started in `x`: for all weights `θ ≥ 0` and `v`, the
expectation of `θ^counts · e^{-v · times}` on the paths ending in `j` that take at most `fuel` rounds increases to the entry `(x, j)` of
`exp (fin_t · Q')`, with `Q'` the tilted generator. -/
theorem C82_forward_law (hd : 2 ≤ d) {g : Mat} (hQ : IsQMatrix (toM d g)) {fin : ℝ} (hf : 0 < fin) {θ : ℕ → ℕ → ℝ} (hθ : ∀ i k, 0 ≤ θ i k)
    (v : ℕ → ℝ) (x j : Fin d) :
    (∀ fuel, (sampleForwards fuel d g fin (some x)).lexp (atSkel fun sk => sk.weight d θ v j) ≤
      ENNReal.ofReal (NormedSpace.exp (fin • tilted d g θ v) x j)) ∧
    Filter.Tendsto (fun fuel => (sampleForwards fuel d g fin (some x)).lexp (atSkel fun sk => sk.weight d θ v j)) Filter.atTop
      (nhds (ENNReal.ofReal (NormedSpace.exp (fin • tilted d g θ v) x j))) := by
  obtain ⟨h1, h2⟩ := restVal_tendsto hd hQ fin hθ v j hf x
  refine ⟨fun fuel => ?_, ?_⟩
  · cases fuel with
    | zero => simp [sampleForwards, forwardsLoop, atSkel]
    | succ n => rw [forwards_weight hf hθ]; exact h1 n
  · rw [← Filter.tendsto_add_atTop_iff_nat 1]
    simp only [forwards_weight hf hθ]
    exact h2

theorem tilted_one (d : ℕ) (g : Mat) : tilted d g (fun _ _ => 1) (fun _ => 0) = toM d g := by
  ext i k
  unfold tilted toM
  split_ifs with h
  · rw [h]; ring
  · ring

theorem weight_one (sk : Skel ℝ) (d j : ℕ) : sk.weight d (fun _ _ => 1) (fun _ => 0) j = if sk.xt.getLast? = some j then 1 else 0 := by
  simp [Skel.weight]

theorem lexp_last (p : Prog (Skel ℝ)) (d j : ℕ) :
    p.lexp (atSkel fun sk => sk.weight d (fun _ _ => 1) (fun _ => 0) j) = p.prob fun r => ∃ sk, r = .ok sk ∧ sk.xt.getLast? = some j := by
  unfold Prog.prob
  congr 1
  ext r
  rcases r with e | sk
  · simp [atSkel]
  · simp [atSkel, weight_one]

/-- **C82, end state.** The path is in state `j` at the horizon with probability `exp (fin_t · gen)[x, j]`. -/
theorem C82_end_state (hd : 2 ≤ d) {g : Mat} (hQ : IsQMatrix (toM d g)) {fin : ℝ} (hf : 0 < fin) (x j : Fin d) :
    Filter.Tendsto (fun fuel => (sampleForwards fuel d g fin (some x)).prob fun r => ∃ sk, r = .ok sk ∧ sk.xt.getLast? = some j.val) Filter.atTop
      (nhds (ENNReal.ofReal (NormedSpace.exp (fin • toM d g) x j))) := by
  have := (C82_forward_law hd hQ hf (θ := fun _ _ => 1) (fun _ _ => zero_le_one) (fun _ => 0) x j).2
  simp only [lexp_last, tilted_one] at this
  exact this

/-- **C82, termination.** The loop ends with probability one. -/
theorem C82_terminates (hd : 2 ≤ d) {g : Mat} (hQ : IsQMatrix (toM d g)) {fin : ℝ} (hf : 0 < fin) (x : Fin d) :
    Filter.Tendsto (fun fuel => (sampleForwards fuel d g fin (some x)).prob fun r => ∃ sk, r = .ok sk) Filter.atTop (nhds 1) ∧
    Filter.Tendsto (fun fuel => (sampleForwards fuel d g fin (some x)).prob fun r => r = .error .fuel) Filter.atTop (nhds 0) := by
  haveI : NeZero d := ⟨by omega⟩
  have h1 : Filter.Tendsto (fun fuel => ∑ j : Fin d, (sampleForwards fuel d g fin (some x)).prob fun r => ∃ sk, r = .ok sk ∧ sk.xt.getLast? = some j.val)
      Filter.atTop (nhds 1) := by
    have := tendsto_finset_sum Finset.univ fun j _ => C82_end_state hd hQ hf x j
    have hs : ∑ j, ENNReal.ofReal (NormedSpace.exp (fin • toM d g) x j) = 1 := by
      have h2 : ∑ j, ENNReal.ofReal (getTrans fin (toM d g) x j) = 1 := by
        rw [← ENNReal.ofReal_sum_of_nonneg fun j _ => hQ.getTrans_nonneg hf.le x j, hQ.getTrans_row fin x, ENNReal.ofReal_one]
      exact h2
    rwa [hs] at this
  have hle : ∀ fuel, ∑ j : Fin d, (sampleForwards fuel d g fin (some x)).prob (fun r => ∃ sk, r = .ok sk ∧ sk.xt.getLast? = some j.val) ≤
      (sampleForwards fuel d g fin (some x)).prob fun r => ∃ sk, r = .ok sk := by
    intro fuel
    refine (Prog.lexp_sum_le _ _ _).trans (Prog.lexp_mono _ fun r => ?_)
    rcases r with e | sk
    · simp
    · have hone : (if ∃ sk', (Except.ok sk : Res (Skel ℝ)) = .ok sk' then (1 : ℝ≥0∞) else 0) = 1 := if_pos ⟨sk, rfl⟩
      rw [hone]
      rcases hl : sk.xt.getLast? with _ | y
      · simp [hl]
      · by_cases hy : y < d
        · rw [Finset.sum_eq_single (⟨y, hy⟩ : Fin d)]
          · split_ifs <;> simp
          · intro j _ hj
            refine if_neg ?_
            rintro ⟨sk', h1, h2⟩
            cases h1
            rw [hl] at h2
            exact hj (Fin.ext (Option.some.inj h2).symm)
          · simp
        · rw [Finset.sum_eq_zero]
          · simp
          · intro j _
            refine if_neg ?_
            rintro ⟨sk', h1, h2⟩
            cases h1
            rw [hl] at h2
            have := Option.some.inj h2
            omega
  have hok : Filter.Tendsto (fun fuel => (sampleForwards fuel d g fin (some x)).prob fun r => ∃ sk, r = .ok sk) Filter.atTop (nhds 1) :=
    tendsto_of_tendsto_of_tendsto_of_le_of_le h1 tendsto_const_nhds hle fun fuel => (proper_sampleForwards fuel d g fin _).prob_le_one _
  refine ⟨hok, ?_⟩
  have hsub : Filter.Tendsto (fun fuel => 1 - (sampleForwards fuel d g fin (some x)).prob fun r => ∃ sk, r = .ok sk) Filter.atTop (nhds 0) := by
    have := ENNReal.Tendsto.sub (tendsto_const_nhds (x := (1 : ℝ≥0∞))) hok (Or.inl ENNReal.one_ne_top)
    simpa using this
  refine tendsto_of_tendsto_of_tendsto_of_le_of_le tendsto_const_nhds hsub (fun _ => zero_le) fun fuel => ?_
  have h := (proper_sampleForwards fuel d g fin (some x.val)).prob_add_le_one (P := fun r => r = .error .fuel) (Q := fun r => ∃ sk, r = .ok sk)
    (by rintro r rfl ⟨sk, h⟩; cases h)
  exact ENNReal.le_sub_of_add_le_right (ne_top_of_le_ne_top ENNReal.one_ne_top ((proper_sampleForwards fuel d g fin _).prob_le_one _)) h

/-- Without an initial state the first state is drawn from the stationary law. -/
theorem forwards_none_exp [NeZero d] {fuel : ℕ} {g : Mat} (hg : IsGenerator d g) {fin : ℝ} {p : Fin d → ℝ} (hp : getStat d g = .ok p)
    (f : Res (Skel ℝ) → ℝ≥0∞) :
    (sampleForwards fuel d g fin none).lexp f = ∑ x, ENNReal.ofReal (p x) * (sampleForwards fuel d g fin (some x)).lexp f := by
  obtain ⟨p', hp', hpos, hsum, -⟩ := C12_get_stat hg
  have : p' = p := Except.ok.inj (hp'.symm.trans hp)
  subst this
  have h : sampleForwards fuel d g fin none = (pyChoice p').bind fun x => sampleForwards fuel d g fin (some x) := by
    simp only [sampleForwards, hp, Prog.lift, Prog.ret_bind, Prog.bind_assoc]
  rw [h, lexp_pyChoice ⟨fun j => (hpos j).le, hsum⟩]

theorem stationary_exp {g : Mat} {p : Fin d → ℝ} (hp : ∀ j : Fin d, ∑ i : Fin d, p i * g i j = 0) (s : ℝ) (j : Fin d) :
    ∑ i, p i * NormedSpace.exp (s • toM d g) i j = p j := by
  have hd : ∀ s : ℝ, HasDerivAt (fun s : ℝ => ∑ i, p i * mexp (toM d g) s i j) 0 s := by
    intro s
    have h1 : HasDerivAt (fun s : ℝ => ∑ i, p i * mexp (toM d g) s i j) (∑ i, p i * (toM d g * mexp (toM d g) s) i j) s :=
      HasDerivAt.fun_sum fun i _ => (mexp_deriv (toM d g) i j s).const_mul (p i)
    refine h1.congr_deriv ?_
    simp only [Matrix.mul_apply, Finset.mul_sum]
    rw [Finset.sum_comm]
    refine Finset.sum_eq_zero fun k _ => ?_
    have := hp k
    simp only [← mul_assoc]
    rw [← Finset.sum_mul]
    change (∑ i, p i * g i k) * _ = 0
    rw [this, zero_mul]
  have hc := is_const_of_deriv_eq_zero (fun s => (hd s).differentiableAt) (fun s => (hd s).deriv) s 0
  simp only [mexp_zero, Matrix.one_apply, mul_ite, mul_one, mul_zero, Finset.sum_ite_eq', Finset.mem_univ, if_true] at hc
  rw [← hc]
  simp only [mexp_def]

/-- **C82, stationarity.** Without an initial state the path is stationary: its state at the horizon has the law returned by `get_stat`. -/
theorem C82_stationary [NeZero d] (hd : 2 ≤ d) {g : Mat} (hg : IsGenerator d g) {fin : ℝ} (hf : 0 < fin) (j : Fin d) :
    ∃ p, getStat d g = .ok p ∧
      Filter.Tendsto (fun fuel => (sampleForwards fuel d g fin none).prob fun r => ∃ sk, r = .ok sk ∧ sk.xt.getLast? = some j.val) Filter.atTop
        (nhds (ENNReal.ofReal (p j))) := by
  obtain ⟨p, hp, hpos, hsum, hst, -⟩ := C12_get_stat hg
  refine ⟨p, hp, ?_⟩
  unfold Prog.prob
  simp only [forwards_none_exp hg hp]
  have hlim := tendsto_finset_sum Finset.univ fun (x : Fin d) _ =>
    ENNReal.Tendsto.const_mul (a := ENNReal.ofReal (p x)) (C82_end_state hd hg.toQ hf x j) (Or.inr ENNReal.ofReal_ne_top)
  have he : ∑ x, ENNReal.ofReal (p x) * ENNReal.ofReal (NormedSpace.exp (fin • toM d g) x j) = ENNReal.ofReal (p j) := by
    have h2 : ENNReal.ofReal (∑ i, p i * getTrans fin (toM d g) i j) = ∑ i, ENNReal.ofReal (p i * getTrans fin (toM d g) i j) :=
      ENNReal.ofReal_sum_of_nonneg fun i _ => mul_nonneg (hpos i).le (hg.toQ.getTrans_nonneg hf.le i j)
    rw [← stationary_exp hst fin j]
    refine Eq.trans ?_ h2.symm
    exact Finset.sum_congr rfl fun i _ => (ENNReal.ofReal_mul (hpos i).le).symm
  rw [he] at hlim
  exact hlim

/-- The hypotheses hold for the two-state flip process; without jumps the tilted generator is diagonal, and the path stays in state 0 up to time
2 with probability `e^{-2}`. -/
example : Filter.Tendsto (fun fuel => (sampleForwards fuel 2 flipGen 2 (some 0)).lexp (atSkel fun sk => sk.weight 2 (fun _ _ => 0) (fun _ => 0) 0)) Filter.atTop
    (nhds (ENNReal.ofReal (Real.exp (-2)))) := by
  have h := (C82_forward_law (d := 2) le_rfl flipGen_isGenerator.toQ (fin := 2) (by norm_num) (θ := fun _ _ => 0) (fun _ _ => le_rfl) (fun _ => 0) 0 0).2
  have e : (2 : ℝ) • tilted 2 flipGen (fun _ _ => 0) (fun _ => 0) = Matrix.diagonal fun _ => (-2 : ℝ) := by
    ext i k
    rw [Matrix.smul_apply, Matrix.diagonal_apply, tilted]
    by_cases h : i = k
    · simp [h, flipGen]
    · simp [h]
  rw [e, Matrix.exp_diagonal, Matrix.diagonal_apply_eq, Pi.coe_exp, ← Real.exp_eq_exp_ℝ] at h
  exact h

end Ctb
