import Verif.Props.BridgeLaw

/-! # Law of a mutated partition -/

set_option linter.unusedSectionVars false

namespace Ctb

open Classical MeasureTheory ProbabilityTheory
open scoped ENNReal

/-! ## averaging over the last state -/

variable {d : ℕ}

/-- Value at the last state of a path. -/
noncomputable def lastVal (K : Fin d → ℝ≥0∞) (sk : Skel ℝ) : ℝ≥0∞ :=
  match sk.xt.getLast? with
  | some y => if h : y < d then K ⟨y, h⟩ else 0
  | none => 0

theorem lastVal_sum (K : Fin d → ℝ≥0∞) (sk : Skel ℝ) : lastVal K sk = ∑ x : Fin d, K x * if sk.xt.getLast? = some x.val then 1 else 0 := by
  unfold lastVal
  rcases h : sk.xt.getLast? with _ | y
  · simp
  · by_cases hy : y < d
    · simp only [hy, dif_pos]
      rw [Finset.sum_eq_single (⟨y, hy⟩ : Fin d)]
      · simp
      · intro x _ hx
        rw [if_neg, mul_zero]
        intro h; exact hx (Fin.ext (Option.some.inj h).symm)
      · simp
    · simp only [hy, dif_neg, not_false_iff]
      refine (Finset.sum_eq_zero fun x _ => ?_).symm
      rw [if_neg, mul_zero]
      intro h; exact hy ((Option.some.inj h) ▸ x.2)

/-- Probability of ending in `x`. -/
noncomputable def endProb (p : Prog (Skel ℝ)) (x : ℕ) : ℝ≥0∞ := p.prob fun r => ∃ sk, r = .ok sk ∧ sk.xt.getLast? = some x

theorem lastVal_ge (p : Prog (Skel ℝ)) {K : Fin d → ℝ≥0∞} (hK : ∀ x, K x ≤ 1) : ∑ x, K x * endProb p x ≤ p.lexp (atSkel (lastVal K)) := by
  have h1 : ∀ x : Fin d, K x * endProb p x = p.lexp fun r => K x * if ∃ sk, r = .ok sk ∧ sk.xt.getLast? = some x.val then 1 else 0 := fun x => by
    rw [endProb, Prog.prob, Prog.lexp_const_mul _ _ (ne_top_of_le_ne_top ENNReal.one_ne_top (hK x))]
  simp only [h1]
  refine (Prog.lexp_sum_le _ _ _).trans (Prog.lexp_mono _ fun r => ?_)
  rcases r with e | sk
  · simp
  · rw [atSkel, lastVal_sum]
    refine Finset.sum_le_sum fun x _ => mul_le_mul_right (le_of_eq ?_) _
    congr 1
    simp

theorem lastVal_le {p : Prog (Skel ℝ)} (hp : p.Proper) {K : Fin d → ℝ≥0∞} (hK : ∀ x, K x ≤ 1) :
    p.lexp (atSkel (lastVal K)) ≤ 1 - ∑ x, (1 - K x) * endProb p x := by
  have h1 := lastVal_ge p (K := fun x => 1 - K x) fun x => tsub_le_self
  have h2 : p.lexp (atSkel (lastVal K)) + p.lexp (atSkel (lastVal fun x => 1 - K x)) ≤ 1 := by
    refine (Prog.lexp_add_le _ _ _).trans (hp.lexp_le fun r _ => ?_)
    rcases r with e | sk
    · simp [atSkel]
    · simp only [atSkel, lastVal]
      rcases sk.xt.getLast? with _ | y
      · simp
      · by_cases hy : y < d
        · simp only [hy, dif_pos]
          rw [add_tsub_cancel_of_le (hK _)]
        · simp [hy]
  refine ENNReal.le_sub_of_add_le_right ?_ ((add_le_add_right h1 _).trans h2)
  exact ne_top_of_le_ne_top ENNReal.one_ne_top ((le_add_left h1).trans h2)

theorem lastVal_tendsto {p : ℕ → Prog (Skel ℝ)} (hp : ∀ n, (p n).Proper) {q k : Fin d → ℝ≥0∞} (hq : ∀ x, Filter.Tendsto (fun n => endProb (p n) x.val) Filter.atTop (nhds (q x)))
    (hsum : ∑ x, q x = 1) {K : ℕ → Fin d → ℝ≥0∞} (hK : ∀ n x, K n x ≤ 1) (hKt : ∀ x, Filter.Tendsto (fun n => K n x) Filter.atTop (nhds (k x))) :
    Filter.Tendsto (fun n => (p n).lexp (atSkel (lastVal (K n)))) Filter.atTop (nhds (∑ x, k x * q x)) := by
  have hk1 : ∀ x, k x ≤ 1 := fun x => le_of_tendsto' (hKt x) fun n => hK n x
  have hq1 : ∀ x, q x ≤ 1 := fun x => hsum ▸ Finset.single_le_sum (fun _ _ => zero_le) (Finset.mem_univ x)
  have hqt : ∀ x, q x ≠ ∞ := fun x => ne_top_of_le_ne_top ENNReal.one_ne_top (hq1 x)
  have hkt : ∀ x, k x ≠ ∞ := fun x => ne_top_of_le_ne_top ENNReal.one_ne_top (hk1 x)
  have hlo : Filter.Tendsto (fun n => ∑ x, K n x * endProb (p n) x) Filter.atTop (nhds (∑ x, k x * q x)) :=
    tendsto_finset_sum _ fun x _ => ENNReal.Tendsto.mul (hKt x) (Or.inr (hqt x)) (hq x) (Or.inr (hkt x))
  have hup : Filter.Tendsto (fun n => 1 - ∑ x, (1 - K n x) * endProb (p n) x) Filter.atTop (nhds (1 - ∑ x, (1 - k x) * q x)) := by
    refine ENNReal.Tendsto.sub tendsto_const_nhds (tendsto_finset_sum _ fun x _ => ?_) (Or.inl ENNReal.one_ne_top)
    refine ENNReal.Tendsto.mul (ENNReal.Tendsto.sub tendsto_const_nhds (hKt x) (Or.inl ENNReal.one_ne_top)) (Or.inr (hqt x)) (hq x) (Or.inr ?_)
    exact ne_top_of_le_ne_top ENNReal.one_ne_top tsub_le_self
  have he : 1 - ∑ x, (1 - k x) * q x = ∑ x, k x * q x := by
    have h1 : ∑ x, k x * q x + ∑ x, (1 - k x) * q x = 1 := by
      rw [← Finset.sum_add_distrib]
      refine (Finset.sum_congr rfl fun x _ => ?_).trans hsum
      rw [← add_mul, add_tsub_cancel_of_le (hk1 x), one_mul]
    have h2 : ∑ x, (1 - k x) * q x ≠ ∞ := ne_top_of_le_ne_top ENNReal.one_ne_top (le_add_self.trans h1.le)
    exact ENNReal.sub_eq_of_eq_add h2 h1.symm
  rw [he] at hup
  exact tendsto_of_tendsto_of_tendsto_of_le_of_le hlo hup (fun n => lastVal_ge _ (hK n)) fun n => lastVal_le (hp n) (hK n)

end Ctb
