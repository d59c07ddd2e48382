import Verif.Basic.Law
import Verif.Model.MjpSampling

/-!
# Programs whose draws are proper distributions

Their probabilities are at most one, and an event and its complement have total probability at most one.
-/

set_option linter.unusedSectionVars false

namespace Ctb

open Classical MeasureTheory ProbabilityTheory
open scoped ENNReal

namespace Prog

variable {α β : Type}

/-- Every reachable draw has a law of total mass at most one. -/
def Proper : Prog α → Prop
  | ret _ => True
  | err _ => True
  | real d k => d.law Set.univ ≤ 1 ∧ ∀ x ∈ d.support, (k x).Proper
  | nat d k => d.law Set.univ ≤ 1 ∧ ∀ n ∈ d.support, (k n).Proper

theorem Proper.bind {p : Prog α} {f : α → Prog β} (hp : p.Proper) (hf : ∀ a, p.Out (.ok a) → (f a).Proper) : (p.bind f).Proper := by
  induction p with
  | ret a => exact hf a rfl
  | err e => trivial
  | real d k ih => exact ⟨hp.1, fun x hx => ih x (hp.2 x hx) fun a ha => hf a ⟨x, hx, ha⟩⟩
  | nat d k ih => exact ⟨hp.1, fun x hx => ih x (hp.2 x hx) fun a ha => hf a ⟨x, hx, ha⟩⟩

theorem Proper.lift {r : Res α} : (Prog.lift r).Proper := by
  cases r <;> trivial

theorem Proper.replicate {p : Prog α} (hp : p.Proper) (n : ℕ) : (Prog.replicate n p).Proper := by
  induction n with
  | zero => trivial
  | succ n ih => exact hp.bind fun _ _ => ih.bind fun _ _ => trivial

theorem Proper.mapM' {f : α → Prog β} {l : List α} (hf : ∀ a ∈ l, (f a).Proper) : (Prog.mapM' f l).Proper := by
  induction l with
  | nil => trivial
  | cons a l ih => exact (hf a (by simp)).bind fun _ _ => (ih fun b hb => hf b (by simp [hb])).bind fun _ _ => trivial

theorem Proper.lexp_le {p : Prog α} (hp : p.Proper) {g : Res α → ℝ≥0∞} {c : ℝ≥0∞} (hg : ∀ r, p.Out r → g r ≤ c) : p.lexp g ≤ c := by
  induction p with
  | ret a => exact hg _ rfl
  | err e => exact hg _ rfl
  | real d k ih =>
    rw [lexp_real]
    have h1 : ∀ᵐ x ∂d.law, x ∈ d.support := by rw [ae_iff]; exact RDist.law_support d
    have h2 : ∫⁻ x, (k x).lexp g ∂d.law ≤ ∫⁻ _, c ∂d.law := by
      refine lintegral_mono_ae ?_
      filter_upwards [h1] with x hx
      exact ih x (hp.2 x hx) fun r hr => hg r ⟨x, hx, hr⟩
    refine h2.trans ?_
    rw [lintegral_const]
    calc c * d.law Set.univ ≤ c * 1 := mul_le_mul_right hp.1 _
      _ = c := mul_one c
  | nat d k ih =>
    rw [lexp_nat]
    have h1 : ∀ᵐ x ∂d.law, x ∈ d.support := by rw [ae_iff]; exact NDist.law_support d
    have h2 : ∫⁻ x, (k x).lexp g ∂d.law ≤ ∫⁻ _, c ∂d.law := by
      refine lintegral_mono_ae ?_
      filter_upwards [h1] with x hx
      exact ih x (hp.2 x hx) fun r hr => hg r ⟨x, hx, hr⟩
    refine h2.trans ?_
    rw [lintegral_const]
    calc c * d.law Set.univ ≤ c * 1 := mul_le_mul_right hp.1 _
      _ = c := mul_one c

theorem Proper.prob_le_one {p : Prog α} (hp : p.Proper) (P : Res α → Prop) : p.prob P ≤ 1 :=
  hp.lexp_le fun r _ => by split_ifs <;> simp

theorem lexp_add_le (p : Prog α) (g h : Res α → ℝ≥0∞) : p.lexp g + p.lexp h ≤ p.lexp fun r => g r + h r := by
  induction p with
  | ret a => exact le_rfl
  | err e => exact le_rfl
  | real d k ih => simp only [lexp_real]; exact (le_lintegral_add _ _).trans (lintegral_mono ih)
  | nat d k ih => simp only [lexp_nat]; exact (le_lintegral_add _ _).trans (lintegral_mono ih)

theorem lexp_sum_le {ι : Type} (p : Prog α) (s : Finset ι) (g : ι → Res α → ℝ≥0∞) : ∑ i ∈ s, p.lexp (g i) ≤ p.lexp fun r => ∑ i ∈ s, g i r := by
  induction s using Finset.induction_on with
  | empty => simp
  | insert a s ha ih =>
    rw [Finset.sum_insert ha]
    refine (add_le_add_right ih _).trans ?_
    refine (lexp_add_le _ _ _).trans (le_of_eq ?_)
    congr 1
    ext r
    rw [Finset.sum_insert ha]

/-- Exclusive events have total probability at most one. -/
theorem Proper.prob_add_le_one {p : Prog α} (hp : p.Proper) {P Q : Res α → Prop} (hPQ : ∀ r, P r → ¬ Q r) : p.prob P + p.prob Q ≤ 1 := by
  refine (lexp_add_le p _ _).trans (hp.lexp_le fun r _ => ?_)
  by_cases h : P r
  · simp [h, hPQ r h]
  · simp only [h, if_false, zero_add]; split_ifs <;> simp

end Prog

theorem uniform_mass (lo hi : ℝ) : (RDist.uniform lo hi).law Set.univ ≤ 1 := by
  rw [RDist.law, Measure.map_apply (by fun_prop) MeasurableSet.univ]
  simp

theorem exponential_mass {s : ℝ} (hs : 0 < s) : (RDist.exponential s).law Set.univ ≤ 1 := by
  rw [RDist.law]
  have := isProbabilityMeasure_expMeasure (r := 1 / s) (by positivity)
  exact prob_le_one

/-- Expectation after `ome.choice`. -/
theorem lexp_pyChoice {d : ℕ} {α : Type} {q : Fin d → ℝ} (hq : (∀ j, 0 ≤ q j) ∧ ∑ j, q j = 1) (f : Fin d → Prog α) (g : Res α → ℝ≥0∞) :
    ((pyChoice q).bind f).lexp g = ∑ i, ENNReal.ofReal (q i) * (f i).lexp g := by
  unfold pyChoice
  rw [if_pos hq, Prog.nat_bind, Prog.lexp_nat, NDist.law, lintegral_sum_measure, tsum_fintype]
  refine Finset.sum_congr rfl fun i _ => ?_
  rw [lintegral_smul_measure, lintegral_dirac]
  simp

theorem proper_pyChoice {d : ℕ} (q : Fin d → ℝ) : (pyChoice q).Proper := by
  unfold pyChoice
  split_ifs with h
  · refine ⟨?_, fun n _ => by dsimp only; split_ifs <;> trivial⟩
    rw [NDist.law, Measure.sum_apply _ MeasurableSet.univ, tsum_fintype]
    simp only [Measure.smul_apply, measure_univ, smul_eq_mul, mul_one, Fin.is_lt, dif_pos, Fin.eta]
    rw [← ENNReal.ofReal_sum_of_nonneg fun i _ => h.1 i, h.2]; simp
  · trivial

theorem proper_drawHold (r : ℝ) : (drawHold r).Proper := by
  unfold drawHold
  split_ifs with h
  · exact ⟨exponential_mass (by positivity), fun _ _ => trivial⟩
  · trivial
  · trivial

theorem proper_forwardsLoop (d : ℕ) (g : Mat) (fin : ℝ) (n : ℕ) : ∀ t x, (forwardsLoop d g fin n t x).Proper := by
  induction n with
  | zero => intro t x; trivial
  | succ n ih =>
    intro t x
    unfold forwardsLoop
    split_ifs
    · refine Prog.Proper.bind (Prog.Proper.mapM' fun r _ => proper_drawHold r) fun hold _ => Prog.Proper.bind .lift fun mv _ => ?_
      split
      · trivial
      · exact (ih _ _).bind fun _ _ => trivial
    · trivial
    · trivial

theorem proper_sampleForwards (fuel d : ℕ) (g : Mat) (fin : ℝ) (init : Option ℕ) : (sampleForwards fuel d g fin init).Proper := by
  unfold sampleForwards
  refine Prog.Proper.bind ?_ fun x _ => (proper_forwardsLoop _ _ _ _ _ _).bind fun _ _ => trivial
  split
  · trivial
  · exact Prog.Proper.lift.bind fun _ _ => (proper_pyChoice _).bind fun _ _ => trivial

theorem proper_bridgeSteps {d : ℕ} (P : Matrix (Fin d) (Fin d) ℝ) (f : Fin d) (m : ℕ) : ∀ x, (bridgeSteps P f m x).Proper := by
  induction m with
  | zero => intro x; trivial
  | succ m ih => intro x; exact (proper_pyChoice _).bind fun y _ => (ih y).bind fun _ _ => trivial

theorem proper_sampleBridge {d : ℕ} [NeZero d] {fuel : ℕ} {G : Matrix (Fin d) (Fin d) ℝ} (fin : ℝ) (i f : Fin d) : (sampleBridge fuel G fin i f).Proper := by
  refine ⟨uniform_mass _ _, fun U _ => ?_⟩
  unfold bridgeFrom
  refine Prog.Proper.lift.bind fun n _ => ?_
  split_ifs
  · trivial
  · have : (Prog.draw (.uniform 0 fin)).Proper := ⟨uniform_mass _ _, fun _ _ => trivial⟩
    exact (proper_bridgeSteps _ _ _ _).bind fun _ _ => (this.replicate n).bind fun _ _ => trivial

end Ctb
