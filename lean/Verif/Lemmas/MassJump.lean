import Verif.Lemmas.MassOne
import Verif.Model.MjpSampling

/-!
# Every draw of the samplers of jump processes has admissible parameters
-/

set_option linter.unusedSectionVars false

namespace Ctb

open MeasureTheory Set Classical ProbabilityTheory
open scoped ENNReal

variable {α β : Type}

theorem mass_choice {d : ℕ} {q : Fin d → ℝ} (h0 : ∀ j, 0 ≤ q j) (h1 : ∑ j, q j = 1) : (NDist.choice d fun j => if h : j < d then q ⟨j, h⟩ else 0).law univ = 1 := by
  simp only [NDist.law, Measure.sum_apply _ MeasurableSet.univ, Measure.smul_apply, smul_eq_mul, measure_univ, mul_one, Fin.is_lt, dite_true, tsum_fintype]
  rw [← ENNReal.ofReal_sum_of_nonneg fun j _ => h0 j, h1, ENNReal.ofReal_one]

theorem mass_exponential {r : ℝ} (hr : 0 < r) : (RDist.exponential (1 / r)).law univ = 1 := by
  have := isProbabilityMeasure_expMeasure (one_div_pos.2 (one_div_pos.2 hr))
  show expMeasure _ univ = 1
  exact measure_univ

theorem mass_gamma {a b : ℝ} (ha : 0 < a) (hb : 0 < b) : (RDist.gamma a (1 / b)).law univ = 1 := by
  have := isProbabilityMeasure_gammaMeasure ha (one_div_pos.2 (one_div_pos.2 hb))
  show gammaMeasure _ _ univ = 1
  exact measure_univ

theorem mass_pyChoice {d : ℕ} (q : Fin d → ℝ) : Mass1 (pyChoice q) := by
  unfold pyChoice
  refine .ite (fun h => .nat _ _ (mass_choice h.1 h.2) fun x _ => ?_) fun _ => .err _
  split_ifs
  · exact .ret _
  · exact .err _

theorem mass_asState (d x : ℕ) : Mass1 (asState d x) := by
  unfold asState
  split_ifs
  · exact .ret _
  · exact .err _

theorem mass_drawHold (r : ℝ) : Mass1 (drawHold r) :=
  .ite (fun h => .real _ _ (mass_exponential h) fun _ _ => .ret _) fun _ => .ite (fun _ => .ret _) fun _ => .err _

theorem mass_forwardsLoop (d : ℕ) (g : Mat) (f : ℝ) (n : ℕ) (t : ℝ) (x : ℕ) : Mass1 (forwardsLoop d g f n t x) := by
  induction n generalizing t x with
  | zero => exact .err _
  | succ n ih =>
    refine .ite (fun _ => .ite (fun _ => (Mass1.mapM' fun _ _ => mass_drawHold _).bind fun hold _ => Mass1.lift.bind fun mv _ => ?_) fun _ => .err _) fun _ => .ret _
    rcases mv with ⟨k, m⟩
    cases m with
    | top => exact .ret _
    | coe h => exact (ih _ _).bind fun _ _ => .ret _

theorem mass_sampleForwards (fuel d : ℕ) (g : Mat) (f : ℝ) (o : Option ℕ) : Mass1 (sampleForwards fuel d g f o) := by
  unfold sampleForwards
  refine Mass1.bind ?_ fun _ _ => (mass_forwardsLoop ..).bind fun _ _ => .ret _
  cases o with
  | none => exact Mass1.lift.bind fun _ _ => (mass_pyChoice _).bind fun _ _ => .ret _
  | some x => exact .ret _

section

variable {d : ℕ} [NeZero d]

theorem mass_bridgeSteps (P : Matrix (Fin d) (Fin d) ℝ) (f : Fin d) (m : ℕ) (x : Fin d) : Mass1 (bridgeSteps P f m x) := by
  induction m generalizing x with
  | zero => exact .ret _
  | succ m ih => exact (mass_pyChoice _).bind fun y _ => (ih y).bind fun _ _ => .ret _

theorem mass_jumpBridge (fuel : ℕ) (G : Matrix (Fin d) (Fin d) ℝ) (f : ℝ) (i j : Fin d) : Mass1 (sampleBridge fuel G f i j) := by
  refine .real _ _ (mass_uniform _ _) fun U _ => Mass1.lift.bind fun n _ => .ite (fun _ => .ret _) fun _ => ?_
  exact (mass_bridgeSteps _ _ _ _).bind fun _ _ => ((Mass1.unif _ _).replicate _).bind fun _ _ => .ret _

theorem mass_sampleBackwards (fuel : ℕ) (G : Matrix (Fin d) (Fin d) ℝ) (f : ℝ) (j : Fin d) : Mass1 (sampleBackwards fuel G f j) :=
  (mass_pyChoice _).bind fun _ _ => mass_jumpBridge ..

theorem mass_firstState (d : ℕ) (s : Skel ℝ) : Mass1 (firstState d s) := by
  unfold firstState
  split
  · exact mass_asState _ _
  · exact .err _

theorem mass_lastState (d : ℕ) (s : Skel ℝ) : Mass1 (lastState d s) := by
  unfold lastState
  split
  · exact mass_asState _ _
  · exact .err _

theorem mass_mutatePartition (fuel : ℕ) (g : Mat) (ps : List (Skel ℝ)) : Mass1 (mutatePartition fuel d g ps) := by
  unfold mutatePartition
  split
  · exact .err _
  · exact (mass_sampleForwards ..).bind fun _ _ => .ret _
  · refine (mass_lastState ..).bind fun _ _ => (mass_sampleBackwards ..).bind fun _ _ => (mass_firstState ..).bind fun _ _ => (mass_sampleForwards ..).bind fun _ _ =>
      (Mass1.mapM' fun _ _ => (mass_firstState ..).bind fun _ _ => (mass_lastState ..).bind fun _ _ => mass_jumpBridge ..).bind fun _ _ => .ret _

theorem mass_condTimes (p : ℝ) (t : List ℝ) : Mass1 (condTimes p t) :=
  .ite (fun _ => .err _) fun _ => ((Mass1.unif _ _).replicate _).bind fun _ _ => .ret _

theorem mass_mjpPropose (fuel : ℕ) (l : ℝ) (s : Skel ℝ) (g : Mat) (t : List ℝ) : Mass1 (mjpPropose fuel d l s g t) :=
  (mass_condTimes ..).bind fun _ _ => (mass_mutatePartition ..).bind fun _ _ => Mass1.lift.bind fun _ _ => .ret _

end

end Ctb
