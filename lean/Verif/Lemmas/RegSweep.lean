import Verif.Lemmas.RegWeight
import Verif.Lemmas.RegParams
import Verif.Props.UpdateLaws

/-!
# The operations of the parameter update of the library's models are measurable
-/

set_option linter.unusedSectionVars false

namespace Ctb

open MeasureTheory ProbabilityTheory Set Classical
open scoped ENNReal

variable {X : Type} [MeasurableSpace X]

/-- The operations the parameter update uses, for a model of the library: `eval_param_weight`, switching/mcmc.py:115-117 (where it is a number) and
`flip_param_coin`, switching/mcmc.py:139-150. -/
noncomputable def swParamOps (M : SwitchFns 2) (R : RegimeFns 2) (grad : (Fin 2 → ℝ) → (Fin 2 → ℝ) → ℝ → ℝ → ℝ → ℝ → ℝ → Fin 2 → ℝ) (guard : Bool) (n nb k : ℕ) (size : ℤ) (h : Anchorage ℝ ℝ) :
    ParamOps 2 EaSkel where
  weight thi i := resGetD 0 ((evalParamWeight M n thi h i).bind fun o => optRes .nan o)
  flip nil prime s z up := swFlipParam guard nb k R grad nil prime s.1 s.2.1 s.2.2.1 s.2.2.2 up size z

theorem meas_restrictedLogLik {p : ℕ} {M : SwitchFns p} (hM : MeasSwitch M) (n : ℕ) {thi : X → Thi p} {h : X → Anchorage ℝ ℝ} (ht : Measurable thi) (hh : Measurable h) (i : ℕ) :
    Measurable fun x => evalBiasedLogLik M n (thi x) (h x) i := by
  have h1 := meas_sigT hM ht hh
  have hs : Measurable fun x => (h x).yt.dropLast.map fun y => decide (y = i) := Measurable.discrete (f := fun x => (h x).yt) (by fun_prop) fun l : List ℕ => l.dropLast.map fun y => decide (y = i)
  have h2 : Measurable fun x => normTerms M (h x).vt (sigT M (thi x) (h x)) := meas_normTerms hM (by fun_prop) h1
  have h3 : Measurable fun x => likTerms M (thi x) (h x) := Measurable.zipWith' (f := fun _ a b => a + b) (meas_pDel hM ht hh) h2 (by fun_prop)
  unfold evalBiasedLogLik
  refine Measurable.ite' ?_ measurable_const (Measurable.ite' ?_ measurable_const (Measurable.ite' (Measurable.isNil (by fun_prop)) measurable_const (Measurable.ite' ?_ measurable_const (Measurable.resOk ?_))))
  · exact Measurable.discrete (f := fun x => (h x).yt) (by fun_prop) fun l : List ℕ => ∃ y ∈ l.dropLast, n ≤ y
  · exact Measurable.discrete (f := fun x => ((h x).yt.length, (h x).vt.length, (h x).t.length)) (by fun_prop) fun q : ℕ × ℕ × ℕ => q.1 ≠ q.2.2 ∨ q.2.1 ≠ q.2.2
  · exact Measurable.memEx (l := fun x => sigT M (thi x) (h x)) (P := fun _ s => s ≤ 0) h1 (by fun_prop)
  · exact Measurable.listSum (Measurable.select h3 hs)

theorem measSet_exists {n : ℕ} {P : X → ℕ → Fin 2 → Prop} (hP : ∀ i j, MeasurableSet {x | P x i j}) : MeasurableSet {x | ∃ i < n, ∃ j, P x i j} := by
  have e : {x | ∃ i < n, ∃ j, P x i j} = ⋃ i ∈ Finset.range n, ⋃ j, {x | P x i j} := by
    ext x
    simp only [mem_ofPred_eq, mem_iUnion, exists_prop, Finset.mem_range]
  rw [e]
  exact Finset.measurableSet_biUnion _ fun i _ => MeasurableSet.iUnion fun j => hP i j

theorem meas_logPrior (n : ℕ) {thi : X → Thi 2} (ht : Measurable thi) : Measurable fun x => evalLogPrior n (thi x) := by
  unfold evalLogPrior
  have h1 : ∀ i j, Measurable fun x => thi x i j := fun i j => by fun_prop
  refine Measurable.ite' (measurableSet_setOfPred.1 (measSet_exists (P := fun x i j => thi x i j < 0) fun i j => measurableSet_lt (h1 i j) measurable_const)) measurable_const
    (Measurable.ite' (measurableSet_setOfPred.1 (measSet_exists (P := fun x i j => thi x i j = 0) fun i j => measurableSet_eq_fun (h1 i j) measurable_const)) measurable_const (Measurable.resOk (Measurable.some (Measurable.neg ?_))))
  induction n with
  | zero =>
    simp only [List.range_zero, List.map_nil, List.sum_nil]
    exact measurable_const
  | succ n ih =>
    simp only [List.range_succ, List.map_append, List.sum_append, List.map_cons, List.map_nil, List.sum_cons, List.sum_nil]
    refine ih.add ?_
    fun_prop

theorem measParamOps_switch {M : SwitchFns 2} {R : RegimeFns 2} (hM : MeasSwitch M) (hR : MeasRegime R) {grad : (Fin 2 → ℝ) → (Fin 2 → ℝ) → ℝ → ℝ → ℝ → ℝ → ℝ → Fin 2 → ℝ}
    (hg : Measurable fun q : GradArg 2 => grad q.1 q.2.1 q.2.2.1 q.2.2.2.1 q.2.2.2.2.1 q.2.2.2.2.2.1 q.2.2.2.2.2.2) (guard : Bool) (n nb k : ℕ) (size : ℤ) :
    MeasParamOps fun h : Anchorage ℝ ℝ => swParamOps M R grad guard n nb k size h where
  weight i := by
    refine (measurable_resGetD 0).comp (Measurable.resBind ?_ (Measurable.optRes measurable_snd _))
    unfold evalParamWeight
    refine Measurable.resBind (meas_restrictedLogLik hM n (by fun_prop) (by fun_prop) i) (Measurable.resBind (meas_logPrior n (by fun_prop)) (Measurable.resOk ?_))
    exact Measurable.optionCases (o := fun q : ((Anchorage ℝ ℝ × Thi 2) × ℝ) × Option ℝ => q.2) (by fun_prop) (f := fun q o => o.map (q.1.2 + ·)) measurable_const (Measurable.some (by fun_prop))
  flip b := (reg_swFlipParam hR hg guard nb k b size).comp (f := fun q : Anchorage ℝ ℝ × (Thi 2 × Thi 2) × (ℝ × ℕ × ℝ × ℝ) × EaSkel => q.2) (by fun_prop)

theorem massParamOps_switch (M : SwitchFns 2) (R : RegimeFns 2) (grad : (Fin 2 → ℝ) → (Fin 2 → ℝ) → ℝ → ℝ → ℝ → ℝ → ℝ → Fin 2 → ℝ) (guard : Bool) (n nb k : ℕ) (size : ℤ) (h : Anchorage ℝ ℝ) :
    MassParamOps (swParamOps M R grad guard n nb k size h) where
  flip _ _ _ _ _ := by
    simp only [swParamOps, swFlipParam_one]
    exact mass_flipDualCoin ..

end Ctb
