import Verif.Props.SwitchLaws
import Verif.Props.UpdateLaws
import Verif.Lemmas.RegObjective

set_option linter.unusedSectionVars false

/-! # C114: adaptive rejection sampling, diffusions with a free end and Monte Carlo EM have laws -/

namespace Ctb

open MeasureTheory ProbabilityTheory Set
open scoped ENNReal

/-! ## Adaptive rejection sampling -/

/-- `sample` of misc/ars.py:7-67, for every measurable log-density and derivative: the values drawn and the hull left behind. -/
theorem C114_ars {f df : ℝ → ℝ} (hf : Measurable f) (hd : Measurable df) (lb ub : EReal) (maxPts fuel n : ℕ) :
    HasLaw fun init : List ℝ => arsSample f df lb ub init maxPts fuel n :=
  hasLaw (reg_arsSample (X := List ℝ) (f := fun _ => f) (df := fun _ => df) (hf.comp measurable_snd) (hd.comp measurable_snd) lb ub measurable_id maxPts fuel n) fun _ => mass_arsLoop ..

section ito
variable {p : ℕ} {M : ItoFns p} {ebd : (Fin p → ℝ) → ℝ → ℝ → Res DiscBounds}

/-- `sample_conv_endpt`, ito/static.py:85-91: jointly in the parameters, the duration, the start and the mode. -/
theorem C114_endpoints (hD : MeasDrift M) (lb ub : EReal) (fuel n : ℕ) :
    HasLaw fun q : (Fin p → ℝ) × ℝ × ℝ × ℝ => sampleConvEndpt M lb ub q.1 q.2.1 q.2.2.1 q.2.2.2 fuel n :=
  hasLaw (reg_sampleConvEndpt hD lb ub (by fun_prop) (by fun_prop) (by fun_prop) (by fun_prop) fuel n) fun _ => mass_arsLoop ..

/-- `sample_sde` without a given end, ito/static.py:16-27: the first `m` paths. -/
theorem C114_sdeFree (hM : MeasModel M ebd) (hD : MeasDrift M) (lb ub : EReal) (B : SdeBudget) (m : ℕ) :
    HasLaw fun q : (Fin p → ℝ) × List ℝ × ℝ × ℝ × ℝ => sampleSde M ebd lb ub B q.2.2.2.2 q.1 q.2.1 q.2.2.1 q.2.2.2.1 none m :=
  hasLaw (reg_sampleSdeFree hM hD lb ub B (by fun_prop) (by fun_prop) (by fun_prop) (by fun_prop) (by fun_prop) m) fun _ => mass_sampleSdeFree ..

/-- Both models of the library. -/
theorem C114_library_sdeFree (B : SdeBudget) (m : ℕ) :
    HasLaw (fun q : (Fin 2 → ℝ) × List ℝ × ℝ × ℝ × ℝ => sampleSde itoOu (fun thi le ue => .ok (itoOuBounds thi le ue)) ⊥ ⊤ B q.2.2.2.2 q.1 q.2.1 q.2.2.1 q.2.2.2.1 none m) ∧
    HasLaw (fun q : (Fin 3 → ℝ) × List ℝ × ℝ × ℝ × ℝ => sampleSde itoCir itoCirBounds 0 ⊤ B q.2.2.2.2 q.1 q.2.1 q.2.2.1 q.2.2.2.1 none m) :=
  ⟨C114_sdeFree measModel_ou measDrift_ou ⊥ ⊤ B m, C114_sdeFree measModel_cir measDrift_cir 0 ⊤ B m⟩

/-! ## Monte Carlo EM for diffusions -/

/-- `update_objective`, ito/mcem.py:77-88: the supports and the particles revealed there. -/
theorem C114_itoObjective (hM : MeasModel M ebd) (hD : MeasDrift M) (hR : Measurable fun q : (Fin p → ℝ) × ℝ => M.dvReduce q.1 q.2) (n k m : ℕ) :
    HasLaw fun q : ((Fin p → ℝ) × List ℝ × List ℝ) × List (List EaSkel) => itoUpdateObjective (interpolateSeed n k) M q.1.2.1 q.1.2.2 m q.1.1 q.2 :=
  hasLaw (reg_itoUpdateObjective hM hD hR n k m (by fun_prop) (by fun_prop) (by fun_prop) (by fun_prop)) fun _ => mass_itoUpdateObjective ..

/-- `maximize_posterior`, ito/mcem.py:33-45, with the samplers of the package; `mini` stands for the optimiser, any measurable function of what the objective captures.
The first `j` values. -/
theorem C114_itoEm (hM : MeasModel M ebd) (hD : MeasDrift M) (hR : Measurable fun q : (Fin p → ℝ) × ℝ => M.dvReduce q.1 q.2) (n F k m : ℕ) (lb ub : Option ℝ) (size : ℤ) (C : McmcControls)
    {mini : (Fin p → ℝ) → List (List ℝ) × List (List EaSkel) → Res ((Fin p → ℝ) × ℝ)} (hm : Measurable fun q : (Fin p → ℝ) × List (List ℝ) × List (List EaSkel) => mini q.1 q.2)
    (thin : ℕ) (lr ftol : ℝ) (j : ℕ) :
    HasLaw fun q : (Fin p → ℝ) × List ℝ × List ℝ => itoEm (itoSampleAug n F M lb ub q.1 q.2.1 q.2.2)
      (fun thi z => updateSde C (itoSdeOps n k M ebd thi size) (itoSampleAug n F M lb ub thi q.2.1 q.2.2) q.2.1 q.2.2 z)
      (fun thi zz => (itoUpdateObjective (interpolateSeed n k) M q.2.1 q.2.2 m thi zz).bind fun env => Prog.lift (mini thi env)) thin q.1 lr ftol j := by
  refine hasLaw (reg_itoEm (X := (Fin p → ℝ) × List ℝ × List ℝ) (reg_itoSampleAug hM n F lb ub (by fun_prop) (by fun_prop) (by fun_prop)) ?_ (Reg.bind ?_ (Reg.lift ?_)) thin (by fun_prop) lr ftol j) fun q => ?_
  · exact reg_updateSde hM n F k lb ub size C (by fun_prop) (by fun_prop) (by fun_prop) (by fun_prop)
  · exact reg_itoUpdateObjective hM hD hR n k m (by fun_prop) (by fun_prop) (by fun_prop) (by fun_prop)
  · exact hm.comp (by fun_prop : Measurable fun y : (((Fin p → ℝ) × List ℝ × List ℝ) × (Fin p → ℝ) × List (List EaSkel)) × List (List ℝ) × List (List EaSkel) => (y.1.2.1, y.2))
  · exact mass_itoEm (mass_itoSampleAug ..) (fun _ _ => mass_updateSde ..) (fun _ _ => (mass_itoUpdateObjective ..).bind fun _ _ => Mass1.lift) ..

end ito

/-! ## Monte Carlo EM for switching diffusions -/

section switching
variable {p : ℕ} {M : SwitchFns p} {R : RegimeFns p} {ebd : Thi p → ℕ → ℝ → ℝ → Res DiscBounds}

/-- `update_objective`, switching/mcem.py:97-111. -/
theorem C114_swObjective (hM : MeasSwitchModel M R ebd) (K n k m : ℕ) :
    HasLaw fun q : Thi p × List (List EaSkel × Anchorage ℝ ℝ) => swUpdateObjective (interpolateSeed n k) R M K m q.1 q.2 :=
  hasLaw (reg_swUpdateObjective hM.fns hM.regime K n k m (by fun_prop) (by fun_prop)) fun _ => mass_swUpdateObjective ..

/-- `maximize_posterior`, switching/mcem.py:36-53, with the samplers of the package; `mini` stands for the optimiser and `gen` for `update_generator`, which draws nothing.
The first `j` values. -/
theorem C114_swEm (hM : MeasSwitchModel M R ebd) (n nb F k m fuel d : ℕ) [NeZero d] (lb ub : Option ℝ) (size : ℤ) (A : AdaptPar) (C : McmcControls)
    {mini : Thi p → List (List EaSkel × Anchorage ℝ ℝ) → List (List (List ℝ)) × List (List EaSkel) → Res (Thi p × ℝ)}
    (hm : Measurable fun q : Thi p × List (List EaSkel × Anchorage ℝ ℝ) × List (List (List ℝ)) × List (List EaSkel) => mini q.1 q.2.1 q.2.2)
    {gen : List (List EaSkel × Anchorage ℝ ℝ) → Res (Mat × ℝ)} (hg : Measurable gen) (thin : ℕ) (lr ftol : ℝ) (j : ℕ) :
    HasLaw fun q : ((List ℝ × List ℝ) × Thi p) × ℝ × Mat => swEm
      ((initHidden fuel d A (swHiddenOps M R ebd n nb F k lb ub size q.1.1.1 q.1.1.2 q.1.2) q.2.1 q.2.2).bind fun s => .ret ((s.z, s.h), s.sampler))
      (fun thi lam s => (updateHidden fuel d A C (swHiddenOps M R ebd n nb F k lb ub size q.1.1.1 q.1.1.2 thi) q.1.1.1 lam ⟨s.1.1, s.1.2, s.2⟩).bind fun s => .ret ((s.z, s.h), s.sampler))
      (fun thi zz => (swUpdateObjective (interpolateSeed nb k) R M n m thi zz).bind fun env => Prog.lift (mini thi zz env))
      (fun zz => Prog.lift (gen zz)) thin q.1.2 q.2.2 lr ftol j := by
  have ho := hM.ops n nb F k lb ub size
  refine hasLaw (reg_swEm (X := ((List ℝ × List ℝ) × Thi p) × ℝ × Mat) (Reg.bind ?_ (Reg.ret (by fun_prop))) (Reg.bind ?_ (Reg.ret (by fun_prop))) (Reg.bind ?_ (Reg.lift ?_)) (Reg.lift ?_) thin (by fun_prop) (by fun_prop) lr ftol j)
    fun q => ?_
  · exact reg_initHidden fuel d A (ho.comp (f := fun q : ((List ℝ × List ℝ) × Thi p) × ℝ × Mat => q.1) (by fun_prop)) (by fun_prop) (by fun_prop)
  · exact reg_updateHidden fuel d A C (ho.comp (f := fun q : ((((List ℝ × List ℝ) × Thi p) × ℝ × Mat) × Thi p × Mat) × (List EaSkel × Anchorage ℝ ℝ) × MjpAdaptive (Skel ℝ) => (q.1.1.1.1, q.1.2.1)) (by fun_prop))
      (by fun_prop) (by fun_prop) (by fun_prop)
  · exact reg_swUpdateObjective hM.fns hM.regime n nb k m (by fun_prop) (by fun_prop)
  · exact hm.comp (by fun_prop : Measurable fun y : ((((List ℝ × List ℝ) × Thi p) × ℝ × Mat) × Thi p × List (List EaSkel × Anchorage ℝ ℝ)) × List (List (List ℝ)) × List (List EaSkel) => (y.1.2.1, y.1.2.2, y.2))
  · exact hg.comp measurable_snd
  · exact mass_swEm ((mass_initHidden fuel d A (massOps_switch ..) ..).bind fun _ _ => .ret _) (fun _ _ _ => (mass_updateHidden fuel d A C (massOps_switch ..) ..).bind fun _ _ => .ret _)
      (fun _ _ => (mass_swUpdateObjective ..).bind fun _ _ => Mass1.lift) (fun _ => Mass1.lift) ..

end switching

/-! ## Instances -/

/-- End points of an Ornstein-Uhlenbeck process: the probability that the first of two draws is below the second and that it is not. -/
example (fuel : ℕ) (m : ℕ) : (sampleConvEndpt itoOu ⊥ ⊤ ![1, 1] 1 0 0 fuel m).prob (fun r => ∃ s : List ℝ × Hull, r = .ok s ∧ s.1.headD 0 < s.1.tail.headD 0) +
    (sampleConvEndpt itoOu ⊥ ⊤ ![1, 1] 1 0 0 fuel m).prob (fun r => ¬ ∃ s : List ℝ × Hull, r = .ok s ∧ s.1.headD 0 < s.1.tail.headD 0) = 1 := by
  refine C114_compl (S := {r | ∃ s : List ℝ × Hull, r = .ok s ∧ s.1.headD 0 < s.1.tail.headD 0}) (C114_endpoints measDrift_ou ⊥ ⊤ fuel m) (![1, 1], 1, 0, 0) ?_
  have : MeasurableSet {s : List ℝ × Hull | s.1.headD 0 < s.1.tail.headD 0} := measurableSet_lt (by fun_prop) (by fun_prop)
  have e : {s : List ℝ × Hull | s.1.headD 0 < s.1.tail.headD 0} = Except.ok ⁻¹' {r : Res (List ℝ × Hull) | ∃ s : List ℝ × Hull, r = .ok s ∧ s.1.headD 0 < s.1.tail.headD 0} := by
    ext s; exact ⟨fun h => ⟨s, rfl, h⟩, fun ⟨_, h, h'⟩ => by cases h; exact h'⟩
  rw [e] at this
  exact this

/-- An optimiser that stays where it is. -/
example (n F k m : ℕ) (size : ℤ) (C : McmcControls) (j : ℕ) :
    HasLaw fun q : (Fin 2 → ℝ) × List ℝ × List ℝ => itoEm (itoSampleAug n F itoOu none none q.1 q.2.1 q.2.2)
      (fun thi z => updateSde C (itoSdeOps n k itoOu (fun thi le ue => .ok (itoOuBounds thi le ue)) thi size) (itoSampleAug n F itoOu none none thi q.2.1 q.2.2) q.2.1 q.2.2 z)
      (fun thi zz => (itoUpdateObjective (interpolateSeed n k) itoOu q.2.1 q.2.2 m thi zz).bind fun env => Prog.lift (.ok (thi, (env.2.length : ℝ)))) 10 q.1 2 (1 / 100) j := by
  refine C114_itoEm measModel_ou measDrift_ou ?_ n F k m none none size C (mini := fun thi env => .ok (thi, (env.2.length : ℝ))) (Measurable.resOk ?_) 10 2 (1 / 100) j
  · simp only [itoOu]; fun_prop
  · have : Measurable fun q : (Fin 2 → ℝ) × List (List ℝ) × List (List EaSkel) => (q.2.2.length : ℝ) := Measurable.discrete (by fun_prop : Measurable fun q : (Fin 2 → ℝ) × List (List ℝ) × List (List EaSkel) => q.2.2.length) (fun n : ℕ => (n : ℝ))
    fun_prop

end Ctb
