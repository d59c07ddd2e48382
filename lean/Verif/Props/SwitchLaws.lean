import Verif.Lemmas.RegSweep

set_option linter.unusedSectionVars false

/-! # C114, continued: the updates of hidden regimes and of parameters, and whole iterations of the chain, have laws

Jointly in the parameters, the data, the hyper-parameters and the state of the chain. -/

namespace Ctb

open MeasureTheory ProbabilityTheory Set
open scoped ENNReal

section general

variable {p : ℕ} {M : SwitchFns p} {R : RegimeFns p} {ebd : Thi p → ℕ → ℝ → ℝ → Res DiscBounds}

/-- A switching model all of whose functions are measurable. -/
structure MeasSwitchModel (M : SwitchFns p) (R : RegimeFns p) (ebd : Thi p → ℕ → ℝ → ℝ → Res DiscBounds) : Prop where
  fns : MeasSwitch M
  regime : MeasRegime R
  dereduce : Measurable R.dereduce
  bounds : ∀ y, Measurable fun q : Thi p × ℝ × ℝ => ebd q.1 y q.2.1 q.2.2

variable (hM : MeasSwitchModel M R ebd) (n nb F k : ℕ) (lb ub : Option ℝ) (size : ℤ)
include hM

theorem MeasSwitchModel.ops : MeasOps fun q : (List ℝ × List ℝ) × Thi p => swHiddenOps M R ebd n nb F k lb ub size q.1.1 q.1.2 q.2 :=
  measOps_switch hM.fns hM.regime hM.dereduce hM.bounds n nb F k lb ub size

/-- `sample_aug`, switching/static.py:46-58: the augmentation of a regime path by anchors and seeds. -/
theorem C114_switchAug : HasLaw fun q : ((List ℝ × List ℝ) × Thi p) × Skel ℝ => (swHiddenOps M R ebd n nb F k lb ub size q.1.1.1 q.1.1.2 q.1.2).aug q.2 :=
  hasLaw (hM.ops n nb F k lb ub size).aug fun _ => (massOps_switch ..).aug _

/-- `update_hidden_section`, switching/mcmc.py:173-195: the decision between two hidden states of a section. -/
theorem C114_hiddenSection (C : McmcControls) :
    HasLaw fun q : ((List ℝ × List ℝ) × Thi p) × (List EaSkel × Anchorage ℝ ℝ) × List EaSkel × Anchorage ℝ ℝ =>
      updateHiddenSection C (swHiddenOps M R ebd n nb F k lb ub size q.1.1.1 q.1.1.2 q.1.2) q.2.1.1 q.2.1.2 q.2.2.1 q.2.2.2 :=
  hasLaw (reg_updateHiddenSection C ((hM.ops n nb F k lb ub size).comp (f := fun q : ((List ℝ × List ℝ) × Thi p) × (List EaSkel × Anchorage ℝ ℝ) × List EaSkel × Anchorage ℝ ℝ => q.1) (by fun_prop))
    (by fun_prop) (by fun_prop) (by fun_prop) (by fun_prop)) fun _ => mass_updateHiddenSection C (massOps_switch ..) ..

/-- `update_hidden`, switching/mcmc.py:153-170. -/
theorem C114_updateHidden (fuel d : ℕ) [NeZero d] (A : AdaptPar) (C : McmcControls) :
    HasLaw fun q : ((List ℝ × List ℝ) × Thi p) × Mat × HiddenState EaSkel =>
      updateHidden fuel d A C (swHiddenOps M R ebd n nb F k lb ub size q.1.1.1 q.1.1.2 q.1.2) q.1.1.1 q.2.1 q.2.2 :=
  hasLaw (reg_updateHidden fuel d A C ((hM.ops n nb F k lb ub size).comp (f := fun q : ((List ℝ × List ℝ) × Thi p) × Mat × HiddenState EaSkel => q.1) (by fun_prop)) (by fun_prop) (by fun_prop) (by fun_prop))
    fun _ => mass_updateHidden fuel d A C (massOps_switch ..) ..

/-- The start of the chain, switching/mcmc.py:39-43. -/
theorem C114_initHidden (fuel d : ℕ) [NeZero d] (A : AdaptPar) :
    HasLaw fun q : ((List ℝ × List ℝ) × Thi p) × ℝ × Mat => initHidden fuel d A (swHiddenOps M R ebd n nb F k lb ub size q.1.1.1 q.1.1.2 q.1.2) q.2.1 q.2.2 :=
  hasLaw (reg_initHidden fuel d A ((hM.ops n nb F k lb ub size).comp (f := fun q : ((List ℝ × List ℝ) × Thi p) × ℝ × Mat => q.1) (by fun_prop)) (by fun_prop) (by fun_prop))
    fun _ => mass_initHidden fuel d A (massOps_switch ..) ..

end general

/-- `update_generator`, switching/mcmc.py:243-246. -/
theorem C114_gibbsGenerator (d : ℕ) : HasLaw fun q : Anchorage ℝ ℝ × NMat × NMat => gibbsGenerator d q.1 q.2.1 q.2.2 :=
  hasLaw (reg_gibbsGenerator d (by fun_prop) (by fun_prop) (by fun_prop)) fun _ => mass_gibbsGenerator ..

/-- `MyopicMvRwSampler.propose`, misc/adapt.py: the multivariate random walk, for every measurable way to factor covariances. -/
theorem C114_rwPropose {p : ℕ} {root : Matrix (Fin p) (Fin p) ℝ → Matrix (Fin p) (Fin p) ℝ} (hr : MeasRoot root) : HasLaw fun s : MvRw p => s.propose root :=
  hasLaw (reg_rwPropose hr measurable_id) fun _ => mass_rwPropose ..

section params

variable {M : SwitchFns 2} {R : RegimeFns 2} {ebd : Thi 2 → ℕ → ℝ → ℝ → Res DiscBounds} (hM : MeasSwitchModel M R ebd) {grad : (Fin 2 → ℝ) → (Fin 2 → ℝ) → ℝ → ℝ → ℝ → ℝ → ℝ → Fin 2 → ℝ}
  (hg : Measurable fun q : GradArg 2 => grad q.1 q.2.1 q.2.2.1 q.2.2.2.1 q.2.2.2.2.1 q.2.2.2.2.2.1 q.2.2.2.2.2.2) {root : Matrix (Fin 2) (Fin 2) ℝ → Matrix (Fin 2) (Fin 2) ℝ} (hr : MeasRoot root)
  (guard : Bool) (n nb F k : ℕ) (lb ub : Option ℝ) (size : ℤ) (fuel d : ℕ) [NeZero d] (A : AdaptPar) (C : McmcControls)
include hM hg hr

/-- `update_params`, switching/mcmc.py:70-83. -/
theorem C114_updateParams :
    HasLaw fun q : Anchorage ℝ ℝ × Thi 2 × List EaSkel × List (MvRw 2) => updateParams root A C (swParamOps M R grad guard n nb k size q.1) q.1 q.2.1 q.2.2.1 q.2.2.2 :=
  hasLaw (reg_updateParams hr A C ((measParamOps_switch hM.fns hM.regime hg guard n nb k size).comp (f := fun q : Anchorage ℝ ℝ × Thi 2 × List EaSkel × List (MvRw 2) => q.1) (by fun_prop)) (by fun_prop) (by fun_prop) (by fun_prop) (by fun_prop))
    fun _ => mass_updateParams root A C (massParamOps_switch ..) ..

theorem reg_sweepOf : Reg fun q : ((List ℝ × List ℝ) × NMat × NMat) × SweepState 2 EaSkel =>
    sweepJoint root fuel d A C (swParamOps M R grad guard n nb k size) (swHiddenOps M R ebd n nb F k lb ub size q.1.1.1 q.1.1.2) q.1.1.1 q.1.2.1 q.1.2.2 q.2 :=
  reg_sweepJoint (X := ((List ℝ × List ℝ) × NMat × NMat) × SweepState 2 EaSkel) (PO := fun _ h => swParamOps M R grad guard n nb k size h)
    (HO := fun q thi => swHiddenOps M R ebd n nb F k lb ub size q.1.1.1 q.1.1.2 thi) fuel d A C hr
    ((measParamOps_switch hM.fns hM.regime hg guard n nb k size).comp (f := fun q : (((List ℝ × List ℝ) × NMat × NMat) × SweepState 2 EaSkel) × Anchorage ℝ ℝ => q.2) (by fun_prop))
    ((hM.ops n nb F k lb ub size).comp (f := fun q : (((List ℝ × List ℝ) × NMat × NMat) × SweepState 2 EaSkel) × Thi 2 => (q.1.1.1, q.2)) (by fun_prop)) (by fun_prop) (by fun_prop) (by fun_prop) (by fun_prop)

/-- `update_joint`, switching/mcmc.py:58-67: a whole iteration of the chain is a Markov kernel. -/
theorem C114_updateJoint :
    HasLaw fun q : ((List ℝ × List ℝ) × NMat × NMat) × SweepState 2 EaSkel =>
      sweepJoint root fuel d A C (swParamOps M R grad guard n nb k size) (swHiddenOps M R ebd n nb F k lb ub size q.1.1.1 q.1.1.2) q.1.1.1 q.1.2.1 q.1.2.2 q.2 :=
  hasLaw (reg_sweepOf hM hg hr guard n nb F k lb ub size fuel d A C) fun _ => mass_sweepJoint fuel d A C root (fun _ => massParamOps_switch ..) (fun _ => massOps_switch ..) ..

/-- `sample_posterior`, switching/mcmc.py:35-46: the state after any number of iterations from the start on has a law, measurable in the initial parameters, the data and the
hyper-parameters. -/
theorem C114_samplePosterior (lb' ub' : Fin 2 → Option ℝ) (m : ℕ) :
    HasLaw fun q : (Fin 2 → ℝ) × ((List ℝ × List ℝ) × NMat × NMat) × ℝ =>
      sweepRun root fuel d A C (swParamOps M R grad guard n nb k size) (swHiddenOps M R ebd n nb F k lb ub size q.2.1.1.1 q.2.1.1.2) q.2.1.1.1 q.2.2 q.2.1.2.1 q.2.1.2.2 q.1 lb' ub' m := by
  refine hasLaw (Reg.bind (reg_sweepInit (X := (Fin 2 → ℝ) × ((List ℝ × List ℝ) × NMat × NMat) × ℝ) fuel d A (HO := fun q thi => swHiddenOps M R ebd n nb F k lb ub size q.2.1.1.1 q.2.1.1.2 thi)
    ((hM.ops n nb F k lb ub size).comp (f := fun q : ((Fin 2 → ℝ) × ((List ℝ × List ℝ) × NMat × NMat) × ℝ) × Thi 2 => (q.1.2.1.1, q.2)) (by fun_prop)) lb' ub' (by fun_prop) (by fun_prop) (by fun_prop) (by fun_prop)) ?_)
    fun _ => (mass_sweepInit fuel d A (fun _ => massOps_switch ..) ..).bind fun _ _ => mass_sweepLoop (fun _ => mass_sweepJoint fuel d A C root (fun _ => massParamOps_switch ..) (fun _ => massOps_switch ..) ..) _ _
  exact (reg_sweepLoop (X := (List ℝ × List ℝ) × NMat × NMat) (step := fun q => sweepJoint root fuel d A C (swParamOps M R grad guard n nb k size) (swHiddenOps M R ebd n nb F k lb ub size q.1.1 q.1.2) q.1.1 q.2.1 q.2.2)
    (reg_sweepOf hM hg hr guard n nb F k lb ub size fuel d A C) m).comp (f := fun q : ((Fin 2 → ℝ) × ((List ℝ × List ℝ) × NMat × NMat) × ℝ) × SweepState 2 EaSkel => (q.1.2.1, q.2)) (by fun_prop)

end params

/-! ## The models of the library -/

theorem measSwitchModel_ou : MeasSwitchModel ouFns swOu fun thi y le ue => .ok (swOuBounds thi y le ue) := ⟨measSwitch_ou, measRegime_ou, measurable_id, meas_boundsOu⟩
theorem measSwitchModel_ou2 : MeasSwitchModel ou2Fns swOu2 fun thi y le ue => .ok (swOu2Bounds thi y le ue) := ⟨measSwitch_ou2, measRegime_ou2, measurable_id, meas_boundsOu2⟩
theorem measSwitchModel_ou3 : MeasSwitchModel ou3Fns swOu3 fun thi y le ue => .ok (swOu3Bounds thi y le ue) := ⟨measSwitch_ou3, measRegime_ou3, measurable_id, meas_boundsOu3⟩

/-- The Cholesky factor of a covariance of two parameters. -/
noncomputable def chol2 (S : Matrix (Fin 2) (Fin 2) ℝ) : Matrix (Fin 2) (Fin 2) ℝ := !![√(S 0 0), 0; S 1 0 / √(S 0 0), √(S 1 1 - S 1 0 ^ 2 / S 0 0)]

theorem measRoot_chol2 : MeasRoot chol2 := by
  refine measurable_pi_iff.2 fun i => measurable_pi_iff.2 fun j => ?_
  fin_cases i <;> fin_cases j
  · exact (by fun_prop : Measurable fun A : Fin 2 → Fin 2 → ℝ => √(A 0 0))
  · exact (measurable_const : Measurable fun _ : Fin 2 → Fin 2 → ℝ => (0 : ℝ))
  · exact (by fun_prop : Measurable fun A : Fin 2 → Fin 2 → ℝ => A 1 0 / √(A 0 0))
  · exact (by fun_prop : Measurable fun A : Fin 2 → Fin 2 → ℝ => √(A 1 1 - A 1 0 ^ 2 / A 0 0))

/-- It factors positive definite matrices. -/
theorem chol2_mul {a b c : ℝ} (ha : 0 < a) (hc : b ^ 2 < a * c) : chol2 !![a, b; b, c] * (chol2 !![a, b; b, c]).transpose = !![a, b; b, c] := by
  have h1 : 0 < √a := Real.sqrt_pos.2 ha
  have h2 : 0 ≤ c - b ^ 2 / a := by
    rw [sub_nonneg, div_le_iff₀ ha]
    linarith
  have h3 := Real.mul_self_sqrt ha.le
  have h4 := Real.mul_self_sqrt h2
  ext i j
  fin_cases i <;> fin_cases j <;> simp [chol2, Matrix.mul_apply, Fin.sum_univ_two]
  · exact h3
  · field_simp
  · field_simp
  · rw [h4, div_mul_div_comm, h3]
    ring

/-- The chain of `sample_posterior` for the three models of `ctbayes/switching`. -/
theorem C114_library_posterior (guard : Bool) (n nb F k : ℕ) (size : ℤ) (fuel d : ℕ) [NeZero d] (A : AdaptPar) (C : McmcControls) {root : Matrix (Fin 2) (Fin 2) ℝ → Matrix (Fin 2) (Fin 2) ℝ} (hr : MeasRoot root)
    (lb' ub' : Fin 2 → Option ℝ) (m : ℕ) :
    HasLaw (fun q : (Fin 2 → ℝ) × ((List ℝ × List ℝ) × NMat × NMat) × ℝ => sweepRun root fuel d A C (swParamOps ouFns swOu swOuGrad guard n nb k size)
      (swHiddenOps ouFns swOu (fun thi y le ue => .ok (swOuBounds thi y le ue)) n nb F k none none size q.2.1.1.1 q.2.1.1.2) q.2.1.1.1 q.2.2 q.2.1.2.1 q.2.1.2.2 q.1 lb' ub' m) ∧
    HasLaw (fun q : (Fin 2 → ℝ) × ((List ℝ × List ℝ) × NMat × NMat) × ℝ => sweepRun root fuel d A C (swParamOps ou2Fns swOu2 swOu2Grad guard n nb k size)
      (swHiddenOps ou2Fns swOu2 (fun thi y le ue => .ok (swOu2Bounds thi y le ue)) n nb F k none none size q.2.1.1.1 q.2.1.1.2) q.2.1.1.1 q.2.2 q.2.1.2.1 q.2.1.2.2 q.1 lb' ub' m) ∧
    HasLaw (fun q : (Fin 2 → ℝ) × ((List ℝ × List ℝ) × NMat × NMat) × ℝ => sweepRun root fuel d A C (swParamOps ou3Fns swOu3 swOu3Grad guard n nb k size)
      (swHiddenOps ou3Fns swOu3 (fun thi y le ue => .ok (swOu3Bounds thi y le ue)) n nb F k none none size q.2.1.1.1 q.2.1.1.2) q.2.1.1.1 q.2.2 q.2.1.2.1 q.2.1.2.2 q.1 lb' ub' m) :=
  ⟨C114_samplePosterior measSwitchModel_ou (measVec2 (by fun_prop) (by fun_prop)) hr guard n nb F k none none size fuel d A C lb' ub' m,
    C114_samplePosterior measSwitchModel_ou2 (measVec2 (by fun_prop) (by fun_prop)) hr guard n nb F k none none size fuel d A C lb' ub' m,
    C114_samplePosterior measSwitchModel_ou3 (measVec2 (by fun_prop) (by fun_prop)) hr guard n nb F k none none size fuel d A C lb' ub' m⟩

/-- Statements about the chain are probabilities: the event that the first rate of the first regime after ten iterations exceeds one, and its complement (with runs that raise), have probabilities that
add up to one. -/
example (A : AdaptPar) (C : McmcControls) (alp bet : NMat) :
    ∃ μ : Measure (Res (SweepState 2 EaSkel)), IsProbabilityMeasure μ ∧ ∀ H : Res (SweepState 2 EaSkel) → ℝ≥0∞, Measurable H →
      (sweepRun chol2 100 2 A C (swParamOps ouFns swOu swOuGrad true 2 100 8 10)
        (swHiddenOps ouFns swOu (fun thi y le ue => .ok (swOuBounds thi y le ue)) 2 100 100 8 none none 10 [0, 1, 2, 3] [0, 0, 1, 0]) [0, 1, 2, 3] 3 alp bet ![1, 1] (fun _ => some 0) (fun _ => none) 10).lexp H = ∫⁻ r, H r ∂μ := by
  obtain ⟨κ, ⟨hm, h1⟩, -⟩ := (C114_library_posterior true 2 100 100 8 10 100 2 A C measRoot_chol2 (fun _ => some 0) (fun _ => none) 10).1
  exact ⟨κ (![1, 1], (([0, 1, 2, 3], [0, 0, 1, 0]), alp, bet), 3), inferInstance, fun H hH => h1 (![1, 1], (([0, 1, 2, 3], [0, 0, 1, 0]), alp, bet), 3) H hH⟩

end Ctb
