import Verif.Props.SamplerLaws
import Verif.Lemmas.RegUpdate

set_option linter.unusedSectionVars false

/-! # C114, continued: augmentations, updates and estimates have laws

Jointly in the parameters, the observation times, the observations, the seeds and the normalisations. -/

namespace Ctb

open MeasureTheory ProbabilityTheory Set
open scoped ENNReal

section ito

variable {p : ℕ} {M : ItoFns p} {ebd : (Fin p → ℝ) → ℝ → ℝ → Res DiscBounds}

/-- `sample_aug`, ito/static.py:50-53. -/
theorem C114_itoAug (hM : MeasModel M ebd) (n F : ℕ) (lb ub : Option ℝ) : HasLaw fun q : (Fin p → ℝ) × List ℝ × List ℝ => itoSampleAug n F M lb ub q.1 q.2.1 q.2.2 :=
  hasLaw (reg_itoSampleAug hM n F lb ub (by fun_prop) (by fun_prop) (by fun_prop)) fun _ => mass_itoSampleAug ..

/-- `update_sde_bridge`, ito/mcmc.py:129-143. -/
theorem C114_sdeBridge (hM : MeasModel M ebd) (n k : ℕ) (size : ℤ) (C : McmcControls) (i : ℕ) :
    HasLaw fun q : ((Fin p → ℝ) × List ℝ × List ℝ) × EaSkel × EaSkel => updateSdeBridge C (itoSdeOps n k M ebd q.1.1 size) q.1.2.1 q.1.2.2 i q.2.1 q.2.2 :=
  hasLaw (reg_updateSdeBridge hM n k size C (by fun_prop) (by fun_prop) (by fun_prop) i (by fun_prop) (by fun_prop)) fun _ => mass_updateSdeBridge ..

/-- `update_sde`, ito/mcmc.py:119-126: the update of the bridges is a Markov kernel, measurable in parameters and data. -/
theorem C114_updateSde (hM : MeasModel M ebd) (n F k : ℕ) (lb ub : Option ℝ) (size : ℤ) (C : McmcControls) :
    HasLaw fun q : ((Fin p → ℝ) × List ℝ × List ℝ) × List EaSkel =>
      updateSde C (itoSdeOps n k M ebd q.1.1 size) (itoSampleAug n F M lb ub q.1.1 q.1.2.1 q.1.2.2) q.1.2.1 q.1.2.2 q.2 :=
  hasLaw (reg_updateSde hM n F k lb ub size C (by fun_prop) (by fun_prop) (by fun_prop) (by fun_prop)) fun _ => mass_updateSde ..

/-- The Poisson estimate on a seed, jointly in the parameters. -/
theorem C114_itoEst (hM : MeasModel M ebd) (n k : ℕ) :
    HasLaw fun q : (Fin p → ℝ) × NormOp × EaSkel => estPoissonCoin n k (M.disc q.1) (ebd q.1) q.2.1 q.2.2 :=
  hasLaw (reg_estPoissonCoin (X := (Fin p → ℝ) × NormOp × EaSkel) (disc := fun q => M.disc q.1) (ebd := fun q => ebd q.1) n k
    (hM.disc.comp (by fun_prop : Measurable fun q : ((Fin p → ℝ) × NormOp × EaSkel) × ℝ => (q.1.1, q.2)))
    (hM.bounds.comp (by fun_prop : Measurable fun q : ((Fin p → ℝ) × NormOp × EaSkel) × ℝ × ℝ => (q.1.1, q.2.1, q.2.2))) (by fun_prop) (by fun_prop)) fun _ => mass_estPoissonCoin ..

/-- The Poisson coin on a seed, jointly in the parameters. -/
theorem C114_itoCoin (hM : MeasModel M ebd) (n k : ℕ) (size : ℤ) :
    HasLaw fun q : (Fin p → ℝ) × NormOp × EaSkel => flipPoissonCoin n k (M.disc q.1) (ebd q.1) q.2.1 size q.2.2 :=
  hasLaw (reg_flipPoissonCoinOf (X := (Fin p → ℝ) × NormOp × EaSkel) n k (disc := fun q => M.disc q.1) (ebd := fun q => ebd q.1)
    (hM.disc.comp (by fun_prop : Measurable fun q : ((Fin p → ℝ) × NormOp × EaSkel) × ℝ => (q.1.1, q.2)))
    (hM.bounds.comp (by fun_prop : Measurable fun q : ((Fin p → ℝ) × NormOp × EaSkel) × ℝ × ℝ => (q.1.1, q.2.1, q.2.2))) (by fun_prop) size (by fun_prop)) fun _ => mass_flipPoissonCoin ..

/-- `flip_param_coin`, ito/mcmc.py: the coin between two parameters, jointly in both. -/
theorem C114_itoParamCoin (hM : MeasModel M ebd) {grad : (Fin p → ℝ) → (Fin p → ℝ) → ℝ → ℝ → ℝ → ℝ → ℝ → Fin p → ℝ}
    (hg : Measurable fun q : GradArg p => grad q.1 q.2.1 q.2.2.1 q.2.2.2.1 q.2.2.2.2.1 q.2.2.2.2.2.1 q.2.2.2.2.2.2) (guard : Bool) (n k : ℕ) (upside : Bool) (size : ℤ) :
    HasLaw fun q : ((Fin p → ℝ) × (Fin p → ℝ)) × (ℝ × ℝ × ℝ) × EaSkel => itoFlipParam guard n k M grad q.1.1 q.1.2 q.2.1.1 q.2.1.2.1 q.2.1.2.2 upside size q.2.2 :=
  hasLaw (reg_itoFlipParam hM hg guard n k upside size) fun _ => by rw [itoFlipParam_one]; exact mass_flipDualCoin ..

end ito

/-- `flip_param_coin`, switching/mcmc.py: the coin between two parameters, jointly in both and in the regime. -/
theorem C114_swParamCoin {p : ℕ} {M : RegimeFns p} (hM : MeasRegime M) {grad : (Fin p → ℝ) → (Fin p → ℝ) → ℝ → ℝ → ℝ → ℝ → ℝ → Fin p → ℝ}
    (hg : Measurable fun q : GradArg p => grad q.1 q.2.1 q.2.2.1 q.2.2.2.1 q.2.2.2.2.1 q.2.2.2.2.2.1 q.2.2.2.2.2.2) (guard : Bool) (n k : ℕ) (upside : Bool) (size : ℤ) :
    HasLaw fun q : (Thi p × Thi p) × (ℝ × ℕ × ℝ × ℝ) × EaSkel => swFlipParam guard n k M grad q.1.1 q.1.2 q.2.1.1 q.2.1.2.1 q.2.1.2.2.1 q.2.1.2.2.2 upside size q.2.2 :=
  hasLaw (reg_swFlipParam hM hg guard n k upside size) fun _ => by rw [swFlipParam_one]; exact mass_flipDualCoin ..

/-- `sample_ppp`, exact/poisson.py. -/
theorem C114_ppp : HasLaw fun q : ℝ × List ℝ => samplePpp q.1 q.2 := hasLaw (reg_samplePpp (by fun_prop) (by fun_prop)) fun _ => mass_samplePpp ..

/-- Evaluation of skeletons at given times. -/
theorem C114_skelCall (n k : ℕ) : HasLaw fun q : EaSkel × List ℝ => skelCall n k q.1 q.2 := hasLaw (reg_skelCall n k) fun _ => mass_skelCall ..

/-- Evaluation of seeds at given times. -/
theorem C114_seedCall (n k : ℕ) : HasLaw fun q : EaSkel × List ℝ × NormOp => seedCall n k q.1 q.2.1 q.2.2 := hasLaw (reg_seedCall n k) fun _ => mass_seedCall ..

/-! ## The models of the library -/

theorem measVec2 {X : Type} [MeasurableSpace X] {a b : X → ℝ} (ha : Measurable a) (hb : Measurable b) : Measurable fun x => (![a x, b x] : Fin 2 → ℝ) := by
  refine measurable_pi_iff.2 fun i => ?_
  fin_cases i
  · exact ha
  · exact hb

theorem measRegime_ou : MeasRegime swOu := ⟨fun y => by simp only [swOu]; fun_prop, fun y => by simp only [RegimeFns.disc, swOu]; fun_prop, measurable_id⟩
theorem measRegime_ou2 : MeasRegime swOu2 := ⟨fun y => by simp only [swOu2]; fun_prop, fun y => by simp only [RegimeFns.disc, swOu2]; fun_prop, measurable_id⟩
theorem measRegime_ou3 : MeasRegime swOu3 := ⟨fun y => by simp only [swOu3]; fun_prop, fun y => by simp only [RegimeFns.disc, swOu3]; fun_prop, measurable_id⟩

/-- The parameter coins of the Ornstein-Uhlenbeck models and of the Cox-Ingersoll-Ross model, with the bounds on gradients as implemented. -/
theorem C114_library_paramCoins (guard : Bool) (n k : ℕ) (upside : Bool) (size : ℤ) :
    HasLaw (fun q : ((Fin 2 → ℝ) × (Fin 2 → ℝ)) × (ℝ × ℝ × ℝ) × EaSkel => itoFlipParam guard n k itoOu itoOuGrad q.1.1 q.1.2 q.2.1.1 q.2.1.2.1 q.2.1.2.2 upside size q.2.2) ∧
    HasLaw (fun q : ((Fin 3 → ℝ) × (Fin 3 → ℝ)) × (ℝ × ℝ × ℝ) × EaSkel => itoFlipParam guard n k itoCir itoCirGrad q.1.1 q.1.2 q.2.1.1 q.2.1.2.1 q.2.1.2.2 upside size q.2.2) ∧
    HasLaw (fun q : (Thi 2 × Thi 2) × (ℝ × ℕ × ℝ × ℝ) × EaSkel => swFlipParam guard n k swOu swOuGrad q.1.1 q.1.2 q.2.1.1 q.2.1.2.1 q.2.1.2.2.1 q.2.1.2.2.2 upside size q.2.2) ∧
    HasLaw (fun q : (Thi 2 × Thi 2) × (ℝ × ℕ × ℝ × ℝ) × EaSkel => swFlipParam guard n k swOu2 swOu2Grad q.1.1 q.1.2 q.2.1.1 q.2.1.2.1 q.2.1.2.2.1 q.2.1.2.2.2 upside size q.2.2) ∧
    HasLaw (fun q : (Thi 2 × Thi 2) × (ℝ × ℕ × ℝ × ℝ) × EaSkel => swFlipParam guard n k swOu3 swOu3Grad q.1.1 q.1.2 q.2.1.1 q.2.1.2.1 q.2.1.2.2.1 q.2.1.2.2.2 upside size q.2.2) := by
  refine ⟨C114_itoParamCoin measModel_ou ?_ guard n k upside size, C114_itoParamCoin measModel_cir ?_ guard n k upside size, C114_swParamCoin measRegime_ou ?_ guard n k upside size,
    C114_swParamCoin measRegime_ou2 ?_ guard n k upside size, C114_swParamCoin measRegime_ou3 ?_ guard n k upside size⟩
  · exact measVec2 (by fun_prop) (by fun_prop)
  · exact measurable_const
  · exact measVec2 (by fun_prop) (by fun_prop)
  · exact measVec2 (by fun_prop) (by fun_prop)
  · exact measVec2 (by fun_prop) (by fun_prop)

/-- The update of the bridges of the models of `ctbayes/ito`. -/
theorem C114_library_updateSde (n F k : ℕ) (size : ℤ) (C : McmcControls) :
    HasLaw (fun q : ((Fin 2 → ℝ) × List ℝ × List ℝ) × List EaSkel =>
      updateSde C (itoSdeOps n k itoOu (fun thi le ue => .ok (itoOuBounds thi le ue)) q.1.1 size) (itoSampleAug n F itoOu none none q.1.1 q.1.2.1 q.1.2.2) q.1.2.1 q.1.2.2 q.2) ∧
    HasLaw (fun q : ((Fin 3 → ℝ) × List ℝ × List ℝ) × List EaSkel =>
      updateSde C (itoSdeOps n k itoCir itoCirBounds q.1.1 size) (itoSampleAug n F itoCir (some 0) none q.1.1 q.1.2.1 q.1.2.2) q.1.2.1 q.1.2.2 q.2) :=
  ⟨C114_updateSde measModel_ou n F k none none size C, C114_updateSde measModel_cir n F k (some 0) none size C⟩

/-- Updates with the same data, one after the other, are composed kernels: an expectation after two updates is the integral of the expectation after one. -/
example (n F k : ℕ) (size : ℤ) (C : McmcControls) (thi : Fin 2 → ℝ) (z : List EaSkel) (G : List EaSkel → ℝ≥0∞) (hG : Measurable G) :
    ∃ κ : Kernel (List EaSkel) (Res (List EaSkel)), IsMarkovKernel κ ∧
      ((updateSde C (itoSdeOps n k itoOu (fun thi le ue => .ok (itoOuBounds thi le ue)) thi size) (itoSampleAug n F itoOu none none thi [0, 1, 2] [0, 0, 1]) [0, 1, 2] [0, 0, 1] z).bind fun z' =>
        updateSde C (itoSdeOps n k itoOu (fun thi le ue => .ok (itoOuBounds thi le ue)) thi size) (itoSampleAug n F itoOu none none thi [0, 1, 2] [0, 0, 1]) [0, 1, 2] [0, 0, 1] z').lexp (onOk G) =
      ∫⁻ r, onOk (fun z' => ∫⁻ s, onOk G s ∂κ z') r ∂κ z := by
  obtain ⟨κ, ⟨hm, h1⟩, -⟩ := (C114_library_updateSde n F k size C).1
  let f : List EaSkel → ((Fin 2 → ℝ) × List ℝ × List ℝ) × List EaSkel := fun z => ((thi, [0, 1, 2], [0, 0, 1]), z)
  have hf : Measurable f := by fun_prop
  refine ⟨κ.comap f hf, inferInstance, ?_⟩
  exact C114_bind (p := fun z => updateSde C (itoSdeOps n k itoOu (fun thi le ue => .ok (itoOuBounds thi le ue)) thi size) (itoSampleAug n F itoOu none none thi [0, 1, 2] [0, 0, 1]) [0, 1, 2] [0, 0, 1] z)
    (q := fun y : List EaSkel × List EaSkel => updateSde C (itoSdeOps n k itoOu (fun thi le ue => .ok (itoOuBounds thi le ue)) thi size) (itoSampleAug n F itoOu none none thi [0, 1, 2] [0, 0, 1]) [0, 1, 2] [0, 0, 1] y.2)
    (κ := κ.comap f hf) (η := κ.comap (f ∘ Prod.snd) (hf.comp measurable_snd)) (fun z => h1 (f z)) (fun y => h1 (f y.2)) z hG

end Ctb
