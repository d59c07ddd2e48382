import Verif.Props.SamplerLaws
import Verif.Lemmas.RegMore
import Verif.Lemmas.MassJump

set_option linter.unusedSectionVars false

/-! # C114, continued: jump processes, vector paths and generators have laws

Jointly in the generator, the horizon, the states, the paths and the partition. -/

namespace Ctb

open MeasureTheory ProbabilityTheory Set
open scoped ENNReal

/-! ## Jump processes -/

/-- `sample_forwards`, mjplib/skeleton.py:102-134: jointly in the generator, the horizon and the initial state, given or not. -/
theorem C114_forwards (fuel d : ℕ) : HasLaw fun q : Mat × ℝ × Option ℕ => sampleForwards fuel d q.1 q.2.1 q.2.2 :=
  hasLaw (reg_sampleForwards fuel d (by fun_prop) (by fun_prop) (by fun_prop)) fun _ => mass_sampleForwards ..

variable {d : ℕ} [NeZero d]

/-- `sample_bridge`, mjplib/skeleton.py:167-224. -/
theorem C114_jumpBridge (fuel : ℕ) : HasLaw fun q : (Fin d → Fin d → ℝ) × ℝ × Fin d × Fin d => sampleBridge fuel (Matrix.of q.1) q.2.1 q.2.2.1 q.2.2.2 :=
  hasLaw (reg_sampleBridge fuel (fun i j => (measurable_pi_apply j).comp ((measurable_pi_apply i).comp measurable_fst)) (by fun_prop) (by fun_prop) (by fun_prop)) fun _ => mass_jumpBridge ..

/-- `sample_backwards`, mjplib/skeleton.py:137-164. -/
theorem C114_backwards (fuel : ℕ) : HasLaw fun q : (Fin d → Fin d → ℝ) × ℝ × Fin d => sampleBackwards fuel (Matrix.of q.1) q.2.1 q.2.2 :=
  hasLaw (reg_sampleBackwards fuel (fun i j => (measurable_pi_apply j).comp ((measurable_pi_apply i).comp measurable_fst)) (by fun_prop) (by fun_prop)) fun _ => mass_sampleBackwards ..

/-- `mutate_partition`, mjplib/skeleton.py:280-311: the blocks of a partition are redrawn one by one. -/
theorem C114_mutate (fuel : ℕ) : HasLaw fun q : Mat × List (Skel ℝ) => mutatePartition fuel d q.1 q.2 :=
  hasLaw (reg_mutatePartition fuel (by fun_prop) (by fun_prop)) fun _ => mass_mutatePartition ..

/-- `MyopicMjpSampler.propose`, misc/adapt.py:133-138: the proposal of a regime path, jointly in the scale, the current path, the generator and the times of the observations. -/
theorem C114_mjpPropose (fuel : ℕ) : HasLaw fun q : ℝ × Skel ℝ × Mat × List ℝ => mjpPropose fuel d q.1 q.2.1 q.2.2.1 q.2.2.2 :=
  hasLaw (reg_mjpPropose fuel (by fun_prop) (by fun_prop) (by fun_prop) (by fun_prop)) fun _ => mass_mjpPropose ..

/-- `sample_partition`, mjplib/skeleton.py:227-251: the partition of a path at the points of a Poisson process. -/
theorem C114_partition : HasLaw fun q : Skel ℝ × ℝ => samplePartition q.1 q.2 := hasLaw (reg_samplePartition (by fun_prop) (by fun_prop)) fun _ => mass_samplePartition ..

/-! ## Generators -/

/-- `sample_param`, mjplib/inference.py:40-50. -/
theorem C114_sampleParam (d : ℕ) : HasLaw fun q : NMat × NMat => sampleParam d q.1 q.2 := hasLaw (reg_sampleParam d (by fun_prop) (by fun_prop)) fun _ => mass_sampleParam ..

/-- `sample_trial_generator`, mjplib/skeleton.py:368-378. -/
theorem C114_trialGenerator (d : ℕ) : HasLaw fun _ : Unit => sampleTrialGenerator d := hasLaw (reg_sampleTrialGenerator d) fun _ => mass_sampleTrialGenerator d

/-! ## Paths in several dimensions -/

/-- `sample_wiener` on vectors, sdelib/paths.py:9-45. -/
theorem C114_wienerVec : HasLaw fun q : List ℝ × List ℝ × List ℝ => sampleWienerVec q.1 q.2.1 q.2.2 :=
  hasLaw (reg_sampleWienerVec (by fun_prop) (by fun_prop) (by fun_prop)) fun _ => mass_sampleWienerVec ..

/-- `sample_bessel`, sdelib/paths.py:89-126. -/
theorem C114_bessel (dim : ℕ) : HasLaw fun q : List ℝ × ℝ × Option ℝ => sampleBessel q.1 q.2.1 dim q.2.2 :=
  hasLaw (reg_sampleBessel (by fun_prop) (by fun_prop) (by fun_prop) dim) fun _ => mass_sampleBessel ..

/-- `fill_wiener_vector`, sdelib/interpolators.py:43-58: interpolation of vector paths. -/
theorem C114_fillVec : HasLaw fun q : List ℝ × List (List ℝ) × List ℝ => fillVec q.1 q.2.1 q.2.2 :=
  hasLaw (reg_fillVec (by fun_prop) (by fun_prop) (by fun_prop)) fun _ => mass_fillVec ..

/-- `euler_simulate`, misc/testing.py:6-41: the Euler scheme, for measurable drift and volatility. -/
theorem C114_euler (n : ℕ) {df vf : ℝ → ℝ} (hd : Measurable df) (hv : Measurable vf) : HasLaw fun q : ℝ × ℝ × ℝ => eulerSimulate n q.1 q.2.1 df vf q.2.2 :=
  hasLaw (reg_eulerSimulate n hd hv (by fun_prop) (by fun_prop) (by fun_prop)) fun _ => mass_eulerSimulate ..

/-! ## Instances -/

/-- The number of jumps of a path over two states, and any other event of the number of its states. -/
example (fuel : ℕ) (S : Set ℕ) : (sampleForwards fuel 2 (fun i j => if i = j then -1 else 1) 3 none).prob (fun r => ∃ s : Skel ℝ, r = .ok s ∧ s.xt.length ∈ S) +
    (sampleForwards fuel 2 (fun i j => if i = j then -1 else 1) 3 none).prob (fun r => ¬ ∃ s : Skel ℝ, r = .ok s ∧ s.xt.length ∈ S) = 1 := by
  refine C114_compl (S := {r | ∃ s : Skel ℝ, r = .ok s ∧ s.xt.length ∈ S}) (C114_forwards fuel 2) (_, 3, none) ?_
  have : MeasurableSet {s : Skel ℝ | s.xt.length ∈ S} := (by fun_prop : Measurable fun s : Skel ℝ => s.xt.length) (MeasurableSet.of_discrete (s := S))
  have e : {s : Skel ℝ | s.xt.length ∈ S} = Except.ok ⁻¹' {r : Res (Skel ℝ) | ∃ s : Skel ℝ, r = .ok s ∧ s.xt.length ∈ S} := by ext s; simp
  rw [e] at this
  exact this

/-- The draws with unit hyper-parameters off the diagonal have total mass one. -/
example : ∃ μ : Measure (Res NMat), IsProbabilityMeasure μ ∧ ∀ H : Res NMat → ℝ≥0∞, Measurable H →
    (sampleParam 3 (fun i j => if i = j then none else some 1) fun i j => if i = j then none else some 2).lexp H = ∫⁻ r, H r ∂μ := by
  obtain ⟨κ, ⟨hm, h1⟩, -⟩ := C114_sampleParam 3
  exact ⟨κ (fun i j => if i = j then none else some 1, fun i j => if i = j then none else some 2), inferInstance, fun H hH => h1 (fun i j => if i = j then none else some 1, fun i j => if i = j then none else some 2) H hH⟩

/-- The Euler scheme of an Ornstein-Uhlenbeck process. -/
example (n : ℕ) : HasLaw fun q : ℝ × ℝ × ℝ => eulerSimulate n q.1 q.2.1 (fun x => -x) (fun _ => 1) q.2.2 := C114_euler n measurable_neg measurable_const

end Ctb
