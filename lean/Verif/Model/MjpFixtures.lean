import Verif.Model.MjpInference
import Verif.Model.MjpSampling

/-!
# Model of the constructors of generators, hyper-parameters and partitions

Files: switching/static.py (`construct_gen_hyperprior`), mjplib/skeleton.py (`sample_trial_generator`, `sample_partition`).
-/

namespace Ctb

/-- `construct_gen_hyperprior`, switching/static.py:110-113: `1 + nan` is NaN on the diagonal, `1 + 0` elsewhere. -/
noncomputable def constructGenHyperprior (alp bet : ℝ) : NMat × NMat :=
  let ones : NMat := fun i j => if i = j then none else some 1
  (fun i j => (ones i j).map (alp * ·), fun i j => (ones i j).map (bet * ·))

/-- `sample_trial_generator`, mjplib/skeleton.py:368-378; `ome.lognormal` is the exponential of a standard normal, entries in row-major order. -/
noncomputable def sampleTrialGenerator (d : ℕ) : Prog Mat :=
  (Prog.replicate (d * d) (.draw (.normal 0 1))).bind fun l =>
  let gen : Mat := fun i j => if i = j then 0 else Real.exp (l.getD (j + d * i) 0)
  .ret fun i j => if i = j then -∑ k ∈ Finset.range d, gen i k else gen i j

/-- `np.linspace(0, fin, n + 2)[1:-1]`. -/
noncomputable def innerLinspace (fin : ℝ) (n : ℕ) : List ℝ := (List.range n).map fun i : ℕ => ((i : ℝ) + 1) * (fin / (n + 1))

/-- `sample_partition`, mjplib/skeleton.py:227-251.  A negative intensity raises ValueError. -/
noncomputable def samplePartition (sk : Skel ℝ) (intensity : ℝ) : Prog (List (Skel ℝ) × List ℝ) :=
  if intensity * sk.fin < 0 then .err .value
  else .nat (.poisson (intensity * sk.fin)) fun n =>
    .ret (partitionSkeleton sk (innerLinspace sk.fin n), innerLinspace sk.fin n)

end Ctb
